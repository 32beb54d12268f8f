import Verif.Calib.Model
import Verif.Sync.Lemmas

/-!
# C105: calibration of delays
-/

namespace Verif.Calib

open Verif.Py Finset

theorem mls_length (bits : List Bool) : (mls bits).length = bits.length := by simp [mls]

theorem mls_sq (bits : List Bool) {n : Nat} (hn : n < bits.length) : (mls bits).getD n 0 = 0.95 ∨ (mls bits).getD n 0 = -0.95 := by
  rw [List.getD_eq_getElem _ _ (by rw [mls_length]; exact hn)]
  simp only [mls, List.getElem_map]
  split
  · left; norm_num
  · right; norm_num

theorem mls_prod (bits : List Bool) {n k : Nat} (hn : n < bits.length) (hk : k < bits.length) : (mls bits).getD n 0 * (mls bits).getD k 0 ≤ 0.95 ^ 2 := by
  rcases mls_sq bits hn with h | h <;> rcases mls_sq bits hk with h' | h' <;> rw [h, h'] <;> norm_num

theorem mls_self (bits : List Bool) {n : Nat} (hn : n < bits.length) : (mls bits).getD n 0 * (mls bits).getD n 0 = 0.95 ^ 2 := by
  rcases mls_sq bits hn with h | h <;> rw [h] <;> norm_num

/-- The delay of the sequence is where the correlation is the largest. -/
theorem argmax_delayed {bits : List Bool} (hb : 1 ≤ bits.length) {y : List ℝ} {pad D : Nat} (hl : y.length = bits.length + pad) (hD : D ≤ pad) {a : ℝ} (ha : 0 < a)
    (hy : ∀ n, n < y.length → y.getD n 0 = if D ≤ n then a * (mls bits).getD (n - D) 0 else 0) : Sync.argmax ((correlate y (mls bits)).map some) = .ok D := by
  let v : Nat → ℝ := fun l => ∑ n ∈ range bits.length, y.getD (l + n) 0 * (mls bits).getD n 0
  have hc : (correlate y (mls bits)).map some = (List.range (pad + 1)).map fun (l : Nat) => some (v l) := by
    unfold correlate correlateLong
    rw [mls_length, if_pos (by omega), List.map_map, show y.length - bits.length + 1 = pad + 1 by omega]
    rfl
  rw [hc]
  have hlen : ((List.range (pad + 1)).map fun (l : Nat) => some (v l)).length = pad + 1 := by simp
  have hvD : v D = ∑ n ∈ range bits.length, a * 0.95 ^ 2 := by
    apply sum_congr rfl
    intro n hn
    rw [mem_range] at hn
    rw [hy _ (by omega), if_pos (by omega), show D + n - D = n by omega, mul_assoc, mls_self bits hn]
  have hpos : 0 < a * 0.95 ^ 2 := by positivity
  have hlt : ∀ j, j ≤ pad → j ≠ D → v j < v D := by
    intro j hj hne
    rw [hvD]
    have hterm : ∀ n, n < bits.length → y.getD (j + n) 0 * (mls bits).getD n 0 ≤ a * 0.95 ^ 2 := by
      intro n hn
      rw [hy _ (by omega)]
      split
      · by_cases h2 : j + n - D < bits.length
        · rw [mul_assoc]
          exact mul_le_mul_of_nonneg_left (mls_prod bits h2 hn) ha.le
        · rw [Sync.getD_zero _ (by rw [mls_length]; omega)]
          simp only [mul_zero, zero_mul]
          exact hpos.le
      · rw [zero_mul]; exact hpos.le
    apply sum_lt_sum
    · intro n hn
      exact hterm n (mem_range.mp hn)
    · rcases Nat.lt_or_ge j D with h | h
      · refine ⟨0, mem_range.mpr (by omega), ?_⟩
        rw [hy _ (by omega), if_neg (by omega), zero_mul]
        exact hpos
      · refine ⟨bits.length - 1, mem_range.mpr (by omega), ?_⟩
        rw [hy _ (by omega), if_pos (by omega), Sync.getD_zero _ (by rw [mls_length]; omega)]
        simp only [mul_zero, zero_mul]
        exact hpos
  apply Sync.argmax_unique _ v (by omega)
  · intro j hj
    rw [List.getD_eq_getElem _ _ hj]
    simp
  · intro j hj
    rcases eq_or_ne j D with rfl | h
    · exact le_refl _
    · exact (hlt j (by omega) h).le
  · intro j hj
    exact hlt j (by omega) (by omega)

/-- A device whose input `i` gets the output `o` delayed by `D i o` samples and multiplied by `a i o`. Recordings are as long as what is played. -/
def IsLine (playrec : List (List ℝ) → List (List ℝ)) (ins outs len : Nat) (a : Nat → Nat → ℝ) (D : Nat → Nat → Nat) : Prop :=
  ∀ s : List (List ℝ), s.length = outs → (∀ c ∈ s, c.length = len) → (playrec s).length = ins ∧ ∀ i, i < ins → ((playrec s).getD i []).length = len ∧
    ∀ n, n < len → ((playrec s).getD i []).getD n 0 = ∑ o ∈ range outs, a i o * (if D i o ≤ n then (s.getD o []).getD (n - D i o) 0 else 0)

theorem readAll_ok {cols o : Nat} (ho : o < cols) {m : List ℝ} {recorded : List (List ℝ)} {rows : Nat} (hrl : recorded.length = rows) {p : Nat → Nat}
    (hp : ∀ i, i < rows → Sync.argmax ((correlate (recorded.getD i []) m).map some) = .ok (p i)) (d : Nat → Nat → ℝ) :
    readAll rows cols m recorded o d = .ok fun i' o' => if i' < rows ∧ o' = o then (p i' : ℝ) else d i' o' := by
  unfold readAll
  rw [hrl]
  have key : ∀ k, k ≤ rows → (List.range k).foldlM (fun d i => do
      let p ← Sync.argmax ((correlate (recorded.getD i []) m).map some)
      setDelay rows cols d i o p) d = (.ok fun i' o' => if i' < k ∧ o' = o then (p i' : ℝ) else d i' o' : Except Err _) := by
    intro k
    induction k with
    | zero => intro _; simp [pure, Except.pure]
    | succ k ih =>
      intro hk
      rw [List.range_succ, List.foldlM_append, ih (by omega)]
      simp only [bind, Except.bind, List.foldlM_cons, List.foldlM_nil, hp k (by omega), setDelay]
      rw [if_pos ⟨by omega, ho⟩]
      simp only [pure, Except.pure]
      congr 1
      funext i' o'
      by_cases h1 : i' = k ∧ o' = o
      · rw [if_pos h1, if_pos ⟨by omega, h1.2⟩, h1.1]
      · rw [if_neg h1]
        by_cases h2 : i' < k ∧ o' = o
        · rw [if_pos h2, if_pos ⟨by omega, h2.2⟩]
        · rw [if_neg h2, if_neg]
          rintro ⟨h3, h4⟩
          rcases Nat.lt_succ_iff_lt_or_eq.mp h3 with h | h
          · exact h2 ⟨h, h4⟩
          · exact h1 ⟨h, h4⟩
  exact key rows (le_refl _)

theorem getD_set {s : List (List ℝ)} {o o' : Nat} (c : List ℝ) (ho : o < s.length) : (s.set o c).getD o' [] = if o' = o then c else s.getD o' [] := by
  rw [List.getD_eq_getElem?_getD, List.getD_eq_getElem?_getD, List.getElem?_set]
  by_cases h : o = o'
  · subst h
    rw [if_pos rfl, if_pos ho, if_pos rfl]
    rfl
  · rw [if_neg h, if_neg (fun h' => h h'.symm)]

/-- One output channel: the delays of the channel are found, and the output is silent again. -/
theorem step_ok {playrec : List (List ℝ) → List (List ℝ)} {ins outs pad cols : Nat} {bits : List Bool} (hb : 1 ≤ bits.length) {a : Nat → Nat → ℝ} {D : Nat → Nat → Nat}
    (hline : IsLine playrec ins outs (bits.length + pad) a D) {o : Nat} (ho : o < outs) (hoc : o < cols) (ha : ∀ i, i < ins → 0 < a i o) (hD : ∀ i, i < ins → D i o ≤ pad) (d : Nat → Nat → ℝ) :
    step playrec ins cols (mls bits) (List.replicate outs (List.replicate (bits.length + pad) 0), d) o =
      .ok (List.replicate outs (List.replicate (bits.length + pad) 0), fun i' o' => if i' < ins ∧ o' = o then (D i' o : ℝ) else d i' o') := by
  set Z : List ℝ := List.replicate (bits.length + pad) 0 with hZ
  have hZl : Z.length = bits.length + pad := by simp [hZ]
  set c : List ℝ := (mls bits).map (0.1 * ·) ++ Z.drop (mls bits).length with hc
  have hcl : c.length = bits.length + pad := by
    rw [hc, List.length_append, List.length_map, List.length_drop, mls_length, hZl]; omega
  have hcget : ∀ n, c.getD n 0 = 0.1 * (mls bits).getD n 0 := by
    intro n
    by_cases hn : n < bits.length
    · rw [hc, List.getD_append _ _ _ _ (by rw [List.length_map, mls_length]; exact hn), List.getD_eq_getElem _ _ (by rw [List.length_map, mls_length]; exact hn), List.getD_eq_getElem _ _ (by rw [mls_length]; exact hn),
        List.getElem_map]
    · rw [Sync.getD_zero (mls bits) (by rw [mls_length]; omega), mul_zero, hc, List.getD_append_right _ _ _ _ (by rw [List.length_map, mls_length]; omega), hZ, List.drop_replicate]
      by_cases h2 : n - ((mls bits).map (0.1 * ·)).length < bits.length + pad - (mls bits).length
      · rw [List.getD_replicate _ h2]
      · rw [Sync.getD_zero _ (by rw [List.length_replicate]; omega)]
  obtain ⟨h1, h2⟩ := hline ((List.replicate outs Z).set o c) (by simp) (by
    intro x hx
    rcases List.mem_or_eq_of_mem_set hx with h | h
    · rw [List.eq_of_mem_replicate h, hZl]
    · rw [h, hcl])
  have hp : ∀ i, i < ins → Sync.argmax ((correlate ((playrec ((List.replicate outs Z).set o c)).getD i []) (mls bits)).map some) = .ok (D i o) := by
    intro i hi
    obtain ⟨h3, h4⟩ := h2 i hi
    refine argmax_delayed hb h3 (hD i hi) (a := a i o * 0.1) (mul_pos (ha i hi) (by norm_num)) ?_
    intro n hn
    rw [h4 n (by omega), sum_eq_single o]
    · rw [getD_set _ (by simpa using ho), if_pos rfl]
      split
      · rw [hcget]; ring
      · rw [mul_zero]
    · intro o' ho' hne
      rw [getD_set _ (by simpa using ho), if_neg hne, List.getD_replicate _ (mem_range.mp ho')]
      split
      · rw [hZ]
        by_cases h5 : n - D i o' < bits.length + pad
        · rw [List.getD_replicate _ h5, mul_zero]
        · rw [Sync.getD_zero _ (by rw [List.length_replicate]; omega), mul_zero]
      · rw [mul_zero]
    · intro h; exact absurd (mem_range.mpr ho) h
  have hset : ((List.replicate outs Z).set o c).set o (List.replicate Z.length 0) = List.replicate outs Z := by
    rw [List.set_set, hZl, ← hZ]
    apply List.ext_getElem
    · simp
    · intro j hj1 hj2
      rw [List.getElem_set]
      split
      · simp
      · rfl
  unfold step
  have hget : (List.replicate outs Z)[o]? = some Z := by rw [List.getElem?_replicate, if_pos ho]
  simp only [hget]
  rw [if_neg (by rw [mls_length, hZl]; omega)]
  simp only [bind, Except.bind]
  rw [← hc, readAll_ok hoc h1 hp d, hset]

/-- **C105, calibration.** With a device that delays, all delays between the calibrated outputs and the inputs are found exactly, for every sequence of signs; the time of the sound over the distance is subtracted. -/
theorem C105_exact {k : Cal} (hk : 0 ≤ k.pad * k.fs) (hc : k.c ≠ 0) {bits : List Bool} (hb : 1 ≤ bits.length) {playrec : List (List ℝ) → List (List ℝ)} {ins outs pad : Nat} (hpad : pad = ⌊k.pad * k.fs⌋₊)
    {a : Nat → Nat → ℝ} {D : Nat → Nat → Nat} (hline : IsLine playrec ins outs (bits.length + pad) a D) {chOut : List Nat} (ho : ∀ o ∈ chOut, o < outs ∧ o < chOut.length)
    (ha : ∀ o ∈ chOut, ∀ i, i < ins → 0 < a i o ∧ D i o ≤ pad) (distance : ℝ) :
    ∃ d, run k bits (some (ins, outs)) true playrec distance (some chOut) = .ok (some d) ∧ ∀ i, i < ins → ∀ o,
      (o ∈ chOut → d i o = D i o - (trunc (distance / (331.4 + 0.6 * k.temperature + 0.0124 * k.humidity) * k.fs) : ℝ)) ∧
      (o ∉ chOut → d i o = -(trunc (distance / (331.4 + 0.6 * k.temperature + 0.0124 * k.humidity) * k.fs) : ℝ)) := by
  have key : ∀ (l : List Nat), (∀ o ∈ l, o ∈ chOut) → ∀ d, ∃ d', l.foldlM (step playrec ins chOut.length (mls bits)) (List.replicate outs (List.replicate (bits.length + pad) 0), d) =
      .ok (List.replicate outs (List.replicate (bits.length + pad) 0), d') ∧ ∀ i, i < ins → ∀ o, (o ∈ l → d' i o = D i o) ∧ (o ∉ l → d' i o = d i o) := by
    intro l
    induction l with
    | nil => intro _ d; exact ⟨d, rfl, fun i _ o => ⟨fun h => by simp at h, fun _ => rfl⟩⟩
    | cons o l ih =>
      intro hl d
      have hoc := hl o (by simp)
      have e := step_ok hb hline (ho o hoc).1 (ho o hoc).2 (fun i hi => (ha o hoc i hi).1) (fun i hi => (ha o hoc i hi).2) d
      obtain ⟨d', h1, h2⟩ := ih (fun o h => hl o (by simp [h])) (fun i' o' => if i' < ins ∧ o' = o then (D i' o : ℝ) else d i' o')
      refine ⟨d', ?_, ?_⟩
      · rw [List.foldlM_cons, e]
        exact h1
      · intro i hi o'
        by_cases h3 : o' ∈ l
        · exact ⟨fun _ => (h2 i hi o').1 h3, fun h => absurd (List.mem_cons_of_mem _ h3) h⟩
        · rw [(h2 i hi o').2 h3]
          constructor
          · intro h
            rcases List.mem_cons.mp h with rfl | h
            · rw [if_pos ⟨hi, rfl⟩]
            · exact absurd h h3
          · intro h
            rw [if_neg]
            rintro ⟨_, rfl⟩
            exact h (by simp)
  obtain ⟨d, h1, h2⟩ := key chOut (fun _ h => h) fun _ _ => 0
  have htr : trunc (k.pad * k.fs) = pad := by
    unfold trunc
    rw [if_pos hk, hpad, Int.natCast_floor_eq_floor hk]
  refine ⟨fun i o => d i o - trunc (distance / k.c * k.fs), ?_, ?_⟩
  · unfold run
    simp only [Option.getD_some, mls_length, htr]
    rw [if_neg (by omega), if_neg (by simp), show ((bits.length : Int) + (pad : Int)).toNat = bits.length + pad by omega, h1]
    simp only [bind, Except.bind]
    rw [if_neg hc]
  · intro i hi o
    have hcc : k.c = 331.4 + 0.6 * k.temperature + 0.0124 * k.humidity := rfl
    rw [← hcc]
    beta_reduce
    constructor
    · intro h
      rw [(h2 i hi o).1 h]
    · intro h
      rw [(h2 i hi o).2 h]
      ring

/-- **C105, deviations.** Used as a module the name of the sound device is not defined. As a script, without matplotlib nothing is calibrated; an output whose number is not below the number of outputs asked for raises
after it was recorded. -/
theorem C105_deviation (k : Cal) (bits : List Bool) (playrec : List (List ℝ) → List (List ℝ)) (distance : ℝ) (chOut : Option (List Nat)) :
    (∀ m, run k bits none m playrec distance chOut = .error .nameError) ∧
      (∀ ins outs, 0 ≤ k.pad * k.fs → run k bits (some (ins, outs)) false playrec distance chOut = .ok none) ∧
      ∀ (ins outs o : Nat) (l : List Nat), 0 ≤ k.pad * k.fs → (∀ s, 0 < (playrec s).length) → o < outs → l.length < o → run k bits (some (ins, outs)) true playrec distance (some (o :: l)) = .error .indexError := by
  have htr : 0 ≤ k.pad * k.fs → 0 ≤ trunc (k.pad * k.fs) := by
    intro h
    unfold trunc
    rw [if_pos h]
    exact Int.floor_nonneg.mpr h
  refine ⟨fun m => rfl, ?_, ?_⟩
  · intro ins outs hk
    have := htr hk
    unfold run
    simp only
    rw [if_neg (by omega), if_pos trivial]
  · intro ins outs o l hk hplay ho hl
    have h0 := htr hk
    unfold run
    simp only [Option.getD_some]
    rw [if_neg (by omega), if_neg (by simp)]
    set len := (((mls bits).length : Int) + trunc (k.pad * k.fs)).toNat with hlen
    have e : step playrec ins (o :: l).length (mls bits) (List.replicate outs (List.replicate len 0), fun _ _ => 0) o = .error .indexError := by
      unfold step
      have hget : (List.replicate outs (List.replicate len (0 : ℝ)))[o]? = some (List.replicate len 0) := by rw [List.getElem?_replicate, if_pos ho]
      simp only [hget]
      rw [if_neg (by rw [List.length_replicate]; omega)]
      have hra : ∀ recorded : List (List ℝ), 0 < recorded.length → readAll ins (o :: l).length (mls bits) recorded o (fun _ _ => 0) = .error .indexError := by
        intro recorded hr
        unfold readAll
        obtain ⟨q, hq⟩ : ∃ q, recorded.length = q + 1 := ⟨recorded.length - 1, by omega⟩
        rw [hq, List.range_succ_eq_map, List.foldlM_cons]
        have hcl : 1 ≤ ((correlate (recorded.getD 0 []) (mls bits)).map some).length := by
          unfold correlate correlateLong
          split <;> simp
        obtain ⟨p, hp, _⟩ := Sync.argmax_lt _ hcl
        rw [hp]
        simp only [bind, Except.bind, setDelay]
        rw [if_neg (by rintro ⟨_, h⟩; simp at h; omega)]
      rw [hra _ (hplay _)]
      rfl
    rw [List.foldlM_cons, e]
    rfl

/-- Two inputs and two outputs with different delays. -/
noncomputable def twoLines (s : List (List ℝ)) : List (List ℝ) :=
  (List.range 2).map fun (i : Nat) => (List.range 10).map fun (n : Nat) => ∑ o ∈ range 2, ((o : ℝ) + 1) * (if i + 2 * o ≤ n then (s.getD o []).getD (n - (i + 2 * o)) 0 else 0)

theorem twoLines_isLine : IsLine twoLines 2 2 10 (fun _ o => o + 1) (fun i o => i + 2 * o) := by
  intro s _ _
  refine ⟨by simp [twoLines], fun i hi => ?_⟩
  have e : (twoLines s).getD i [] = (List.range 10).map fun (n : Nat) => ∑ o ∈ range 2, ((o : ℝ) + 1) * (if i + 2 * o ≤ n then (s.getD o []).getD (n - (i + 2 * o)) 0 else 0) := by
    unfold twoLines
    rw [List.getD_eq_getElem _ _ (by simpa using hi), List.getElem_map, List.getElem_range]
  rw [e]
  refine ⟨by simp, fun n hn => ?_⟩
  rw [List.getD_eq_getElem _ _ (by simpa using hn), List.getElem_map, List.getElem_range]

/-- The four delays. -/
example : ∃ d, run { fs := 1, pad := 3 } [true, false, true, true, false, false, true] (some (2, 2)) true twoLines 0 (some [0, 1]) = .ok (some d) ∧ d 0 0 = 0 ∧ d 1 0 = 1 ∧ d 0 1 = 2 ∧ d 1 1 = 3 := by
  obtain ⟨d, h1, h2⟩ := C105_exact (k := { fs := 1, pad := 3 }) (by norm_num) (by unfold Cal.c speedOfSound; norm_num) (bits := [true, false, true, true, false, false, true]) (by simp) (ins := 2) (outs := 2) (pad := 3)
    (by norm_num) twoLines_isLine (chOut := [0, 1]) (by decide) (by
      intro o ho i hi
      have : o < 2 := by simp at ho; omega
      exact ⟨by positivity, by omega⟩) 0
  have h0 : ∀ x : ℝ, trunc (0 / x * 1) = 0 := by intro x; simp [trunc]
  refine ⟨d, h1, ?_, ?_, ?_, ?_⟩
  · rw [(h2 0 (by norm_num) 0).1 (by simp), h0]; norm_num
  · rw [(h2 1 (by norm_num) 0).1 (by simp), h0]; norm_num
  · rw [(h2 0 (by norm_num) 1).1 (by simp), h0]; norm_num
  · rw [(h2 1 (by norm_num) 1).1 (by simp), h0]; norm_num

end Verif.Calib
