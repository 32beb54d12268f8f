import Verif.Bark.Model
import Mathlib.Data.List.Chain
import Mathlib.Data.List.GetD
import Mathlib.Tactic.NormNum
import Mathlib.Tactic.Linarith
import Mathlib.Tactic.IntervalCases

namespace Verif.Bark

open Verif.Py

/-! ## Specification -/

/-- Bands in Hertz that follow each other without gaps. -/
def Adjacent (bands : List (ℝ × ℝ)) : Prop := bands ≠ [] ∧ (∀ b ∈ bands, b.1 < b.2) ∧ ∀ i, i + 1 < bands.length → (bands.getD i (0, 0)).2 = (bands.getD (i + 1) (0, 0)).1

/-- Table 6.1 of Zwicker and Fastl: the upper limit of each critical band, in Hertz, and its centre. -/
def zwicker : List (Nat × Nat) :=
  [(100, 50), (200, 150), (300, 250), (400, 350), (510, 450), (630, 570), (770, 700), (920, 840), (1080, 1000), (1270, 1170), (1480, 1370), (1720, 1600), (2000, 1850),
    (2320, 2150), (2700, 2500), (3150, 2900), (3700, 3400), (4400, 4000), (5300, 4800), (6400, 5800), (7700, 7000), (9500, 8500), (12000, 10500), (15500, 13500)]

/-- Bands of bins that follow each other without gaps or overlap, from bin `a` up to (excluding) bin `b`; only the last one may be empty. -/
structure Tiles (a b : ℤ) (s : List (ℤ × ℤ)) : Prop where
  first : (s.getD 0 (0, 0)).1 = a
  last : (s.getD (s.length - 1) (0, 0)).2 = b
  next : ∀ i, i + 1 < s.length → (s.getD i (0, 0)).1 < (s.getD i (0, 0)).2 ∧ (s.getD i (0, 0)).2 = (s.getD (i + 1) (0, 0)).1
  ends : (s.getD (s.length - 1) (0, 0)).1 ≤ b
  nonempty : s ≠ []

/-! ## Rounding -/

theorem around_spec (x : ℝ) : |(around x : ℝ) - x| ≤ 1 / 2 := by
  have h0 := Int.floor_add_fract x
  have h1 := Int.fract_nonneg x
  have h2 := Int.fract_lt_one x
  unfold around
  split
  · rw [abs_le]; constructor <;> linarith
  · split
    · push_cast; rw [abs_le]; constructor <;> linarith
    · split
      · rw [abs_le]; constructor <;> linarith
      · push_cast; rw [abs_le]; constructor <;> linarith

theorem around_mono {x y : ℝ} (h : x ≤ y) : around x ≤ around y := by
  by_contra hc
  push Not at hc
  have hx := abs_le.mp (around_spec x)
  have hy := abs_le.mp (around_spec y)
  have h1 : (around y : ℝ) + 1 ≤ around x := by exact_mod_cast hc
  have h2 : x = y := by linarith
  rw [h2] at hc
  exact lt_irrefl _ hc

theorem around_int (n : ℤ) : around (n : ℝ) = n := by
  unfold around
  rw [Int.fract_intCast, if_pos (by norm_num), Int.floor_intCast]

theorem trunc_int (n : ℤ) : trunc (n : ℝ) = n := by
  unfold trunc
  split <;> simp

theorem trunc_half (N : Nat) : trunc ((N : ℝ) / 2) = ((N / 2 : Nat) : ℤ) := by
  unfold trunc
  rw [if_pos (by positivity)]
  rw [Int.floor_eq_iff]
  have h1 : N = 2 * (N / 2) + N % 2 := (Nat.div_add_mod N 2).symm
  have h2 : N % 2 < 2 := Nat.mod_lt _ (by norm_num)
  have h3 : (N : ℝ) = 2 * ((N / 2 : ℕ) : ℝ) + ((N % 2 : ℕ) : ℝ) := by exact_mod_cast h1
  have h4 : ((N % 2 : ℕ) : ℝ) < 2 := by exact_mod_cast h2
  have h5 : (0 : ℝ) ≤ ((N % 2 : ℕ) : ℝ) := Nat.cast_nonneg _
  rw [Int.cast_natCast]
  constructor <;> linarith

/-! ## The loop -/

open Classical in
/-- Of successive bands with the same start the last is kept. -/
noncomputable def keepLast : List (ℝ × ℝ) → List (ℝ × ℝ)
  | [] => []
  | [a] => [a]
  | a :: b :: t => if a.1 = b.1 then keepLast (b :: t) else a :: keepLast (b :: t)

theorem dedup_append (p l : List (ℝ × ℝ)) : dedup p.length (p ++ l) = p ++ keepLast l := by
  induction hn : l.length generalizing p l with
  | zero =>
    rw [List.length_eq_zero_iff] at hn
    subst hn
    rw [dedup, dif_neg (by simp)]
    rfl
  | succ n ih =>
    match l, hn with
    | [a], _ =>
      rw [dedup, dif_neg (by simp)]
      rfl
    | a :: b :: t, hn =>
      rw [dedup, dif_pos (by simp)]
      have h1 : (p ++ a :: b :: t)[p.length]'(by simp) = a := by simp
      have h2 : (p ++ a :: b :: t)[p.length + 1]'(by simp) = b := by
        rw [List.getElem_append_right (by omega)]
        simp
      rw [h1, h2]
      unfold keepLast
      by_cases h : a.1 = b.1
      · rw [if_pos h, if_pos h]
        have h3 : (p ++ a :: b :: t).eraseIdx p.length = p ++ b :: t := by
          rw [List.eraseIdx_append_of_length_le (by omega)]
          simp
        rw [h3]
        exact ih p (b :: t) (by simpa using hn)
      · rw [if_neg h, if_neg h]
        have h4 := ih (p ++ [a]) (b :: t) (by simpa using hn)
        simpa using h4

theorem keepLast_ne_nil (a : ℝ × ℝ) (t : List (ℝ × ℝ)) : ∃ r, ∃ c : ℝ × ℝ, keepLast (a :: t) = c :: r ∧ c.1 = a.1 := by
  induction t generalizing a with
  | nil => exact ⟨[], a, rfl, rfl⟩
  | cons b t ih =>
    unfold keepLast
    by_cases h : a.1 = b.1
    · rw [if_pos h, h]
      exact ih b
    · rw [if_neg h]
      exact ⟨_, a, rfl, rfl⟩

theorem keepLast_chain (l : List (ℝ × ℝ)) (h : l.IsChain fun a b => a.2 = b.1 ∧ a.1 ≤ b.1) : (keepLast l).IsChain fun a b => a.2 = b.1 ∧ a.1 < b.1 := by
  match l with
  | [] => simp [keepLast]
  | [a] => simp [keepLast]
  | a :: b :: t =>
    rw [List.isChain_cons_cons] at h
    have ih := keepLast_chain (b :: t) h.2
    unfold keepLast
    by_cases h1 : a.1 = b.1
    · rw [if_pos h1]
      exact ih
    · rw [if_neg h1]
      obtain ⟨r, c, h2, h3⟩ := keepLast_ne_nil b t
      rw [h2] at ih ⊢
      rw [List.isChain_cons_cons]
      refine ⟨⟨by rw [h3]; exact h.1.1, by rw [h3]; exact lt_of_le_of_ne h.1.2 h1⟩, ih⟩

theorem keepLast_last (l : List (ℝ × ℝ)) : (keepLast l).getLast? = l.getLast? := by
  match l with
  | [] => rfl
  | [a] => rfl
  | a :: b :: t =>
    have ih := keepLast_last (b :: t)
    unfold keepLast
    by_cases h1 : a.1 = b.1
    · rw [if_pos h1, ih, List.getLast?_cons_cons]
    · rw [if_neg h1]
      obtain ⟨r, c, h2, h3⟩ := keepLast_ne_nil b t
      rw [h2] at ih ⊢
      rw [List.getLast?_cons_cons, List.getLast?_cons_cons, ih]

theorem keepLast_mem (l : List (ℝ × ℝ)) {b : ℝ × ℝ} (h : b ∈ keepLast l) : b ∈ l := by
  match l with
  | [] => exact h
  | [a] => exact h
  | a :: c :: t =>
    unfold keepLast at h
    by_cases h1 : a.1 = c.1
    · rw [if_pos h1] at h
      exact List.mem_cons_of_mem _ (keepLast_mem (c :: t) h)
    · rw [if_neg h1] at h
      rcases List.mem_cons.mp h with h | h
      · rw [h]; exact List.mem_cons_self
      · exact List.mem_cons_of_mem _ (keepLast_mem (c :: t) h)

/-! ## The steps before the loop -/

theorem adjacent_chain {l : List (ℝ × ℝ)} (h : Adjacent l) : l.IsChain fun a b => a.2 = b.1 ∧ a.1 < b.1 := by
  rw [List.isChain_iff_getElem]
  intro i hi
  have h1 := h.2.2 i hi
  rw [List.getD_eq_getElem _ _ (by omega), List.getD_eq_getElem _ _ hi] at h1
  have h2 := h.2.1 _ (List.getElem_mem (l := l) (n := i) (by omega))
  exact ⟨h1, by rw [← h1]; exact h2⟩

theorem chain_ge {a : ℝ × ℝ} {l : List (ℝ × ℝ)} (h : (a :: l).IsChain fun a b => a.2 = b.1 ∧ a.1 < b.1) : ∀ b ∈ l, a.1 < b.1 := by
  induction l generalizing a with
  | nil => simp
  | cons c t ih =>
    rw [List.isChain_cons_cons] at h
    intro b hb
    rcases List.mem_cons.mp hb with hb | hb
    · rw [hb]; exact h.1.2
    · exact h.1.2.trans (ih h.2 b hb)

open Classical in
theorem filter_chain (limit : ℝ) (l : List (ℝ × ℝ)) (h : l.IsChain fun a b => a.2 = b.1 ∧ a.1 < b.1) :
    (l.filter fun b => b.1 ≤ limit).IsChain fun a b => a.2 = b.1 ∧ a.1 < b.1 := by
  match l with
  | [] => simp
  | [a] =>
    by_cases h1 : a.1 ≤ limit
    · simp [h1]
    · simp [h1]
  | a :: b :: t =>
    have h0 := h
    rw [List.isChain_cons_cons] at h
    have ih := filter_chain limit (b :: t) h.2
    by_cases h1 : a.1 ≤ limit
    · rw [List.filter_cons_of_pos (by simpa using h1)]
      by_cases h2 : b.1 ≤ limit
      · rw [List.filter_cons_of_pos (by simpa using h2)] at ih ⊢
        rw [List.isChain_cons_cons]
        exact ⟨h.1, ih⟩
      · have h3 : (b :: t).filter (fun b => b.1 ≤ limit) = [] := by
          rw [List.filter_eq_nil_iff]
          intro c hc
          simp only [decide_eq_true_eq, not_le]
          rcases List.mem_cons.mp hc with hc | hc
          · rw [hc]; linarith
          · have := chain_ge h.2 c hc
            linarith
        rw [h3]
        simp
    · rw [List.filter_cons_of_neg (by simpa using h1)]
      exact ih

theorem chain_setLast (b : ℝ × ℝ) (v : ℝ) (l : List (ℝ × ℝ)) (h : (l ++ [b]).IsChain fun a b => a.2 = b.1 ∧ a.1 ≤ b.1) :
    (l ++ [(b.1, v)]).IsChain fun a b => a.2 = b.1 ∧ a.1 ≤ b.1 := by
  rw [List.isChain_append] at h ⊢
  refine ⟨h.1, by simp, ?_⟩
  intro x hx y hy
  have := h.2.2 x hx b (by simp)
  simp at hy
  rw [← hy]
  exact this

theorem width_pos {Fs : ℝ} (hF : 0 < Fs) {N : Nat} (hN : 0 < N) (dct : Bool) : 0 < width Fs N dct := by
  unfold width
  split <;> positivity

/-- What the function does: the bands up to the limit, rounded, the end of the last one replaced, duplicates removed. -/
theorem bandsHz2s_eq {bands : List (ℝ × ℝ)} {Fs : ℝ} {N : Nat} {dct : Bool} {z : ℝ × ℝ} (hz : bands.getLast? = some z) {q : List (ℝ × ℝ)} {b : ℝ × ℝ}
    (hf : (open Classical in bands.filter fun (b : ℝ × ℝ) => b.1 ≤ min (Fs / 2) z.2) = q ++ [b]) :
    bandsHz2s bands Fs N dct = .ok ((keepLast ((q.map fun (b : ℝ × ℝ) => ((around (b.1 / width Fs N dct) : ℝ), (around (b.2 / width Fs N dct) : ℝ))) ++
      [((around (b.1 / width Fs N dct) : ℝ), (N : ℝ) / 2)])).map fun (b : ℝ × ℝ) => (trunc b.1, trunc b.2)) := by
  unfold bandsHz2s
  rw [hz]
  simp only [bind, Except.bind, hf, List.map_append, List.map_cons, List.map_nil, setLast, List.getLast?_append, List.getLast?_singleton, Option.some_or, List.dropLast_concat]
  have h := dedup_append [] ((q.map fun (b : ℝ × ℝ) => ((around (b.1 / width Fs N dct) : ℝ), (around (b.2 / width Fs N dct) : ℝ))) ++
    [((around (b.1 / width Fs N dct) : ℝ), (N : ℝ) / 2)])
  simp only [List.length_nil, List.nil_append] at h
  rw [h]
  rfl

/-- The shape of the result for adjacent bands. -/
theorem result {bands : List (ℝ × ℝ)} (hb : Adjacent bands) {Fs : ℝ} (hF : 0 < Fs) {N : Nat} (hN : 0 < N) {dct : Bool} (h0 : (bands.getD 0 (0, 0)).1 ≤ Fs / 2) :
    ∃ r : List (ℝ × ℝ), bandsHz2s bands Fs N dct = .ok (r.map fun (b : ℝ × ℝ) => (trunc b.1, trunc b.2)) ∧ (r.IsChain fun a b => a.2 = b.1 ∧ a.1 < b.1) ∧
      (∃ c t, r = c :: t ∧ c.1 = around ((bands.getD 0 (0, 0)).1 / width Fs N dct)) ∧
      (∃ q, ∃ b ∈ bands, r = q ++ [((around (b.1 / width Fs N dct) : ℝ), (N : ℝ) / 2)] ∧ b.1 ≤ Fs / 2 ∧ (∀ c ∈ bands, c.1 ≤ Fs / 2 → c.1 ≤ b.1) ∧
        ∀ c ∈ q, ∃ a ∈ bands, c = ((around (a.1 / width Fs N dct) : ℝ), (around (a.2 / width Fs N dct) : ℝ))) := by
  classical
  have hw := width_pos hF hN dct
  obtain ⟨a, t, rfl⟩ := List.exists_cons_of_ne_nil hb.1
  rw [List.getD_cons_zero] at h0 ⊢
  obtain ⟨p, z, hz⟩ : ∃ p z, a :: t = p ++ [z] := ⟨_, _, (List.dropLast_append_getLast (by simp)).symm⟩
  have hlast : (a :: t).getLast? = some z := by rw [hz]; simp
  have hch := adjacent_chain hb
  have hge := chain_ge hch
  have hzm : z ∈ a :: t := by rw [hz]; simp
  have haz : a.1 ≤ z.2 := by
    have h1 := hb.2.1 z hzm
    rcases List.mem_cons.mp hzm with h | h
    · rw [← h]; exact h1.le
    · have := hge z h
      linarith
  -- every start is below the end of the last band
  have hall : ∀ c ∈ a :: t, c.1 ≤ z.2 := by
    intro c hc
    have h1 := hb.2.1 z hzm
    rw [hz] at hc hch
    rw [List.isChain_append] at hch
    rcases List.mem_append.mp hc with h | h
    · obtain ⟨u, v, rfl⟩ := List.append_of_mem h
      have h2 : (c :: (v ++ [z])).IsChain fun a b => a.2 = b.1 ∧ a.1 < b.1 := by
        have h3 := adjacent_chain hb
        rw [hz, List.append_assoc] at h3
        exact (List.isChain_append.mp h3).2.1
      have := chain_ge h2 z (by simp)
      linarith
    · rw [List.mem_singleton.mp h]
      exact h1.le
  have hfne : (a :: t).filter (fun b => b.1 ≤ min (Fs / 2) z.2) ≠ [] := by
    rw [List.filter_cons_of_pos (by simpa using ⟨h0, haz⟩)]
    simp
  have hfch := filter_chain (min (Fs / 2) z.2) (a :: t) hch
  obtain ⟨q, b, hq⟩ : ∃ q b, (a :: t).filter (fun b => b.1 ≤ min (Fs / 2) z.2) = q ++ [b] := ⟨_, _, (List.dropLast_append_getLast hfne).symm⟩
  have hbm : b ∈ (a :: t).filter (fun b => b.1 ≤ min (Fs / 2) z.2) := by rw [hq]; simp
  have hbm' := List.mem_filter.mp hbm
  have heq := bandsHz2s_eq (N := N) (dct := dct) hlast hq
  set w := width Fs N dct with hwd
  set rd : ℝ × ℝ → ℝ × ℝ := fun b => ((around (b.1 / w) : ℝ), (around (b.2 / w) : ℝ)) with hrd
  have hmch : (q.map rd ++ [rd b]).IsChain fun a b => a.2 = b.1 ∧ a.1 ≤ b.1 := by
    have h1 : q.map rd ++ [rd b] = (q ++ [b]).map rd := by simp
    rw [h1, List.isChain_map, ← hq]
    refine hfch.imp ?_
    intro x y hxy
    rw [hrd]
    beta_reduce
    refine ⟨by rw [hxy.1], ?_⟩
    change (around (x.1 / w) : ℝ) ≤ (around (y.1 / w) : ℝ)
    exact_mod_cast around_mono ((div_le_div_iff_of_pos_right hw).mpr hxy.2.le)
  have hmch2 := chain_setLast (rd b) ((N : ℝ) / 2) (q.map rd) hmch
  have hkl := keepLast_last (q.map rd ++ [((rd b).1, (N : ℝ) / 2)])
  rw [List.getLast?_append, List.getLast?_singleton, Option.some_or] at hkl
  refine ⟨_, heq, keepLast_chain _ hmch2, ?_, ?_⟩
  · -- the first band
    have hhead : ∃ v t', q.map rd ++ [((rd b).1, (N : ℝ) / 2)] = v :: t' ∧ v.1 = (around (a.1 / w) : ℝ) := by
      rw [List.filter_cons_of_pos (by simpa using ⟨h0, haz⟩)] at hq
      match q, hq with
      | [], hq =>
        have hab : a = b := by
          have := congrArg List.head? hq
          simpa using this
        exact ⟨_, [], rfl, by rw [hab]⟩
      | c :: q', hq =>
        have hac : a = c := by
          have := congrArg List.head? hq
          simpa using this
        exact ⟨rd c, _, rfl, by rw [hac]⟩
    obtain ⟨v, t', h1, h2⟩ := hhead
    obtain ⟨r, c, h3, h4⟩ := keepLast_ne_nil v t'
    change ∃ c t, keepLast (q.map rd ++ [((rd b).1, (N : ℝ) / 2)]) = c :: t ∧ _
    rw [h1]
    exact ⟨c, r, h3, h4.trans h2⟩
  · have hne : keepLast (q.map rd ++ [((rd b).1, (N : ℝ) / 2)]) ≠ [] := by
      intro h
      rw [h] at hkl
      simp at hkl
    refine ⟨(keepLast (q.map rd ++ [((rd b).1, (N : ℝ) / 2)])).dropLast, b, hbm'.1, ?_, ?_, ?_, ?_⟩
    · have h1 := List.dropLast_append_getLast hne
      have h2 : (keepLast (q.map rd ++ [((rd b).1, (N : ℝ) / 2)])).getLast hne = ((rd b).1, (N : ℝ) / 2) := by
        rw [List.getLast?_eq_some_getLast hne] at hkl
        exact Option.some.inj hkl
      rw [h2] at h1
      exact h1.symm
    · have := hbm'.2
      simp at this
      exact this.1
    · intro c hc hcF
      have hcm : c ∈ q ++ [b] := by
        rw [← hq]
        exact List.mem_filter.mpr ⟨hc, by simpa using ⟨hcF, hall c hc⟩⟩
      rcases List.mem_append.mp hcm with h | h
      · obtain ⟨u, v, rfl⟩ := List.append_of_mem h
        rw [hq, List.append_assoc] at hfch
        have := chain_ge (List.isChain_append.mp hfch).2.1 b (by simp)
        exact this.le
      · rw [List.mem_singleton.mp h]
    · -- the other bands are rounded bands
      intro c hc
      obtain ⟨i, hi, rfl⟩ := List.getElem_of_mem hc
      have hsub : ∀ l : List (ℝ × ℝ), ∀ v, ∀ c ∈ (keepLast (l ++ [v])).dropLast, c ∈ l := by
        intro l
        induction l with
        | nil =>
          intro v c hc
          simp [keepLast] at hc
        | cons x l ih =>
          intro v c hc
          match l, ih, hc with
          | [], _, hc =>
            simp only [List.cons_append, List.nil_append, keepLast] at hc
            split at hc
            · simp at hc
            · simp at hc
              rw [hc]
              simp
          | y :: l', ih, hc =>
            simp only [List.cons_append, keepLast] at hc
            split at hc
            · exact List.mem_cons_of_mem _ (ih v c hc)
            · obtain ⟨r, d, h2, _⟩ := keepLast_ne_nil y (l' ++ [v])
              rw [h2, List.dropLast_cons_cons] at hc
              rcases List.mem_cons.mp hc with hc | hc
              · rw [hc]; simp
              · refine List.mem_cons_of_mem _ (ih v c ?_)
                rw [List.cons_append, h2]
                exact hc
      have hm := hsub _ _ _ hc
      obtain ⟨x, hx, hx2⟩ := List.mem_map.mp hm
      have hxm : x ∈ (a :: t).filter (fun b => b.1 ≤ min (Fs / 2) z.2) := by rw [hq]; exact List.mem_append_left _ hx
      exact ⟨x, (List.mem_filter.mp hxm).1, hx2.symm⟩

/-! ## Theorems -/

/-- For an even transform length and adjacent bands the bands of bins are adjacent, from the bin nearest to the lowest frequency to the Nyquist bin; all the edges but the last
are those given, rounded to the nearest bin. -/
theorem C112_tiles {bands : List (ℝ × ℝ)} (hb : Adjacent bands) {Fs : ℝ} (hF : 0 < Fs) {N : Nat} (hN : 0 < N) (he : N % 2 = 0) (h0 : (bands.getD 0 (0, 0)).1 ≤ Fs / 2) :
    ∃ s, bandsHz2s bands Fs N false = .ok s ∧ Tiles (around ((bands.getD 0 (0, 0)).1 / (Fs / N))) ((N / 2 : Nat) : ℤ) s ∧
      (∀ i, i + 1 < s.length → ∃ a ∈ bands, s.getD i (0, 0) = (around (a.1 / (Fs / N)), around (a.2 / (Fs / N)))) ∧
      ∃ b ∈ bands, (s.getD (s.length - 1) (0, 0)).1 = around (b.1 / (Fs / N)) ∧ b.1 ≤ Fs / 2 ∧ ∀ c ∈ bands, c.1 ≤ Fs / 2 → c.1 ≤ b.1 := by
  obtain ⟨r, h1, h2, ⟨c, t, h3, h4⟩, q, b, h5, h6, h7, h8, h9⟩ := result hb hF hN (dct := false) h0
  have hw : width Fs N false = Fs / N := rfl
  rw [hw] at h4 h6 h9
  have hlen : r.length = q.length + 1 := by rw [h6]; simp
  have hint : ∀ x ∈ r, ∃ n : ℤ, x.1 = n := by
    intro x hx
    rw [h6] at hx
    rcases List.mem_append.mp hx with hx | hx
    · obtain ⟨a, _, rfl⟩ := h9 x hx
      exact ⟨_, rfl⟩
    · rw [List.mem_singleton.mp hx]
      exact ⟨_, rfl⟩
  have hget : ∀ i (hi : i < r.length), (r.map fun (b : ℝ × ℝ) => (trunc b.1, trunc b.2)).getD i (0, 0) = (trunc r[i].1, trunc r[i].2) := by
    intro i hi
    rw [List.getD_eq_getElem _ _ (by simpa using hi), List.getElem_map]
  have hlast : r[r.length - 1]'(by omega) = ((around (b.1 / (Fs / N)) : ℝ), (N : ℝ) / 2) := by
    have : ∀ (l : List (ℝ × ℝ)) (hl : l = q ++ [((around (b.1 / (Fs / N)) : ℝ), (N : ℝ) / 2)]) (hh : l.length - 1 < l.length), l[l.length - 1] = ((around (b.1 / (Fs / N)) : ℝ), (N : ℝ) / 2) := by
      intro l hl hh
      subst hl
      simp
    exact this r h6 _
  rw [List.isChain_iff_getElem] at h2
  refine ⟨_, h1, ⟨?_, ?_, ?_, ?_, ?_⟩, ?_, b, h5, ?_, h7, h8⟩
  · rw [hget 0 (by omega)]
    have : r[0]'(by omega) = c := by simp [h3]
    rw [this, h4]
    exact trunc_int _
  · rw [List.length_map, hget _ (by omega), hlast]
    exact trunc_half N
  · intro i hi
    rw [List.length_map] at hi
    rw [hget i (by omega), hget (i + 1) hi]
    have h10 := h2 i hi
    obtain ⟨n, hn⟩ := hint (r[i]'(by omega)) (List.getElem_mem _)
    obtain ⟨m, hm⟩ := hint (r[i + 1]) (List.getElem_mem _)
    rw [h10.1, hn, hm, trunc_int, trunc_int]
    refine ⟨?_, rfl⟩
    have := h10.2
    rw [hn, hm] at this
    exact_mod_cast this
  · rw [List.length_map, hget _ (by omega), hlast]
    change trunc (around (b.1 / (Fs / N)) : ℝ) ≤ _
    rw [trunc_int]
    have h11 : b.1 / (Fs / N) ≤ (((N / 2 : Nat) : ℤ) : ℝ) := by
      have h12 : (N : ℝ) = 2 * ((N / 2 : Nat) : ℝ) := by exact_mod_cast (by omega : N = 2 * (N / 2))
      rw [div_le_iff₀ (by positivity), Int.cast_natCast]
      have h13 : ((N / 2 : Nat) : ℝ) * (Fs / N) = Fs / 2 := by
        have : (N : ℝ) ≠ 0 := by positivity
        rw [show ((N / 2 : Nat) : ℝ) = N / 2 by linarith]
        field_simp
      rw [h13]
      exact h7
    have := around_mono h11
    rwa [around_int] at this
  · simp [h3]
  · intro i hi
    rw [List.length_map] at hi
    rw [hget i (by omega)]
    have h10 : r[i]'(by omega) ∈ q := by
      have : ∀ (l : List (ℝ × ℝ)) (hl : l = q ++ [((around (b.1 / (Fs / N)) : ℝ), (N : ℝ) / 2)]) (hh : i < l.length), i < q.length → l[i] ∈ q := by
        intro l hl hh hq
        subst hl
        rw [List.getElem_append_left hq]
        exact List.getElem_mem _
      exact this r h6 _ (by omega)
    obtain ⟨a, ha, hax⟩ := h9 _ h10
    refine ⟨a, ha, ?_⟩
    rw [hax, trunc_int, trunc_int]
  · rw [List.length_map, hget _ (by omega), hlast]
    exact trunc_int _

/-- Every bin from the first edge on and below the Nyquist bin is in exactly one of the bands. -/
theorem C112_cover {a b : ℤ} {s : List (ℤ × ℤ)} (h : Tiles a b s) (k : ℤ) (h1 : a ≤ k) (h2 : k < b) :
    ∃! i : Nat, i < s.length ∧ (s.getD i (0, 0)).1 ≤ k ∧ k < (s.getD i (0, 0)).2 := by
  have hpos := List.length_pos_of_ne_nil h.nonempty
  -- the starts increase
  have hmono : ∀ i j, i < j → j < s.length → (s.getD i (0, 0)).2 ≤ (s.getD j (0, 0)).1 := by
    intro i j hij
    induction j, hij using Nat.le_induction with
    | base =>
      intro hj
      exact (h.next i hj).2.le
    | succ j hij ih =>
      intro hj
      have h3 := h.next j hj
      have h4 := ih (by omega)
      linarith [h3.1, h3.2]
  have hex : ∃ i, i < s.length ∧ (s.getD i (0, 0)).1 ≤ k ∧ k < (s.getD i (0, 0)).2 := by
    by_contra hc
    push Not at hc
    have hall : ∀ i, i < s.length → (s.getD i (0, 0)).2 ≤ k := by
      intro i
      induction i with
      | zero =>
        intro hi
        exact hc 0 hi (by rw [h.first]; exact h1)
      | succ i ih =>
        intro hi
        refine hc _ hi ?_
        rw [← (h.next i hi).2]
        exact ih (by omega)
    have := hall (s.length - 1) (by omega)
    rw [h.last] at this
    linarith
  obtain ⟨i, hi, hi1, hi2⟩ := hex
  refine ⟨i, ⟨hi, hi1, hi2⟩, ?_⟩
  rintro j ⟨hj, hj1, hj2⟩
  rcases lt_trichotomy i j with h5 | h5 | h5
  · have := hmono i j h5 hj
    omega
  · exact h5.symm
  · have := hmono j i h5 hi
    omega

/-- The critical bands are adjacent, from 0 to 15500 Hz, with a centre in each of them. -/
theorem C112_critical : Adjacent criticalBands.1 ∧ criticalBands.1.length = 24 ∧ (criticalBands.1.getD 0 (0, 0)).1 = 0 ∧ (criticalBands.1.getD 23 (0, 0)).2 = 15500 ∧
    criticalBands.2.length = 24 ∧ ∀ i, i < 24 → (criticalBands.1.getD i (0, 0)).1 < criticalBands.2.getD i 0 ∧ criticalBands.2.getD i 0 < (criticalBands.1.getD i (0, 0)).2 := by
  have hget : ∀ i, i < 24 → criticalBands.1.getD i (0, 0) = (fb.getD i 0, fb.getD (i + 1) 0) := by
    intro i hi
    unfold criticalBands
    rw [List.getD_eq_getElem _ _ (by simpa [fb] using hi), List.getElem_map, List.getElem_range]
  have hlen : criticalBands.1.length = 24 := by simp [criticalBands, fb]
  have hfb : ∀ i, i < 24 → fb.getD i 0 < fb.getD (i + 1) 0 := by
    intro i hi
    interval_cases i <;> norm_num [fb]
  refine ⟨⟨?_, ?_, ?_⟩, hlen, ?_, ?_, ?_, ?_⟩
  · intro h
    rw [h] at hlen
    simp at hlen
  · intro b hb
    obtain ⟨i, hi, rfl⟩ := List.getElem_of_mem hb
    rw [← List.getD_eq_getElem _ (0, 0) hi, hget i (by omega)]
    exact hfb i (by omega)
  · intro i hi
    rw [hget i (by omega), hget (i + 1) (by omega)]
  · rw [hget 0 (by norm_num)]
    norm_num [fb]
  · rw [hget 23 (by norm_num)]
    norm_num [fb]
  · simp [criticalBands, fc]
  · intro i hi
    rw [hget i hi]
    unfold criticalBands
    interval_cases i <;> norm_num [fb, fc]

/-- The bands and the centres are those of the table. -/
theorem C112_table (i : Nat) (hi : i < 24) :
    (criticalBands.1.getD i (0, 0)).2 = (zwicker.getD i (0, 0)).1 ∧ criticalBands.2.getD i 0 = (zwicker.getD i (0, 0)).2 := by
  have hget : criticalBands.1.getD i (0, 0) = (fb.getD i 0, fb.getD (i + 1) 0) := by
    unfold criticalBands
    rw [List.getD_eq_getElem _ _ (by simpa [fb] using hi), List.getElem_map, List.getElem_range]
  rw [hget]
  unfold criticalBands
  interval_cases i <;> norm_num [fb, fc, zwicker]

/-- The critical bands in bins: every bin below the Nyquist bin is in exactly one band, for every sampling frequency and even transform length. -/
theorem C112_critical_tiles {Fs : ℝ} (hF : 0 < Fs) {N : Nat} (hN : 0 < N) (he : N % 2 = 0) :
    ∃ s, bandsHz2s criticalBands.1 Fs N false = .ok s ∧ s.length ≤ 24 ∧ Tiles 0 ((N / 2 : Nat) : ℤ) s := by
  obtain ⟨s, h1, h2, _⟩ := C112_tiles C112_critical.1 hF hN he (by rw [C112_critical.2.2.1]; positivity)
  rw [C112_critical.2.2.1, zero_div] at h2
  have h3 : around (0 : ℝ) = 0 := by exact_mod_cast around_int 0
  rw [h3] at h2
  refine ⟨s, h1, ?_, h2⟩
  -- not more bands than there were
  classical
  have hk : ∀ l : List (ℝ × ℝ), (keepLast l).length ≤ l.length := by
    intro l
    match l with
    | [] => simp [keepLast]
    | [a] => simp [keepLast]
    | a :: b :: t =>
      have aux : ∀ (t : List (ℝ × ℝ)) (b : ℝ × ℝ), (keepLast (b :: t)).length ≤ (b :: t).length := by
        intro t
        induction t with
        | nil => intro b; simp [keepLast]
        | cons c t ih =>
          intro b
          unfold keepLast
          split
          · exact (ih c).trans (by simp)
          · simpa using ih c
      exact aux _ a
  obtain ⟨z, hz⟩ : ∃ z, criticalBands.1.getLast? = some z := by
    rcases h : criticalBands.1.getLast? with _ | z
    · rw [List.getLast?_eq_none_iff] at h
      exact absurd h C112_critical.1.1
    · exact ⟨z, rfl⟩
  by_cases hq : criticalBands.1.filter (fun b => b.1 ≤ min (Fs / 2) z.2) = []
  · unfold bandsHz2s at h1
    rw [hz] at h1
    simp only [bind, Except.bind, hq, List.map_nil, setLast, List.getLast?_nil] at h1
    cases h1
  · obtain ⟨q, b, hqb⟩ : ∃ q b, criticalBands.1.filter (fun b => b.1 ≤ min (Fs / 2) z.2) = q ++ [b] := ⟨_, _, (List.dropLast_append_getLast hq).symm⟩
    rw [bandsHz2s_eq hz hqb] at h1
    cases h1
    rw [List.length_map]
    refine (hk _).trans ?_
    have h5 := congrArg List.length hqb
    have h6 := List.length_filter_le (fun b : ℝ × ℝ => decide (b.1 ≤ min (Fs / 2) z.2)) criticalBands.1
    rw [C112_critical.2.1] at h6
    rw [List.length_append, List.length_singleton] at h5
    rw [List.length_append, List.length_singleton, List.length_map]
    omega

/-- It raises if there are no bands or if all are above the Nyquist frequency. -/
theorem C112_raises {bands : List (ℝ × ℝ)} {Fs : ℝ} {N : Nat} {dct : Bool} (h : ∀ b ∈ bands, Fs / 2 < b.1) : bandsHz2s bands Fs N dct = .error .indexError := by
  classical
  unfold bandsHz2s
  rcases hz : bands.getLast? with _ | z
  · rfl
  · have hq : bands.filter (fun b => b.1 ≤ min (Fs / 2) z.2) = [] := by
      rw [List.filter_eq_nil_iff]
      intro b hb
      have := h b hb
      simp only [decide_eq_true_eq, not_le]
      exact (min_le_left _ _).trans_lt this
    simp only [bind, Except.bind, hq, List.map_nil, setLast, List.getLast?_nil]

/-- For the discrete cosine transform the last band ends in the middle of the spectrum: if a band starts in its upper half, the last band ends before it starts. -/
theorem C112_dct_deviation {bands : List (ℝ × ℝ)} (hb : Adjacent bands) {Fs : ℝ} (hF : 0 < Fs) {N : Nat} (hN : 0 < N) (h0 : (bands.getD 0 (0, 0)).1 ≤ Fs / 2)
    {c : ℝ × ℝ} (hc : c ∈ bands) (h1 : (N + 1) / 2 * (Fs / 2 / N) < c.1) (h2 : c.1 ≤ Fs / 2) :
    ∃ s, bandsHz2s bands Fs N true = .ok s ∧ (s.getD (s.length - 1) (0, 0)).2 = ((N / 2 : Nat) : ℤ) ∧ (s.getD (s.length - 1) (0, 0)).2 < (s.getD (s.length - 1) (0, 0)).1 := by
  obtain ⟨r, h3, _, _, q, b, h5, h6, h7, h8, _⟩ := result hb hF hN (dct := true) h0
  have hw : width Fs N true = Fs / 2 / N := rfl
  rw [hw] at h6
  refine ⟨_, h3, ?_⟩
  have hs : (r.map fun (b : ℝ × ℝ) => (trunc b.1, trunc b.2)).getD ((r.map fun (b : ℝ × ℝ) => (trunc b.1, trunc b.2)).length - 1) (0, 0) =
      (around (b.1 / (Fs / 2 / N)), ((N / 2 : Nat) : ℤ)) := by
    rw [h6]
    simp [trunc_int, trunc_half]
  rw [hs]
  refine ⟨rfl, ?_⟩
  have h9 := h8 c hc h2
  have hpos : 0 < Fs / 2 / N := by positivity
  have h10 : ((N : ℝ) + 1) / 2 < b.1 / (Fs / 2 / N) := by
    rw [lt_div_iff₀ hpos]
    linarith
  have h11 := (abs_le.mp (around_spec (b.1 / (Fs / 2 / N)))).1
  have h12 : (((N / 2 : Nat) : ℤ) : ℝ) ≤ N / 2 := by
    rw [Int.cast_natCast]
    have : 2 * ((N / 2 : Nat) : ℝ) ≤ N := by exact_mod_cast (by omega : 2 * (N / 2) ≤ N)
    linarith
  have h13 : (((N / 2 : Nat) : ℤ) : ℝ) < (around (b.1 / (Fs / 2 / N)) : ℝ) := by linarith
  exact_mod_cast h13

/-- For an odd transform length of the form `4 n + 3` a band that starts at the Nyquist frequency ends before it starts. -/
theorem C112_odd_deviation {bands : List (ℝ × ℝ)} (hb : Adjacent bands) {Fs : ℝ} (hF : 0 < Fs) {N : Nat} (ho : N % 4 = 3) (h0 : (bands.getD 0 (0, 0)).1 ≤ Fs / 2)
    {c : ℝ × ℝ} (hc : c ∈ bands) (h1 : c.1 = Fs / 2) :
    ∃ s, bandsHz2s bands Fs N false = .ok s ∧ s.getD (s.length - 1) (0, 0) = (((N / 2 + 1 : Nat) : ℤ), ((N / 2 : Nat) : ℤ)) := by
  have hN : 0 < N := by omega
  obtain ⟨r, h3, _, _, q, b, h5, h6, h7, h8, _⟩ := result hb hF hN (dct := false) h0
  have hw : width Fs N false = Fs / N := rfl
  rw [hw] at h6
  refine ⟨_, h3, ?_⟩
  have hbF : b.1 = Fs / 2 := le_antisymm h7 (by rw [← h1]; exact h8 c hc h1.le)
  have hx : b.1 / (Fs / N) = ((N / 2 : Nat) : ℤ) + 1 / 2 := by
    have h4 : (N : ℝ) = 2 * ((N / 2 : Nat) : ℝ) + 1 := by exact_mod_cast (by omega : N = 2 * (N / 2) + 1)
    have : (N : ℝ) ≠ 0 := by positivity
    rw [hbF, Int.cast_natCast, show ((N / 2 : Nat) : ℝ) = (N - 1) / 2 by linarith]
    field_simp
    ring
  have har : around (b.1 / (Fs / N)) = ((N / 2 + 1 : Nat) : ℤ) := by
    rw [hx]
    unfold around
    have hfl : ⌊(((N / 2 : Nat) : ℤ) : ℝ) + 1 / 2⌋ = ((N / 2 : Nat) : ℤ) := by
      rw [Int.floor_eq_iff]
      constructor <;> norm_num
    have hfr : Int.fract ((((N / 2 : Nat) : ℤ) : ℝ) + 1 / 2) = 1 / 2 := by
      unfold Int.fract
      rw [hfl]
      ring
    rw [hfr, hfl, if_neg (lt_irrefl _), if_neg (lt_irrefl _), if_neg (by omega)]
    push_cast
    rfl
  rw [h6, har]
  have h14 : trunc (((N / 2 + 1 : Nat) : ℤ) : ℝ) = ((N / 2 + 1 : Nat) : ℤ) := trunc_int _
  simp only [List.map_append, List.map_cons, List.map_nil, List.length_append, List.length_map, List.length_singleton, Nat.add_sub_cancel, h14, trunc_half]
  rw [List.getD_append_right _ _ _ _ (by simp)]
  simp

/-! ## Examples -/

theorem two_adjacent : Adjacent [(0, 4000), (4000, 8000)] := by
  refine ⟨by simp, ?_, ?_⟩
  · intro b hb
    simp at hb
    rcases hb with rfl | rfl <;> norm_num
  · intro i hi
    obtain rfl : i = 0 := by simp at hi; omega
    rfl

/-- Two bands at 16 kHz in 8 bins. -/
example : ∃ s, bandsHz2s [(0, 4000), (4000, 8000)] 16000 8 false = .ok s ∧ Tiles 0 4 s := by
  obtain ⟨s, h1, h2, _⟩ := C112_tiles two_adjacent (Fs := 16000) (N := 8) (by norm_num) (by norm_num) (by norm_num) (by norm_num)
  refine ⟨s, h1, ?_⟩
  have h3 : around (0 : ℝ) = 0 := by exact_mod_cast around_int 0
  norm_num [h3] at h2
  exact h2

example : ∃! i : Nat, i < 2 ∧ (([(0, 2), (2, 4)] : List (ℤ × ℤ)).getD i (0, 0)).1 ≤ 3 ∧ 3 < (([(0, 2), (2, 4)] : List (ℤ × ℤ)).getD i (0, 0)).2 := by
  have h : Tiles 0 4 [(0, 2), (2, 4)] := by
    refine ⟨rfl, rfl, ?_, by norm_num, by simp⟩
    intro i hi
    obtain rfl : i = 0 := by simp at hi; omega
    norm_num
  exact C112_cover h 3 (by norm_num) (by norm_num)

example : ∃ s, bandsHz2s criticalBands.1 16000 512 false = .ok s ∧ s.length ≤ 24 ∧ Tiles 0 256 s := C112_critical_tiles (N := 512) (by norm_num) (by norm_num) (by norm_num)

/-- The critical bands for the cosine transform. -/
example : ∃ s, bandsHz2s criticalBands.1 16000 512 true = .ok s ∧ (s.getD (s.length - 1) (0, 0)).2 = 256 ∧ (s.getD (s.length - 1) (0, 0)).2 < (s.getD (s.length - 1) (0, 0)).1 := by
  have hm : ((7700 : ℝ), (9500 : ℝ)) ∈ criticalBands.1 := by
    unfold criticalBands
    refine List.mem_map.mpr ⟨21, by simp [fb], ?_⟩
    norm_num [fb]
  exact C112_dct_deviation C112_critical.1 (N := 512) (by norm_num) (by norm_num) (by rw [C112_critical.2.2.1]; norm_num) hm (by norm_num) (by norm_num)

example : ∃ s, bandsHz2s [(0, 4000), (4000, 8000)] 8000 7 false = .ok s ∧ s.getD (s.length - 1) (0, 0) = (4, 3) :=
  C112_odd_deviation two_adjacent (N := 7) (c := (4000, 8000)) (by norm_num) (by norm_num) (by norm_num) (by simp) (by norm_num)

example : bandsHz2s [(4000, 8000)] 6000 64 false = .error .indexError := C112_raises (by intro b hb; simp at hb; subst hb; norm_num)

end Verif.Bark
