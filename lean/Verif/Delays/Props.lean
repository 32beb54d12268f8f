import Verif.Delays.Model
import Mathlib.Data.List.GetD
import Mathlib.Tactic.FieldSimp
import Mathlib.Tactic.Ring
import Mathlib.Tactic.Linarith
import Mathlib.Tactic.Positivity

/-!
# C97: delay filters and the bookkeeping of resampling

Small specification: the windowed sinc function of a delay, and "channel `c` of an array with `n` samples per channel is `val (c * n + s)`".
-/

namespace Verif.Delays

open Verif.Py

theorem sinc_int (k : Int) : sinc (k : ℝ) = if k = 0 then 1 else 0 := by
  unfold sinc
  by_cases h : k = 0
  · simp [h]
  · rw [if_neg (by exact_mod_cast h), if_neg h, mul_comm Real.pi, Real.sin_int_mul_pi, zero_div]

theorem sinc_neg (x : ℝ) : sinc (-x) = sinc x := by
  unfold sinc
  by_cases h : x = 0
  · simp [h]
  · rw [if_neg (neg_ne_zero.mpr h), if_neg h, mul_neg, Real.sin_neg, neg_div_neg_eq]

theorem hanning_mid (m : Nat) : hanning (2 * m + 1) m = 1 := by
  unfold hanning
  by_cases h : m = 0
  · simp [h]
  · rw [if_neg (by omega)]
    have : Real.pi * (1 - ((2 * m + 1 : Nat) : ℝ) + 2 * m) / (((2 * m + 1 : Nat) : ℝ) - 1) = 0 := by
      push_cast
      rw [show (1 : ℝ) - (2 * m + 1) + 2 * m = 0 by ring]
      simp
    rw [this, Real.cos_zero]
    norm_num

theorem hanning_symm {L k : Nat} (hk : k < L) : hanning L (L - 1 - k) = hanning L k := by
  unfold hanning
  by_cases h : L = 1
  · simp [h]
  · rw [if_neg h, if_neg h]
    have : Real.pi * (1 - (L : ℝ) + 2 * ((L - 1 - k : Nat) : ℝ)) / ((L : ℝ) - 1) = -(Real.pi * (1 - (L : ℝ) + 2 * k) / ((L : ℝ) - 1)) := by
      rw [Nat.cast_sub (by omega), Nat.cast_sub (by omega)]
      push_cast
      ring
    rw [this, Real.cos_neg]

/-- **C97, window.** The window is a squared sine, from zero over one back to zero. -/
theorem C97_window {L : Nat} (hL : 2 ≤ L) (k : Nat) : hanning L k = Real.sin (Real.pi * k / ((L : ℝ) - 1)) ^ 2 := by
  unfold hanning
  rw [if_neg (by omega)]
  have h : (L : ℝ) - 1 ≠ 0 := by
    have : (2 : ℝ) ≤ L := by exact_mod_cast hL
    linarith
  have e : Real.pi * (1 - (L : ℝ) + 2 * k) / ((L : ℝ) - 1) = 2 * (Real.pi * k / ((L : ℝ) - 1)) - Real.pi := by
    field_simp
    ring
  rw [e, Real.cos_sub_pi, Real.cos_two_mul, Real.sin_sq]
  ring

theorem fractionalDelay_getD {N : Nat} (t0 : ℝ) {n : Nat} (hn : n < N) :
    (fractionalDelay N t0).getD n 0 = hanning N n * sinc ((n : ℝ) - ((N : ℝ) - 1) / 2 - t0) := by
  unfold fractionalDelay
  rw [List.getD_eq_getElem _ _ (by simpa using hn)]
  simp

/-- **C97, one filter.** The filter has the given length; the opposite delay gives the filter in reverse order; without delay the filter of odd length is an
impulse in the middle. A delay by a whole number `k` of samples is an impulse at the place moved by `k`, of the height of the window there. -/
theorem C97_filter (N : Nat) (t0 : ℝ) : (fractionalDelay N t0).length = N ∧
    (∀ n, n < N → (fractionalDelay N (-t0)).getD (N - 1 - n) 0 = (fractionalDelay N t0).getD n 0) ∧
    (∀ m n, N = 2 * m + 1 → n < N → (fractionalDelay N 0).getD n 0 = if n = m then 1 else 0) ∧
    (∀ m n (k : Int), N = 2 * m + 1 → n < N → (fractionalDelay N k).getD n 0 = if (n : Int) = m + k then hanning N n else 0) := by
  have hk : ∀ m n (k : Int), N = 2 * m + 1 → n < N → (fractionalDelay N k).getD n 0 = if (n : Int) = m + k then hanning N n else 0 := by
    intro m n k hN hn
    rw [fractionalDelay_getD _ hn]
    have e : (n : ℝ) - ((N : ℝ) - 1) / 2 - (k : ℝ) = (((n : Int) - m - k : Int) : ℝ) := by
      rw [hN]
      push_cast
      ring
    rw [e, sinc_int]
    by_cases h : (n : Int) = m + k
    · rw [if_pos h, if_pos (by omega), mul_one]
    · rw [if_neg h, if_neg (by omega), mul_zero]
  refine ⟨by simp [fractionalDelay], fun n hn => ?_, fun m n hN hn => ?_, hk⟩
  · rw [fractionalDelay_getD _ (show N - 1 - n < N by omega), fractionalDelay_getD _ hn, hanning_symm hn]
    congr 1
    rw [← sinc_neg]
    congr 1
    rw [Nat.cast_sub (by omega), Nat.cast_sub (by omega)]
    push_cast
    ring
  · have := hk m n 0 hN hn
    rw [Int.cast_zero] at this
    rw [this]
    by_cases h : n = m
    · rw [if_pos (by omega), if_pos h, h, hN, hanning_mid]
    · rw [if_neg (by omega), if_neg h]

/-- **C97, impulse.** `low_pass_dirac` of a whole number of samples is an impulse of height `alpha`. -/
theorem C97_low_pass_dirac (alpha : ℝ) {Fs t0 : ℝ} {k : Int} (hk : Fs * t0 = k) (N : Nat) {n : Nat} (hn : n < N) :
    (lowPassDirac t0 alpha Fs N).getD n 0 = if (n : Int) = k then alpha else 0 := by
  unfold lowPassDirac
  rw [List.getD_eq_getElem _ _ (by simpa using hn)]
  simp only [List.getElem_map, List.getElem_range]
  have e : (n : ℝ) - Fs * t0 = (((n : Int) - k : Int) : ℝ) := by
    rw [hk]
    push_cast
    ring
  rw [e, sinc_int]
  by_cases h : (n : Int) = k
  · rw [if_pos h, if_pos (by omega), mul_one]
  · rw [if_neg h, if_neg (by omega), mul_zero]

/-! ## The bank -/

theorem minOf_spec {l : List ℝ} (hl : l ≠ []) : ∃ m, minOf l = .ok m ∧ m ∈ l ∧ ∀ v ∈ l, m ≤ v := by
  obtain ⟨a, l, rfl⟩ := List.exists_cons_of_ne_nil hl
  refine ⟨_, rfl, ?_⟩
  have key : ∀ (l : List ℝ) (a : ℝ), (l.foldl min a = a ∨ l.foldl min a ∈ l) ∧ l.foldl min a ≤ a ∧ ∀ v ∈ l, l.foldl min a ≤ v := by
    intro l
    induction l with
    | nil => intro a; simp
    | cons b l ih =>
      intro a
      obtain ⟨h1, h2, h3⟩ := ih (min a b)
      simp only [List.foldl_cons, List.mem_cons, forall_eq_or_imp]
      refine ⟨?_, h2.trans (min_le_left _ _), h2.trans (min_le_right _ _), h3⟩
      rcases h1 with h | h
      · rcases min_choice a b with hm | hm
        · left
          rw [h, hm]
        · right
          left
          rw [h, hm]
      · right
        right
        exact h
  obtain ⟨h1, h2, h3⟩ := key l a
  refine ⟨?_, ?_⟩
  · rcases h1 with h | h
    · rw [h]
      simp
    · exact List.mem_cons_of_mem _ h
  · intro v hv
    rcases List.mem_cons.mp hv with rfl | hv
    · exact h2
    · exact h3 v hv

theorem maxCeil_spec {l : List ℝ} (hl : l ≠ []) : ∃ c, maxCeil l = .ok c ∧ (∃ v ∈ l, ⌈v⌉ = c) ∧ ∀ v ∈ l, ⌈v⌉ ≤ c := by
  obtain ⟨a, l, rfl⟩ := List.exists_cons_of_ne_nil hl
  refine ⟨_, rfl, ?_⟩
  have key : ∀ (l : List ℝ) (a : Int), (l.foldl (fun m v => max m ⌈v⌉) a = a ∨ ∃ v ∈ l, ⌈v⌉ = l.foldl (fun m v => max m ⌈v⌉) a) ∧
      a ≤ l.foldl (fun m v => max m ⌈v⌉) a ∧ ∀ v ∈ l, ⌈v⌉ ≤ l.foldl (fun m v => max m ⌈v⌉) a := by
    intro l
    induction l with
    | nil => intro a; simp
    | cons b l ih =>
      intro a
      obtain ⟨h1, h2, h3⟩ := ih (max a ⌈b⌉)
      simp only [List.foldl_cons, List.mem_cons, forall_eq_or_imp, exists_eq_or_imp]
      refine ⟨?_, (le_max_left _ _).trans h2, (le_max_right _ _).trans h2, h3⟩
      rcases h1 with h | h
      · rcases max_choice a ⌈b⌉ with hm | hm
        · left
          rw [h, hm]
        · right
          left
          rw [h, hm]
      · right
        right
        exact h
  obtain ⟨h1, h2, h3⟩ := key l ⌈a⌉
  refine ⟨?_, ?_⟩
  · rcases h1 with h | ⟨v, hv, h⟩
    · exact ⟨a, by simp, h.symm⟩
    · exact ⟨v, by simp [hv], h⟩
  · intro v hv
    rcases List.mem_cons.mp hv with rfl | hv
    · exact h2
    · exact h3 v hv

/-- Assignments that agree with a function `h`. -/
theorem assignAll_spec (size : Nat) (h : Nat → ℝ) (l : List (Int × ℝ)) (hl : ∀ e ∈ l, 0 ≤ e.1 ∧ e.1 < size ∧ e.2 = h e.1.toNat) (flat : Nat → ℝ) :
    ∃ g, assignAll size flat l = .ok g ∧ (∀ e ∈ l, g e.1.toNat = h e.1.toNat) ∧ ∀ q : Nat, (∀ e ∈ l, e.1 ≠ q) → g q = flat q := by
  induction l generalizing flat with
  | nil => exact ⟨flat, rfl, by simp, by simp⟩
  | cons e l ih =>
    obtain ⟨h1, h2, h3⟩ := hl e (by simp)
    obtain ⟨g, hg, hg1, hg2⟩ := ih (fun e he => hl e (List.mem_cons_of_mem _ he)) (Function.update flat e.1.toNat e.2)
    have hn : normIdx size e.1 = some e.1.toNat := by
      obtain ⟨k, hk⟩ : ∃ k : Nat, e.1 = k := ⟨e.1.toNat, by omega⟩
      rw [hk, Int.toNat_natCast]
      exact normIdx_nat (by omega)
    refine ⟨g, ?_, ?_, ?_⟩
    · obtain ⟨i, v⟩ := e
      simp only [assignAll, hn]
      exact hg
    · intro e' he'
      rcases List.mem_cons.mp he' with rfl | he'
      · by_cases hex : ∃ e2 ∈ l, e2.1 = e'.1
        · obtain ⟨e2, he2, h4⟩ := hex
          rw [← h4]
          exact hg1 e2 he2
        · push Not at hex
          rw [hg2 e'.1.toNat (fun e2 he2 => by have := hex e2 he2; omega), Function.update_self, h3]
      · exact hg1 e' he'
    · intro q hq
      rw [hg2 q (fun e2 he2 => hq e2 (List.mem_cons_of_mem _ he2)), Function.update_of_ne]
      have := hq e (by simp)
      omega

/-- **C97, filter bank.** With `δ` the delays minus the smallest of them: the rows have `L + ⌈max δ⌉` columns; row `i` contains, from column `⌊δᵢ⌋` on, `L` samples of the
sinc function around `(L - 1) / 2 + δᵢ` times the window, and zeros elsewhere. No assignment is outside of the array or of its row. -/
theorem C97_bank (L : Nat) {delays : List ℝ} (hd : delays ≠ []) :
    ∃ (W : Nat) (flat : Nat → ℝ) (m : ℝ), filterBank L delays = .ok ((W : Int), flat) ∧ m ∈ delays ∧ (∀ v ∈ delays, m ≤ v) ∧
      (∀ v ∈ delays, (L : Int) + ⌈v - m⌉ ≤ W) ∧ (∃ v ∈ delays, (L : Int) + ⌈v - m⌉ = W) ∧
      ∀ i, i < delays.length → ∀ j : Nat, j < W → flat (i * W + j) =
        if ⌊delays.getD i 0 - m⌋ ≤ j ∧ (j : Int) < ⌊delays.getD i 0 - m⌋ + L
        then hanning L ((j : Int) - ⌊delays.getD i 0 - m⌋).toNat * sinc ((j : ℝ) - ((L : ℝ) - 1) / 2 - (delays.getD i 0 - m)) else 0 := by
  obtain ⟨m, hm, hmem, hle⟩ := minOf_spec hd
  have hd' : delays.map (· - m) ≠ [] := by simpa using hd
  obtain ⟨c, hc, hcex, hcle⟩ := maxCeil_spec hd'
  have hcle' : ∀ v ∈ delays, ⌈v - m⌉ ≤ c := fun v hv => hcle _ (List.mem_map.mpr ⟨v, hv, rfl⟩)
  have hc0 : 0 ≤ c := by
    have := hcle' m hmem
    simpa using this
  have hdget : ∀ i, i < delays.length → (delays.map (· - m)).getD i 0 = delays.getD i 0 - m := by
    intro i hi
    rw [List.getD_eq_getElem _ _ (by simpa using hi), List.getElem_map, List.getD_eq_getElem delays _ hi]
  have hget : ∀ i, i < delays.length → delays.getD i 0 ∈ delays := fun i hi => by
    rw [List.getD_eq_getElem delays _ hi]
    exact List.getElem_mem _
  set W : Nat := L + c.toNat with hW
  have hWi : (L : Int) + c = W := by
    rw [hW]
    push_cast
    omega
  set fl : Nat → Int := fun i => ⌊delays.getD i 0 - m⌋ with hfl
  have hfl0 : ∀ i, i < delays.length → 0 ≤ fl i := fun i hi => Int.floor_nonneg.mpr (by have := hle _ (hget i hi); linarith)
  have hflW : ∀ i, i < delays.length → fl i + L ≤ W := fun i hi => by
    have h1 := hcle' _ (hget i hi)
    have h2 := Int.floor_le_ceil (delays.getD i 0 - m)
    simp only [hfl]
    omega
  set h : Nat → ℝ := fun q => hanning L (((q % W : Nat) : Int) - fl (q / W)).toNat * sinc (((q % W : Nat) : ℝ) - ((L : ℝ) - 1) / 2 - (delays.getD (q / W) 0 - m)) with hh
  set entries := (List.range (delays.map (· - m)).length).flatMap fun (i : Nat) => (List.range L).map fun (t : Nat) =>
        let di := ⌊(delays.map (· - m)).getD i 0⌋
        let df := (delays.map (· - m)).getD i 0 - di
        ((t : Int) + (di + ((L : Int) + c) * i), hanning L t * sinc ((t : ℝ) - df - ((L : ℝ) - 1) / 2)) with hent
  have hmement : ∀ e, e ∈ entries ↔ ∃ i, i < delays.length ∧ ∃ t, t < L ∧
      e = ((t : Int) + (fl i + (W : Int) * i), hanning L t * sinc ((t : ℝ) - (delays.getD i 0 - m - fl i) - ((L : ℝ) - 1) / 2)) := by
    intro e
    rw [hent, List.mem_flatMap]
    constructor
    · rintro ⟨i, hi, he⟩
      obtain ⟨t, ht, rfl⟩ := List.mem_map.mp he
      have hi : i < delays.length := by simpa using hi
      refine ⟨i, hi, t, List.mem_range.mp ht, ?_⟩
      simp only [hdget i hi, hWi, hfl]
    · rintro ⟨i, hi, t, ht, rfl⟩
      refine ⟨i, by simpa using hi, List.mem_map.mpr ⟨t, List.mem_range.mpr ht, ?_⟩⟩
      simp only [hdget i hi, hWi, hfl]
  have hpos : ∀ i, i < delays.length → ∀ t : Nat, t < L → ∃ q : Nat, q < W ∧ (t : Int) + (fl i + (W : Int) * i) = ((i * W + q : Nat) : Int) ∧ (q : Int) = fl i + t := by
    intro i hi t ht
    have h1 := hfl0 i hi
    have h2 := hflW i hi
    refine ⟨(fl i + t).toNat, by omega, ?_, by omega⟩
    push_cast
    rw [Int.toNat_of_nonneg (by omega)]
    ring
  have hall : ∀ e ∈ entries, 0 ≤ e.1 ∧ e.1 < ((delays.map (· - m)).length * ((L : Int) + c).toNat : Nat) ∧ e.2 = h e.1.toNat := by
    intro e he
    obtain ⟨i, hi, t, ht, rfl⟩ := (hmement e).mp he
    obtain ⟨q, hq, hqe, hqf⟩ := hpos i hi t ht
    simp only [hqe]
    have hdiv : (i * W + q) / W = i := by
      rw [Nat.mul_comm, Nat.mul_add_div (by omega), Nat.div_eq_of_lt hq, add_zero]
    have hmod : (i * W + q) % W = q := by
      rw [Nat.mul_comm, Nat.mul_add_mod, Nat.mod_eq_of_lt hq]
    refine ⟨by omega, ?_, ?_⟩
    · rw [hWi, Int.toNat_natCast, List.length_map]
      have : i * W + q < delays.length * W := by
        calc i * W + q < i * W + W := by omega
          _ = (i + 1) * W := by ring
          _ ≤ delays.length * W := Nat.mul_le_mul_right W hi
      exact_mod_cast this
    · rw [Int.toNat_natCast]
      simp only [hh, hdiv, hmod]
      rw [hqf, show fl i + (t : Int) - fl i = t by ring, Int.toNat_natCast]
      congr 2
      have : (q : ℝ) = (fl i : ℝ) + t := by exact_mod_cast hqf
      rw [this]
      ring
  obtain ⟨g, hg, hg1, hg2⟩ := assignAll_spec _ h entries hall (fun _ => 0)
  have hbank : filterBank L delays = .ok ((W : Int), g) := by
    unfold filterBank
    rw [hm]
    simp only [Except.bind]
    rw [hc]
    simp only
    rw [hg, hWi]
    rfl
  refine ⟨W, g, m, hbank, hmem, hle, ?_, ?_, ?_⟩
  · intro v hv
    have := hcle' v hv
    omega
  · obtain ⟨v, hv, hvc⟩ := hcex
    obtain ⟨u, hu, rfl⟩ := List.mem_map.mp hv
    exact ⟨u, hu, by rw [hvc, hWi]⟩
  · intro i hi j hj
    have h1 := hfl0 i hi
    have h2 := hflW i hi
    have hdiv : (i * W + j) / W = i := by
      rw [Nat.mul_comm, Nat.mul_add_div (by omega), Nat.div_eq_of_lt hj, add_zero]
    have hmod : (i * W + j) % W = j := by
      rw [Nat.mul_comm, Nat.mul_add_mod, Nat.mod_eq_of_lt hj]
    by_cases hin : fl i ≤ j ∧ (j : Int) < fl i + L
    · rw [if_pos hin]
      have he : ((((j : Int) - fl i).toNat : Nat) : Int) + (fl i + (W : Int) * i) = ((i * W + j : Nat) : Int) := by
        push_cast
        rw [Int.toNat_of_nonneg (by omega)]
        ring
      have := hg1 _ ((hmement _).mpr ⟨i, hi, ((j : Int) - fl i).toNat, by omega, rfl⟩)
      simp only [he, Int.toNat_natCast] at this
      rw [this]
      simp only [hh, hdiv, hmod]
      rfl
    · rw [if_neg hin]
      apply hg2
      intro e he hc
      obtain ⟨i', hi', t, ht, rfl⟩ := (hmement e).mp he
      obtain ⟨q, hq, hqe, hqf⟩ := hpos i' hi' t ht
      simp only [hqe] at hc
      have hc' : i' * W + q = i * W + j := by exact_mod_cast hc
      have e1 : i' = i := by
        have : (i' * W + q) / W = (i * W + j) / W := by rw [hc']
        rw [hdiv, Nat.mul_comm, Nat.mul_add_div (by omega), Nat.div_eq_of_lt hq, add_zero] at this
        exact this
      subst e1
      have e2 : q = j := by omega
      subst e2
      exact hin ⟨by omega, by omega⟩

/-- **C97, rows.** Row `i` is the filter of `fractional_delay` for the fractional part, moved by the whole part; rows of whole delays and odd length are impulses. -/
theorem C97_bank_rows (L : Nat) {delays : List ℝ} (hd : delays ≠ []) :
    ∃ (W : Nat) (flat : Nat → ℝ) (m : ℝ), filterBank L delays = .ok ((W : Int), flat) ∧ m ∈ delays ∧ (∀ v ∈ delays, m ≤ v) ∧
      (∀ i, i < delays.length → ∀ t : Nat, t < L → ∃ j : Nat, (j : Int) = ⌊delays.getD i 0 - m⌋ + t ∧ j < W ∧
        flat (i * W + j) = (fractionalDelay L (Int.fract (delays.getD i 0 - m))).getD t 0) ∧
      (∀ r, L = 2 * r + 1 → ∀ i, i < delays.length → ∀ k : Nat, delays.getD i 0 - m = k → ∀ j : Nat, j < W → flat (i * W + j) = if j = r + k then 1 else 0) := by
  obtain ⟨W, flat, m, hb, hm, hle, hW, -, hval⟩ := C97_bank L hd
  have hget : ∀ i, i < delays.length → delays.getD i 0 ∈ delays := fun i hi => by
    rw [List.getD_eq_getElem delays _ hi]
    exact List.getElem_mem _
  refine ⟨W, flat, m, hb, hm, hle, fun i hi t ht => ?_, fun r hr i hi k hk j hj => ?_⟩
  · have h0 : 0 ≤ ⌊delays.getD i 0 - m⌋ := Int.floor_nonneg.mpr (by have := hle _ (hget i hi); linarith)
    have h1 := hW _ (hget i hi)
    have h2 := Int.floor_le_ceil (delays.getD i 0 - m)
    have hjW : (⌊delays.getD i 0 - m⌋ + t).toNat < W := by omega
    refine ⟨(⌊delays.getD i 0 - m⌋ + t).toNat, by omega, hjW, ?_⟩
    rw [hval i hi _ hjW, Int.toNat_of_nonneg (by omega), if_pos ⟨by omega, by omega⟩, fractionalDelay_getD _ ht]
    rw [show ⌊delays.getD i 0 - m⌋ + (t : Int) - ⌊delays.getD i 0 - m⌋ = t by ring, Int.toNat_natCast]
    congr 2
    have e : (((⌊delays.getD i 0 - m⌋ + t).toNat : Nat) : ℝ) = (⌊delays.getD i 0 - m⌋ : ℝ) + t := by
      have : ((⌊delays.getD i 0 - m⌋ + t).toNat : Int) = ⌊delays.getD i 0 - m⌋ + t := Int.toNat_of_nonneg (by omega)
      exact_mod_cast this
    rw [e, ← Int.self_sub_floor]
    ring
  · rw [hval i hi j hj, hk]
    have hf : ⌊(k : ℝ)⌋ = (k : Int) := Int.floor_natCast k
    rw [hf]
    have e : (j : ℝ) - ((L : ℝ) - 1) / 2 - k = (((j : Int) - r - k : Int) : ℝ) := by
      rw [hr]
      push_cast
      ring
    rw [e, sinc_int]
    by_cases hj' : j = r + k
    · rw [if_pos ⟨by omega, by omega⟩, if_pos (by omega), if_pos hj', mul_one]
      have : ((j : Int) - k).toNat = r := by omega
      rw [this, hr, hanning_mid]
    · rw [if_neg (show ¬ j = r + k from hj')]
      split
      · rw [if_neg (by omega), mul_zero]
      · rfl

/-- **C97, no delays.** An empty list raises `ValueError`. -/
theorem C97_bank_empty (L : Nat) : filterBank L [] = .error .valueError := rfl

/-! ## Resampling -/

theorem blocks_flatten (c K : Nat) : ((List.range K).map fun k => block c (k * 128)).flatten = List.range (min (K * 128) c) := by
  induction K with
  | zero => simp
  | succ K ih =>
    rw [List.range_succ, List.map_append, List.flatten_append, ih]
    simp only [List.map_cons, List.map_nil, List.flatten_cons, List.flatten_nil, List.append_nil]
    unfold block
    rcases Nat.lt_or_ge c (K * 128) with h | h
    · rw [show min (K * 128 + 128) c - K * 128 = 0 by omega, show min ((K + 1) * 128) c = min (K * 128) c by omega]
      simp
    · rw [show min (K * 128) c = K * 128 by omega, show min ((K + 1) * 128) c = K * 128 + (min (K * 128 + 128) c - K * 128) by omega, List.range_add]

theorem runColumns_ok (b : Backend) (f : Chan) (n : Nat) {c : Nat} (hc : 0 < c) (x : Nat → Nat → ℝ) :
    runColumns b f n c x = .ok ((List.range c).map fun ch => f.val n fun s => x s ch) := by
  have hs : runColumns .samplerate f n c x = .ok ((List.range c).map fun ch => f.val n fun s => x s ch) := by
    unfold runColumns
    simp only
    rw [if_neg (by omega)]
    congr 1
    have := congrArg (List.map fun ch => f.val n fun s => x s ch) (blocks_flatten c ((c + 127) / 128))
    rw [List.map_flatten, List.map_map, show min ((c + 127) / 128 * 128) c = c by omega] at this
    exact this
  cases b with
  | samplerate => exact hs
  | soxr => rfl
  | scipy => rfl
  | other => rfl

/-- The shape `pre ++ [n]` has `pre.prod` channels of `n` samples. -/
theorem columns_ok (pre : List Nat) {n : Nat} (hn : n ≠ 0) (val : Nat → ℝ) :
    ∃ x, toColumns ⟨pre ++ [n], val⟩ = .ok (n, pre.prod, x) ∧ ∀ c s, c < pre.prod → s < n → x s c = val (c * n + s) := by
  match pre with
  | [] =>
    refine ⟨_, rfl, ?_⟩
    intro c s hc _
    have : c = 0 := by simpa using hc
    simp [this]
  | [a] =>
    refine ⟨fun s ch => val (ch * n + s), by simp [toColumns], ?_⟩
    intro c s _ _
    rfl
  | a :: b :: l =>
    have hlast : (a :: b :: (l ++ [n])).getLastD 0 = n := by
      rw [List.getLastD_eq_getLast?, ← List.cons_append, ← List.cons_append, List.getLast?_concat]
      rfl
    have hprod : (a :: b :: (l ++ [n])).prod = (a :: b :: l).prod * n := by
      simp [List.prod_append]
      ring
    refine ⟨fun s ch => val (ch * n + s), ?_, fun _ _ _ _ => rfl⟩
    change toColumns ⟨a :: b :: (l ++ [n]), val⟩ = _
    unfold toColumns
    obtain ⟨y, l', hy⟩ : ∃ y l', l ++ [n] = y :: l' := by
      cases l with
      | nil => exact ⟨n, [], rfl⟩
      | cons y l => exact ⟨y, l ++ [n], rfl⟩
    rw [hy] at hlast hprod ⊢
    simp only
    rw [hlast, if_neg hn, hprod, Nat.mul_div_cancel _ (Nat.pos_of_ne_zero hn)]

theorem fromColumns_ok (pre : List Nat) (n : Nat) {m : Nat} (cols : List (Nat → ℝ)) (hl : cols.length = pre.prod) :
    (fromColumns (pre ++ [n]) m cols).shape = pre ++ [m] ∧
    ∀ c s, c < pre.prod → s < m → (fromColumns (pre ++ [n]) m cols).val (c * m + s) = (cols.getD c fun _ => 0) s := by
  have hdm : ∀ c s, s < m → (c * m + s) / m = c ∧ (c * m + s) % m = s := by
    intro c s hs
    constructor
    · rw [Nat.mul_comm, Nat.mul_add_div (by omega), Nat.div_eq_of_lt hs, add_zero]
    · rw [Nat.mul_comm, Nat.mul_add_mod, Nat.mod_eq_of_lt hs]
  match pre with
  | [] =>
    refine ⟨rfl, fun c s hc hs => ?_⟩
    have : c = 0 := by simpa using hc
    subst this
    simp [fromColumns]
  | [a] =>
    refine ⟨by simp [fromColumns, hl], fun c s _ hs => ?_⟩
    obtain ⟨h1, h2⟩ := hdm c s hs
    simp [fromColumns, h1, h2]
  | a :: b :: l =>
    obtain ⟨y, l', hy⟩ : ∃ y l', l ++ [n] = y :: l' := by
      cases l with
      | nil => exact ⟨n, [], rfl⟩
      | cons y l => exact ⟨y, l ++ [n], rfl⟩
    have hform : fromColumns (a :: b :: l ++ [n]) m cols = ⟨(a :: b :: l ++ [n]).dropLast ++ [m], fun i => (cols.getD (i / m) fun _ => 0) (i % m)⟩ := by
      have : a :: b :: l ++ [n] = a :: b :: y :: l' := by
        rw [← hy]
        rfl
      rw [this]
      rfl
    rw [hform]
    refine ⟨by rw [List.dropLast_concat], fun c s _ hs => ?_⟩
    obtain ⟨h1, h2⟩ := hdm c s hs
    simp only [h1, h2]

/-- What a library does to an array with `n` samples in each of the channels `pre`. -/
def Resampled (f : Chan) (pre : List Nat) (n : Nat) (val : Nat → ℝ) (out : Nd) : Prop :=
  out.shape = pre ++ [f.len n] ∧ ∀ c s, c < pre.prod → s < f.len n → out.val (c * f.len n + s) = f.val n (fun t => if t < n then val (c * n + t) else 0) s

/-- A library looks only at the samples it gets. -/
def Chan.Local (f : Chan) : Prop := ∀ n x y, (∀ t, t < n → x t = y t) → f.val n x = f.val n y

theorem run_resampled (b : Backend) (f : Chan) (hf : f.Local) (pre : List Nat) (hp : 0 < pre.prod) {n : Nat} (hn : n ≠ 0) (val : Nat → ℝ) {p : Nat × Nat × (Nat → Nat → ℝ)}
    (hpc : toColumns ⟨pre ++ [n], val⟩ = .ok p) :
    ∃ out, (runColumns b f p.1 p.2.1 p.2.2).map (fun cols => fromColumns (pre ++ [n]) (f.len p.1) cols) = .ok out ∧ Resampled f pre n val out := by
  obtain ⟨x, hx, hxv⟩ := columns_ok pre hn val
  rw [hpc] at hx
  cases hx
  simp only
  rw [runColumns_ok b f n hp]
  refine ⟨_, rfl, ?_⟩
  obtain ⟨h1, h2⟩ := fromColumns_ok pre n (m := f.len n) ((List.range pre.prod).map fun ch => f.val n fun s => x s ch) (by simp)
  refine ⟨h1, fun c s hc hs => ?_⟩
  rw [h2 c s hc hs, List.getD_eq_getElem _ _ (by simpa using hc)]
  simp only [List.getElem_map, List.getElem_range]
  exact congrFun (hf n _ _ fun t ht => by rw [if_pos ht, hxv c t hc ht]) s

/-- **C97, resampling.** For arrays of any number of dimensions with at least one channel and one sample: the result has the shape of the data except for the last
dimension, and every channel is the channel of the data, resampled by the library chosen. `soxr` is used if it is wanted and there, `samplerate` if one of both is wanted and
`soxr` is not used, `scipy` otherwise, for which the rates have no common divisor. Blocks of 128 channels make no difference. -/
theorem C97_resample (soxr : ℝ → ℝ → Chan) (samplerate : ℝ → Chan) (poly : Int → Int → Chan) (h1 : ∀ a b, (soxr a b).Local) (h2 : ∀ r, (samplerate r).Local)
    (h3 : ∀ a b, (poly a b).Local) (pre : List Nat) (hp : 0 < pre.prod) {n : Nat} (hn : n ≠ 0) (val : Nat → ℝ) :
    (∀ sr oldFs newFs, ∃ out, resample soxr samplerate poly true sr ⟨pre ++ [n], val⟩ oldFs newFs .soxr = .ok out ∧ Resampled (soxr oldFs newFs) pre n val out) ∧
    (∀ (b : Backend) sx oldFs newFs, oldFs ≠ 0 → b = .samplerate ∨ b = .soxr ∧ sx = false →
      ∃ out, resample soxr samplerate poly sx true ⟨pre ++ [n], val⟩ oldFs newFs b = .ok out ∧ Resampled (samplerate (newFs / oldFs)) pre n val out) ∧
    (∀ (b : Backend) sx sr (oldFs newFs : Nat), oldFs ≠ 0 → b = .scipy ∨ b = .samplerate ∧ sr = false ∨ b = .soxr ∧ sx = false ∧ sr = false →
      ∃ (up down : Int) (out : Nd), up * oldFs = down * newFs ∧ 0 < down ∧ Int.gcd up down = 1 ∧
        resample soxr samplerate poly sx sr ⟨pre ++ [n], val⟩ oldFs newFs b = .ok out ∧ Resampled (poly up down) pre n val out) := by
  obtain ⟨x, hx, -⟩ := columns_ok pre hn val
  refine ⟨fun sr oldFs newFs => ?_, fun b sx oldFs newFs h0 hb => ?_, fun b sx sr oldFs newFs h0 hb => ?_⟩
  · obtain ⟨out, ho, hr⟩ := run_resampled .soxr (soxr oldFs newFs) (h1 _ _) pre hp hn val hx
    refine ⟨out, ?_, hr⟩
    unfold resample choose
    simp only [Bool.true_eq_false, and_false, if_false, reduceCtorEq, false_and, Except.bind, hx]
    exact ho
  · obtain ⟨out, ho, hr⟩ := run_resampled .samplerate (samplerate (newFs / oldFs)) (h2 _) pre hp hn val hx
    refine ⟨out, ?_, hr⟩
    have hch : choose b sx true = .ok .samplerate := by
      rcases hb with rfl | ⟨rfl, rfl⟩ <;> simp [choose]
    unfold resample
    rw [hch]
    simp only [Except.bind, hx]
    rw [if_neg (by omega), if_neg h0]
    exact ho
  · have hd : (oldFs : ℚ) ≠ 0 := by exact_mod_cast h0
    set r : ℚ := ((newFs : Int) : ℚ) / ((oldFs : Int) : ℚ) with hrq
    obtain ⟨out, ho, hr⟩ := run_resampled .scipy (poly r.num r.den) (h3 _ _) pre hp hn val hx
    refine ⟨r.num, r.den, out, ?_, by exact_mod_cast r.pos, ?_, ?_, hr⟩
    · have hcross : (r.num : ℚ) * oldFs = r.den * newFs := by
        have e1 : (r.num : ℚ) = r * r.den := (Rat.mul_den_eq_num r).symm
        have e2 : r * oldFs = newFs := by
          rw [hrq]
          push_cast
          field_simp
        calc (r.num : ℚ) * oldFs = r * r.den * oldFs := by rw [e1]
          _ = r.den * (r * oldFs) := by ring
          _ = r.den * newFs := by rw [e2]
      exact_mod_cast hcross
    · have := r.reduced
      rw [Int.gcd, Int.natAbs_natCast]
      exact this
    · have hch : choose b sx sr = .ok .scipy := by
        rcases hb with rfl | ⟨rfl, rfl⟩ | ⟨rfl, rfl, rfl⟩ <;> simp [choose]
      have hfr : fraction (if 0 ≤ (newFs : ℝ) then ⌊(newFs : ℝ)⌋ else ⌈(newFs : ℝ)⌉) (if 0 ≤ (oldFs : ℝ) then ⌊(oldFs : ℝ)⌋ else ⌈(oldFs : ℝ)⌉) = .ok (r.num, (r.den : Int)) := by
        rw [if_pos (Nat.cast_nonneg _), if_pos (Nat.cast_nonneg _), Int.floor_natCast, Int.floor_natCast]
        unfold fraction
        rw [if_neg (by exact_mod_cast h0)]
      unfold resample
      rw [hch]
      simp only [Except.bind, hx, hfr, Except.map]
      have := ho
      unfold runColumns at this
      exact this

/-- **C97, refusals.** Unknown libraries raise `ValueError`, numbers without a dimension `IndexError`. -/
theorem C97_resample_refused (soxr : ℝ → ℝ → Chan) (samplerate : ℝ → Chan) (poly : Int → Int → Chan) (sx sr : Bool) (d : Nd) (oldFs newFs : ℝ) :
    resample soxr samplerate poly sx sr d oldFs newFs .other = .error .valueError ∧
    ∀ b, b ≠ .other → d.shape = [] → resample soxr samplerate poly sx sr d oldFs newFs b = .error .indexError := by
  refine ⟨rfl, fun b hb hs => ?_⟩
  unfold resample choose toColumns
  simp only [if_neg hb, hs, Except.bind]

/-- **C97, deviation.** With `scipy`, rates are cut to whole numbers: an array with an old rate below one hertz raises `ZeroDivisionError`. -/
theorem C97_fractional_rate_deviation (soxr : ℝ → ℝ → Chan) (samplerate : ℝ → Chan) (poly : Int → Int → Chan) (sx sr : Bool) (pre : List Nat) {n : Nat} (hn : n ≠ 0) (val : Nat → ℝ)
    {oldFs newFs : ℝ} (h0 : 0 < oldFs) (h1 : oldFs < 1) : resample soxr samplerate poly sx sr ⟨pre ++ [n], val⟩ oldFs newFs .scipy = .error .zeroDivision := by
  obtain ⟨x, hx, -⟩ := columns_ok pre hn val
  unfold resample
  have hf : ⌊oldFs⌋ = 0 := by
    rw [Int.floor_eq_iff]
    push_cast
    constructor <;> linarith
  simp only [choose, reduceCtorEq, if_false, false_and, Except.bind, hx, if_pos h0.le, hf, fraction, if_true, Except.map]

/-- Three delays, filters of 81 samples. -/
example : ([0.5, -1.25, 3] : List ℝ) ≠ [] := by simp

/-- A library that keeps every second sample, on a 2 × 3 × 4 array. -/
example : (Chan.mk (fun n => (n + 1) / 2) (fun n x s => if 2 * s < n then x (2 * s) else 0)).Local ∧ 0 < ([2, 3] : List Nat).prod := by
  refine ⟨fun n x y h => ?_, by decide⟩
  funext s
  simp only
  split
  · rename_i hs
    exact h _ hs
  · rfl

end Verif.Delays
