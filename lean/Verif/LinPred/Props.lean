import Verif.LinPred.Levinson
import Verif.Sync.Props
import Mathlib.Tactic.NormNum
import Mathlib.Algebra.BigOperators.Field

/-!
# Autocorrelation, linear prediction, convolution matrices, Goertzel: properties C24, C63
(C23 is in `Verif.LinPred.Levinson`)
-/

namespace Verif.LinPred

open Verif.Py Finset
open Verif.DFT
open Verif.Sync (getD_zero at0 at0_natCast at0_neg at0_ge corrAt)

/-! ## Specifications -/

/-- Autocorrelation sum at lag `m`. -/
def acf (x : List ℝ) (m : Nat) : ℝ := ∑ n ∈ range (x.length - m), x.getD n 0 * x.getD (n + m) 0

/-- Linear convolution of two vectors. -/
def conv (x h : List ℝ) (i : Nat) : ℝ :=
  ∑ a ∈ range x.length, ∑ b ∈ range h.length, if a + b = i then x.getD a 0 * h.getD b 0 else 0

/-- Energy of the error when each sample of the (zero-extended) signal is predicted from the `p` preceding ones
with the coefficients `c`. Outside of the `L + p` summands both the signal and the prediction vanish. -/
def predErr (x : List ℝ) (p : Nat) (c : Nat → ℝ) : ℝ :=
  ∑ n ∈ range (x.length + p), (at0 x n - ∑ k ∈ range p, c k * at0 x ((n : Int) - 1 - k)) ^ 2

/-! ## Lists -/

theorem slice_nat {α : Type} (l : List α) (a b : Nat) (ha : a ≤ l.length) :
    slice l (some (a : Int)) (some (b : Int)) = (l.drop a).take (min b l.length - a) := by
  unfold slice
  simp only [sliceStart, sliceStop]
  rw [clampIdx_nat, clampIdx_nat, Nat.min_eq_left ha]

theorem list_ext_map {α : Type} (l : List α) (d : α) (f : Nat → α) (n : Nat) (hl : l.length = n) (h : ∀ i, i < n → l.getD i d = f i) :
    l = (List.range n).map f := by
  apply List.ext_getElem (by simp [hl])
  intro i h1 h2
  rw [List.getElem_map, List.getElem_range, ← h i (by omega), List.getD_eq_getElem _ _ h1]

theorem drop_take_map {β : Type} (f : Nat → β) (N a k : Nat) (h : a + k ≤ N) :
    (((List.range N).map f).drop a).take k = (List.range k).map fun m => f (a + m) := by
  apply List.ext_getElem
  · simp; omega
  · intro i h1 h2
    simp

/-! ## C24: autocorrelation -/

theorem acf_full (x : List ℝ) (m N : Nat) (hN : x.length - m ≤ N) :
    ∑ n ∈ range N, x.getD (n + m) 0 * x.getD n 0 = acf x m := by
  unfold acf
  rw [← Finset.sum_range_add_sum_Ico _ hN, Finset.sum_eq_zero (s := Ico _ _), add_zero]
  · exact Finset.sum_congr rfl fun n _ => mul_comm _ _
  · intro n hn
    rw [mem_Ico] at hn
    rw [getD_zero x (by omega), zero_mul]

theorem time_lag (x : List ℝ) {m : Nat} (hm : m ≤ x.length) :
    dot (slice x none (some ((x.length : Int) - m))) (slice x (some (m : Int)) none) = .ok (acf x m) := by
  have h1 : slice x none (some ((x.length : Int) - m)) = x.take (x.length - m) := by
    unfold slice
    simp only [sliceStart, sliceStop]
    rw [show ((x.length : Int) - m) = ((x.length - m : Nat) : Int) by omega, clampIdx_nat, Nat.min_eq_left (by omega)]
    simp
  have h2 : slice x (some (m : Int)) none = x.drop m := by
    unfold slice
    simp only [sliceStart, sliceStop]
    rw [clampIdx_nat, Nat.min_eq_left hm, List.take_of_length_le (by simp)]
  have hl : (x.take (x.length - m)).length = (x.drop m).length := by simp
  unfold dot
  rw [h1, h2, if_neg (by rw [hl]; simp), sum_zipWith _ _ _ 0 0 hl]
  unfold acf
  congr 1
  rw [show (x.take (x.length - m)).length = x.length - m by simp]
  apply Finset.sum_congr rfl
  intro n hn
  rw [mem_range] at hn
  congr 1
  · rw [List.getD_eq_getElem?_getD, List.getElem?_take_of_lt hn, List.getD_eq_getElem?_getD]
  · rw [List.getD_eq_getElem?_getD, List.getElem?_drop, List.getD_eq_getElem?_getD, Nat.add_comm]

theorem timeLags_ok (x : List ℝ) (n : Nat) (hn : n ≤ x.length + 1) : timeLags x n = .ok ((List.range n).map (acf x)) := by
  induction n with
  | zero => rfl
  | succ n ih =>
    rw [timeLags, ih (by omega)]
    simp only
    rw [time_lag x (by omega)]
    simp [List.range_succ]

theorem npCorrelate_slice (x : List ℝ) (hx : 1 ≤ x.length) (p : Nat) :
    slice (npCorrelate x) (some ((x.length : Int) - 1)) (some ((x.length : Int) + p)) =
      (List.range (min (p + 1) x.length)).map (acf x) := by
  have hl : (npCorrelate x).length = 2 * x.length - 1 := by simp [npCorrelate]
  rw [show ((x.length : Int) - 1) = ((x.length - 1 : Nat) : Int) by omega,
    show ((x.length : Int) + p) = ((x.length + p : Nat) : Int) by omega, slice_nat _ _ _ (by omega), hl]
  unfold npCorrelate
  rw [drop_take_map _ _ _ _ (by omega), show min (x.length + p) (2 * x.length - 1) - (x.length - 1) = min (p + 1) x.length by omega]
  apply List.map_congr_left
  intro m hm
  rw [List.mem_range] at hm
  rw [← acf_full x m x.length (by omega)]
  apply Finset.sum_congr rfl
  intro n _
  rw [if_pos (by omega)]
  congr 2
  omega

theorem fft_lag (x : List ℝ) {m : Nat} (hm : m ≤ x.length) (hx : 1 ≤ x.length) :
    irfft (2 * x.length) (fun k => rfft (2 * x.length) (fun n => x.getD n 0) k *
      (starRingEnd ℂ) (rfft (2 * x.length) (fun n => x.getD n 0) k)) m = acf x m := by
  rw [Sync.irfft_mul_conj _ _ (by omega), ← acf_full x m x.length (by omega),
    ← Finset.sum_range_add_sum_Ico _ (show x.length ≤ 2 * x.length by omega), Finset.sum_eq_zero (s := Ico _ _), add_zero]
  · apply Finset.sum_congr rfl
    intro b hb
    rw [mem_range] at hb
    rw [Nat.add_comm b m]
    rcases Nat.lt_or_ge (m + b) (2 * x.length) with h | h
    · rw [Nat.mod_eq_of_lt h]
    · omega
  · intro b hb
    rw [mem_Ico] at hb
    rw [getD_zero x hb.1, mul_zero]

theorem corrAt_self (x : List ℝ) (m : Nat) : corrAt x x m = acf x m := by
  unfold corrAt
  rw [← acf_full x m x.length (by omega)]
  apply Finset.sum_congr rfl
  intro n _
  rw [← Nat.cast_add, at0_natCast]

theorem pra_lags (x : List ℝ) (hx : 1 ≤ x.length) {p : Nat} (hp : p < x.length) :
    rawLags x p .pra = .ok ((List.range (p + 1)).map (acf x)) := by
  obtain ⟨r, e, hl, hr⟩ : ∃ r, Sync.correlate x x 1 false = .ok r ∧ x.length + p ≤ r.length ∧
      ∀ m, m ≤ p → r.getD (x.length - 1 + m) none = some (acf x m) := by
    by_cases h2 : 2 ≤ x.length
    · obtain ⟨r, e, hl, hr⟩ := Sync.C22_correlate x x hx h2
      refine ⟨r, e, by omega, ?_⟩
      intro m hm
      rw [hr _ (by omega), show (((x.length - 1 + m : Nat) : Int) - (x.length - 1)) = (m : Int) by omega, corrAt_self]
    · have h1 : x.length = 1 := by omega
      obtain ⟨a, rfl⟩ := List.length_eq_one_iff.mp h1
      obtain ⟨r, e, hl, hr⟩ := Sync.C22_single_sample_deviation [a] (by simp) a
      refine ⟨r, e, by simp at hl hp ⊢; omega, ?_⟩
      intro m hm
      have : m = 0 := by omega
      subst this
      rw [hr _ (by simp), ← corrAt_self]
      simp
  unfold rawLags
  simp only
  rw [e]
  simp only
  rw [show ((x.length : Int) - 1) = ((x.length - 1 : Nat) : Int) by omega,
    show ((x.length : Int) + p) = ((x.length + p : Nat) : Int) by omega, slice_nat _ _ _ (by simp; omega)]
  congr 1
  have hlen : (List.map (fun o : Option ℝ => o.getD 0) r).length = r.length := by simp
  rw [hlen]
  apply list_ext_map _ 0
  · simp; omega
  · intro i hi
    rw [List.getD_eq_getElem?_getD, List.getElem?_take_of_lt (by omega), List.getElem?_drop, List.getElem?_map]
    have := hr i (by omega)
    rw [List.getD_eq_getElem _ _ (by omega)] at this
    rw [List.getElem?_eq_getElem (by omega), this]
    rfl

theorem rawLags_ok (x : List ℝ) {p : Nat} (hp : p < x.length) {method : Method} (hm : method ≠ .other) :
    rawLags x p method = .ok ((List.range (p + 1)).map (acf x)) := by
  cases method with
  | other => exact absurd rfl hm
  | pra => exact pra_lags x (by omega) hp
  | time => exact timeLags_ok x (p + 1) (by omega)
  | numpy =>
    unfold rawLags
    simp only
    rw [if_neg (by omega), npCorrelate_slice x (by omega), Nat.min_eq_left (by omega)]
  | fft =>
    unfold rawLags
    simp only
    rw [if_neg (by omega)]
    congr 1
    have := drop_take_map (fun m => irfft (2 * x.length) (fun k => rfft (2 * x.length) (fun n => x.getD n 0) k *
      (starRingEnd ℂ) (rfft (2 * x.length) (fun n => x.getD n 0) k)) m) (2 * x.length) 0 (p + 1) (by omega)
    rw [List.drop_zero] at this
    rw [this]
    apply List.map_congr_left
    intro m hm
    rw [List.mem_range] at hm
    rw [Nat.zero_add, fft_lag x (by omega) (by omega)]

/-- **C24** `autocorr`: for lags smaller than the length of the signal all four methods return the same values,
the autocorrelation sums divided by the length (biased) or by the number of summands (unbiased). Any other
method raises `ValueError`. -/
theorem C24_autocorr (x : List ℝ) {p : Nat} (hp : p < x.length) (biased : Bool) :
    (∀ method, method ≠ .other → autocorr x p biased method =
      .ok ((List.range (p + 1)).map fun m => some (acf x m / (if biased then (x.length : ℝ) else ((x.length - m : Nat) : ℝ))))) ∧
    autocorr x p biased .other = .error .valueError := by
  refine ⟨?_, rfl⟩
  intro method hm
  unfold autocorr
  rw [rawLags_ok x hp hm]
  simp only
  cases biased
  · simp only [Bool.false_eq_true, if_false]
    rw [if_pos (by simp)]
    congr 1
    apply List.ext_getElem
    · simp
    · intro i h1 h2
      simp at h1 h2
      simp only [List.getElem_zipWith, List.getElem_map, List.getElem_range]
      have hc : (x.length : ℝ) - i = ((x.length - i : Nat) : ℝ) := by rw [Nat.cast_sub (by omega)]
      rw [if_neg, hc]
      rw [hc]
      exact_mod_cast (by omega : x.length - i ≠ 0)
  · simp only [if_true, List.map_map]
    congr 1
    apply List.map_congr_left
    intro m _
    simp only [Function.comp]
    rw [if_neg]
    exact_mod_cast (by omega : x.length ≠ 0)

/-- Non-vacuity of C24. -/
example : acf [1, 2, 3] 0 = 14 ∧ acf [1, 2, 3] 1 = 8 ∧ acf [1, 2, 3] 2 = 3 := by
  simp [acf, Finset.sum_range_succ]; norm_num

/-- **C24**, deviation: for lags of at least the length of the signal the methods disagree. `numpy` returns only the
`L` first values instead of `p + 1`, `time` raises, and `fft` returns the mirrored lags
(lag `L + j` has the value of lag `L - j`) instead of zeros. -/
theorem C24_large_lag_deviation (x : List ℝ) (hx : 2 ≤ x.length) {p : Nat} (hp : x.length < p) (hp2 : p < 2 * x.length) :
    (∃ r, autocorr x p true .numpy = .ok r ∧ r.length = x.length) ∧
    autocorr x p true .time = .error .valueError ∧
    (∃ r, autocorr x p true .fft = .ok r ∧ r.length = p + 1 ∧
      r.getD (x.length + 1) none = some (acf x (x.length - 1) / x.length)) := by
  have hL : (x.length : ℝ) ≠ 0 := by exact_mod_cast (by omega : x.length ≠ 0)
  refine ⟨?_, ?_, ?_⟩
  · unfold autocorr rawLags
    simp only
    rw [if_neg (by omega), npCorrelate_slice x (by omega), Nat.min_eq_right (by omega)]
    exact ⟨_, rfl, by simp⟩
  · have hbad : timeLags x (x.length + 2) = .error .valueError := by
      rw [timeLags, timeLags_ok x _ (by omega)]
      simp only
      have h1 : (slice x none (some ((x.length : Int) - (x.length + 1 : Nat)))).length = x.length - 1 := by
        unfold slice
        simp only [sliceStart, sliceStop]
        rw [show ((x.length : Int) - (x.length + 1 : Nat)) = -((1 : Nat) : Int) by omega, clampIdx_neg _ (by omega)]
        simp
      have h2 : (slice x (some ((x.length + 1 : Nat) : Int)) none).length = 0 := by
        unfold slice
        simp only [sliceStart, sliceStop]
        rw [clampIdx_nat]
        simp
      have : dot (slice x none (some ((x.length : Int) - (x.length + 1 : Nat)))) (slice x (some ((x.length + 1 : Nat) : Int)) none) =
          .error .valueError := by
        unfold dot
        rw [if_pos (by rw [h1, h2]; omega)]
      rw [this]
    have hall : ∀ k, timeLags x (x.length + 2 + k) = .error .valueError := by
      intro k
      induction k with
      | zero => exact hbad
      | succ k ih => rw [← Nat.add_assoc, timeLags, ih]
    unfold autocorr rawLags
    simp only
    obtain ⟨k, rfl⟩ : ∃ k, p = x.length + 1 + k := ⟨p - (x.length + 1), by omega⟩
    rw [show x.length + 1 + k + 1 = x.length + 2 + k by omega, hall]
  · unfold autocorr rawLags
    simp only
    rw [if_neg (by omega)]
    refine ⟨_, rfl, by simp; omega, ?_⟩
    rw [List.getD_eq_getElem _ _ (by simp; omega)]
    simp only [List.getElem_map, List.getElem_take, List.getElem_range]
    rw [if_neg hL]
    congr 2
    rw [Sync.irfft_mul_conj _ _ (by omega), ← Finset.sum_range_add_sum_Ico _ (show x.length ≤ 2 * x.length by omega),
      Finset.sum_eq_zero (s := Ico _ _), add_zero]
    · unfold acf
      rw [show x.length - (x.length - 1) = 1 by omega, Finset.sum_range_one]
      obtain ⟨l, hl⟩ : ∃ l, x.length = l + 1 := ⟨x.length - 1, by omega⟩
      rw [hl, Finset.sum_range_succ, Finset.sum_eq_zero]
      · rw [zero_add, show l + 1 + 1 + l = 2 * (l + 1) by omega, Nat.mod_self]; simp
      · intro b hb
        rw [mem_range] at hb
        rw [Nat.mod_eq_of_lt (by omega), getD_zero x (by omega), zero_mul]
    · intro b hb
      rw [mem_Ico] at hb
      rw [getD_zero x hb.1, mul_zero]

/-! ## C24: convolution matrix -/

/-- **C24** `convmtx(x, n)` has `len(x) + n - 1` rows and `n` columns, and its product with any vector of
length `n` is the convolution. -/
theorem C24_convmtx (x h : List ℝ) (hh : 1 ≤ h.length) :
    ∃ M, convmtx x h.length = .ok M ∧ M.rows = x.length + h.length - 1 ∧ M.cols = h.length ∧
      ∀ i, i < M.rows → ∑ j ∈ range M.cols, M.val i j * h.getD j 0 = conv x h i := by
  unfold convmtx
  rw [if_neg (by omega)]
  refine ⟨_, rfl, by simp; omega, by simp, ?_⟩
  intro i hi
  simp only [List.length_replicate, List.length_append] at hi ⊢
  unfold conv
  rw [Finset.sum_comm]
  apply Finset.sum_congr rfl
  intro j hj
  rw [mem_range] at hj
  by_cases hji : j ≤ i
  · rw [if_pos hji]
    by_cases hx : i - j < x.length
    · rw [List.getD_append _ _ _ _ hx, Finset.sum_eq_single (i - j)]
      · rw [if_pos (by omega)]
      · intro a _ ha
        rw [if_neg (by omega)]
      · intro ha
        exact absurd (mem_range.mpr hx) ha
    · rw [List.getD_append_right _ _ _ _ (by omega), Finset.sum_eq_zero]
      · rw [List.getD_replicate _ (by omega), zero_mul]
      · intro a ha
        rw [mem_range] at ha
        rw [if_neg (by omega)]
  · rw [if_neg hji, List.getD_replicate _ (by omega), zero_mul, Finset.sum_eq_zero]
    intro a _
    rw [if_neg (by omega)]

/-- Non-vacuity of C24 (convolution matrix). -/
example : ∃ M, convmtx [1, 2] 2 = .ok M ∧ M.rows = 3 ∧ M.val 2 1 = 2 ∧ M.val 0 1 = 0 ∧ conv [1, 2] [3, 4] 1 = 10 := by
  refine ⟨_, rfl, rfl, ?_, ?_, ?_⟩ <;> simp [conv, Finset.sum_range_succ]; norm_num

/-! ## C24: Goertzel -/

theorem lfilter2_length (a1 a2 s1 s2 : ℂ) (x : List ℂ) : (lfilter2 a1 a2 s1 s2 x).length = x.length := by
  induction x generalizing s1 s2 with
  | nil => rfl
  | cons v t ih => rw [lfilter2]; simp [ih]

/-- The last two outputs of the resonator. -/
theorem lfilter2_last (z w : ℂ) (hzw : z * w = 1) (s1 s2 : ℂ) (x : List ℂ) :
    ∃ u v, ([s2, s1] ++ lfilter2 (-(z + w)) 1 s1 s2 x).drop x.length = [u, v] ∧
      z * v - u = z ^ x.length * (z * s1 - s2) + ∑ m ∈ range x.length, x.getD m 0 * z ^ (x.length - m) := by
  induction x generalizing s1 s2 with
  | nil => exact ⟨s2, s1, rfl, by simp⟩
  | cons c t ih =>
    obtain ⟨u, v, h1, h2⟩ := ih (c - -(z + w) * s1 - 1 * s2) s1
    refine ⟨u, v, ?_, ?_⟩
    · rw [lfilter2]; simpa using h1
    · rw [h2, List.length_cons, Finset.sum_range_succ']
      simp only [List.getD_cons_succ, List.getD_cons_zero, Nat.add_sub_add_right, Nat.sub_zero]
      have : z * (c - -(z + w) * s1 - 1 * s2) - s1 = z * c + z * (z * s1 - s2) := by linear_combination s1 * hzw
      rw [this, pow_succ]
      ring

theorem get_neg1 {α : Type} (l : List α) (u v : α) (k : Nat) (h : l.drop k = [u, v]) : Py.get l (-1) = .ok v ∧ Py.get l (-2) = .ok u := by
  have hl : l.length = k + 2 := by
    have := congrArg List.length h
    simp at this; omega
  have hv : l[k + 1]? = some v := by rw [← List.getElem?_drop, h]; rfl
  have hu : l[k]? = some u := by
    have := List.getElem?_drop (xs := l) (i := k) (j := 0)
    rw [h] at this
    simpa using this.symm
  unfold Py.get normIdx
  rw [hl]
  constructor
  · rw [if_neg (by omega), if_pos (by omega), show ((-1 : Int) + (k + 2 : Nat)).toNat = k + 1 by omega]; simp only; rw [hv]
  · rw [if_neg (by omega), if_pos (by omega), show ((-2 : Int) + (k + 2 : Nat)).toNat = k by omega]; simp only; rw [hu]

/-- **C24** `goertzel(x, k)` for at least two samples and any real `k`. -/
theorem C24_goertzel_real (x : List ℂ) (hx : 2 ≤ x.length) (k : ℝ) :
    goertzel x k = .ok (Complex.exp (2 * Complex.I * Real.pi * k) *
      ∑ n ∈ range x.length, x.getD n 0 * Complex.exp (-(2 * Complex.I * Real.pi * (k / x.length) * n))) := by
  have hL : (x.length : ℂ) ≠ 0 := by exact_mod_cast (by omega : x.length ≠ 0)
  set f : ℝ := k / x.length with hf
  set z : ℂ := Complex.exp (2 * Complex.I * Real.pi * f) with hz
  set w : ℂ := Complex.exp (-(2 * Complex.I * Real.pi * f)) with hw
  have hzw : z * w = 1 := by rw [hz, hw, ← Complex.exp_add, add_neg_cancel, Complex.exp_zero]
  have hcos : ((-2 * Real.cos (2 * Real.pi * f) : ℝ) : ℂ) = -(z + w) := by
    push_cast
    rw [Complex.cos, hz, hw]
    have e1 : 2 * (Real.pi : ℂ) * f * Complex.I = 2 * Complex.I * Real.pi * f := by ring
    have e2 : -(2 * (Real.pi : ℂ) * f) * Complex.I = -(2 * Complex.I * Real.pi * f) := by ring
    rw [e1, e2]; ring
  obtain ⟨u, v, h1, h2⟩ := lfilter2_last z w hzw 0 0 x
  obtain ⟨l, hl⟩ : ∃ l, x.length = l + 2 := ⟨x.length - 2, by omega⟩
  have hd : (lfilter2 (-(z + w)) 1 0 0 x).drop l = [u, v] := by
    rw [hl] at h1
    simpa using h1
  obtain ⟨g1, g2⟩ := get_neg1 _ _ _ _ hd
  unfold goertzel
  rw [if_neg (by omega)]
  simp only
  rw [← hf, hcos, g1, g2]
  simp only
  rw [← hz, h2, mul_zero, sub_zero, mul_zero, zero_add, Finset.mul_sum]
  congr 1
  apply Finset.sum_congr rfl
  intro m hm
  rw [mem_range] at hm
  rw [mul_left_comm]
  congr 1
  rw [hz, ← Complex.exp_nat_mul, ← Complex.exp_add]
  congr 1
  rw [Nat.cast_sub (by omega), hf]
  push_cast
  field_simp
  ring

/-- **C24** `goertzel(x, k)` for integer `k` is the `k`-th coefficient of the discrete Fourier transform. -/
theorem C24_goertzel (x : List ℂ) (hx : 2 ≤ x.length) (k : Int) :
    goertzel x k = .ok (∑ n ∈ range x.length, x.getD n 0 * Complex.exp (-(2 * Complex.I * Real.pi * (k / x.length) * n))) := by
  have := C24_goertzel_real x hx (k : ℝ)
  rw [this]
  congr 1
  have he : Complex.exp (2 * Complex.I * Real.pi * ((k : ℝ) : ℂ)) = 1 := by
    rw [Complex.exp_eq_one_iff]
    exact ⟨k, by push_cast; ring⟩
  rw [he, one_mul]
  simp

/-- Non-vacuity of C24 (Goertzel): three samples. -/
example : (2 : Nat) ≤ ([1, 2, 3] : List ℂ).length := by simp

/-- **C24**, deviation: for a single sample `goertzel` raises. -/
theorem C24_goertzel_single_deviation (a : ℂ) (k : ℝ) : goertzel [a] k = .error .indexError := by
  unfold goertzel
  simp [lfilter2, Py.get, normIdx]

/-! ## C63: linear prediction -/

/-- The lags as inner products of shifted copies. -/
theorem gram (x : List ℝ) {i k N : Nat} (hik : i ≤ k) (hN : x.length + k ≤ N) :
    ∑ n ∈ range N, at0 x ((n : Int) - i) * at0 x ((n : Int) - k) = acf x (k - i) := by
  obtain ⟨c, rfl⟩ : ∃ c, N = k + c := ⟨N - k, by omega⟩
  rw [Finset.sum_range_add, Finset.sum_eq_zero, zero_add, ← acf_full x (k - i) c (by omega)]
  · apply Finset.sum_congr rfl
    intro n _
    rw [show (((k + n : Nat) : Int) - i) = ((n + (k - i) : Nat) : Int) by omega,
      show (((k + n : Nat) : Int) - k) = (n : Int) by omega, at0_natCast, at0_natCast]
  · intro n hn
    rw [mem_range] at hn
    rw [at0_neg x (k := (n : Int) - k) (by omega), mul_zero]

theorem gram' (x : List ℝ) {i k N : Nat} (hi : x.length + i ≤ N) (hk : x.length + k ≤ N) (r : List ℝ) (q : Nat) (c : ℝ)
    (hi' : i < q) (hk' : k < q)
    (hr : ∀ m, m < q → r.getD m 0 = acf x m / c) :
    colToep r i k = (∑ n ∈ range N, at0 x ((n : Int) - i) * at0 x ((n : Int) - k)) / c := by
  unfold colToep
  by_cases h : k ≤ i
  · rw [if_pos h, hr _ (by omega), ← gram x h hi]
    congr 1
    exact Finset.sum_congr rfl fun n _ => mul_comm _ _
  · rw [if_neg h, hr _ (by omega), ← gram x (by omega) hk]
    simp

/-- A nonzero signal filtered by a nonzero filter is nonzero. -/
theorem filtered_ne (x : List ℝ) (hx : ∃ k, x.getD k 0 ≠ 0) (v : Nat → ℝ) (q : Nat) (hv : ∃ k, k < q ∧ v k ≠ 0) :
    0 < ∑ n ∈ range (x.length + q), (∑ k ∈ range q, v k * at0 x ((n : Int) - k)) ^ 2 := by
  classical
  set n0 := Nat.find hx
  have hn0 : x.getD n0 0 ≠ 0 := Nat.find_spec hx
  set k0 := Nat.find hv
  obtain ⟨hk0, hvk0⟩ : k0 < q ∧ v k0 ≠ 0 := Nat.find_spec hv
  have hn0L : n0 < x.length := by
    by_contra h
    exact hn0 (getD_zero x (by omega))
  have hval : ∑ k ∈ range q, v k * at0 x (((n0 + k0 : Nat) : Int) - k) = v k0 * x.getD n0 0 := by
    rw [Finset.sum_eq_single k0]
    · rw [show (((n0 + k0 : Nat) : Int) - k0) = (n0 : Int) by omega, at0_natCast]
    · intro k hk hne
      rw [mem_range] at hk
      rcases Nat.lt_or_ge k k0 with h | h
      · have := Nat.find_min hv h
        have hz : v k = 0 := by
          by_contra hz
          exact this ⟨hk, hz⟩
        rw [hz, zero_mul]
      · by_cases hneg : ((n0 + k0 : Nat) : Int) - k < 0
        · rw [at0_neg x hneg, mul_zero]
        · have hlt : n0 + k0 - k < n0 := by omega
          have := Nat.find_min hx hlt
          rw [show (((n0 + k0 : Nat) : Int) - k) = ((n0 + k0 - k : Nat) : Int) by omega, at0_natCast, not_not.mp this, mul_zero]
    · intro h
      exact absurd (mem_range.mpr hk0) h
  apply Finset.sum_pos'
  · intro n _; positivity
  · exact ⟨n0 + k0, mem_range.mpr (by omega), by rw [hval]; positivity⟩

/-- The autocorrelation matrix is positive definite. -/
theorem acf_posdef (x : List ℝ) (hx : ∃ k, x.getD k 0 ≠ 0) (r : List ℝ) (q : Nat) {c : ℝ} (hc : 0 < c)
    (hr : ∀ m, m < q → r.getD m 0 = acf x m / c) (v : Nat → ℝ) (hv : ∃ k, k < q ∧ v k ≠ 0) :
    ∑ i ∈ range q, (starRingEnd ℝ) (v i) * ∑ k ∈ range q, rowToep r i k * v k ≠ 0 := by
  have hpos := filtered_ne x hx v q hv
  have : ∑ i ∈ range q, (starRingEnd ℝ) (v i) * ∑ k ∈ range q, rowToep r i k * v k =
      (∑ n ∈ range (x.length + q), (∑ k ∈ range q, v k * at0 x ((n : Int) - k)) ^ 2) / c := by
    have h1 : ∀ i ∈ range q, (starRingEnd ℝ) (v i) * ∑ k ∈ range q, rowToep r i k * v k =
        ∑ k ∈ range q, ∑ n ∈ range (x.length + q), (v i * at0 x ((n : Int) - i)) * (v k * at0 x ((n : Int) - k)) / c := by
      intro i hi
      rw [mem_range] at hi
      rw [Finset.mul_sum]
      apply Finset.sum_congr rfl
      intro k hk
      rw [mem_range] at hk
      have hrc : rowToep r i k = colToep r i k := by
        unfold rowToep colToep
        split <;> simp
      rw [hrc, gram' x (N := x.length + q) (by omega) (by omega) r q c hi hk hr, div_mul_eq_mul_div, Finset.sum_mul,
        Finset.sum_div, Finset.mul_sum]
      apply Finset.sum_congr rfl
      intro n _
      simp only [conj_trivial]
      ring
    rw [Finset.sum_congr rfl h1, Finset.sum_div]
    have h2 : ∀ i ∈ range q, ∑ k ∈ range q, ∑ n ∈ range (x.length + q), (v i * at0 x ((n : Int) - i)) * (v k * at0 x ((n : Int) - k)) / c =
        ∑ n ∈ range (x.length + q), ∑ k ∈ range q, (v i * at0 x ((n : Int) - i)) * (v k * at0 x ((n : Int) - k)) / c :=
      fun i _ => Finset.sum_comm
    rw [Finset.sum_congr rfl h2, Finset.sum_comm]
    apply Finset.sum_congr rfl
    intro n _
    rw [pow_two, Finset.sum_mul_sum, Finset.sum_div]
    exact Finset.sum_congr rfl fun i _ => (Finset.sum_div _ _ _).symm
  rw [this]
  exact ne_of_gt (div_pos hpos hc)

/-- Normal equations give the least squares solution. -/
theorem normal_eq (N p : Nat) (y : Nat → ℝ) (z : Nat → Nat → ℝ) (a c : Nat → ℝ)
    (h : ∀ i, i < p → ∑ n ∈ range N, (y n - ∑ k ∈ range p, a k * z k n) * z i n = 0) :
    ∑ n ∈ range N, (y n - ∑ k ∈ range p, c k * z k n) ^ 2 =
      ∑ n ∈ range N, (y n - ∑ k ∈ range p, a k * z k n) ^ 2 + ∑ n ∈ range N, (∑ k ∈ range p, (c k - a k) * z k n) ^ 2 := by
  have hsplit : ∀ n ∈ range N, (y n - ∑ k ∈ range p, c k * z k n) ^ 2 =
      (y n - ∑ k ∈ range p, a k * z k n) ^ 2 + (∑ k ∈ range p, (c k - a k) * z k n) ^ 2 -
      2 * ∑ k ∈ range p, (c k - a k) * ((y n - ∑ k ∈ range p, a k * z k n) * z k n) := by
    intro n _
    have e1 : ∑ k ∈ range p, (c k - a k) * z k n = ∑ k ∈ range p, c k * z k n - ∑ k ∈ range p, a k * z k n := by
      rw [← Finset.sum_sub_distrib]; exact Finset.sum_congr rfl fun k _ => by ring
    have e2 : ∑ k ∈ range p, (c k - a k) * ((y n - ∑ k ∈ range p, a k * z k n) * z k n) =
        (y n - ∑ k ∈ range p, a k * z k n) * ∑ k ∈ range p, (c k - a k) * z k n := by
      rw [Finset.mul_sum]; exact Finset.sum_congr rfl fun k _ => by ring
    rw [e2, e1]; ring
  rw [Finset.sum_congr rfl hsplit, Finset.sum_sub_distrib, Finset.sum_add_distrib, ← Finset.mul_sum, Finset.sum_comm (s := range N)]
  have : ∑ k ∈ range p, ∑ n ∈ range N, (c k - a k) * ((y n - ∑ k ∈ range p, a k * z k n) * z k n) = 0 := by
    apply Finset.sum_eq_zero
    intro k hk
    rw [← Finset.mul_sum, h k (mem_range.mp hk), mul_zero]
  rw [this]; ring

theorem lpc_args {l : List ℝ} {p : Nat} (hl : l.length = p + 1) :
    slice l none (some (p : Int)) = l.take p ∧ slice l (some 1) none = l.drop 1 := by
  constructor
  · unfold slice
    simp only [sliceStart, sliceStop]
    rw [clampIdx_nat, Nat.min_eq_left (by omega)]
    simp
  · unfold slice
    simp only [sliceStart, sliceStop]
    rw [show (1 : Int) = ((1 : Nat) : Int) by rfl, clampIdx_nat, Nat.min_eq_left (by omega), List.take_of_length_le (by simp)]

/-- **C63** `lpc(x, p)` (biased) for a nonzero signal longer than the order: returns `p` coefficients, and every other
choice of coefficients has a strictly larger prediction error energy. -/
theorem C63_lpc (x : List ℝ) (hx : ∃ k, x.getD k 0 ≠ 0) {p : Nat} (hp1 : 1 ≤ p) (hp : p < x.length) :
    ∃ a : List ℝ, lpc x p true = .ok (some a) ∧ a.length = p ∧
      ∀ c : Nat → ℝ, (∃ k, k < p ∧ c k ≠ a.getD k 0) → predErr x p (fun k => a.getD k 0) < predErr x p c := by
  have hL : (0 : ℝ) < x.length := by exact_mod_cast (by omega : 0 < x.length)
  set l : List ℝ := (List.range (p + 1)).map fun m => acf x m / x.length with hl
  have hll : l.length = p + 1 := by simp [hl]
  have hlv : ∀ m, m ≤ p → l.getD m 0 = acf x m / x.length := by
    intro m hm
    rw [List.getD_eq_getElem _ _ (by omega)]
    simp [hl]
  have hlpc : lpc x p true = levinson (K := ℝ) (V := ℝ) (l.take p) (l.drop 1) := by
    unfold lpc
    rw [(C24_autocorr x hp true).1 .numpy (by simp)]
    simp only [if_true]
    rw [if_neg (by simp), List.map_map, ← (lpc_args hll).1, ← (lpc_args hll).2]
    rfl
  have hbl : (l.drop 1).length = p := by simp [hll]
  have hr : ∀ m, m < p → (l.take p).getD m 0 = acf x m / x.length := by
    intro m hm
    rw [← hlv m (by omega), List.getD_eq_getElem?_getD, List.getElem?_take_of_lt hm, List.getD_eq_getElem?_getD]
  have hb : ∀ i, i < p → (l.drop 1).getD i 0 = acf x (i + 1) / x.length := by
    intro i hi
    rw [← hlv _ (by omega), List.getD_eq_getElem?_getD, List.getElem?_drop, List.getD_eq_getElem?_getD, Nat.add_comm]
  obtain ⟨a, e, hal, ha⟩ := C23_posdef (K := ℝ) (V := ℝ) (l.take p) (l.drop 1) (by omega) (by rw [hbl]; simp [hll]) (by simp)
    (by rw [hbl]; exact acf_posdef x hx _ p hL hr)
  rw [hbl] at ha hal
  refine ⟨a, by rw [hlpc, e], hal, ?_⟩
  intro c hc
  have hnormal : ∀ i, i < p → ∑ n ∈ range (x.length + p), (at0 x n - ∑ k ∈ range p, a.getD k 0 * at0 x ((n : Int) - 1 - k)) *
      at0 x ((n : Int) - 1 - i) = 0 := by
    intro i hi
    have h1 := ha i hi
    simp only [smul_eq_mul] at h1
    rw [hb i hi] at h1
    have h2 : ∑ n ∈ range (x.length + p), at0 x n * at0 x ((n : Int) - 1 - i) = acf x (i + 1) := by
      have := gram x (i := 0) (k := i + 1) (N := x.length + p) (by omega) (by omega)
      rw [Nat.sub_zero] at this
      rw [← this]
      apply Finset.sum_congr rfl
      intro n _
      congr 2 <;> push_cast <;> ring
    have h3 : ∀ k ∈ range p, rowToep (l.take p) i k * a.getD k 0 =
        a.getD k 0 * (∑ n ∈ range (x.length + p), at0 x ((n : Int) - 1 - k) * at0 x ((n : Int) - 1 - i)) / x.length := by
      intro k hk
      rw [mem_range] at hk
      have hrc : rowToep (l.take p) i k = colToep (l.take p) i k := by
        unfold rowToep colToep
        split <;> simp
      have hcol : colToep (l.take p) i k = colToep l (i + 1) (k + 1) := by
        have : ∀ m, m < p → (l.take p).getD m 0 = l.getD m 0 := fun m hm => by rw [hr m hm, hlv m (by omega)]
        unfold colToep
        by_cases hki : k ≤ i
        · rw [if_pos hki, if_pos (by omega), this _ (by omega)]; congr 1; omega
        · rw [if_neg hki, if_neg (by omega), this _ (by omega)]; congr 2; omega
      rw [hrc, hcol, gram' x (N := x.length + p) (by omega) (by omega) l (p + 1) x.length (by omega) (by omega)
        (fun m hm => hlv m (by omega)), div_mul_eq_mul_div, mul_comm]
      congr 2
      apply Finset.sum_congr rfl
      intro n _
      rw [mul_comm]
      congr 2 <;> push_cast <;> ring
    rw [Finset.sum_congr rfl h3, ← Finset.sum_div] at h1
    have h4 := (div_left_inj' (ne_of_gt hL)).mp h1
    have h5 : ∀ n ∈ range (x.length + p), (at0 x n - ∑ k ∈ range p, a.getD k 0 * at0 x ((n : Int) - 1 - k)) * at0 x ((n : Int) - 1 - i) =
        at0 x n * at0 x ((n : Int) - 1 - i) - ∑ k ∈ range p, a.getD k 0 * (at0 x ((n : Int) - 1 - k) * at0 x ((n : Int) - 1 - i)) := by
      intro n _
      rw [sub_mul, Finset.sum_mul]
      congr 1
      exact Finset.sum_congr rfl fun k _ => by ring
    rw [Finset.sum_congr rfl h5, Finset.sum_sub_distrib, h2, Finset.sum_comm, ← h4]
    rw [sub_eq_zero]
    exact Finset.sum_congr rfl fun k _ => by rw [Finset.mul_sum]
  unfold predErr
  rw [normal_eq (x.length + p) p (fun n => at0 x n) (fun k n => at0 x ((n : Int) - 1 - k)) (fun k => a.getD k 0) c hnormal]
  have hpos := filtered_ne x hx (fun k => if k = 0 then 0 else c (k - 1) - a.getD (k - 1) 0) (p + 1) (by
    obtain ⟨k, hk, hne⟩ := hc
    refine ⟨k + 1, by omega, ?_⟩
    rw [if_neg (by omega), Nat.add_sub_cancel]
    exact sub_ne_zero.mpr hne)
  have hsum : ∑ n ∈ range (x.length + (p + 1)), (∑ k ∈ range (p + 1), (if k = 0 then 0 else c (k - 1) - a.getD (k - 1) 0) * at0 x ((n : Int) - k)) ^ 2 =
      ∑ n ∈ range (x.length + p), (∑ k ∈ range p, (c k - a.getD k 0) * at0 x ((n : Int) - 1 - k)) ^ 2 := by
    have hin : ∀ n : Nat, ∑ k ∈ range (p + 1), (if k = 0 then 0 else c (k - 1) - a.getD (k - 1) 0) * at0 x ((n : Int) - k) =
        ∑ k ∈ range p, (c k - a.getD k 0) * at0 x ((n : Int) - 1 - k) := by
      intro n
      rw [Finset.sum_range_succ']
      simp only [if_true, zero_mul, add_zero]
      apply Finset.sum_congr rfl
      intro k _
      rw [if_neg (by omega), Nat.add_sub_cancel]
      congr 2
      push_cast; ring
    simp only [hin]
    rw [← Nat.add_assoc, Finset.sum_range_succ]
    have : ∑ k ∈ range p, (c k - a.getD k 0) * at0 x (((x.length + p : Nat) : Int) - 1 - k) = 0 := by
      apply Finset.sum_eq_zero
      intro k hk
      rw [mem_range] at hk
      rw [at0_ge x (by omega), mul_zero]
    rw [this]; simp
  rw [hsum] at hpos
  linarith

/-- Non-vacuity of C63: a decaying signal; the prediction error of the zero predictor. -/
example : (∃ k, ([4, 2, 1] : List ℝ).getD k 0 ≠ 0) ∧ predErr [4, 2, 1] 1 (fun _ => 0) = 21 ∧
    predErr [4, 2, 1] 1 (fun _ => 1 / 2) = 16 + 1 / 4 := by
  refine ⟨⟨0, by simp⟩, ?_, ?_⟩
  · simp [predErr, at0, Finset.sum_range_succ]; norm_num
  · simp [predErr, at0, Finset.sum_range_succ]; norm_num

theorem acf_zero (x : List ℝ) (hx : ∀ k, x.getD k 0 = 0) (m : Nat) : acf x m = 0 := by
  unfold acf
  exact Finset.sum_eq_zero fun n _ => by rw [hx, zero_mul]

/-- **C63**, deviation: for an all-zero signal the coefficients are NaN although every predictor is exact. -/
theorem C63_zero_deviation (x : List ℝ) (hx : ∀ k, x.getD k 0 = 0) {p : Nat} (hp1 : 1 ≤ p) (hp : p < x.length) :
    lpc x p true = .ok none ∧ ∀ c, predErr x p c = 0 := by
  constructor
  · set l : List ℝ := (List.range (p + 1)).map fun m => acf x m / x.length with hl
    have hll : l.length = p + 1 := by simp [hl]
    have hlpc : lpc x p true = levinson (K := ℝ) (V := ℝ) (l.take p) (l.drop 1) := by
      unfold lpc
      rw [(C24_autocorr x hp true).1 .numpy (by simp)]
      simp only [if_true]
      rw [if_neg (by simp), List.map_map, ← (lpc_args hll).1, ← (lpc_args hll).2]
      rfl
    rw [hlpc]
    unfold levinson
    rw [List.length_drop, hll, show p + 1 - 1 - 1 = p - 1 by omega]
    have hloop : ∀ n, n < p → levLoop (K := ℝ) (V := ℝ) (l.take p) (l.drop 1) n = .ok none := by
      intro n
      induction n with
      | zero =>
        intro _
        have er := get_nat (l.take p) (k := 0) (by simp [hll]; omega)
        have eb := get_nat (l.drop 1) (k := 0) (by simp [hll]; omega)
        rw [Nat.cast_zero] at er eb
        rw [levLoop, er, eb]
        simp only
        rw [if_pos]
        simp [hl, acf_zero x hx]
      | succ n ih =>
        intro hn
        rw [levLoop, ih (by omega)]
        simp only
        rw [if_neg (by simp [hll]; omega)]
    rw [hloop _ (by omega)]
  · intro c
    have h0 : ∀ m : Int, at0 x m = 0 := by
      intro m
      unfold at0
      split
      · exact hx _
      · rfl
    simp [predErr, h0]

/-- **C63**, deviation: if the order is not smaller than the length, `L - 1` instead of `p` coefficients are returned. -/
theorem C63_large_order_deviation (x : List ℝ) (hx : 2 ≤ x.length) {p : Nat} (hp : x.length ≤ p) :
    (∃ a : List ℝ, lpc x p true = .ok (some a) ∧ a.length = x.length - 1) ∨ lpc x p true = .ok none := by
  have hL : (x.length : ℝ) ≠ 0 := by exact_mod_cast (by omega : x.length ≠ 0)
  have hac : autocorr x p true .numpy = .ok ((List.range x.length).map fun m => some (acf x m / x.length)) := by
    unfold autocorr rawLags
    simp only
    rw [if_neg (by omega), npCorrelate_slice x (by omega), Nat.min_eq_right (by omega)]
    simp [hL, Function.comp_def]
  have hl : ((List.range x.length).map fun m => acf x m / x.length).length = x.length := by simp
  set l : List ℝ := (List.range x.length).map fun m => acf x m / x.length
  have hs1 : slice l none (some (p : Int)) = l := by
    unfold slice
    simp only [sliceStart, sliceStop]
    rw [clampIdx_nat, Nat.min_eq_right (by omega)]
    simp
  have hs2 : (slice l (some 1) none).length = x.length - 1 := by
    unfold slice
    simp only [sliceStart, sliceStop]
    rw [show (1 : Int) = ((1 : Nat) : Int) by rfl, clampIdx_nat, Nat.min_eq_left (by omega)]
    simp [hl]
  have hlpc : lpc x p true = levinson (K := ℝ) (V := ℝ) l (slice l (some 1) none) := by
    unfold lpc
    rw [hac]
    simp only
    rw [if_neg (by simp), List.map_map]
    have : ((List.range x.length).map ((fun o : Option ℝ => o.getD 0) ∘ fun m => some (acf x m / x.length))) = l := rfl
    rw [this, hs1]
  rw [hlpc]
  rcases C23_levinson (K := ℝ) (V := ℝ) l (slice l (some 1) none) (by omega) (by omega) (by simp) with ⟨a, e, h, _⟩ | ⟨e, _⟩
  · exact Or.inl ⟨a, e, by omega⟩
  · exact Or.inr e

end Verif.LinPred
