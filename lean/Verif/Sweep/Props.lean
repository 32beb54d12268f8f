import Verif.Sweep.Model
import Mathlib.Analysis.SpecialFunctions.Pow.Real
import Mathlib.Analysis.SpecialFunctions.Trigonometric.Deriv
import Mathlib.Analysis.SpecialFunctions.ExpDeriv
import Mathlib.Data.List.GetD

/-!
# C104: test signals
-/

namespace Verif.Sweep

open Verif.Py

theorem slice_to {α : Type} (l : List α) (n : Nat) : slice l none (some (n : Int)) = l.take n := by
  unfold slice sliceStart sliceStop
  simp only [clampIdx_nat, List.drop_zero, Nat.sub_zero]
  rcases Nat.le_total n l.length with h | h
  · rw [Nat.min_eq_left h]
  · rw [Nat.min_eq_right h, List.take_length, List.take_of_length_le h]

theorem slice_from {α : Type} (l : List α) {n : Nat} (hn : 0 < n) : slice l (some (-(n : Int))) none = l.drop (l.length - n) := by
  unfold slice sliceStart sliceStop
  simp only [clampIdx_neg _ hn]
  exact List.take_of_length_le (by rw [List.length_drop])

theorem slice_zero {α : Type} (l : List α) : slice l (some (-((0 : Nat) : Int))) none = l := by
  unfold slice sliceStart sliceStop clampIdx
  simp

theorem hanning_length (n : Nat) : (hanning n).length = n := by simp [hanning]

/-- The gain of a fade over `n` samples, `i` samples from the end of the signal. -/
noncomputable def fadeAt (n i : Nat) : ℝ := if i < n then Real.sin (Real.pi * i / (2 * n - 1)) ^ 2 else 1

theorem hanning_get {n : Nat} (i : Nat) (hn : 1 ≤ n) : Delays.hanning (2 * n) i = Real.sin (Real.pi * i / (2 * n - 1)) ^ 2 := by
  have h1 : (1 : ℝ) ≤ n := by exact_mod_cast hn
  unfold Delays.hanning
  rw [if_neg (by omega), Real.sin_sq_eq_half_sub]
  have h0 : (2 * (n : ℝ) - 1) ≠ 0 := by linarith
  have e : Real.pi * (1 - ((2 * n : Nat) : ℝ) + 2 * i) / (((2 * n : Nat) : ℝ) - 1) = 2 * (Real.pi * i / (2 * n - 1)) - Real.pi := by
    push_cast
    field_simp
    ring
  rw [e, Real.cos_sub_pi]
  ring

theorem hanning_sym {n i : Nat} (hn : 1 ≤ n) (hi : i < 2 * n) : Delays.hanning (2 * n) (2 * n - 1 - i) = Delays.hanning (2 * n) i := by
  have h1 : (1 : ℝ) ≤ n := by exact_mod_cast hn
  rw [hanning_get i hn, hanning_get _ hn]
  have h0 : (2 * (n : ℝ) - 1) ≠ 0 := by linarith
  have e : Real.pi * ((2 * n - 1 - i : Nat) : ℝ) / (2 * n - 1) = Real.pi - Real.pi * i / (2 * n - 1) := by
    rw [show 2 * n - 1 - i = 2 * n - (1 + i) by omega, Nat.cast_sub (by omega)]
    push_cast
    field_simp
    ring
  rw [e, Real.sin_pi_sub]

theorem mulInto_eq {a : List (Option ℝ)} {b : List ℝ} (h : b.length = a.length) : mulInto a b = .ok (List.zipWith scale a b) := by
  unfold mulInto
  rw [if_pos h]

theorem mulInto_ne {a : List (Option ℝ)} {b : List ℝ} (h : b.length ≠ a.length) (h1 : b.length ≠ 1) : mulInto a b = .error .valueError := by
  unfold mulInto
  rw [if_neg h]
  split
  · simp at h1
  · rfl

/-- **C104, fades.** Both ends of the signal are multiplied with half a Hann window; what is between is kept. -/
theorem C104_window (sig : List (Option ℝ)) {n : Nat} (hn : 1 ≤ n) (hl : n ≤ sig.length) :
    ∃ r, window sig n = .ok r ∧ r.length = sig.length ∧ ∀ i, i < sig.length → r[i]? = (sig[i]?).map fun (s : Option ℝ) => s.map fun (v : ℝ) => v * (fadeAt n i * fadeAt n (sig.length - 1 - i)) := by
  have hw := hanning_length (2 * n)
  have e1 : mulInto (slice sig none (some (n : Int))) (slice (hanning (2 * n)) none (some (n : Int))) = .ok (List.zipWith scale (sig.take n) ((hanning (2 * n)).take n)) := by
    rw [slice_to, slice_to]
    exact mulInto_eq (by rw [List.length_take, List.length_take, hw]; omega)
  have hz : (List.zipWith scale (sig.take n) ((hanning (2 * n)).take n)).length = n := by
    rw [List.length_zipWith, List.length_take, List.length_take, hw]; omega
  set s1 := List.zipWith scale (sig.take n) ((hanning (2 * n)).take n) ++ sig.drop n with hs1
  have hs1l : s1.length = sig.length := by
    rw [hs1, List.length_append, hz, List.length_drop]; omega
  have e2 : mulInto (slice s1 (some (-(n : Int))) none) (slice (hanning (2 * n)) (some (-(n : Int))) none) = .ok (List.zipWith scale (s1.drop (sig.length - n)) ((hanning (2 * n)).drop n)) := by
    rw [slice_from _ (by omega), slice_from _ (by omega), hw, hs1l, show 2 * n - n = n by omega]
    exact mulInto_eq (by rw [List.length_drop, List.length_drop, hw, hs1l]; omega)
  have hz2 : (List.zipWith scale (s1.drop (sig.length - n)) ((hanning (2 * n)).drop n)).length = n := by
    rw [List.length_zipWith, List.length_drop, List.length_drop, hw, hs1l]; omega
  have hget1 : ∀ i, s1[i]? = (sig[i]?).map fun (s : Option ℝ) => s.map fun (v : ℝ) => v * fadeAt n i := by
    intro i
    rw [hs1]
    by_cases hi : i < n
    · rw [List.getElem?_append_left (by omega), List.getElem?_zipWith, List.getElem?_take_of_lt hi, List.getElem?_take_of_lt hi, List.getElem?_eq_getElem (show i < sig.length by omega),
        List.getElem?_eq_getElem (show i < (hanning (2 * n)).length by omega)]
      simp only [hanning, List.getElem_map, List.getElem_range, Option.map_some]
      rw [hanning_get _ hn]
      unfold scale fadeAt
      rw [if_pos hi]
    · rw [List.getElem?_append_right (by omega), hz, List.getElem?_drop, show n + (i - n) = i by omega]
      unfold fadeAt
      rw [if_neg hi]
      simp only [mul_one, Option.map_id']
  refine ⟨s1.take (sig.length - n) ++ List.zipWith scale (s1.drop (sig.length - n)) ((hanning (2 * n)).drop n), ?_, ?_, ?_⟩
  · unfold window
    simp only [e1, bind, Except.bind, hz]
    rw [← hs1]
    simp only [e2, hz2, hs1l]
  · rw [List.length_append, hz2, List.length_take, hs1l]; omega
  · intro i hi
    have htl : (s1.take (sig.length - n)).length = sig.length - n := by rw [List.length_take, hs1l]; omega
    by_cases hin : i < sig.length - n
    · rw [List.getElem?_append_left (by omega), List.getElem?_take_of_lt hin, hget1]
      have : fadeAt n (sig.length - 1 - i) = 1 := by
        unfold fadeAt
        rw [if_neg (by omega)]
      rw [this, mul_one]
    · obtain ⟨j, rfl⟩ : ∃ j, i = sig.length - n + j := ⟨i - (sig.length - n), by omega⟩
      rw [List.getElem?_append_right (by omega), htl, show sig.length - n + j - (sig.length - n) = j by omega, List.getElem?_zipWith, List.getElem?_drop, List.getElem?_drop, hget1,
        List.getElem?_eq_getElem (show n + j < (hanning (2 * n)).length by omega), List.getElem?_eq_getElem (show sig.length - n + j < sig.length by omega)]
      simp only [hanning, List.getElem_map, List.getElem_range, Option.map_some]
      have h2 : fadeAt n (sig.length - 1 - (sig.length - n + j)) = Delays.hanning (2 * n) (n + j) := by
        unfold fadeAt
        rw [if_pos (by omega), ← hanning_get _ hn, ← hanning_sym hn (by omega)]
        congr 1
        omega
      rw [h2]
      unfold scale
      rw [Option.map_map]
      congr 2
      funext v
      simp only [Function.comp]
      ring

/-- **C104, fades that raise.** A fade of no samples, and one that is longer than the signal. -/
theorem C104_window_deviation (sig : List (Option ℝ)) :
    (sig ≠ [] → window sig 0 = .error .valueError) ∧ ∀ n, 2 ≤ n → sig.length < n → window sig n = .error .valueError := by
  constructor
  · intro h
    unfold window
    have e1 : mulInto (slice sig none (some ((0 : Nat) : Int))) (slice (hanning (2 * 0)) none (some ((0 : Nat) : Int))) = .ok [] := by
      rw [slice_to, slice_to]
      exact mulInto_eq (by simp)
    simp only [e1, bind, Except.bind, List.length_nil, List.drop_zero, List.nil_append]
    rw [slice_zero, slice_zero, mulInto_ne]
    · rw [hanning_length]
      intro h0
      exact h (List.eq_nil_of_length_eq_zero h0.symm)
    · rw [hanning_length]; omega
  · intro n hn hl
    unfold window
    have e1 : mulInto (slice sig none (some (n : Int))) (slice (hanning (2 * n)) none (some (n : Int))) = .error .valueError := by
      rw [slice_to, slice_to]
      apply mulInto_ne <;> simp only [List.length_take, hanning_length] <;> omega
    simp only [e1, bind, Except.bind]

/-- The frequency a sweep ends at: half the sampling frequency at most; negative numbers count from there. -/
def IsTop (fs : ℝ) (fhi : Option ℝ) (hi : ℝ) : Prop := (fhi = none ∧ hi = fs / 2) ∨ ∃ f, fhi = some f ∧ (f < 0 ∧ hi = fs / 2 + f ∨ 0 ≤ f ∧ hi = min f (fs / 2))

theorem top_eq {fs hi : ℝ} {fhi : Option ℝ} (h : IsTop fs fhi hi) : top fs fhi = hi := by
  rcases h with ⟨rfl, rfl⟩ | ⟨f, rfl, ⟨h1, rfl⟩ | ⟨h1, rfl⟩⟩
  · rfl
  · unfold top
    simp only [if_pos h1]
  · unfold top
    simp only [if_neg (not_lt.mpr h1)]
    split
    · rename_i h2; rw [min_eq_right h2.le]
    · rename_i h2; rw [min_eq_left (not_lt.mp h2)]

theorem bottom_eq (m f : ℝ) : bottom m f = max m f := by
  unfold bottom
  split
  · rename_i h; rw [max_eq_left h.le]
  · rename_i h; rw [max_eq_right (not_lt.mp h)]

theorem count_eq {T fs : ℝ} {N : Nat} (hN : N = ⌊T * fs⌋₊) (h0 : 0 < N) : count T fs = N := by
  have hT : 0 < ⌊T * fs⌋₊ := hN ▸ h0
  unfold count
  rw [div_div_eq_mul_div, div_one, hN]
  have : (0 : ℝ) ≤ T * fs := (Nat.pos_of_floor_pos hT).le
  exact (Int.natCast_floor_eq_floor this).symm

theorem finish_none (fs : ℝ) (s : List (Option ℝ)) (asc : Bool) : finish fs s none asc = .ok (if asc then s else s.reverse) := rfl

theorem range_reverse_map (N : Nat) (f : Nat → Option ℝ) : ((List.range N).map f).reverse = (List.range N).map fun (i : Nat) => f (N - 1 - i) := by
  apply List.ext_getElem
  · simp
  · intro i h1 h2
    simp

/-- **C104, exponential sweeps.** The samples are the sine of a phase, whose derivative is the frequency that goes exponentially from the lowest to the highest; the samples are reversed if it should descend. -/
theorem C104_exponential {T fs flo lo hi : ℝ} {fhi : Option ℝ} (hfs : 0 < fs) (hlo : lo = max 1 flo) (hhi : IsTop fs fhi hi) {N : Nat} (hN : N = ⌊T * fs⌋₊) (h0 : 0 < N) (hlt : lo < hi) :
    ∃ φ f : ℝ → ℝ, φ 0 = 0 ∧ (∀ t, HasDerivAt φ (2 * Real.pi * f t) t) ∧ (∀ t, f t = lo * (hi / lo) ^ (t / (N / fs))) ∧ f 0 = lo ∧ f (N / fs) = hi ∧ StrictMono f ∧
      exponential T fs flo fhi none true = .ok ((List.range N).map fun (i : Nat) => some (Real.sin (φ (i / fs)))) ∧
      exponential T fs flo fhi none false = .ok ((List.range N).map fun (i : Nat) => some (Real.sin (φ ((N - 1 - i : Nat) / fs)))) := by
  have hN0 : (0 : ℝ) < N := by exact_mod_cast h0
  have hlo0 : 0 < lo := by rw [hlo]; exact lt_of_lt_of_le one_pos (le_max_left _ _)
  have hr : 1 < hi / lo := (one_lt_div hlo0).mpr hlt
  have hr0 : 0 < hi / lo := by linarith
  set L := Real.log (hi / lo) with hL
  have hLpos : 0 < L := Real.log_pos hr
  let f : ℝ → ℝ := fun t => lo * (hi / lo) ^ (t / (N / fs))
  let φ : ℝ → ℝ := fun t => 2 * Real.pi * lo * N * (1 / fs) / L * (Real.exp (t * fs / N * L) - 1)
  have hsamp : ∀ i : Nat, (if Real.log (2 * Real.pi * hi / (2 * Real.pi * lo)) = 0 then none
      else some (Real.sin (2 * Real.pi * lo * N * (1 / fs) / Real.log (2 * Real.pi * hi / (2 * Real.pi * lo)) * (Real.exp (i / N * Real.log (2 * Real.pi * hi / (2 * Real.pi * lo))) - 1)))) = some (Real.sin (φ (i / fs))) := by
    intro i
    have e : 2 * Real.pi * hi / (2 * Real.pi * lo) = hi / lo := mul_div_mul_left _ _ (by positivity)
    rw [e, ← hL, if_neg hLpos.ne']
    simp only [φ]
    rw [div_mul_cancel₀ _ hfs.ne']
  have hexp : ∀ asc, exponential T fs flo fhi none asc = finish fs ((List.range N).map fun (i : Nat) => some (Real.sin (φ (i / fs)))) none asc := by
    intro asc
    unfold exponential
    simp only [top_eq hhi, bottom_eq, ← hlo]
    rw [if_neg (not_lt.mpr hlt.le), if_neg hfs.ne', count_eq hN h0]
    simp only [Int.toNat_natCast, Int.cast_natCast]
    congr 1
    exact List.map_congr_left fun i _ => hsamp i
  refine ⟨φ, f, ?_, ?_, fun _ => rfl, ?_, ?_, ?_, ?_, ?_⟩
  · simp [φ]
  · intro t
    have h1 : HasDerivAt (fun t : ℝ => t * fs / N * L) (fs / N * L) t := by
      have := ((hasDerivAt_id t).mul_const (fs / N * L))
      simp only [id, one_mul] at this
      refine this.congr_of_eventuallyEq (Filter.Eventually.of_forall fun s => ?_)
      simp only
      ring
    have h2 := ((h1.exp).sub_const 1).const_mul (2 * Real.pi * lo * N * (1 / fs) / L)
    have e : 2 * Real.pi * f t = 2 * Real.pi * lo * N * (1 / fs) / L * (Real.exp (t * fs / N * L) * (fs / N * L)) := ?_
    · rw [e]
      exact h2
    simp only [f]
    rw [Real.rpow_def_of_pos hr0, ← hL, show L * (t / (N / fs)) = t * fs / N * L by field_simp]
    field_simp
  · simp [f]
  · simp only [f]
    rw [div_self (by positivity), Real.rpow_one, mul_div_cancel₀ _ hlo0.ne']
  · intro s t hst
    simp only [f]
    apply mul_lt_mul_of_pos_left _ hlo0
    exact Real.rpow_lt_rpow_of_exponent_lt hr (div_lt_div_of_pos_right hst (by positivity))
  · rw [hexp, finish_none, if_pos rfl]
  · rw [hexp, finish_none, if_neg (by simp), range_reverse_map]

/-- **C104, linear sweeps.** The frequency grows from the lowest to the highest at a constant rate. -/
theorem C104_linear {T fs flo lo hi : ℝ} {fhi : Option ℝ} (hfs : 0 < fs) (hlo : lo = max 0 flo) (hhi : IsTop fs fhi hi) {N : Nat} (hN : N = ⌊T * fs⌋₊) (h0 : 0 < N) (hle : lo ≤ hi) :
    ∃ φ f : ℝ → ℝ, φ 0 = 0 ∧ (∀ t, HasDerivAt φ (2 * Real.pi * f t) t) ∧ (∀ t, f t = lo + (hi - lo) * (t / T)) ∧ f 0 = lo ∧ f T = hi ∧ Monotone f ∧
      linear T fs flo fhi none true = .ok ((List.range N).map fun (i : Nat) => some (Real.sin (φ (i / fs)))) ∧
      linear T fs flo fhi none false = .ok ((List.range N).map fun (i : Nat) => some (Real.sin (φ ((N - 1 - i : Nat) / fs)))) := by
  have hTf : 0 < T * fs := Nat.pos_of_floor_pos (hN ▸ h0)
  have hT : 0 < T := pos_of_mul_pos_left hTf hfs.le
  let f : ℝ → ℝ := fun t => lo + (hi - lo) * (t / T)
  let φ : ℝ → ℝ := fun t => 2 * Real.pi * (lo + 0.5 * ((hi - lo) / T) * t) * t
  have hexp : ∀ asc, linear T fs flo fhi none asc = finish fs ((List.range N).map fun (i : Nat) => some (Real.sin (φ (i / fs)))) none asc := by
    intro asc
    unfold linear
    simp only [top_eq hhi, bottom_eq, ← hlo]
    rw [if_neg (not_lt.mpr hle), if_neg hfs.ne', if_neg hT.ne', count_eq hN h0]
    simp only [Int.toNat_natCast, mul_one_div]
    rfl
  refine ⟨φ, f, ?_, ?_, fun _ => rfl, ?_, ?_, ?_, ?_, ?_⟩
  · simp [φ]
  · intro t
    have h1 := (((hasDerivAt_id t).const_mul (0.5 * ((hi - lo) / T))).const_add lo).const_mul (2 * Real.pi) |>.mul (hasDerivAt_id t)
    simp only [id, mul_one] at h1
    have e : 2 * Real.pi * f t = 2 * Real.pi * (0.5 * ((hi - lo) / T)) * t + 2 * Real.pi * (lo + 0.5 * ((hi - lo) / T) * t) := by
      simp only [f]
      ring
    rw [e]
    exact h1
  · simp [f]
  · simp only [f]
    rw [div_self hT.ne']
    ring
  · intro s t hst
    simp only [f]
    have := mul_le_mul_of_nonneg_left (div_le_div_of_nonneg_right hst hT.le) (sub_nonneg.mpr hle)
    linarith
  · rw [hexp, finish_none, if_pos rfl]
  · rw [hexp, finish_none, if_neg (by simp), range_reverse_map]

/-- **C104, fading of sweeps.** With a fade the sweep is windowed over the samples of the fade. -/
theorem C104_fade {T fs flo : ℝ} {fhi : Option ℝ} {asc : Bool} {s : List (Option ℝ)} (d : ℝ) :
    (exponential T fs flo fhi none asc = .ok s → exponential T fs flo fhi (some d) asc = if 0 < d then window s ⌊fs * d⌋₊ else .ok s) ∧
      (linear T fs flo fhi none asc = .ok s → linear T fs flo fhi (some d) asc = if 0 < d then window s ⌊fs * d⌋₊ else .ok s) := by
  constructor
  · intro h
    unfold exponential at h ⊢
    simp only at h ⊢
    split at h
    · cases h
    rename_i h1
    split at h
    · cases h
    rename_i h2
    rw [if_neg h1, if_neg h2]
    rw [finish_none] at h
    cases h
    rfl
  · intro h
    unfold linear at h ⊢
    simp only at h ⊢
    split at h
    · cases h
    rename_i h1
    split at h
    · cases h
    rename_i h2
    split at h
    · cases h
    rename_i h3
    rw [if_neg h1, if_neg h2, if_neg h3]
    rw [finish_none] at h
    cases h
    rfl

/-- **C104, wrong bands.** A lowest frequency above the highest raises. -/
theorem C104_band {T fs flo hi : ℝ} {fhi fade : Option ℝ} {asc : Bool} (hhi : IsTop fs fhi hi) :
    (hi < max 1 flo → exponential T fs flo fhi fade asc = .error .valueError) ∧ (hi < max 0 flo → linear T fs flo fhi fade asc = .error .valueError) := by
  constructor
  · intro h
    unfold exponential
    simp only [top_eq hhi, bottom_eq]
    rw [if_pos h]
  · intro h
    unfold linear
    simp only [top_eq hhi, bottom_eq]
    rw [if_pos h]

/-- **C104, deviation.** A lowest frequency equal to the highest is accepted, and no sample of the exponential sweep is a number. -/
theorem C104_equal_deviation {T fs flo : ℝ} {fhi : Option ℝ} (hfs : 0 < fs) (hhi : IsTop fs fhi (max 1 flo)) {N : Nat} (hN : N = ⌊T * fs⌋₊) (h0 : 0 < N) (asc : Bool) :
    exponential T fs flo fhi none asc = .ok (List.replicate N none) := by
  unfold exponential
  simp only [top_eq hhi, bottom_eq]
  have hp : 2 * Real.pi * max 1 flo ≠ 0 := by
    have : 0 < max 1 flo := lt_of_lt_of_le one_pos (le_max_left _ _)
    positivity
  rw [if_neg (lt_irrefl _), if_neg hfs.ne', div_self hp, Real.log_one, count_eq hN h0, finish_none]
  simp only [Int.toNat_natCast, if_true, List.map_const', List.length_range]
  rw [List.reverse_replicate, ite_self]

/-- **C104, deviation.** A linear sweep of no length raises, an exponential one is empty. -/
theorem C104_empty_deviation {fs flo hi : ℝ} {fhi : Option ℝ} (hfs : 0 < fs) (hhi : IsTop fs fhi hi) (asc : Bool) :
    (max 1 flo ≤ hi → exponential 0 fs flo fhi none asc = .ok []) ∧ (max 0 flo ≤ hi → linear 0 fs flo fhi none asc = .error .zeroDivision) := by
  constructor
  · intro h
    unfold exponential
    simp only [top_eq hhi, bottom_eq]
    rw [if_neg (not_lt.mpr h), if_neg hfs.ne', finish_none]
    have : count 0 fs = 0 := by unfold count; simp
    rw [this]
    simp
  · intro h
    unfold linear
    simp only [top_eq hhi, bottom_eq]
    rw [if_neg (not_lt.mpr h), if_neg hfs.ne', if_pos trivial]

/-- A sweep from 20 Hz to 7900 Hz in two seconds. -/
example : ∃ φ f : ℝ → ℝ, (∀ t, HasDerivAt φ (2 * Real.pi * f t) t) ∧ f 0 = 20 ∧ f 2 = 7900 ∧ exponential 2 16000 20 (some (-100)) none true = .ok ((List.range 32000).map fun (i : Nat) => some (Real.sin (φ (i / 16000)))) := by
  obtain ⟨φ, f, _, h1, _, h2, h3, _, h4, _⟩ := C104_exponential (T := 2) (fs := 16000) (flo := 20) (lo := 20) (hi := 7900) (fhi := some (-100)) (N := 32000) (by norm_num) (by norm_num)
    (Or.inr ⟨-100, rfl, Or.inl ⟨by norm_num, by norm_num⟩⟩) (by norm_num) (by norm_num) (by norm_num)
  exact ⟨φ, f, h1, h2, by norm_num at h3; exact h3, h4⟩

/-- Four samples with fades over two. -/
example : ∃ r, window [some 1, some 1, some 1, none] 2 = .ok r ∧ r[0]? = some (some 0) ∧ r[1]? = some (some (3 / 4)) := by
  obtain ⟨r, h1, _, h2⟩ := C104_window [some 1, some 1, some 1, none] (n := 2) (by norm_num) (by simp)
  refine ⟨r, h1, ?_, ?_⟩
  · rw [h2 0 (by simp)]
    simp [fadeAt]
  · rw [h2 1 (by simp)]
    have : Real.pi / (2 * 2 - 1) = Real.pi / 3 := by norm_num
    simp [fadeAt, this]
    rw [div_pow, Real.sq_sqrt (by norm_num)]
    norm_num

end Verif.Sweep
