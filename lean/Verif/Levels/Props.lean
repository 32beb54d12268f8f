import Verif.Levels.Model
import Mathlib.Analysis.SpecialFunctions.Log.Base
import Mathlib.Data.List.GetD
import Mathlib.Tactic.FieldSimp
import Mathlib.Tactic.Ring
import Mathlib.Tactic.Linarith
import Mathlib.Tactic.Positivity
import Mathlib.Tactic.IntervalCases

/-!
# C95: number formats, clipping, normalisation and noise of a given level

Small specification: `power` (mean square) and the level difference `10 * log10` of powers, with sums over positions.
-/

namespace Verif.Levels

open Verif.Py

/-- Mean square of a signal. -/
noncomputable def power (x : List ℝ) : ℝ := (∑ i ∈ Finset.range x.length, x.getD i 0 ^ 2) / x.length

theorem sum_getD (x : List ℝ) (f : ℝ → ℝ) : (x.map f).sum = ∑ i ∈ Finset.range x.length, f (x.getD i 0) := by
  induction x with
  | nil => simp
  | cons a x ih =>
    rw [List.map_cons, List.sum_cons, List.length_cons, Finset.sum_range_succ', ih, add_comm]
    simp

theorem mean_sq (x : List ℝ) : mean (x.map fun v => v * v) = power x := by
  unfold mean power
  rw [sum_getD, List.length_map]
  simp only [pow_two]

theorem power_nonneg (x : List ℝ) : 0 ≤ power x := div_nonneg (Finset.sum_nonneg fun _ _ => sq_nonneg _) (Nat.cast_nonneg _)

theorem power_scale (x : List ℝ) (c : ℝ) : power (x.map (· * c)) = power x * c ^ 2 := by
  unfold power
  rw [List.length_map, div_mul_eq_mul_div, Finset.sum_mul]
  congr 1
  apply Finset.sum_congr rfl
  intro i hi
  have hi := Finset.mem_range.mp hi
  rw [List.getD_eq_getElem (x.map (· * c)) _ (by simpa using hi), List.getElem_map, List.getD_eq_getElem x _ hi]
  ring

theorem rms_eq (x : List ℝ) : rms x = √(power x) := by
  unfold rms
  rw [mean_sq]

/-! ## Formats -/

/-- **C95, integers to numbers.** Samples of a signed type are mapped to `[-1, 1)` by the power of two that divides the range. -/
theorem C95_to_float32 {t : IntType} (ht : t.signed = true) (x : List Int) (hx : ∀ v ∈ x, t.min ≤ v ∧ v ≤ t.max) :
    ∃ y, toFloat32 (.ints t x) = some y ∧ y.length = x.length ∧
      ∀ i, i < x.length → y.getD i 0 * 2 ^ (t.bits - 1) = (x.getD i 0 : Int) ∧ -1 ≤ y.getD i 0 ∧ y.getD i 0 < 1 := by
  have hm : |t.min| = 2 ^ (t.bits - 1) := by
    unfold IntType.min
    rw [if_pos ht, abs_neg, abs_of_nonneg (by positivity)]
  have hp : (0 : ℝ) < 2 ^ (t.bits - 1) := by positivity
  refine ⟨_, by unfold toFloat32; simp only; rw [hm, if_neg (by intro h; exact absurd h.1 (by positivity))], by simp, fun i hi => ?_⟩
  have hb := hx x[i] (List.getElem_mem hi)
  unfold IntType.min IntType.max at hb
  rw [if_pos ht, if_pos ht] at hb
  rw [List.getD_eq_getElem _ _ (by simpa using hi), List.getElem_map, List.getD_eq_getElem x _ hi]
  have h1 : (-(2 : ℝ) ^ (t.bits - 1)) ≤ (x[i] : ℝ) := by exact_mod_cast hb.1
  have h2 : (x[i] : ℝ) < 2 ^ (t.bits - 1) := by
    have : x[i] < 2 ^ (t.bits - 1) := by omega
    exact_mod_cast this
  push_cast
  refine ⟨by field_simp, ?_, ?_⟩
  · rw [le_div_iff₀ hp]
    linarith
  · rw [div_lt_one hp]
    exact h2

/-- **C95, deviation.** Unsigned types, as used by files of eight bits, are divided by zero. -/
theorem C95_unsigned_deviation {t : IntType} (ht : t.signed = false) {x : List Int} (hx : x ≠ []) : toFloat32 (.ints t x) = none := by
  unfold toFloat32 IntType.min
  simp [ht, hx]

/-- **C95, numbers to 16 bits.** Numbers in `[-1, 1]` are multiplied by `32767` and rounded towards zero. -/
theorem C95_to_16b {v : ℝ} (hv : |v| ≤ 1) :
    ∃ r : Int, to16b v = some r ∧ |r| ≤ 32767 ∧ |(r : ℝ)| ≤ 32767 * |v| ∧ 32767 * |v| < |(r : ℝ)| + 1 ∧ 0 ≤ (r : ℝ) * v := by
  obtain ⟨h1, h2⟩ := abs_le.mp hv
  unfold to16b toInt16
  simp only
  have e : ((2 : ℝ) ^ 15 - 1) = 32767 := by norm_num
  rw [e]
  rcases le_or_gt 0 v with h | h
  · have hw : 0 ≤ 32767 * v := by positivity
    rw [if_pos hw]
    have f0 : 0 ≤ ⌊32767 * v⌋ := Int.floor_nonneg.mpr hw
    have f1 : ⌊32767 * v⌋ ≤ 32767 := by
      have := Int.floor_le (32767 * v)
      have h3 : (⌊32767 * v⌋ : ℝ) ≤ 32767 := by linarith
      exact_mod_cast h3
    have f0' : (0 : ℝ) ≤ (⌊32767 * v⌋ : ℝ) := by exact_mod_cast f0
    refine ⟨⌊32767 * v⌋, by rw [if_pos ⟨by omega, f1⟩], by rw [abs_of_nonneg f0]; exact f1, ?_, ?_, by positivity⟩
    · rw [abs_of_nonneg f0', abs_of_nonneg h]
      exact Int.floor_le _
    · rw [abs_of_nonneg f0', abs_of_nonneg h]
      exact Int.lt_floor_add_one _
  · have hw : 32767 * v < 0 := by linarith
    rw [if_neg (not_le.mpr hw)]
    have f0 : ⌈32767 * v⌉ ≤ 0 := by
      rw [Int.ceil_le]
      push_cast
      exact hw.le
    have f1 : -32767 ≤ ⌈32767 * v⌉ := by
      have := Int.le_ceil (32767 * v)
      have h3 : (-32767 : ℝ) ≤ (⌈32767 * v⌉ : ℝ) := by linarith
      exact_mod_cast h3
    have f0' : (⌈32767 * v⌉ : ℝ) ≤ 0 := by exact_mod_cast f0
    refine ⟨⌈32767 * v⌉, by rw [if_pos ⟨by omega, by omega⟩], by rw [abs_of_nonpos f0]; omega, ?_, ?_, mul_nonneg_of_nonpos_of_nonpos f0' h.le⟩
    · rw [abs_of_nonpos f0', abs_of_neg h]
      have := Int.le_ceil (32767 * v)
      linarith
    · rw [abs_of_nonpos f0', abs_of_neg h]
      have := Int.ceil_lt_add_one (32767 * v)
      linarith

/-- **C95, deviation.** Reading 16-bit samples as numbers and writing them back moves every sample other than zero by one step towards zero. -/
theorem C95_round_trip_deviation (v : Int) (h1 : -32768 ≤ v) (h2 : v ≤ 32767) :
    ∃ y, toFloat32 (.ints ⟨true, 16⟩ [v]) = some [y] ∧ to16b y = some (v - v.sign) := by
  refine ⟨(v : ℝ) / 32768, by simp [toFloat32, IntType.min], ?_⟩
  unfold to16b toInt16
  simp only
  have e : ((2 : ℝ) ^ 15 - 1) * ((v : ℝ) / 32768) = v - v / 32768 := by ring
  rw [e]
  have b1 : (-32768 : ℝ) ≤ v := by exact_mod_cast h1
  have b2 : (v : ℝ) ≤ 32767 := by exact_mod_cast h2
  rcases lt_trichotomy v 0 with h | h | h
  · have hv : (v : ℝ) ≤ -1 := by exact_mod_cast (show v ≤ -1 by omega)
    have hw : ¬ (0 : ℝ) ≤ v - v / 32768 := by
      intro hc
      linarith
    have hc : ⌈(v : ℝ) - v / 32768⌉ = v + 1 := by
      rw [Int.ceil_eq_iff]
      push_cast
      constructor <;> linarith
    rw [if_neg hw, hc, if_pos ⟨by omega, by omega⟩, Int.sign_eq_neg_one_of_neg h]
    congr 1
  · subst h
    simp
  · have hv : (1 : ℝ) ≤ v := by exact_mod_cast (show 1 ≤ v by omega)
    have hw : (0 : ℝ) ≤ v - v / 32768 := by linarith
    have hc : ⌊(v : ℝ) - v / 32768⌋ = v - 1 := by
      rw [Int.floor_eq_iff]
      push_cast
      constructor <;> linarith
    rw [if_pos hw, hc, if_pos ⟨by omega, by omega⟩, Int.sign_eq_one_of_pos h]

/-! ## Clipping and normalisation -/

theorem clip_getD (x : List ℝ) (high low : ℝ) {i : Nat} (hi : i < x.length) :
    (clip x high low).getD i 0 = (fun v : ℝ => if v < low then low else v) ((fun v : ℝ => if v > high then high else v) (x.getD i 0)) := by
  unfold clip
  simp only
  rw [List.getD_eq_getElem _ _ (by simpa using hi), List.getElem_map, List.getElem_map, List.getD_eq_getElem x _ hi]

/-- **C95, clipping.** Every sample is replaced by the nearest number of the interval. -/
theorem C95_clip (x : List ℝ) {high low : ℝ} (h : low ≤ high) : (clip x high low).length = x.length ∧
    ∀ i, i < x.length → low ≤ (clip x high low).getD i 0 ∧ (clip x high low).getD i 0 ≤ high ∧
      ∀ u, low ≤ u → u ≤ high → |(clip x high low).getD i 0 - x.getD i 0| ≤ |u - x.getD i 0| := by
  refine ⟨by simp [clip], fun i hi => ?_⟩
  rw [clip_getD x high low hi]
  generalize x.getD i 0 = v
  by_cases h1 : v > high
  · simp only [h1, if_true]
    rw [if_neg (by linarith)]
    refine ⟨h, le_rfl, fun u _ hu2 => ?_⟩
    rw [abs_of_neg (by linarith), abs_of_neg (by linarith)]
    linarith
  · simp only [h1, if_false]
    by_cases h2 : v < low
    · rw [if_pos h2]
      refine ⟨le_rfl, h, fun u hu1 _ => ?_⟩
      rw [abs_of_pos (by linarith), abs_of_pos (by linarith)]
      linarith
    · rw [if_neg h2]
      refine ⟨not_lt.mp h2, not_lt.mp h1, fun u _ _ => ?_⟩
      rw [sub_self, abs_zero]
      exact abs_nonneg _

theorem absMax_spec {x : List ℝ} (hx : x ≠ []) : ∃ m, absMax x = .ok m ∧ (∀ v ∈ x, |v| ≤ m) ∧ ∃ v ∈ x, |v| = m := by
  obtain ⟨a, l, rfl⟩ := List.exists_cons_of_ne_nil hx
  refine ⟨_, rfl, ?_⟩
  have key : ∀ (l : List ℝ) (m0 : ℝ), m0 ≤ l.foldl (fun m v => max m |v|) m0 ∧ (∀ v ∈ l, |v| ≤ l.foldl (fun m v => max m |v|) m0) ∧
      (l.foldl (fun m v => max m |v|) m0 = m0 ∨ ∃ v ∈ l, |v| = l.foldl (fun m v => max m |v|) m0) := by
    intro l
    induction l with
    | nil => intro m0; simp
    | cons b l ih =>
      intro m0
      obtain ⟨i1, i2, i3⟩ := ih (max m0 |b|)
      simp only [List.foldl_cons, List.mem_cons, forall_eq_or_imp, exists_eq_or_imp]
      refine ⟨(le_max_left _ _).trans i1, ⟨(le_max_right _ _).trans i1, i2⟩, ?_⟩
      rcases i3 with h | h
      · rcases max_choice m0 |b| with hm | hm
        · left
          rw [h, hm]
        · right
          left
          rw [h, hm]
      · right
        right
        exact h
  obtain ⟨k1, k2, k3⟩ := key l |a|
  refine ⟨?_, ?_⟩
  · intro v hv
    rcases List.mem_cons.mp hv with rfl | hv
    · exact k1
    · exact k2 v hv
  · rcases k3 with h | ⟨v, hv, h⟩
    · exact ⟨a, by simp, h.symm⟩
    · exact ⟨v, by simp [hv], h⟩

/-- **C95, normalisation.** Numbers that are not all zero are multiplied by one positive factor such that the largest size is one, or `2 ^ (bits - 1) - 1`. -/
theorem C95_normalize {x : List ℝ} (hx : ∃ v ∈ x, v ≠ 0) (bits : Option Nat) :
    ∃ y c, normalize (.floats x) bits = .ok (some y) ∧ 0 < c ∧ (∃ v ∈ x, |c * v| = 1) ∧ (∀ v ∈ x, |c * v| ≤ 1) ∧
      y = x.map fun v => c * v * (match bits with | none => 1 | some b => 2 ^ (b - 1) - 1) := by
  obtain ⟨w, hw, hw0⟩ := hx
  obtain ⟨m, hm, hle, v0, hv0, hv0m⟩ := absMax_spec (x := x) (List.ne_nil_of_mem hw)
  have hmpos : 0 < m := lt_of_lt_of_le (abs_pos.mpr hw0) (hle w hw)
  have habs : ∀ v, |1 / m * v| = |v| / m := fun v => by
    rw [abs_mul, abs_of_pos (by positivity)]
    ring
  have h1 : ∃ v ∈ x, |1 / m * v| = 1 := ⟨v0, hv0, by rw [habs, hv0m, div_self hmpos.ne']⟩
  have h2 : ∀ v ∈ x, |1 / m * v| ≤ 1 := fun v hv => by
    rw [habs, div_le_one hmpos]
    exact hle v hv
  unfold normalize
  simp only [hm, Except.map, if_neg hmpos.ne']
  cases bits with
  | none =>
    refine ⟨_, 1 / m, rfl, by positivity, h1, h2, ?_⟩
    apply List.map_congr_left
    intro v _
    ring
  | some b =>
    refine ⟨_, 1 / m, rfl, by positivity, h1, h2, ?_⟩
    unfold clip
    simp only [List.map_map]
    apply List.map_congr_left
    intro v hv
    simp only [Function.comp_apply]
    have hb : (1 : ℝ) ≤ 2 ^ (b - 1) := one_le_pow₀ (by norm_num)
    have h3 := abs_le.mp (h2 v hv)
    have e : v / m * ((2 : ℝ) ^ (b - 1) - 1) = 1 / m * v * (2 ^ (b - 1) - 1) := by ring
    rw [e]
    generalize 1 / m * v = u at h3 ⊢
    have a1 : ¬ u * ((2 : ℝ) ^ (b - 1) - 1) > 2 ^ (b - 1) - 1 := by nlinarith
    have a2 : ¬ u * ((2 : ℝ) ^ (b - 1) - 1) < -2 ^ (b - 1) := by nlinarith
    rw [if_neg a1, if_neg a2]

/-- **C95, normalisation refused.** Integers raise `TypeError`, no samples `ValueError`; zeros do not give numbers. -/
theorem C95_normalize_refused (bits : Option Nat) : (∀ t (x : List Int), x ≠ [] → normalize (.ints t x) bits = .error .typeError) ∧
    normalize (.floats []) bits = .error .valueError ∧ ∀ n, 0 < n → normalize (.floats (List.replicate n 0)) bits = .ok none := by
  refine ⟨fun t x hx => by unfold normalize; simp [hx], rfl, fun n hn => ?_⟩
  obtain ⟨m, hm, -, v, hv, hvm⟩ := absMax_spec (x := List.replicate n (0 : ℝ)) (by simpa using hn.ne')
  have : m = 0 := by
    rw [← hvm, List.eq_of_mem_replicate hv, abs_zero]
  subst this
  unfold normalize
  simp [hm, Except.map]

/-- **C95, power.** `normalize_pwr` scales the first signal by a number that is not negative such that it has the power of the second. -/
theorem C95_normalize_pwr {x1 x2 : List ℝ} (h1 : ∃ v ∈ x1, v ≠ 0) (h2 : x2 ≠ []) :
    ∃ y c, normalizePwr x1 x2 = some y ∧ 0 ≤ c ∧ y = x1.map (· * c) ∧ power y = power x2 := by
  have e : ∀ x : List ℝ, mean (x.map (· ^ 2)) = power x := fun x => by
    rw [← mean_sq]
    simp only [pow_two]
  have hp : power x1 ≠ 0 := by
    obtain ⟨v, hv, hv0⟩ := h1
    obtain ⟨i, hi, rfl⟩ := List.mem_iff_getElem.mp hv
    unfold power
    have hl : (0 : ℝ) < x1.length := by exact_mod_cast (by omega : 0 < x1.length)
    apply div_ne_zero _ hl.ne'
    rw [Ne, Finset.sum_eq_zero_iff_of_nonneg (fun i _ => sq_nonneg _)]
    intro hc
    have := hc i (Finset.mem_range.mpr hi)
    rw [List.getD_eq_getElem x1 _ hi] at this
    exact hv0 (by simpa using this)
  have hx1 : x1 ≠ [] := by
    obtain ⟨v, hv, -⟩ := h1
    exact List.ne_nil_of_mem hv
  refine ⟨_, √(power x2 / power x1), by unfold normalizePwr; simp only [e]; rw [if_neg (by simp [hx1, h2, hp])], Real.sqrt_nonneg _, rfl, ?_⟩
  rw [power_scale, Real.sq_sqrt (div_nonneg (power_nonneg _) (power_nonneg _))]
  field_simp

/-! ## Noise -/

theorem slice_all (n : List ℝ) : slice n (some 0) none = n := by
  simp [slice, sliceStart, sliceStop, clampIdx]

theorem mean_sub (y : List ℝ) (hy : y ≠ []) : mean (y.map (· - mean y)) = 0 := by
  have hl : (y.length : ℝ) ≠ 0 := by
    have := List.length_pos_of_ne_nil hy
    positivity
  have key : ∀ (l : List ℝ) (c : ℝ), (l.map (· - c)).sum = l.sum - l.length * c := by
    intro l c
    induction l with
    | nil => simp
    | cons a l ih =>
      simp only [List.map_cons, List.sum_cons, ih, List.length_cons]
      push_cast
      ring
  unfold mean
  rw [key, List.length_map]
  field_simp
  simp

/-- **C95, level.** Without offset, with signals of the same length that have power and do not cancel: the answers `clean` and `noise` are multiples of the two
signals whose levels differ by exactly `snr` decibels; their sum has the largest size one; `noisy` is this sum without its mean. -/
theorem C95_mix (fs : Nat) {clean n : List ℝ} (snr : ℝ) (hlen : clean.length = n.length) (hc : power clean ≠ 0) (hn : power n ≠ 0)
    (hsum : ∀ c : ℝ, 0 < c → ∃ i, i < n.length ∧ clean.getD i 0 + n.getD i 0 * c ≠ 0) :
    ∃ r, mix fs clean snr n 0 = .ok (some r) ∧ r.fs = fs ∧ 10 * Real.logb 10 (power r.clean / power r.noise) = snr ∧
      (∃ c, 0 < c ∧ r.clean = clean.map (· * c)) ∧ (∃ c, 0 < c ∧ r.noise = n.map (· * c)) ∧ r.noisy.length = n.length ∧ mean r.noisy = 0 ∧
      (∃ mu, ∀ i, i < n.length → r.noisy.getD i 0 = r.clean.getD i 0 + r.noise.getD i 0 - mu) ∧
      (∀ i, i < n.length → |r.clean.getD i 0 + r.noise.getD i 0| ≤ 1) ∧ ∃ i, i < n.length ∧ |r.clean.getD i 0 + r.noise.getD i 0| = 1 := by
  have hpc : 0 < power clean := lt_of_le_of_ne (power_nonneg _) (Ne.symm hc)
  have hpn : 0 < power n := lt_of_le_of_ne (power_nonneg _) (Ne.symm hn)
  set fact := rms clean / rms n * (10 : ℝ) ^ (-snr / 20) with hfact
  have hfpos : 0 < fact := by
    rw [hfact, rms_eq, rms_eq]
    have := Real.sqrt_pos.mpr hpc
    have := Real.sqrt_pos.mpr hpn
    have := Real.rpow_pos_of_pos (show (0 : ℝ) < 10 by norm_num) (-snr / 20)
    positivity
  set sum := List.zipWith (· + ·) clean (n.map (· * fact)) with hs
  have hsl : sum.length = n.length := by
    rw [hs, List.length_zipWith, List.length_map, hlen, min_self]
  have hsget : ∀ i, i < n.length → sum.getD i 0 = clean.getD i 0 + n.getD i 0 * fact := by
    intro i hi
    rw [List.getD_eq_getElem sum _ (by omega), List.getD_eq_getElem clean _ (by omega), List.getD_eq_getElem n _ hi]
    simp [hs]
  obtain ⟨i0, hi0, hne0⟩ := hsum fact hfpos
  have hne : sum ≠ [] := by
    intro h
    rw [h] at hsl
    simp at hsl
    omega
  obtain ⟨norm, hnorm, hle, v0, hv0, hv0m⟩ := absMax_spec hne
  have hget : ∀ i, i < n.length → sum.getD i 0 ∈ sum := fun i hi => by
    rw [List.getD_eq_getElem sum _ (by omega)]
    exact List.getElem_mem _
  have hnpos : 0 < norm := by
    have h1 := hle _ (hget i0 hi0)
    rw [hsget i0 hi0] at h1
    exact lt_of_lt_of_le (abs_pos.mpr hne0) h1
  have hrn : rms n ≠ 0 := by
    rw [rms_eq]
    exact (Real.sqrt_pos.mpr hpn).ne'
  have hcl : clean ≠ [] := by
    rintro rfl
    simp at hlen
    omega
  have hnl : n ≠ [] := by
    rintro rfl
    simp at hi0
  have hadd : addArrays clean (n.map (· * fact)) = .ok sum := by
    unfold addArrays
    rw [if_pos (by rw [List.length_map, hlen])]
  have hmix : mix fs clean snr n 0 = .ok (some ⟨(sum.map (· / norm)).map (· - mean (sum.map (· / norm))), clean.map (· / norm), (n.map (· * fact)).map (· / norm), fs⟩) := by
    unfold mix
    simp only [slice_all]
    rw [← hfact, hadd]
    simp only [Except.bind, hnorm, Except.map]
    rw [if_neg (by simp [hcl, hnl, hrn, hnpos.ne'])]
  have hclean : clean.map (· / norm) = clean.map (· * (1 / norm)) := by
    apply List.map_congr_left
    intro v _
    ring
  have hnoise : (n.map (· * fact)).map (· / norm) = n.map (· * (fact / norm)) := by
    rw [List.map_map]
    apply List.map_congr_left
    intro v _
    simp only [Function.comp_apply]
    ring
  have hparts : ∀ i, i < n.length → (clean.map (· / norm)).getD i 0 + ((n.map (· * fact)).map (· / norm)).getD i 0 = sum.getD i 0 / norm := by
    intro i hi
    rw [hsget i hi, hnoise, List.getD_eq_getElem _ _ (by simpa using by omega), List.getD_eq_getElem _ _ (by simpa using hi), List.getElem_map, List.getElem_map,
      List.getD_eq_getElem clean _ (by omega), List.getD_eq_getElem n _ hi]
    ring
  refine ⟨_, hmix, rfl, ?_, ⟨1 / norm, by positivity, hclean⟩, ⟨fact / norm, by positivity, hnoise⟩, by simp [hsl], mean_sub _ (by simpa using hne),
    ⟨mean (sum.map (· / norm)), fun i hi => ?_⟩, fun i hi => ?_, ?_⟩
  · change 10 * Real.logb 10 (power (clean.map (· / norm)) / power ((n.map (· * fact)).map (· / norm))) = snr
    rw [hclean, hnoise, power_scale, power_scale]
    have hf2 : fact ^ 2 = power clean / power n * (10 : ℝ) ^ (-snr / 10) := by
      rw [hfact, mul_pow, div_pow, rms_eq, rms_eq, Real.sq_sqrt hpc.le, Real.sq_sqrt hpn.le, ← Real.rpow_natCast, ← Real.rpow_mul (by norm_num)]
      congr 2
      push_cast
      ring
    have hr : power clean * (1 / norm) ^ 2 / (power n * (fact / norm) ^ 2) = (10 : ℝ) ^ (snr / 10) := by
      rw [div_pow, div_pow, hf2, show -snr / 10 = -(snr / 10) by ring, Real.rpow_neg (by norm_num)]
      have := Real.rpow_pos_of_pos (show (0 : ℝ) < 10 by norm_num) (snr / 10)
      field_simp
    rw [hr, Real.logb_rpow (by norm_num) (by norm_num)]
    ring
  · change ((sum.map (· / norm)).map (· - mean (sum.map (· / norm)))).getD i 0 = (clean.map (· / norm)).getD i 0 + ((n.map (· * fact)).map (· / norm)).getD i 0 - _
    rw [hparts i hi, List.getD_eq_getElem _ _ (by simpa [hsl] using hi), List.getElem_map, List.getElem_map, List.getD_eq_getElem sum _ (by omega)]
  · change |(clean.map (· / norm)).getD i 0 + ((n.map (· * fact)).map (· / norm)).getD i 0| ≤ 1
    rw [hparts i hi, abs_div, abs_of_pos hnpos, div_le_one hnpos]
    exact hle _ (hget i hi)
  · obtain ⟨i, hi, rfl⟩ := List.mem_iff_getElem.mp hv0
    refine ⟨i, by omega, ?_⟩
    change |(clean.map (· / norm)).getD i 0 + ((n.map (· * fact)).map (· / norm)).getD i 0| = 1
    rw [hparts i (by omega), abs_div, abs_of_pos hnpos, List.getD_eq_getElem sum _ hi, hv0m, div_self hnpos.ne']

theorem takeNoise_file (fs : Nat) {L : Nat} {n : List ℝ} (h : L ≤ n.length) (g : Nat → ℝ) :
    takeNoise fs (L : Int) (some (fs, .floats n)) g = .ok (some (n.take L)) := by
  unfold takeNoise
  simp only
  rw [if_neg (by simp), if_neg (by change ¬ (n.length : Int) < L; omega)]
  congr 1
  change some (slice n (some 0) (some (L : Int))) = _
  unfold slice sliceStart sliceStop
  simp only
  rw [clampIdx_nat, min_eq_left h]
  simp [clampIdx]

theorem takeNoise_random (fs : Nat) {L : Nat} {g : Nat → ℝ} (h : ∃ i, i < L ∧ g i ≠ 0) :
    ∃ c, 0 < c ∧ takeNoise fs (L : Int) none g = .ok (some ((List.range L).map fun i => c * g i)) := by
  obtain ⟨i, hi, hg⟩ := h
  obtain ⟨y, c, hy, hc, -, -, rfl⟩ := C95_normalize (x := (List.range L).map g) ⟨g i, List.mem_map.mpr ⟨i, List.mem_range.mpr hi, rfl⟩, hg⟩ none
  refine ⟨c, hc, ?_⟩
  unfold takeNoise
  simp only
  rw [if_neg (by omega), Int.toNat_natCast, hy, List.map_map]
  congr 2
  apply List.map_congr_left
  intro k _
  simp

/-- **C95, sources of the noise.** Without offset, the signals mixed are the samples of the clean file and the first samples of the noise file as numbers, or normalised random
numbers, one for each sample. -/
theorem C95_sources (fs : Nat) (x : List ℝ) (snr : ℝ) (g : Nat → ℝ) :
    (∀ n : List ℝ, x.length ≤ n.length → createNoisy fs (.floats x) snr (some (fs, .floats n)) none g = mix fs x snr (n.take x.length) 0) ∧
    ((∃ i, i < x.length ∧ g i ≠ 0) → ∃ c, 0 < c ∧ createNoisy fs (.floats x) snr none none g = mix fs x snr ((List.range x.length).map fun i => c * g i) 0) := by
  have h0 : ((Signal.floats x).length : Int) + offsetSamples fs none = (x.length : Int) := by simp [Signal.length, offsetSamples]
  constructor
  · intro n hn
    unfold createNoisy
    rw [h0, takeNoise_file fs hn]
    rfl
  · intro h
    obtain ⟨c, hc, hy⟩ := takeNoise_random fs h
    refine ⟨c, hc, ?_⟩
    unfold createNoisy
    rw [h0, hy]
    rfl

/-- **C95, refusals.** Different rates and noise that is too short raise `ValueError`. -/
theorem C95_refused (fs fsN : Nat) (x n : Signal) (snr : ℝ) (g : Nat → ℝ) (offset : Option ℝ)
    (h : fsN ≠ fs ∨ (n.length : Int) < x.length + offsetSamples fs offset) : createNoisy fs x snr (some (fsN, n)) offset g = .error .valueError := by
  unfold createNoisy takeNoise
  simp only
  by_cases hf : fsN ≠ fs
  · rw [if_pos hf]
    rfl
  · rw [if_neg hf, if_pos (by tauto)]
    rfl

/-- **C95, deviation.** No positive offset can be used: signal and noise then have different lengths, which raises `ValueError`. -/
theorem C95_offset_deviation (fs : Nat) (x : List ℝ) (hx : 2 ≤ x.length) (snr : ℝ) (noise : Option (Nat × List ℝ)) (g : Nat → ℝ) {o : ℝ} (ho : 1 ≤ o * fs)
    (hg : noise = none → ∃ i, i < x.length ∧ g i ≠ 0) :
    createNoisy fs (.floats x) snr (noise.map fun p => (p.1, .floats p.2)) (some o) g = .error .valueError := by
  have hoff : 1 ≤ offsetSamples fs (some o) := by
    unfold offsetSamples pyInt
    simp only
    rw [if_pos (by linarith), Int.le_floor]
    push_cast
    exact ho
  obtain ⟨k, hk⟩ : ∃ k : Nat, offsetSamples fs (some o) = k := ⟨(offsetSamples fs (some o)).toNat, by omega⟩
  have hmix : ∀ n : List ℝ, n.length = x.length + k → mix fs x snr n k = .error .valueError := by
    intro n hn
    unfold mix
    simp only
    have : ∀ f : ℝ, addArrays x (n.map (· * f)) = .error .valueError := by
      intro f
      unfold addArrays
      rw [List.length_map, if_neg (by omega), if_neg (by omega), if_neg (by omega)]
    rw [this]
    rfl
  have h0 : ((Signal.floats x).length : Int) + offsetSamples fs (some o) = ((x.length + k : Nat) : Int) := by
    rw [hk]
    push_cast
    rfl
  cases noise with
  | some p =>
    obtain ⟨fsN, n⟩ := p
    by_cases hf : fsN ≠ fs
    · exact C95_refused fs fsN _ _ snr g _ (Or.inl hf)
    have hf' : fsN = fs := not_not.mp hf
    subst hf'
    rcases Nat.lt_or_ge n.length (x.length + k) with hl | hl
    · exact C95_refused fsN fsN _ _ snr g _ (Or.inr (by rw [h0]; exact_mod_cast hl))
    unfold createNoisy
    rw [h0]
    change ((takeNoise fsN _ (some (fsN, .floats n)) g).bind _) = _
    rw [takeNoise_file fsN hl, hk]
    exact hmix _ (by simp; omega)
  | none =>
    obtain ⟨i, hi, hgi⟩ := hg rfl
    obtain ⟨c, -, hy⟩ := takeNoise_random fs (L := x.length + k) (g := g) ⟨i, by omega, hgi⟩
    unfold createNoisy
    rw [h0]
    change ((takeNoise fs _ none g).bind _) = _
    rw [hy, hk]
    exact hmix _ (by simp)

/-- **C95, deviation.** The noisy signal is documented to be between -1 and 1. The mean is removed after scaling: if the sum of the answers `clean` and `noise` reaches
its largest size at a positive sample and has a negative mean, the noisy signal exceeds one there. -/
theorem C95_exceeds_deviation (fs : Nat) {clean n : List ℝ} (snr : ℝ) (hlen : clean.length = n.length) (hc : power clean ≠ 0) (hn : power n ≠ 0)
    (hsum : ∀ c : ℝ, 0 < c → ∃ i, i < n.length ∧ clean.getD i 0 + n.getD i 0 * c ≠ 0) {r : Noisy} (h : mix fs clean snr n 0 = .ok (some r)) {i : Nat}
    (hi : i < n.length) (h1 : r.clean.getD i 0 + r.noise.getD i 0 = 1) (hneg : ∑ i ∈ Finset.range n.length, (r.clean.getD i 0 + r.noise.getD i 0) < 0) :
    1 < r.noisy.getD i 0 := by
  obtain ⟨r', hr', -, -, -, -, hl, hmean, ⟨mu, hmu⟩, -, -⟩ := C95_mix fs snr hlen hc hn hsum
  rw [h] at hr'
  cases hr'
  rw [hmu i hi, h1]
  have hln : (0 : ℝ) < n.length := by exact_mod_cast (by omega : 0 < n.length)
  have hs : ∑ i ∈ Finset.range n.length, r.noisy.getD i 0 = 0 := by
    unfold mean at hmean
    rw [hl, div_eq_zero_iff] at hmean
    have := sum_getD r.noisy id
    rw [List.map_id, hl] at this
    simp only [id] at this
    rw [← this]
    rcases hmean with h | h
    · exact h
    · exact absurd h hln.ne'
  rw [Finset.sum_congr rfl (fun i hi => hmu i (Finset.mem_range.mp hi)), Finset.sum_sub_distrib, Finset.sum_const, Finset.card_range, nsmul_eq_mul] at hs
  have : mu < 0 := by
    by_contra hc
    have := mul_nonneg hln.le (not_lt.mp hc)
    linarith
  linarith

/-- A signal with itself as noise at 0 dB meets the hypotheses, and the noisy signal exceeds one. -/
example : ∃ r, mix 8000 [3, -2, -2] 0 [3, -2, -2] 0 = .ok (some r) ∧ 1 < r.noisy.getD 0 0 := by
  have hp : power [3, -2, -2] = 17 / 3 := by
    norm_num [power, Finset.sum_range_succ]
  have hsum : ∀ c : ℝ, 0 < c → ∃ i, i < [(3 : ℝ), -2, -2].length ∧ [(3 : ℝ), -2, -2].getD i 0 + [(3 : ℝ), -2, -2].getD i 0 * c ≠ 0 := by
    intro c hc
    refine ⟨0, by simp, ?_⟩
    simp only [List.getD_cons_zero]
    positivity
  obtain ⟨r, hr, -, hsnr, ⟨a, ha, hra⟩, ⟨b, hb, hrb⟩, hl, -, -, hle, i, hi, hone⟩ := C95_mix 8000 (clean := [3, -2, -2]) (n := [3, -2, -2]) 0 rfl (by rw [hp]; norm_num) (by rw [hp]; norm_num) hsum
  refine ⟨r, hr, C95_exceeds_deviation 8000 0 rfl (by rw [hp]; norm_num) (by rw [hp]; norm_num) hsum hr (by simp) ?_ ?_⟩
  · have h0 := hle 0 (by simp)
    rw [hra, hrb] at h0 hone ⊢
    simp only [List.map_cons, List.map_nil, List.getD_cons_zero] at h0 ⊢
    have hi3 : i < 3 := hi
    rw [abs_of_pos (by positivity)] at h0
    interval_cases i
    · simp only [List.map_cons, List.map_nil, List.getD_cons_zero] at hone
      rwa [abs_of_pos (by positivity)] at hone
    · simp only [List.map_cons, List.map_nil, List.getD_cons_succ, List.getD_cons_zero] at hone
      rw [abs_of_neg (by linarith)] at hone
      linarith
    · simp only [List.map_cons, List.map_nil, List.getD_cons_succ, List.getD_cons_zero] at hone
      rw [abs_of_neg (by linarith)] at hone
      linarith
  · rw [hra, hrb]
    simp only [List.map_cons, List.map_nil, List.length_cons, List.length_nil, Finset.sum_range_succ, Finset.sum_range_zero, List.getD_cons_succ, List.getD_cons_zero]
    linarith

end Verif.Levels
