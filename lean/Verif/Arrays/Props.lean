import Verif.Arrays.Model
import Mathlib.Analysis.SpecialFunctions.Trigonometric.Angle
import Mathlib.RingTheory.RootsOfUnity.Complex
import Mathlib.Analysis.Real.Pi.Irrational
import Mathlib.Tactic.LinearCombination
import Mathlib.Tactic.FieldSimp

namespace Verif.Arrays

open Py Filter Topology

/-! ## Specification -/

/-- The mean of the columns. -/
noncomputable def mean (P : Pts) : Pt := fun k => (∑ m ∈ Finset.range P.n, P.at_ m k) / P.n

/-- The distance of two points. -/
noncomputable def dist2 (a b : Pt) : ℝ := Real.sqrt ((a 0 - b 0) ^ 2 + (a 1 - b 1) ^ 2)

/-- The point at the angle `t` and the distance `r` from `p`. -/
noncomputable def polar (p : Pt) (r t : ℝ) : Pt := ![p 0 + r * Real.cos t, p 1 + r * Real.sin t]

/-! ## Lines and squares -/

theorem sum_cast (M : ℕ) : ∑ m ∈ Finset.range M, (m : ℝ) = (M : ℝ) * ((M : ℝ) - 1) / 2 := by
  induction M with
  | zero => simp
  | succ M ih =>
    rw [Finset.sum_range_succ, ih]
    push_cast
    ring

theorem sum_centred (M : ℕ) : ∑ m ∈ Finset.range M, ((m : ℝ) - ((M : ℝ) - 1) / 2) = 0 := by
  rw [Finset.sum_sub_distrib, sum_cast, Finset.sum_const, Finset.card_range, nsmul_eq_mul]
  ring

theorem sum_linear (center : Pt) (M : ℕ) (phi d : ℝ) (k : Fin 2) : ∑ m ∈ Finset.range M, (linear center M phi d).at_ m k = M * center k := by
  unfold linear
  simp only
  rw [Finset.sum_add_distrib, ← Finset.sum_mul, ← Finset.mul_sum, sum_centred, Finset.sum_const, Finset.card_range, nsmul_eq_mul]
  ring

/-- A linear array has its mean at the centre, and the microphones `i` and `j` are `|i - j| d` apart, in the direction of the angle. -/
theorem C124_linear (center : Pt) {M : ℕ} (hM : 0 < M) (phi d : ℝ) : (linear center M phi d).n = M ∧ mean (linear center M phi d) = center ∧
    (∀ i j, dist2 ((linear center M phi d).at_ i) ((linear center M phi d).at_ j) = |d| * |(i : ℝ) - j|) ∧
    ∀ i, (linear center M phi d).at_ (i + 1) = polar ((linear center M phi d).at_ i) d phi := by
  refine ⟨rfl, ?_, ?_, ?_⟩
  · funext k
    unfold mean
    change (∑ m ∈ Finset.range M, (linear center M phi d).at_ m k) / (M : ℝ) = center k
    rw [sum_linear]
    have : (M : ℝ) ≠ 0 := by positivity
    field_simp
  · intro i j
    rw [← abs_mul, ← Real.sqrt_sq_eq_abs]
    unfold dist2 linear unitVec
    simp only [Matrix.cons_val_zero, Matrix.cons_val_one]
    congr 1
    linear_combination (d * ((i : ℝ) - j)) ^ 2 * Real.sin_sq_add_cos_sq phi
  · intro i
    funext k
    unfold polar linear unitVec
    fin_cases k <;> simp <;> ring

theorem square_fold (N : ℕ) (phi d : ℝ) (c : ℕ → Pt) (n : ℕ) (hN : 0 < N) (col : ℕ) :
    (List.range n).foldl (fun R i => fun col => if i * N ≤ col ∧ col < (i + 1) * N then (linear (c i) N phi d).at_ (col - i * N) else R col) (fun _ _ => (0 : ℝ)) col =
      if col < n * N then (linear (c (col / N)) N phi d).at_ (col % N) else fun _ => 0 := by
  induction n with
  | zero => simp
  | succ n ih =>
    rw [List.range_succ, List.foldl_append]
    simp only [List.foldl_cons, List.foldl_nil]
    by_cases h : n * N ≤ col ∧ col < (n + 1) * N
    · rw [if_pos h, if_pos h.2]
      have h1 : col / N = n := by
        rw [Nat.div_eq_iff hN]
        have := h.2
        rw [Nat.succ_mul] at this
        omega
      have h2 : col % N = col - n * N := by
        rw [Nat.mod_eq_sub_mul_div, h1, Nat.mul_comm]
      rw [h1, h2]
    · rw [if_neg h, ih]
      have : n * N ≤ (n + 1) * N := Nat.mul_le_mul_right _ (by omega)
      by_cases h3 : col < n * N
      · rw [if_pos h3, if_pos (by omega)]
      · rw [if_neg h3, if_neg (by omega)]

theorem square_at (center : Pt) {M N : ℕ} (phi d : ℝ) {i j : ℕ} (hi : i < M) (hj : j < N) (k : Fin 2) :
    (square center M N phi d).at_ (i * N + j) k =
      center k + d * ((i : ℝ) - ((M : ℝ) - 1) / 2) * unitVec (phi + Real.pi / 2) k + d * ((j : ℝ) - ((N : ℝ) - 1) / 2) * unitVec phi k := by
  unfold square
  simp only
  have hlt : i * N + j < M * N := by
    have : (i + 1) * N ≤ M * N := Nat.mul_le_mul_right _ hi
    rw [Nat.succ_mul] at this
    omega
  have h1 : (i * N + j) / N = i := by
    rw [Nat.mul_comm, Nat.mul_add_div (by omega), Nat.div_eq_of_lt hj, Nat.add_zero]
  have h2 : (i * N + j) % N = j := by
    rw [Nat.mul_comm, Nat.mul_add_mod, Nat.mod_eq_of_lt hj]
  rw [square_fold N phi d _ M (by omega), if_pos hlt, h1, h2]
  rfl

theorem sum_blocks (f : ℕ → ℝ) (M N : ℕ) : ∑ m ∈ Finset.range (M * N), f m = ∑ i ∈ Finset.range M, ∑ j ∈ Finset.range N, f (i * N + j) := by
  induction M with
  | zero => simp
  | succ M ih => rw [Nat.succ_mul, Finset.sum_range_add, ih, Finset.sum_range_succ]

/-- A square array has `M N` microphones with their mean at the centre; microphone `i N + j` is in row `i` and column `j` of a rotated grid with the distance `d`. -/
theorem C124_square (center : Pt) {M N : ℕ} (hM : 0 < M) (hN : 0 < N) (phi d : ℝ) : (square center M N phi d).n = M * N ∧ mean (square center M N phi d) = center ∧
    (∀ i i' j j', i < M → i' < M → j < N → j' < N →
      dist2 ((square center M N phi d).at_ (i * N + j)) ((square center M N phi d).at_ (i' * N + j')) = |d| * Real.sqrt (((i : ℝ) - i') ^ 2 + ((j : ℝ) - j') ^ 2)) ∧
    (∀ i j, i < M → j + 1 < N → (square center M N phi d).at_ (i * N + (j + 1)) = polar ((square center M N phi d).at_ (i * N + j)) d phi) ∧
    ∀ i j, i + 1 < M → j < N → (square center M N phi d).at_ ((i + 1) * N + j) = polar ((square center M N phi d).at_ (i * N + j)) d (phi + Real.pi / 2) := by
  refine ⟨rfl, ?_, ?_, ?_, ?_⟩
  · funext k
    unfold mean
    have hs : ∑ m ∈ Finset.range (M * N), (square center M N phi d).at_ m k = (M * N : ℕ) * center k := by
      rw [sum_blocks]
      have e : ∀ i ∈ Finset.range M, ∑ j ∈ Finset.range N, (square center M N phi d).at_ (i * N + j) k =
          N * center k + N * (d * ((i : ℝ) - ((M : ℝ) - 1) / 2) * unitVec (phi + Real.pi / 2) k) := by
        intro i hi
        rw [Finset.sum_congr rfl fun j hj => square_at center phi d (Finset.mem_range.mp hi) (Finset.mem_range.mp hj) k, Finset.sum_add_distrib, Finset.sum_const, Finset.card_range, nsmul_eq_mul,
          ← Finset.sum_mul, ← Finset.mul_sum, sum_centred]
        ring
      rw [Finset.sum_congr rfl e, Finset.sum_add_distrib, Finset.sum_const, Finset.card_range, nsmul_eq_mul, ← Finset.mul_sum, ← Finset.sum_mul, ← Finset.mul_sum, sum_centred]
      push_cast
      ring
    change (∑ m ∈ Finset.range (M * N), (square center M N phi d).at_ m k) / ((M * N : ℕ) : ℝ) = center k
    rw [hs]
    have : ((M * N : ℕ) : ℝ) ≠ 0 := by positivity
    field_simp
  · intro i i' j j' hi hi' hj hj'
    unfold dist2
    rw [square_at center phi d hi hj, square_at center phi d hi hj, square_at center phi d hi' hj', square_at center phi d hi' hj', ← Real.sqrt_sq_eq_abs, ← Real.sqrt_mul (sq_nonneg d)]
    congr 1
    unfold unitVec
    simp only [Matrix.cons_val_zero, Matrix.cons_val_one, Real.cos_add_pi_div_two, Real.sin_add_pi_div_two]
    linear_combination d ^ 2 * (((i : ℝ) - i') ^ 2 + ((j : ℝ) - j') ^ 2) * Real.sin_sq_add_cos_sq phi
  · intro i j hi hj
    funext k
    rw [square_at center phi d hi hj]
    unfold polar
    rw [square_at center phi d hi (by omega), square_at center phi d hi (by omega)]
    unfold unitVec
    fin_cases k <;> simp <;> ring
  · intro i j hi hj
    funext k
    rw [square_at center phi d hi hj]
    unfold polar
    rw [square_at center phi d (by omega) hj, square_at center phi d (by omega) hj]
    unfold unitVec
    fin_cases k <;> simp <;> ring

/-! ## Circles -/

theorem circular_at (center : Pt) (M : ℕ) (phi0 radius : ℝ) (m : ℕ) : (circular center M phi0 radius).at_ m = polar center radius (2 * Real.pi * m / M + phi0) := by
  funext k
  unfold circular polar
  simp only
  rw [show (m : ℝ) * 2 * Real.pi / M = 2 * Real.pi * m / M by ring]
  fin_cases k <;> rfl

theorem sum_circle {M : ℕ} (hM : 2 ≤ M) (phi0 : ℝ) : ∑ m ∈ Finset.range M, Complex.exp (((2 * Real.pi * m / M + phi0 : ℝ) : ℂ) * Complex.I) = 0 := by
  have h := (Complex.isPrimitiveRoot_exp M (by omega)).geom_sum_eq_zero (by omega)
  have e : ∀ m ∈ Finset.range M, Complex.exp (((2 * Real.pi * m / M + phi0 : ℝ) : ℂ) * Complex.I) =
      Complex.exp ((phi0 : ℂ) * Complex.I) * Complex.exp (2 * Real.pi * Complex.I / M) ^ m := by
    intro m _
    rw [← Complex.exp_nat_mul, ← Complex.exp_add]
    congr 1
    push_cast
    ring
  rw [Finset.sum_congr rfl e, ← Finset.mul_sum, h, mul_zero]

theorem dist_polar (p : Pt) (r s t : ℝ) : dist2 (polar p r s) (polar p r t) = 2 * |r| * |Real.sin ((s - t) / 2)| := by
  have e : (Real.cos s - Real.cos t) ^ 2 + (Real.sin s - Real.sin t) ^ 2 = 4 * Real.sin ((s - t) / 2) ^ 2 := by
    have h1 := Real.cos_sub s t
    have h2 : Real.cos (s - t) = 1 - 2 * Real.sin ((s - t) / 2) ^ 2 := by
      have := Real.cos_two_mul ((s - t) / 2)
      rw [show 2 * ((s - t) / 2) = s - t by ring] at this
      rw [this, Real.cos_sq']
      ring
    linear_combination Real.sin_sq_add_cos_sq s + Real.sin_sq_add_cos_sq t + 2 * h1 - 2 * h2
  rw [show 2 * |r| * |Real.sin ((s - t) / 2)| = |2 * r * Real.sin ((s - t) / 2)| by rw [abs_mul, abs_mul, abs_two], ← Real.sqrt_sq_eq_abs]
  unfold dist2 polar
  simp only [Matrix.cons_val_zero, Matrix.cons_val_one]
  congr 1
  linear_combination r ^ 2 * e

/-- The microphones of a circular array are at the radius from the centre, at equal angles from `phi0` on (in radians); two of them are as far apart as the chord; from two microphones on the mean is the centre. -/
theorem C124_circular (center : Pt) (M : ℕ) (phi0 radius : ℝ) : (circular center M phi0 radius).n = M ∧
    (∀ m, (circular center M phi0 radius).at_ m = polar center radius (2 * Real.pi * m / M + phi0)) ∧ (∀ m, dist2 ((circular center M phi0 radius).at_ m) center = |radius|) ∧
    (∀ i j, dist2 ((circular center M phi0 radius).at_ i) ((circular center M phi0 radius).at_ j) = 2 * |radius| * |Real.sin (Real.pi * ((i : ℝ) - j) / M)|) ∧
    (2 ≤ M → mean (circular center M phi0 radius) = center) := by
  refine ⟨rfl, circular_at center M phi0 radius, ?_, ?_, ?_⟩
  · intro m
    rw [circular_at, ← Real.sqrt_sq_eq_abs]
    unfold dist2 polar
    simp only [Matrix.cons_val_zero, Matrix.cons_val_one]
    congr 1
    linear_combination radius ^ 2 * Real.sin_sq_add_cos_sq (2 * Real.pi * m / M + phi0)
  · intro i j
    rw [circular_at, circular_at, dist_polar]
    congr 3
    ring
  · intro hM
    have h := sum_circle hM phi0
    have hre : ∑ m ∈ Finset.range M, Real.cos (2 * Real.pi * m / M + phi0) = 0 := by
      have := congrArg Complex.re h
      rw [Complex.re_sum] at this
      simpa only [Complex.exp_ofReal_mul_I_re, Complex.zero_re] using this
    have him : ∑ m ∈ Finset.range M, Real.sin (2 * Real.pi * m / M + phi0) = 0 := by
      have := congrArg Complex.im h
      rw [Complex.im_sum] at this
      simpa only [Complex.exp_ofReal_mul_I_im, Complex.zero_im] using this
    have hM0 : (M : ℝ) ≠ 0 := by positivity
    funext k
    unfold mean
    rw [Finset.sum_congr rfl fun m _ => congrFun (circular_at center M phi0 radius m) k]
    change (∑ m ∈ Finset.range M, _) / (M : ℝ) = _
    unfold polar
    fin_cases k
    · simp only [Fin.zero_eta, Matrix.cons_val_zero]
      rw [Finset.sum_add_distrib, ← Finset.mul_sum, hre, Finset.sum_const, Finset.card_range, nsmul_eq_mul]
      field_simp
      ring
    · simp only [Fin.mk_one, Matrix.cons_val_one, Matrix.cons_val_fin_one]
      rw [Finset.sum_add_distrib, ← Finset.mul_sum, him, Finset.sum_const, Finset.card_range, nsmul_eq_mul]
      field_simp
      ring

/-- A circular array of one microphone has its mean on the circle. -/
theorem C124_single_deviation (center : Pt) (phi0 radius : ℝ) : mean (circular center 1 phi0 radius) = polar center radius phi0 := by
  funext k
  unfold mean
  change (∑ m ∈ Finset.range 1, (circular center 1 phi0 radius).at_ m k) / ((1 : ℕ) : ℝ) = _
  rw [Finset.sum_range_one, circular_at]
  simp

/-! ## Directed microphones -/

/-- The azimuth `az` (in degrees) of microphone `m` points away from the centre. -/
def Outward (center : Pt) (radius : ℝ) (place : Pt) (az : ℝ) : Prop := place = polar center radius (az * Real.pi / 180)

theorem polar_inj (p : Pt) {r : ℝ} (hr : r ≠ 0) (s t : ℝ) : polar p r s = polar p r t ↔ ∃ k : ℤ, s - t = 2 * Real.pi * k := by
  rw [← Real.Angle.angle_eq_iff_two_pi_dvd_sub]
  constructor
  · intro h
    have h0 := congrFun h 0
    have h1 := congrFun h 1
    unfold polar at h0 h1
    simp only [Matrix.cons_val_zero, Matrix.cons_val_one] at h0 h1
    exact Real.Angle.cos_sin_inj (mul_left_cancel₀ hr (add_left_cancel h0)) (mul_left_cancel₀ hr (add_left_cancel h1))
  · intro h
    unfold polar
    rw [← Real.Angle.cos_coe, ← Real.Angle.sin_coe, h, Real.Angle.cos_coe, Real.Angle.sin_coe]

/-- Without rotation the microphones point outwards. -/
theorem C124_outward (center : Pt) (M : ℕ) (radius : ℝ) (m : ℕ) : Outward center radius ((circularMics center M 0 radius).1.at_ m) ((circularMics center M 0 radius).2 m) := by
  unfold Outward circularMics
  simp only
  rw [circular_at]
  congr 1
  ring

/-- The places take `phi0` in radians, the orientations in degrees: a microphone points outwards only if these are the same up to full turns. -/
theorem C124_rotation_deviation (center : Pt) (M : ℕ) (phi0 : ℝ) {radius : ℝ} (hr : radius ≠ 0) (m : ℕ) :
    Outward center radius ((circularMics center M phi0 radius).1.at_ m) ((circularMics center M phi0 radius).2 m) ↔ ∃ k : ℤ, phi0 - phi0 * Real.pi / 180 = 2 * Real.pi * k := by
  unfold Outward circularMics
  simp only
  rw [circular_at, polar_inj center hr]
  refine exists_congr fun k => ?_
  rw [show 2 * Real.pi * m / M + phi0 - ((m : ℝ) * 360 / M + phi0) * Real.pi / 180 = phi0 - phi0 * Real.pi / 180 by ring]

/-- With a rational number of degrees other than zero no microphone points outwards. -/
theorem C124_degrees_deviation (center : Pt) (M : ℕ) {phi0 : ℚ} (h0 : phi0 ≠ 0) {radius : ℝ} (hr : radius ≠ 0) (m : ℕ) :
    ¬ Outward center radius ((circularMics center M phi0 radius).1.at_ m) ((circularMics center M phi0 radius).2 m) := by
  rw [C124_rotation_deviation center M phi0 hr m]
  rintro ⟨k, hk⟩
  have e : Real.pi * ((2 * k + phi0 / 180 : ℚ) : ℝ) = phi0 := by
    push_cast
    linear_combination -hk
  by_cases hz : (2 * k + phi0 / 180 : ℚ) = 0
  · rw [hz] at e
    simp only [Rat.cast_zero, mul_zero] at e
    exact h0 (by exact_mod_cast e.symm)
  · have hz' : ((2 * k + phi0 / 180 : ℚ) : ℝ) ≠ 0 := by exact_mod_cast hz
    refine irrational_pi ⟨phi0 / (2 * k + phi0 / 180), ?_⟩
    rw [Rat.cast_div, ← e, mul_div_assoc, div_self hz', mul_one]

/-! ## Random and spiral arrays -/

/-- A random array has its mean at the centre, and neighbours differ by `d` times the draw in each coordinate, with its sign. -/
theorem C124_poisson (center : Pt) {M : ℕ} (hM : 0 < M) (d : ℝ) (e : Fin 2 → ℕ → ℝ) (b : Fin 2 → ℕ → ℕ) : (poisson center M d e b).n = M ∧ mean (poisson center M d e b) = center ∧
    ∀ m k, (b k (m + 1) = 0 → (poisson center M d e b).at_ (m + 1) k - (poisson center M d e b).at_ m k = -(d * e k (m + 1))) ∧
      (b k (m + 1) = 1 → (poisson center M d e b).at_ (m + 1) k - (poisson center M d e b).at_ m k = d * e k (m + 1)) := by
  refine ⟨rfl, ?_, ?_⟩
  · funext k
    unfold mean poisson
    simp only
    rw [Finset.sum_add_distrib, Finset.sum_sub_distrib, Finset.sum_const, Finset.sum_const, Finset.card_range, nsmul_eq_mul, nsmul_eq_mul]
    have : (M : ℝ) ≠ 0 := by positivity
    field_simp
    ring
  · intro m k
    unfold poisson
    simp only
    rw [Finset.sum_range_succ _ (m + 1)]
    constructor
    · intro h
      rw [h]
      push_cast
      ring
    · intro h
      rw [h]
      push_cast
      ring

theorem ceil_bound {M divi : ℕ} (hd : 0 < divi) : M ≤ divi * ⌈(M : ℝ) / divi⌉₊ := by
  have h := Nat.le_ceil ((M : ℝ) / divi)
  have hd' : (0 : ℝ) < divi := by positivity
  rw [div_le_iff₀ hd'] at h
  rw [Nat.mul_comm]
  exact_mod_cast h

/-- The microphones of a spiral: the first is at the centre, number `m + 1` at the distance `radius (m + 1) / M` on arm `m mod divi`, where arm `r` lies within the angles from `2 π r / divi` to `2 π (r + 1) / divi`. -/
theorem C124_spiral (center : Pt) {M : ℕ} (hM : 0 < M) (radius : ℝ) {divi : ℕ} (hd : 0 < divi) (angle : ℝ) : ∃ P, spiral center M radius divi angle = .ok P ∧ P.n = M ∧ P.at_ 0 = center ∧
    ∀ m, m + 1 < M → ∃ t, P.at_ (m + 1) = polar center (radius * (m + 1) / M) (t + angle) ∧ t = 2 * Real.pi * ((m % divi : ℕ) : ℝ) / divi + 2 * Real.pi * ((m / divi : ℕ) : ℝ) / (divi * ⌈(M : ℝ) / divi⌉₊ : ℕ) ∧
      2 * Real.pi * ((m % divi : ℕ) : ℝ) / divi ≤ t ∧ t < 2 * Real.pi * (((m % divi : ℕ) : ℝ) + 1) / divi := by
  unfold spiral
  rw [if_neg (by omega)]
  simp only
  set S := ⌈(M : ℝ) / divi⌉₊ with hS
  have hcb := ceil_bound (M := M) hd
  rw [← hS] at hcb
  have hSpos : 0 < S := by
    rcases Nat.eq_zero_or_pos S with h | h
    · rw [h] at hcb
      omega
    · exact h
  set flat := (List.range (divi * S)).map fun i => Real.pi * 2 * (((i % divi + divi * (i / divi)) % divi : ℕ) : ℝ) / divi + ((i / divi : ℕ) : ℝ) * (2 * Real.pi / divi / S) with hflat
  have hsl : slice flat none (some ((M : ℤ) - 1)) = flat.take (M - 1) := by
    unfold slice sliceStart sliceStop clampIdx
    simp only
    rw [if_neg (show ¬ ((M : ℤ) - 1 < 0) by omega), List.drop_zero, Nat.sub_zero, show ((M : ℤ) - 1).toNat = M - 1 by omega]
    have : flat.length = divi * S := by rw [hflat, List.length_map, List.length_range]
    rw [Nat.min_eq_left (by omega)]
  rw [hsl]
  have hlen : ((0 :: flat.take (M - 1)).map (· + angle)).length = M := by
    rw [List.length_map, List.length_cons, List.length_take, hflat, List.length_map, List.length_range]
    omega
  rw [if_pos (Or.inl hlen)]
  refine ⟨_, rfl, rfl, ?_, ?_⟩
  · funext k
    fin_cases k <;> simp
  · intro m hm
    have hget : ((0 :: flat.take (M - 1)).map (· + angle)).getD (m + 1) 0 =
        (2 * Real.pi * ((m % divi : ℕ) : ℝ) / divi + 2 * Real.pi * ((m / divi : ℕ) : ℝ) / (divi * S : ℕ)) + angle := by
      rw [List.map_cons, List.getD_cons_succ, List.getD_eq_getElem?_getD, List.getElem?_map, List.getElem?_take_of_lt (by omega), hflat, List.getElem?_map, List.getElem?_range (by omega)]
      simp only [Option.map_some, Option.getD_some]
      rw [Nat.add_mul_mod_self_left, Nat.mod_mod]
      congr 1
      push_cast
      have h1 : (divi : ℝ) ≠ 0 := by positivity
      have h2 : (S : ℝ) ≠ 0 := by positivity
      field_simp
    refine ⟨2 * Real.pi * ((m % divi : ℕ) : ℝ) / divi + 2 * Real.pi * ((m / divi : ℕ) : ℝ) / (divi * S : ℕ), ?_, rfl, ?_, ?_⟩
    · funext k
      simp only [hlen, if_true]
      rw [hget]
      unfold polar
      push_cast
      rw [show ((m : ℝ) + 1) * (radius / M) = radius * (m + 1) / M by ring]
      fin_cases k <;> rfl
    · have : 0 ≤ 2 * Real.pi * ((m / divi : ℕ) : ℝ) / (divi * S : ℕ) := by positivity
      linarith
    · have hq : m / divi < S := by
        rw [Nat.div_lt_iff_lt_mul hd, Nat.mul_comm]
        omega
      have hd' : (0 : ℝ) < divi := by positivity
      have hS' : (0 : ℝ) < S := by positivity
      have hq' : ((m / divi : ℕ) : ℝ) < S := by exact_mod_cast hq
      have : 2 * Real.pi * ((m / divi : ℕ) : ℝ) / (divi * S : ℕ) < 2 * Real.pi / divi := by
        push_cast
        rw [div_lt_div_iff₀ (by positivity) hd']
        have := mul_lt_mul_of_pos_left hq' (show 0 < 2 * Real.pi * divi by positivity)
        linarith
      rw [mul_add, add_div, mul_one]
      linarith

/-- The microphones of a spiral are inside the circle. -/
theorem C124_spiral_inside (center : Pt) {M : ℕ} (hM : 0 < M) {radius : ℝ} (hr : 0 < radius) {divi : ℕ} (hd : 0 < divi) (angle : ℝ) {P : Pts} (h : spiral center M radius divi angle = .ok P) {m : ℕ}
    (hm : m < M) : dist2 (P.at_ m) center = radius * m / M ∧ dist2 (P.at_ m) center < radius := by
  obtain ⟨P', h', _, h0, hs⟩ := C124_spiral center hM radius hd angle
  rw [h] at h'
  cases h'
  have hM' : (0 : ℝ) < M := by positivity
  have hd1 : dist2 (P.at_ m) center = radius * m / M := by
    cases m with
    | zero =>
      rw [h0]
      simp [dist2]
    | succ m =>
      obtain ⟨t, e, _⟩ := hs m hm
      rw [e, show radius * ((m + 1 : ℕ) : ℝ) / M = |radius * (m + 1) / M| by rw [abs_of_nonneg (by positivity)]; push_cast; ring, ← Real.sqrt_sq_eq_abs]
      unfold dist2 polar
      simp only [Matrix.cons_val_zero, Matrix.cons_val_one]
      congr 1
      linear_combination (radius * ((m : ℝ) + 1) / M) ^ 2 * Real.sin_sq_add_cos_sq (t + angle)
  refine ⟨hd1, ?_⟩
  rw [hd1, div_lt_iff₀ hM']
  have : (m : ℝ) < M := by exact_mod_cast hm
  exact mul_lt_mul_of_pos_left this hr

/-! ## Steering vectors and responses -/

/-- The steering vector is the phase of the delay from the point at the angle and the distance from the centre; its entries have modulus one. -/
theorem C124_steering (R : Pts) (center : Pt) (c frequency dist phi : ℝ) (m : ℕ) :
    steering R center c frequency dist phi m = Complex.exp (-Complex.I * ((2 * Real.pi * frequency * (dist2 (R.at_ m) (polar center dist phi) / c) : ℝ) : ℂ)) ∧ ‖steering R center c frequency dist phi m‖ = 1 := by
  have e : steering R center c frequency dist phi m = Complex.exp (-Complex.I * ((2 * Real.pi * frequency * (dist2 (R.at_ m) (polar center dist phi) / c) : ℝ) : ℂ)) := by
    unfold steering distance dist2 polar
    simp only [Fin.sum_univ_two, Matrix.cons_val_zero, Matrix.cons_val_one]
    rw [add_comm (dist * Real.cos phi), add_comm (dist * Real.sin phi), mul_div_assoc]
  refine ⟨e, ?_⟩
  rw [e, show -Complex.I * ((2 * Real.pi * frequency * (dist2 (R.at_ m) (polar center dist phi) / c) : ℝ) : ℂ) = ((-(2 * Real.pi * frequency * (dist2 (R.at_ m) (polar center dist phi) / c)) : ℝ) : ℂ) * Complex.I by
    push_cast; ring, Complex.norm_exp_ofReal_mul_I]

/-- With attenuation the entries are divided by `4 π` times the distance. -/
theorem C124_attenuation (R : Pts) (center : Pt) (c frequency dist phi : ℝ) (m : ℕ) (h : dist2 (R.at_ m) (polar center dist phi) ≠ 0) :
    steeringAttn R center c frequency dist phi m = some (steering R center c frequency dist phi m / ((4 * Real.pi * dist2 (R.at_ m) (polar center dist phi) : ℝ) : ℂ)) := by
  have hd : distance R.at_ (fun (_ : ℕ) (k : Fin 2) => dist * ![Real.cos phi, Real.sin phi] k + center k) m 0 = dist2 (R.at_ m) (polar center dist phi) := by
    unfold distance dist2 polar
    simp only [Fin.sum_univ_two, Matrix.cons_val_zero, Matrix.cons_val_one]
    rw [add_comm (dist * Real.cos phi), add_comm (dist * Real.sin phi)]
  unfold steeringAttn steering
  simp only
  rw [hd, if_neg h]
  congr 1
  push_cast
  field_simp

/-- Far away the distance exceeds that of the centre by the projection. -/
theorem far_distance (a center : Pt) (phi : ℝ) : Tendsto (fun t : ℝ => dist2 a (polar center t phi) - t) atTop (𝓝 (-((a 0 - center 0) * Real.cos phi + (a 1 - center 1) * Real.sin phi))) := by
  set s := (a 0 - center 0) * Real.cos phi + (a 1 - center 1) * Real.sin phi with hs
  set q := (a 0 - center 0) * Real.sin phi - (a 1 - center 1) * Real.cos phi with hq
  have e : ∀ t : ℝ, dist2 a (polar center t phi) = Real.sqrt ((t - s) ^ 2 + q ^ 2) := by
    intro t
    unfold dist2 polar
    simp only [Matrix.cons_val_zero, Matrix.cons_val_one]
    congr 1
    rw [hs, hq]
    linear_combination (t ^ 2 - (a 0 - center 0) ^ 2 - (a 1 - center 1) ^ 2) * Real.sin_sq_add_cos_sq phi
  have h1 : Tendsto (fun t : ℝ => -s + q ^ 2 / (2 * (t - s))) atTop (𝓝 (-s + 0)) := by
    refine tendsto_const_nhds.add (Tendsto.div_atTop tendsto_const_nhds ?_)
    exact (tendsto_atTop_add_const_right _ (-s) tendsto_id).const_mul_atTop (by norm_num : (0 : ℝ) < 2)
  rw [add_zero] at h1
  refine tendsto_of_tendsto_of_tendsto_of_le_of_le' tendsto_const_nhds h1 ?_ ?_
  · filter_upwards [eventually_gt_atTop s] with t ht
    rw [e]
    have : t - s ≤ Real.sqrt ((t - s) ^ 2 + q ^ 2) := Real.le_sqrt_of_sq_le (by nlinarith [sq_nonneg q])
    linarith
  · filter_upwards [eventually_gt_atTop s] with t ht
    rw [e]
    have hp : 0 < t - s := by linarith
    have : Real.sqrt ((t - s) ^ 2 + q ^ 2) ≤ (t - s) + q ^ 2 / (2 * (t - s)) := by
      rw [Real.sqrt_le_left (by positivity)]
      have e2 : ((t - s) + q ^ 2 / (2 * (t - s))) ^ 2 = (t - s) ^ 2 + q ^ 2 + (q ^ 2 / (2 * (t - s))) ^ 2 := by
        field_simp
        ring
      rw [e2]
      nlinarith [sq_nonneg (q ^ 2 / (2 * (t - s)))]
    linarith

/-- In the limit of large distances the steering vector is, up to the phase of the centre, that of a plane wave. -/
theorem C124_far_field (R : Pts) (center : Pt) (c frequency phi : ℝ) (m : ℕ) :
    Tendsto (fun t : ℝ => steering R center c frequency t phi m * Complex.exp (Complex.I * ((2 * Real.pi * frequency * (t / c) : ℝ) : ℂ))) atTop
      (𝓝 (Complex.exp (Complex.I * ((2 * Real.pi * frequency * (((R.at_ m 0 - center 0) * Real.cos phi + (R.at_ m 1 - center 1) * Real.sin phi) / c) : ℝ) : ℂ)))) := by
  have e : ∀ t : ℝ, steering R center c frequency t phi m * Complex.exp (Complex.I * ((2 * Real.pi * frequency * (t / c) : ℝ) : ℂ)) =
      Complex.exp (Complex.I * ((2 * Real.pi * frequency * (-(dist2 (R.at_ m) (polar center t phi) - t) / c) : ℝ) : ℂ)) := by
    intro t
    rw [(C124_steering R center c frequency t phi m).1, ← Complex.exp_add]
    congr 1
    push_cast
    ring
  simp only [e]
  have h := far_distance (R.at_ m) center phi
  have h2 : Tendsto (fun t : ℝ => 2 * Real.pi * frequency * (-(dist2 (R.at_ m) (polar center t phi) - t) / c)) atTop
      (𝓝 (2 * Real.pi * frequency * (((R.at_ m 0 - center 0) * Real.cos phi + (R.at_ m 1 - center 1) * Real.sin phi) / c))) := by
    have := ((h.neg).div_const c).const_mul (2 * Real.pi * frequency)
    rwa [neg_neg] at this
  exact (Complex.continuous_exp.tendsto _).comp (((Complex.continuous_ofReal.tendsto _).comp h2).const_mul Complex.I)

theorem argmin_spec (f : ℕ → ℝ) (n : ℕ) : argmin f n ≤ n ∧ ∀ i ≤ n, f (argmin f n) ≤ f i := by
  induction n with
  | zero =>
    refine ⟨le_refl _, fun i hi => ?_⟩
    rw [Nat.le_zero.mp hi]
    rfl
  | succ n ih =>
    unfold argmin
    by_cases h : f (n + 1) < f (argmin f n)
    · rw [if_pos h]
      refine ⟨le_refl _, fun i hi => ?_⟩
      rcases Nat.lt_or_ge i (n + 1) with hl | hl
      · exact le_trans h.le (ih.2 i (by omega))
      · rw [show i = n + 1 by omega]
    · rw [if_neg h]
      refine ⟨by omega, fun i hi => ?_⟩
      rcases Nat.lt_or_ge i (n + 1) with hl | hl
      · exact ih.2 i (by omega)
      · rw [show i = n + 1 by omega]
        exact not_lt.mp h

/-- The response is that of the weights at the nearest frequency of the beamformer; it raises only if there are neither weights nor filters, and filters count only without weights. -/
theorem C124_response {F : Type} (R : Pts) (center : Pt) (c ffdist fs : ℝ) (N : ℕ) (weights : Option (ℕ → ℕ → ℂ)) (filters : Option F) (weightsOf : F → ℕ → ℕ → ℂ) (frequency phi : ℝ) :
    (weights = none → filters = none → response R center c ffdist fs N weights filters weightsOf frequency phi = .error .nameError) ∧
    ∀ w, (weights = some w ∨ weights = none ∧ ∃ g, filters = some g ∧ w = weightsOf g) → ∃ i ≤ N / 2, (∀ j ≤ N / 2, |(i : ℝ) / N * fs - frequency| ≤ |(j : ℝ) / N * fs - frequency|) ∧
      response R center c ffdist fs N weights filters weightsOf frequency phi =
        .ok ((i : ℝ) / N * fs, ∑ m ∈ Finset.range R.n, (starRingEnd ℂ) (w m i) * Complex.exp (-Complex.I * ((2 * Real.pi * ((i : ℝ) / N * fs) * (dist2 (R.at_ m) (polar center ffdist phi) / c) : ℝ) : ℂ))) := by
  constructor
  · rintro rfl rfl
    rfl
  · intro w hw
    have ha := argmin_spec (fun i => |frequencies N fs i - frequency|) (N / 2)
    refine ⟨argmin (fun i => |frequencies N fs i - frequency|) (N / 2), ha.1, ha.2, ?_⟩
    rcases hw with rfl | ⟨rfl, g, rfl, rfl⟩
    · unfold response
      simp only [(C124_steering _ _ _ _ _ _ _).1]
      rfl
    · unfold response
      simp only [(C124_steering _ _ _ _ _ _ _).1]
      rfl

/-- With the weights of delay and sum for a direction the response is one in that direction and nowhere larger. -/
theorem C124_delay_and_sum {F : Type} (R : Pts) (hR : 0 < R.n) (center : Pt) (c ffdist fs : ℝ) (N : ℕ) (filters : Option F) (weightsOf : F → ℕ → ℕ → ℂ) (frequency phi0 : ℝ) (w : ℕ → ℕ → ℂ)
    (hw : ∀ m i, w m i = steering R center c ((i : ℝ) / N * fs) ffdist phi0 m / R.n) :
    (∃ f, response R center c ffdist fs N (some w) filters weightsOf frequency phi0 = .ok (f, 1)) ∧
      ∀ phi f r, response R center c ffdist fs N (some w) filters weightsOf frequency phi = .ok (f, r) → ‖r‖ ≤ 1 := by
  have hn : (R.n : ℂ) ≠ 0 := by exact_mod_cast hR.ne'
  have hn' : (0 : ℝ) < R.n := by exact_mod_cast hR
  constructor
  · unfold response
    simp only
    set i := argmin (fun i => |frequencies N fs i - frequency|) (N / 2)
    refine ⟨frequencies N fs i, ?_⟩
    congr 2
    have e : ∀ m ∈ Finset.range R.n, (starRingEnd ℂ) (w m i) * steering R center c (frequencies N fs i) ffdist phi0 m = 1 / R.n := by
      intro m _
      rw [hw, map_div₀, Complex.conj_natCast]
      change (starRingEnd ℂ) (steering R center c (frequencies N fs i) ffdist phi0 m) / _ * _ = _
      rw [div_mul_eq_mul_div, mul_comm ((starRingEnd ℂ) _), Complex.mul_conj, Complex.normSq_eq_norm_sq, (C124_steering _ _ _ _ _ _ _).2]
      norm_num
    rw [Finset.sum_congr rfl e, Finset.sum_const, Finset.card_range, nsmul_eq_mul, mul_one_div_cancel hn]
  · intro phi f r h
    unfold response at h
    simp only [Except.ok.injEq, Prod.mk.injEq] at h
    rw [← h.2]
    refine le_trans (norm_sum_le _ _) ?_
    have e : ∀ m ∈ Finset.range R.n, ‖(starRingEnd ℂ) (w m (argmin (fun i => |frequencies N fs i - frequency|) (N / 2))) *
        steering R center c (frequencies N fs (argmin (fun i => |frequencies N fs i - frequency|) (N / 2))) ffdist phi m‖ = 1 / R.n := by
      intro m _
      rw [norm_mul, Complex.norm_conj, hw, norm_div, (C124_steering _ _ _ _ _ _ _).2, (C124_steering _ _ _ _ _ _ _).2, Complex.norm_natCast, mul_one]
    rw [Finset.sum_congr rfl e, Finset.sum_const, Finset.card_range, nsmul_eq_mul, mul_one_div_cancel hn'.ne']

/-! ## The hypotheses can be met -/

/-- Three microphones in a line. -/
example : mean (linear ![1, 2] 3 0 (1 / 10)) = ![1, 2] ∧ (linear ![1, 2] 3 0 (1 / 10)).at_ 0 = ![9 / 10, 2] := by
  refine ⟨(C124_linear _ (by norm_num) _ _).2.1, ?_⟩
  funext k
  unfold linear unitVec
  fin_cases k <;> norm_num

/-- Two rows of three microphones. -/
example : mean (square ![1, 2] 2 3 (Real.pi / 4) 1) = ![1, 2] := (C124_square _ (by norm_num) (by norm_num) _ _).2.1

/-- Six microphones in a circle. -/
example : mean (circular ![1, 2] 6 1 (1 / 20)) = ![1, 2] := (C124_circular _ 6 _ _).2.2.2.2 (by norm_num)

/-- A rotation by 90 degrees. -/
example : ¬ Outward ![0, 0] 1 ((circularMics ![0, 0] 4 ((90 : ℚ) : ℝ) 1).1.at_ 0) ((circularMics ![0, 0] 4 ((90 : ℚ) : ℝ) 1).2 0) := C124_degrees_deviation _ 4 (by norm_num) (by norm_num) 0

/-- A spiral of ten microphones. -/
example : ∃ P, spiral ![0, 0] 10 1 3 0 = .ok P ∧ dist2 (P.at_ 9) ![0, 0] < 1 := by
  obtain ⟨P, h, _⟩ := C124_spiral ![0, 0] (M := 10) (by norm_num) 1 (divi := 3) (by norm_num) 0
  exact ⟨P, h, (C124_spiral_inside _ (by norm_num) (by norm_num) (by norm_num) _ h (m := 9) (by norm_num)).2⟩

/-- A source that is not at the microphone. -/
example : dist2 ((linear ![0, 0] 1 0 1).at_ 0) (polar ![0, 0] 10 0) ≠ 0 := by
  unfold dist2 polar linear unitVec
  simp

end Verif.Arrays
