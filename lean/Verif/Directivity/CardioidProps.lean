import Verif.Directivity.CardioidModel
import Verif.Angles.Props
import Verif.Random.Props
import Mathlib.MeasureTheory.Integral.IntervalIntegral.FundThmCalculus
import Mathlib.Analysis.SpecialFunctions.Trigonometric.Deriv

/-!
# Properties of the cardioid family (C53)
-/

namespace Verif.Directivity

open Verif.Py (Err)
open Verif.Angles

/-! ## Specification -/

/-- Cosine of the angle between two vectors. -/
noncomputable def cosAngle (u v : V3) : ℝ :=
  (u.1 * v.1 + u.2.1 * v.2.1 + u.2.2 * v.2.2) / (Real.sqrt (u.1 ^ 2 + u.2.1 ^ 2 + u.2.2 ^ 2) * Real.sqrt (v.1 ^ 2 + v.2.1 ^ 2 + v.2.2 ^ 2))

/-- The documented pattern. -/
noncomputable def pattern (gain p : ℝ) (orientation direction : V3) : ℝ := gain * (p + (1 - p) * cosAngle orientation direction)

/-- The direction of angles in radians. -/
noncomputable def direction (azimuth colatitude : ℝ) : V3 := (Real.cos azimuth * Real.sin colatitude, Real.sin azimuth * Real.sin colatitude, Real.cos colatitude)

/-! ## Vectors -/

theorem norm3_pos {v : V3} (h : v ≠ 0) : 0 < norm3 v := by
  obtain ⟨x, y, z⟩ := v
  unfold norm3
  simp only
  apply Real.sqrt_pos.mpr
  by_contra hc
  have hx : x = 0 := by nlinarith [sq_nonneg x, sq_nonneg y, sq_nonneg z]
  have hy : y = 0 := by nlinarith [sq_nonneg x, sq_nonneg y, sq_nonneg z]
  have hz : z = 0 := by nlinarith [sq_nonneg x, sq_nonneg y, sq_nonneg z]
  exact h (by rw [hx, hy, hz]; rfl)

theorem norm3_sq (v : V3) : norm3 v ^ 2 = v.1 ^ 2 + v.2.1 ^ 2 + v.2.2 ^ 2 := by
  unfold norm3
  exact Real.sq_sqrt (by positivity)

theorem direction_unit (a c : ℝ) : norm3 (direction a c) = 1 := by
  unfold norm3 direction
  simp only
  rw [show (Real.cos a * Real.sin c) ^ 2 + (Real.sin a * Real.sin c) ^ 2 + Real.cos c ^ 2 = Real.sin c ^ 2 * (Real.sin a ^ 2 + Real.cos a ^ 2) + Real.cos c ^ 2 by ring,
    Real.sin_sq_add_cos_sq, mul_one, Real.sin_sq_add_cos_sq, Real.sqrt_one]

theorem divBy_unit {v : V3} (h : v ≠ 0) : norm3 (divBy v (norm3 v)) = 1 := by
  have hp := norm3_pos h
  have hs := norm3_sq v
  generalize norm3 v = r at *
  unfold norm3 divBy
  simp only
  rw [show (v.1 / r) ^ 2 + (v.2.1 / r) ^ 2 + (v.2.2 / r) ^ 2 = (v.1 ^ 2 + v.2.1 ^ 2 + v.2.2 ^ 2) / r ^ 2 by field_simp, ← hs, div_self (by positivity), Real.sqrt_one]

/-- For vectors of length one the angle is given by the product. -/
theorem cosAngle_unit {u v : V3} (hu : norm3 u = 1) (hv : v ≠ 0) : cosAngle u v = dot3 u (divBy v (norm3 v)) := by
  have hp := norm3_pos hv
  unfold cosAngle
  rw [show Real.sqrt (u.1 ^ 2 + u.2.1 ^ 2 + u.2.2 ^ 2) = 1 from hu, show Real.sqrt (v.1 ^ 2 + v.2.1 ^ 2 + v.2.2 ^ 2) = norm3 v from rfl]
  unfold dot3 divBy
  field_simp

theorem cosAngle_scale {v w : V3} (hv : v ≠ 0) : cosAngle (divBy v (norm3 v)) w = cosAngle v w := by
  have hp := norm3_pos hv
  have hu := divBy_unit hv
  unfold cosAngle
  rw [show Real.sqrt ((divBy v (norm3 v)).1 ^ 2 + (divBy v (norm3 v)).2.1 ^ 2 + (divBy v (norm3 v)).2.2 ^ 2) = 1 from hu,
    show Real.sqrt (v.1 ^ 2 + v.2.1 ^ 2 + v.2.2 ^ 2) = norm3 v from rfl]
  unfold divBy
  field_simp

theorem abs_cosAngle_le {u v : V3} (hu : u ≠ 0) (hv : v ≠ 0) : |cosAngle u v| ≤ 1 := by
  have h1 := norm3_pos hu
  have h2 := norm3_pos hv
  have s1 := norm3_sq u
  have s2 := norm3_sq v
  unfold cosAngle
  rw [show Real.sqrt (u.1 ^ 2 + u.2.1 ^ 2 + u.2.2 ^ 2) = norm3 u from rfl, show Real.sqrt (v.1 ^ 2 + v.2.1 ^ 2 + v.2.2 ^ 2) = norm3 v from rfl, abs_div,
    abs_of_pos (mul_pos h1 h2), div_le_one (mul_pos h1 h2)]
  apply abs_le_of_sq_le_sq _ (mul_pos h1 h2).le
  rw [mul_pow, s1, s2]
  nlinarith [sq_nonneg (u.1 * v.2.1 - u.2.1 * v.1), sq_nonneg (u.1 * v.2.2 - u.2.2 * v.1), sq_nonneg (u.2.1 * v.2.2 - u.2.2 * v.2.1)]

/-! ## The object -/

/-- The vector that an orientation stands for. -/
def Means : Orientation → V3 → Prop
  | .vector l, v => l = [v.1, v.2.1, v.2.2] ∧ v ≠ 0
  | .direction d, v => d.unitV = v ∧ norm3 v = 1
  | .other, _ => False

theorem dirVec_ok {a : ℝ} {c : Option ℝ} {deg : Bool} {d : DirVec} (h : DirVec.init a c deg = .ok d) : d.unitV = direction d.azimuth d.colatitude := by
  unfold DirVec.init at h
  cases deg <;> simp only [Bool.false_eq_true, if_false, if_true] at h <;> split at h <;> cases h <;> rfl

theorem parse_ok {o : Orientation} {v : V3} (h : Means o v) : ∃ d, parseOrientation o = .ok d ∧ d.unitV = divBy v (norm3 v) ∧ norm3 d.unitV = 1 := by
  cases o with
  | other => exact h.elim
  | direction d =>
    refine ⟨d, rfl, ?_, by rw [h.1]; exact h.2⟩
    rw [h.1, h.2]
    unfold divBy
    simp
  | vector l =>
    obtain ⟨rfl, hv⟩ := h
    have hp := norm3_pos hv
    simp only [parseOrientation]
    rw [if_neg (show ¬ norm3 (v.1, v.2.1, v.2.2) = 0 from hp.ne')]
    have hu := divBy_unit hv
    generalize hw : divBy (v.1, v.2.1, v.2.2) (norm3 (v.1, v.2.1, v.2.2)) = w
    have hw' : w = divBy v (norm3 v) := hw.symm
    rw [← hw'] at hu
    obtain ⟨h1, h2, _, _, h5, h6⟩ := C45_round_trip w
    have hr : (cart2spher w).2.2 = 1 := h2.trans hu
    unfold DirVec.init
    simp only [Bool.false_eq_true, if_false, Option.getD_some]
    rw [if_pos ⟨h6, h5⟩]
    have e : (Real.cos (cart2spher w).1 * Real.sin (cart2spher w).2.1, Real.sin (cart2spher w).1 * Real.sin (cart2spher w).2.1, Real.cos (cart2spher w).2.1) = w := by
      rw [hr] at h1
      unfold spher2cart at h1
      simpa using h1
    refine ⟨_, rfl, e, ?_⟩
    simp only
    rw [e]; exact hu

/-- Making an object. -/
theorem init_ok {o : Orientation} {v : V3} (h : Means o v) {p : ℝ} (hp : 0 ≤ p ∧ p ≤ 1) (gain : ℝ) :
    ∃ c, Cardioid.init o p gain = .ok c ∧ c.p = p ∧ c.gain = gain ∧ c.orientation.unitV = divBy v (norm3 v) ∧ norm3 c.orientation.unitV = 1 ∧
      c.energy = ⟨c.orientation.unitV, gain, p, cardioidEnergy p gain⟩ := by
  obtain ⟨d, hd, hu, hn⟩ := parse_ok h
  unfold Cardioid.init EnergyDist.init
  rw [hd]
  simp only
  rw [if_neg (not_not_intro hp), if_neg (by rw [hn]; norm_num), if_neg (not_not_intro hp)]
  exact ⟨⟨d, p, gain, ⟨d.unitV, gain, p, cardioidEnergy p gain⟩⟩, rfl, rfl, rfl, hu, hn, rfl⟩

theorem means_ne {o : Orientation} {v : V3} (h : Means o v) : v ≠ 0 := by
  cases o with
  | other => exact h.elim
  | direction d =>
    rintro rfl
    have := h.2
    simp [norm3] at this
  | vector l => exact h.2

/-- The response in a direction of length one or more. -/
theorem fromVector_eq {c : Cardioid} {v w : V3} (hv : v ≠ 0) (hw : w ≠ 0) (hu : c.orientation.unitV = divBy v (norm3 v)) (m : Bool) :
    c.fromVector (divBy w (norm3 w)) m = pattern c.gain c.p v w := by
  unfold Cardioid.fromVector pattern
  rw [hu, ← cosAngle_unit (divBy_unit hv) hw, cosAngle_scale hv]

/-- **C53, cartesian interface.** For every orientation, parameter and gain, the response in every direction that is not zero is the documented one, with or without the flag. -/
theorem C53_cartesian {o : Orientation} {v : V3} (h : Means o v) {p : ℝ} (hp : 0 ≤ p ∧ p ≤ 1) (gain : ℝ) :
    ∃ c, Cardioid.init o p gain = .ok c ∧ ∀ (l : List V3) (m : Bool), (∀ w ∈ l, w ≠ 0) → c.getResponseCartesian l m = l.map fun w => some (pattern gain p v w) := by
  obtain ⟨c, e, h1, h2, h3, _, _⟩ := init_ok h hp gain
  refine ⟨c, e, fun l m hl => ?_⟩
  unfold Cardioid.getResponseCartesian
  split
  · rename_i hp1
    apply List.map_congr_left
    intro w _
    unfold pattern
    rw [← h1, hp1, h2]; ring_nf
  · apply List.map_congr_left
    intro w hw
    rw [if_neg (norm3_pos (hl w hw)).ne', fromVector_eq (means_ne h) (hl w hw) h3, h1, h2]

theorem direction_ne (a c : ℝ) : direction a c ≠ 0 := by
  intro h
  have := direction_unit a c
  rw [h] at this
  simp [norm3] at this

theorem divBy_one {w : V3} (h : norm3 w = 1) : divBy w (norm3 w) = w := by
  rw [h]; unfold divBy; simp

theorem spher2cart_direction (a : ℝ) (c : Option ℝ) (deg : Bool) : spher2cart a c 1 deg =
    direction (if deg then a * (Real.pi / 180) else a) (match c with | none => Real.pi / 2 | some x => if deg then x * (Real.pi / 180) else x) := by
  unfold spher2cart direction radians
  cases deg <;> cases c <;> simp

/-- **C53, angular interface.** The response at angles is the documented one in their direction; without colatitudes the directions are horizontal. -/
theorem C53_angular {o : Orientation} {v : V3} (h : Means o v) {p : ℝ} (hp : 0 ≤ p ∧ p ≤ 1) (gain : ℝ) :
    ∃ c, Cardioid.init o p gain = .ok c ∧
      (∀ (az col : List ℝ) (m deg : Bool), az.length = col.length → c.getResponse az (some col) m deg = .ok ((az.zip col).map fun a =>
        pattern gain p v (direction (if deg then a.1 * (Real.pi / 180) else a.1) (if deg then a.2 * (Real.pi / 180) else a.2)))) ∧
      (∀ (az col : List ℝ) (m deg : Bool), az.length ≠ col.length → c.getResponse az (some col) m deg = .error .assertionError) ∧
      ∀ (az : List ℝ) (m deg : Bool), c.getResponse az none m deg = .ok (az.map fun a =>
        pattern gain p v (direction (if deg then a * (Real.pi / 180) else a) (Real.pi / 2))) := by
  obtain ⟨c, e, h1, h2, h3, _, _⟩ := init_ok h hp gain
  have key : ∀ (a b : ℝ) (m : Bool), c.fromVector (direction a b) m = pattern gain p v (direction a b) := by
    intro a b m
    have := fromVector_eq (w := direction a b) (means_ne h) (direction_ne a b) h3 m
    rw [divBy_one (direction_unit a b), h1, h2] at this
    exact this
  have one : c.p = 1 → ∀ w, c.gain * 1 = pattern gain p v w := by
    intro hp1 w
    unfold pattern
    rw [← h1, hp1, h2]; ring_nf
  refine ⟨c, e, fun az col m deg hl => ?_, fun az col m deg hl => ?_, fun az m deg => ?_⟩
  · simp only [Cardioid.getResponse]
    rw [if_neg (not_not_intro hl)]
    split
    · rename_i hp1
      congr 1
      apply List.ext_getElem
      · simp [hl]
      · intro i _ _
        simp only [List.getElem_map]
        exact one hp1 _
    · congr 1
      apply List.map_congr_left
      intro a _
      rw [spher2cart_direction, key]
  · simp only [Cardioid.getResponse]
    rw [if_pos hl]
  · simp only [Cardioid.getResponse]
    split
    · rename_i hp1
      congr 1
      apply List.map_congr_left
      intro a _
      exact one hp1 _
    · congr 1
      apply List.map_congr_left
      intro a _
      rw [spher2cart_direction, key]

/-- **C53, refusals.** A zero vector, a vector of another length and a parameter outside of the unit interval are refused. -/
theorem C53_errors (p gain : ℝ) :
    Cardioid.init (.vector [0, 0, 0]) p gain = .error .assertionError ∧ (∀ l : List ℝ, l.length ≠ 3 → Cardioid.init (.vector l) p gain = .error .valueError) ∧
      ∀ {o : Orientation} {v : V3}, Means o v → ¬ (0 ≤ p ∧ p ≤ 1) → Cardioid.init o p gain = .error .valueError := by
  refine ⟨?_, fun l hl => ?_, fun {o v} h hp => ?_⟩
  · unfold Cardioid.init parseOrientation
    simp only
    rw [if_pos (by simp [norm3])]
  · unfold Cardioid.init
    have : parseOrientation (.vector l) = .error .valueError := by
      unfold parseOrientation
      split
      · rename_i e; cases e; simp at hl
      · rfl
      · rename_i e; cases e
      · rfl
    rw [this]
  · obtain ⟨d, hd, _, _⟩ := parse_ok h
    unfold Cardioid.init
    rw [hd]
    simp only
    rw [if_pos hp]

/-- **C53, bounds.** The response is never larger in modulus than the gain, and it is the gain in the direction of the orientation. -/
theorem C53_bounds {v w : V3} (hv : v ≠ 0) (hw : w ≠ 0) {p : ℝ} (hp : 0 ≤ p ∧ p ≤ 1) (gain : ℝ) :
    |pattern gain p v w| ≤ |gain| ∧ pattern gain p v v = gain := by
  constructor
  · unfold pattern
    rw [abs_mul]
    have hc := abs_le.mp (abs_cosAngle_le hv hw)
    have : |p + (1 - p) * cosAngle v w| ≤ 1 := by
      rw [abs_le]
      constructor <;> nlinarith
    calc |gain| * |p + (1 - p) * cosAngle v w| ≤ |gain| * 1 := by gcongr
      _ = |gain| := mul_one _
  · have : cosAngle v v = 1 := by
      have hp := norm3_pos hv
      have hs := norm3_sq v
      unfold cosAngle
      rw [show Real.sqrt (v.1 ^ 2 + v.2.1 ^ 2 + v.2.2 ^ 2) = norm3 v from rfl, show v.1 * v.1 + v.2.1 * v.2.1 + v.2.2 * v.2.2 = v.1 ^ 2 + v.2.1 ^ 2 + v.2.2 ^ 2 by ring, ← hs, sq]
      exact div_self (by positivity)
    unfold pattern
    rw [this]; ring

/-! ## Energy -/

theorem inner_integral (a A B : ℝ) : ∫ φ in (0 : ℝ)..(2 * Real.pi), (a + (A * Real.cos φ + B * Real.sin φ)) ^ 2 = 2 * Real.pi * a ^ 2 + Real.pi * (A ^ 2 + B ^ 2) := by
  have hd : ∀ φ ∈ Set.uIcc (0 : ℝ) (2 * Real.pi), HasDerivAt (fun φ => a ^ 2 * φ + A ^ 2 * (φ / 2 + Real.sin φ * Real.cos φ / 2) + B ^ 2 * (φ / 2 - Real.sin φ * Real.cos φ / 2) +
      2 * a * A * Real.sin φ - 2 * a * B * Real.cos φ + A * B * Real.sin φ ^ 2) ((a + (A * Real.cos φ + B * Real.sin φ)) ^ 2) φ := by
    intro φ _
    have hs := Real.hasDerivAt_sin φ
    have hc := Real.hasDerivAt_cos φ
    have hi := hasDerivAt_id φ
    have hsc := hs.mul hc
    have h := (((((hi.const_mul (a ^ 2)).add (((hi.div_const 2).add (hsc.div_const 2)).const_mul (A ^ 2))).add (((hi.div_const 2).sub (hsc.div_const 2)).const_mul (B ^ 2))).add
      (hs.const_mul (2 * a * A))).sub (hc.const_mul (2 * a * B))).add ((hs.pow 2).const_mul (A * B))
    refine h.congr_deriv ?_
    have := Real.sin_sq_add_cos_sq φ
    simp only [Nat.cast_ofNat]
    linear_combination (-(A ^ 2 / 2) - B ^ 2 / 2) * this
  rw [intervalIntegral.integral_eq_sub_of_hasDerivAt hd (Continuous.intervalIntegrable (by fun_prop) _ _)]
  simp
  ring

theorem outer_integral (p c s : ℝ) : ∫ θ in (0 : ℝ)..Real.pi, (2 * Real.pi * (p + c * Real.cos θ) ^ 2 + Real.pi * (s * Real.sin θ ^ 2)) * Real.sin θ =
    4 * Real.pi * p ^ 2 + 4 * Real.pi / 3 * c ^ 2 + 4 * Real.pi / 3 * s := by
  have hd : ∀ θ ∈ Set.uIcc (0 : ℝ) Real.pi, HasDerivAt (fun θ => -(2 * Real.pi) * (p ^ 2 * Real.cos θ + p * c * Real.cos θ ^ 2 + c ^ 2 / 3 * Real.cos θ ^ 3) -
      Real.pi * s * (Real.cos θ - Real.cos θ ^ 3 / 3)) ((2 * Real.pi * (p + c * Real.cos θ) ^ 2 + Real.pi * (s * Real.sin θ ^ 2)) * Real.sin θ) θ := by
    intro θ _
    have hc := Real.hasDerivAt_cos θ
    have h := ((((hc.const_mul (p ^ 2)).add ((hc.pow 2).const_mul (p * c))).add ((hc.pow 3).const_mul (c ^ 2 / 3))).const_mul (-(2 * Real.pi))).sub
      ((hc.sub ((hc.pow 3).div_const 3)).const_mul (Real.pi * s))
    refine h.congr_deriv ?_
    have := Real.sin_sq_add_cos_sq θ
    simp only [Nat.cast_ofNat]
    linear_combination (-(Real.pi * s * Real.sin θ)) * this
  rw [intervalIntegral.integral_eq_sub_of_hasDerivAt hd (Continuous.intervalIntegrable (by fun_prop) _ _)]
  simp
  ring

/-- **C53, energy.** `cardioid_energy` is the integral of the squared response over the sphere, for every orientation. -/
theorem C53_energy {v : V3} (hv : v ≠ 0) (p gain : ℝ) :
    cardioidEnergy p gain = ∫ θ in (0 : ℝ)..Real.pi, (∫ φ in (0 : ℝ)..(2 * Real.pi), pattern gain p v (direction φ θ) ^ 2) * Real.sin θ := by
  have hu := divBy_unit hv
  have hs := norm3_sq (divBy v (norm3 v))
  rw [hu] at hs
  have hpat : ∀ θ φ, pattern gain p v (direction φ θ) = gain * p + gain * (1 - p) * (divBy v (norm3 v)).2.2 * Real.cos θ +
      (gain * (1 - p) * (divBy v (norm3 v)).1 * Real.sin θ * Real.cos φ + gain * (1 - p) * (divBy v (norm3 v)).2.1 * Real.sin θ * Real.sin φ) := by
    intro θ φ
    unfold pattern
    rw [← cosAngle_scale hv, cosAngle_unit hu (direction_ne φ θ), divBy_one (direction_unit φ θ)]
    unfold dot3 direction
    ring
  generalize divBy v (norm3 v) = d at *
  have hin : ∀ θ, (∫ φ in (0 : ℝ)..(2 * Real.pi), pattern gain p v (direction φ θ) ^ 2) * Real.sin θ =
      (2 * Real.pi * (gain * p + gain * (1 - p) * d.2.2 * Real.cos θ) ^ 2 + Real.pi * ((gain ^ 2 * (1 - p) ^ 2 * (d.1 ^ 2 + d.2.1 ^ 2)) * Real.sin θ ^ 2)) * Real.sin θ := by
    intro θ
    rw [intervalIntegral.integral_congr (fun φ _ => by rw [hpat]), inner_integral]
    ring
  rw [intervalIntegral.integral_congr (fun θ _ => hin θ), outer_integral]
  unfold cardioidEnergy
  linear_combination (4 * Real.pi / 3 * gain ^ 2 * (1 - p) ^ 2) * hs

/-! ## Rays -/

/-- **C53, rays.** Without a generator every ray carries the squared response in its direction; with a generator the acceptance of a proposal of length one is governed by its squared
response, and all rays carry the mean energy. -/
theorem C53_rays {o : Orientation} {v : V3} (h : Means o v) {p : ℝ} (hp : 0 ≤ p ∧ p ≤ 1) (gain : ℝ) :
    ∃ c, Cardioid.init o p gain = .ok c ∧ (∀ n, ∀ r ∈ c.sampleRays n, r.2 = pattern gain p v r.1 ^ 2) ∧
      (∀ w u, norm3 w = 1 → (Verif.Random.Accept c.energy.sampler (w, u) ↔ u < pattern gain p v w ^ 2)) ∧
      ∀ {R : Type} (draw : Nat → R → List (V3 × ℝ) × R) fuel n rng l, c.sampleRaysRng draw fuel n rng = some l → ∀ r ∈ l, r.2 = cardioidEnergy p gain / (4 * Real.pi) := by
  obtain ⟨c, e, h1, h2, h3, h4, h5⟩ := init_ok h hp gain
  refine ⟨c, e, ?_, ?_, ?_⟩
  · intro n r hr
    simp only [Cardioid.sampleRays, List.mem_map, List.mem_range] at hr
    obtain ⟨k, hk, rfl⟩ := hr
    simp only
    have hf : norm3 (fibonacci n k) = 1 := by
      have := (C71_fibonacci hk).1
      unfold norm3
      rw [show (fibonacci n k).1 ^ 2 + (fibonacci n k).2.1 ^ 2 + (fibonacci n k).2.2 ^ 2 = 1 by simpa [dot, sq] using this, Real.sqrt_one]
    have hne : fibonacci n k ≠ 0 := by
      intro h0
      rw [h0] at hf
      simp [norm3] at hf
    have := fromVector_eq (w := fibonacci n k) (means_ne h) hne h3 false
    rw [divBy_one hf, h1, h2] at this
    rw [this]
  · intro w u hw
    have hne : w ≠ 0 := by
      rintro rfl
      simp [norm3] at hw
    have hpat : pattern gain p v w = gain * (p + (1 - p) * dot3 c.orientation.unitV w) := by
      unfold pattern
      rw [← cosAngle_scale (means_ne h), cosAngle_unit (divBy_unit (means_ne h)) hne, divBy_one hw, h3]
    unfold Verif.Random.Accept EnergyDist.sampler Verif.Random.Sampler.init EnergyDist.unnormalizedPdf cardioidFunc
    simp only [h5, if_true, one_ne_zero, if_false, mul_one]
    rw [hpat, sq_abs]
  · intro R draw fuel n rng l hl r hr
    simp only [Cardioid.sampleRaysRng, Option.bind_eq_some_iff] at hl
    obtain ⟨q, _, hq⟩ := hl
    split at hq
    · cases hq
      simp only [List.mem_map] at hr
      obtain ⟨x, _, rfl⟩ := hr
      simp only [h5, one_mul]
    · cases hq

/-- **C53, deviation (flag).** Asked for magnitudes, the response is still negative where the pattern is: opposite to the orientation of a figure of eight it is minus the gain. -/
theorem C53_magnitude_deviation {o : Orientation} {v : V3} (h : Means o v) {gain : ℝ} (hg : 0 < gain) :
    ∃ c, Cardioid.init o 0 gain = .ok c ∧ ∃ w : V3, c.getResponseCartesian [w] true = [some (-gain)] ∧ -gain < 0 := by
  obtain ⟨c, e, hc⟩ := C53_cartesian h (p := 0) (by norm_num) gain
  have hv := means_ne h
  have hne : ((-v.1, -v.2.1, -v.2.2) : V3) ≠ 0 := by
    intro h0
    apply hv
    have h1 : -v.1 = 0 := congrArg Prod.fst h0
    have h2 : -v.2.1 = 0 := congrArg (fun x => x.2.1) h0
    have h3 : -v.2.2 = 0 := congrArg (fun x => x.2.2) h0
    exact Prod.ext (neg_eq_zero.mp h1) (Prod.ext (neg_eq_zero.mp h2) (neg_eq_zero.mp h3))
  refine ⟨c, e, (-v.1, -v.2.1, -v.2.2), ?_, by linarith⟩
  rw [hc _ _ (by simpa using hne)]
  have : cosAngle v (-v.1, -v.2.1, -v.2.2) = -1 := by
    have hp := norm3_pos hv
    have hs := norm3_sq v
    unfold cosAngle
    simp only [neg_sq]
    rw [show Real.sqrt (v.1 ^ 2 + v.2.1 ^ 2 + v.2.2 ^ 2) = norm3 v from rfl, show v.1 * -v.1 + v.2.1 * -v.2.1 + v.2.2 * -v.2.2 = -(v.1 ^ 2 + v.2.1 ^ 2 + v.2.2 ^ 2) by ring, ← hs]
    field_simp
  simp [pattern, this]

/-- **C53, deviation (orientation).** After `set_orientation` the responses follow the new orientation but the random rays are still drawn for the old one. -/
theorem C53_orientation_deviation {o : Orientation} {v : V3} (h : Means o v) {p : ℝ} (hp : 0 ≤ p ∧ p ≤ 1) (gain : ℝ) {d : DirVec} (hd : norm3 d.unitV = 1) :
    ∃ c c', Cardioid.init o p gain = .ok c ∧ c.setOrientation (.direction d) = .ok c' ∧
      (∀ w m, w ≠ 0 → c'.fromVector (divBy w (norm3 w)) m = pattern gain p d.unitV w) ∧
      ∀ w u, norm3 w = 1 → (Verif.Random.Accept c'.energy.sampler (w, u) ↔ u < pattern gain p v w ^ 2) := by
  obtain ⟨c, e, _, h3, _⟩ := C53_rays h hp gain
  obtain ⟨c2, e2, h1, h2, _⟩ := init_ok h hp gain
  rw [e] at e2
  cases e2
  refine ⟨c, _, e, rfl, fun w m hw => ?_, fun w u hw => h3 w u hw⟩
  have hne : d.unitV ≠ 0 := by
    intro h0
    rw [h0] at hd
    simp [norm3] at hd
  have := fromVector_eq (c := { c with orientation := d }) (v := d.unitV) (w := w) hne hw (divBy_one hd).symm m
  rw [this]
  simp only [h1, h2]

/-! ## The hypotheses can be met -/

/-- An orientation given as a vector that is not of length one, and one given by angles. -/
example : Means (.vector [3, 0, 4]) (3, 0, 4) ∧ ∃ d, DirVec.init 90 none true = .ok d ∧ Means (.direction d) d.unitV := by
  refine ⟨⟨rfl, by intro h; have := congrArg Prod.fst h; simp at this⟩, ?_⟩
  have hinit : ∃ d, DirVec.init 90 none true = .ok d := by
    unfold DirVec.init
    simp only [if_true, Option.map_none, Option.getD_none]
    rw [if_pos ⟨by linarith [Real.pi_pos], by linarith [Real.pi_pos]⟩]
    exact ⟨_, rfl⟩
  obtain ⟨d, hd⟩ := hinit
  refine ⟨d, hd, rfl, ?_⟩
  rw [dirVec_ok hd, direction_unit]

end Verif.Directivity
