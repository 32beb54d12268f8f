import Verif.Bss.ProjectionModel
import Mathlib.Tactic.Ring
import Mathlib.Analysis.Complex.Basic
import Mathlib.Data.Complex.BigOperators
import Mathlib.Tactic.FieldSimp
import Mathlib.Tactic.Linarith
import Mathlib.Tactic.Positivity
import Mathlib.Algebra.Order.BigOperators.Group.Finset

/-!
# Properties of the projection back (C51)
-/

namespace Verif.Bss

/-! ## Specification -/

/-- Squared error to the reference when channel `k` is multiplied in bin `f` by the conjugate of `w`. -/
noncomputable def error (frames : Nat) (Y : Nat → Nat → Nat → ℂ) (ref : Nat → Nat → ℂ) (f k : Nat) (w : ℂ) : ℝ :=
  ∑ n ∈ Finset.range frames, ‖starRingEnd ℂ w * Y n f k - ref n f‖ ^ 2

/-- The channel is not silent in the bin. -/
def Active (frames : Nat) (Y : Nat → Nat → Nat → ℂ) (f k : Nat) : Prop := ∃ n < frames, Y n f k ≠ 0

/-- Modulus within the bounds that are given. -/
def Within (up down : Option ℝ) (w : ℂ) : Prop := (∀ u ∈ up, ‖w‖ ≤ u) ∧ ∀ d ∈ down, d ≤ ‖w‖

/-! ## The best scale -/

theorem denom_pos {frames : Nat} {Y : Nat → Nat → Nat → ℂ} {f k : Nat} : 0 < denom frames Y f k ↔ Active frames Y f k := by
  unfold denom
  constructor
  · intro h
    by_contra hc
    rw [Finset.sum_eq_zero] at h
    · exact lt_irrefl _ h
    · intro n hn
      have : Y n f k = 0 := by
        by_contra h0
        exact hc ⟨n, Finset.mem_range.mp hn, h0⟩
      simp [this]
  · rintro ⟨n, hn, h0⟩
    exact Finset.sum_pos' (fun i _ => by positivity) ⟨n, Finset.mem_range.mpr hn, pow_pos (norm_pos_iff.mpr h0) 2⟩

theorem scale_mul {frames : Nat} {Y : Nat → Nat → Nat → ℂ} {ref : Nat → Nat → ℂ} {f k : Nat} (h : Active frames Y f k) :
    scale frames Y ref f k * denom frames Y f k = num frames Y ref f k := by
  unfold scale
  rw [if_pos (denom_pos.mpr h)]
  have : (denom frames Y f k : ℂ) ≠ 0 := by exact_mod_cast (denom_pos.mpr h).ne'
  field_simp

/-- The error is a paraboloid with its vertex at the scale. -/
theorem error_eq {frames : Nat} {Y : Nat → Nat → Nat → ℂ} {ref : Nat → Nat → ℂ} {f k : Nat} (h : Active frames Y f k) (w : ℂ) :
    error frames Y ref f k w = error frames Y ref f k (scale frames Y ref f k) + denom frames Y f k * ‖w - scale frames Y ref f k‖ ^ 2 := by
  have hs := scale_mul (ref := ref) h
  generalize hc : scale frames Y ref f k = c at *
  have key : ∀ n, ‖starRingEnd ℂ w * Y n f k - ref n f‖ ^ 2 = ‖starRingEnd ℂ c * Y n f k - ref n f‖ ^ 2 + ‖Y n f k‖ ^ 2 * ‖w - c‖ ^ 2 +
      2 * ((w - c) * (starRingEnd ℂ c * (‖Y n f k‖ ^ 2 : ℝ) - starRingEnd ℂ (starRingEnd ℂ (ref n f) * Y n f k))).re := by
    intro n
    simp only [← Complex.normSq_eq_norm_sq, Complex.normSq_apply, Complex.sub_re, Complex.sub_im, Complex.mul_re, Complex.mul_im, Complex.conj_re, Complex.conj_im, Complex.ofReal_re, Complex.ofReal_im]
    ring
  unfold error
  rw [Finset.sum_congr rfl fun n _ => key n, Finset.sum_add_distrib, Finset.sum_add_distrib, ← Finset.sum_mul]
  have hz : ∑ n ∈ Finset.range frames, 2 * ((w - c) * (starRingEnd ℂ c * (‖Y n f k‖ ^ 2 : ℝ) - starRingEnd ℂ (starRingEnd ℂ (ref n f) * Y n f k))).re = 0 := by
    rw [← Finset.mul_sum, ← Complex.re_sum, ← Finset.mul_sum, Finset.sum_sub_distrib, ← Finset.mul_sum]
    have e1 : ∑ n ∈ Finset.range frames, ((‖Y n f k‖ ^ 2 : ℝ) : ℂ) = (denom frames Y f k : ℂ) := by
      unfold denom; push_cast; rfl
    have e2 : ∑ n ∈ Finset.range frames, starRingEnd ℂ (starRingEnd ℂ (ref n f) * Y n f k) = starRingEnd ℂ (num frames Y ref f k) := by
      unfold num; rw [map_sum]
    rw [e1, e2, ← hs, map_mul, Complex.conj_ofReal, sub_self, mul_zero]
    simp
  rw [hz, add_zero]
  rfl

/-- **C51, best scale.** Without bounds the result for a channel that is not silent has a smaller squared error than every other scale; a silent channel gets 1. -/
theorem C51_best (frames : Nat) (Y : Nat → Nat → Nat → ℂ) (ref : Nat → Nat → ℂ) (f k : Nat) :
    (Active frames Y f k → ∀ w, w ≠ projectionBack frames Y ref none none f k →
      error frames Y ref f k (projectionBack frames Y ref none none f k) < error frames Y ref f k w) ∧
      (¬ Active frames Y f k → projectionBack frames Y ref none none f k = 1) := by
  have e : projectionBack frames Y ref none none f k = scale frames Y ref f k := rfl
  rw [e]
  constructor
  · intro h w hw
    rw [error_eq h w]
    have := denom_pos.mpr h
    have hn : 0 < ‖w - scale frames Y ref f k‖ := norm_pos_iff.mpr (sub_ne_zero.mpr hw)
    have : 0 < denom frames Y f k * ‖w - scale frames Y ref f k‖ ^ 2 := by positivity
    linarith
  · intro h
    unfold scale
    rw [if_neg fun hc => h (denom_pos.mp hc)]

/-! ## Bounds -/

/-- At most the upper bound. -/
noncomputable def atMost : Option ℝ → ℝ → ℝ
  | none, r => r
  | some u, r => min u r

/-- At least the lower bound. -/
noncomputable def atLeast : Option ℝ → ℝ → ℝ
  | none, r => r
  | some d, r => max d r

/-- Modulus after the bounds. -/
noncomputable def limited (up down : Option ℝ) (r : ℝ) : ℝ := atLeast down (atMost up r)

theorem clipUp_eq {c : ℂ} (hc : c ≠ 0) (up : Option ℝ) : clipUp c up = c * ((atMost up ‖c‖ / ‖c‖ : ℝ) : ℂ) := by
  have hp : 0 < ‖c‖ := norm_pos_iff.mpr hc
  cases up with
  | none => simp only [clipUp, atMost]; rw [div_self hp.ne']; simp
  | some u =>
    simp only [clipUp, atMost]
    split
    · rename_i h; rw [min_eq_left h.1.le]
    · rename_i h
      rw [min_eq_right (not_lt.mp fun h' => h ⟨h', hp⟩), div_self hp.ne']; simp

theorem clipDown_eq {c : ℂ} (hc : c ≠ 0) (down : Option ℝ) : clipDown c down = c * ((atLeast down ‖c‖ / ‖c‖ : ℝ) : ℂ) := by
  have hp : 0 < ‖c‖ := norm_pos_iff.mpr hc
  cases down with
  | none => simp only [clipDown, atLeast]; rw [div_self hp.ne']; simp
  | some d =>
    simp only [clipDown, atLeast]
    split
    · rename_i h; rw [max_eq_left h.1.le]
    · rename_i h
      rw [max_eq_right (not_lt.mp fun h' => h ⟨h', hp⟩), div_self hp.ne']; simp

/-- **C51, bounds.** With positive bounds the result for a scale that is not zero has the direction of the scale and its modulus after the bounds. -/
theorem C51_bounds {frames : Nat} {Y : Nat → Nat → Nat → ℂ} {ref : Nat → Nat → ℂ} {f k : Nat} {up down : Option ℝ} (hu : ∀ u ∈ up, 0 < u)
    (hc : projectionBack frames Y ref none none f k ≠ 0) :
    projectionBack frames Y ref up down f k = projectionBack frames Y ref none none f k *
        ((limited up down ‖projectionBack frames Y ref none none f k‖ / ‖projectionBack frames Y ref none none f k‖ : ℝ) : ℂ) := by
  have e : projectionBack frames Y ref none none f k = scale frames Y ref f k := rfl
  rw [e] at hc ⊢
  unfold projectionBack
  generalize scale frames Y ref f k = c at *
  have hp : 0 < ‖c‖ := norm_pos_iff.mpr hc
  rw [clipUp_eq hc]
  have ha : 0 < atMost up ‖c‖ := by
    cases up with
    | none => exact hp
    | some u => exact lt_min (hu u rfl) hp
  unfold limited
  generalize atMost up ‖c‖ = a at *
  have hc' : c * ((a / ‖c‖ : ℝ) : ℂ) ≠ 0 := mul_ne_zero hc (by exact_mod_cast (div_pos ha hp).ne')
  have hn : ‖c * ((a / ‖c‖ : ℝ) : ℂ)‖ = a := by
    rw [norm_mul, Complex.norm_real, Real.norm_of_nonneg (div_pos ha hp).le]
    field_simp
  rw [clipDown_eq hc', hn, mul_assoc, ← Complex.ofReal_mul]
  congr 2
  field_simp

theorem norm_scaled {c : ℂ} (hc : c ≠ 0) {r : ℝ} (hr : 0 ≤ r) : ‖c * ((r / ‖c‖ : ℝ) : ℂ)‖ = r := by
  have hp : 0 < ‖c‖ := norm_pos_iff.mpr hc
  rw [norm_mul, Complex.norm_real, Real.norm_of_nonneg (by positivity)]
  field_simp

theorem limited_nonneg {up down : Option ℝ} (hu : ∀ u ∈ up, 0 < u) {r : ℝ} (hr : 0 ≤ r) : 0 ≤ limited up down r := by
  unfold limited
  have ha : 0 ≤ atMost up r := by
    cases up with
    | none => exact hr
    | some u => exact le_min (hu u rfl).le hr
  cases down with
  | none => exact ha
  | some d => exact ha.trans (le_max_right _ _)

/-- **C51, best within bounds.** If the bounds are positive and compatible, a scale that is not zero ends up within them, and no scale within them has a smaller
squared error. -/
theorem C51_best_within {frames : Nat} {Y : Nat → Nat → Nat → ℂ} {ref : Nat → Nat → ℂ} {f k : Nat} {up down : Option ℝ} (hu : ∀ u ∈ up, 0 < u)
    (hud : ∀ u ∈ up, ∀ d ∈ down, d ≤ u) (ha : Active frames Y f k) (hc : projectionBack frames Y ref none none f k ≠ 0) :
    Within up down (projectionBack frames Y ref up down f k) ∧
      ∀ w, Within up down w → error frames Y ref f k (projectionBack frames Y ref up down f k) ≤ error frames Y ref f k w := by
  have hb := C51_bounds (down := down) hu hc
  have e : projectionBack frames Y ref none none f k = scale frames Y ref f k := rfl
  have hr : 0 ≤ ‖scale frames Y ref f k‖ := norm_nonneg _
  have hl0 := limited_nonneg (down := down) hu hr
  rw [e] at hb hc
  have hnorm : ‖projectionBack frames Y ref up down f k‖ = limited up down ‖scale frames Y ref f k‖ := by
    rw [hb]; exact norm_scaled hc hl0
  constructor
  · constructor
    · intro u hu'
      rw [hnorm]
      cases hu'
      cases down with
      | none => exact min_le_left _ _
      | some d => exact max_le (hud u rfl d rfl) (min_le_left _ _)
    · intro d hd
      rw [hnorm]
      cases hd
      exact le_max_left _ _
  · intro w hw
    rw [error_eq ha w, error_eq ha (projectionBack frames Y ref up down f k)]
    have hD := denom_pos.mpr ha
    have hkey : ‖projectionBack frames Y ref up down f k - scale frames Y ref f k‖ ≤ ‖w - scale frames Y ref f k‖ := by
      generalize scale frames Y ref f k = c at *
      have hp : 0 < ‖c‖ := norm_pos_iff.mpr hc
      have e1 : projectionBack frames Y ref up down f k - c = c * (((limited up down ‖c‖ - ‖c‖) / ‖c‖ : ℝ) : ℂ) := by
        rw [hb]
        have : (‖c‖ : ℂ) ≠ 0 := by exact_mod_cast hp.ne'
        push_cast
        field_simp
      have e2 : ‖projectionBack frames Y ref up down f k - c‖ = |limited up down ‖c‖ - ‖c‖| := by
        rw [e1, norm_mul, Complex.norm_real, Real.norm_eq_abs, abs_div, abs_of_pos hp]
        field_simp
      rw [e2]
      refine le_trans ?_ (abs_norm_sub_norm_le w c)
      generalize ‖c‖ = r at *
      obtain ⟨hw1, hw2⟩ := hw
      have a1 : ∀ x : ℝ, (∀ u ∈ up, x ≤ u) → (∀ d ∈ down, d ≤ x) → |limited up down r - r| ≤ |x - r| := by
        intro x hx1 hx2
        cases up with
        | none =>
          cases down with
          | none => simp [limited, atMost, atLeast]
          | some d =>
            have := hx2 d rfl
            simp only [limited, atMost, atLeast]
            rcases max_cases d r with ⟨h1, h2⟩ | ⟨h1, h2⟩
            · rw [h1, abs_of_nonneg (by linarith), abs_of_nonneg (by linarith)]; linarith
            · rw [h1]; simp
        | some u =>
          have hxu := hx1 u rfl
          cases down with
          | none =>
            simp only [limited, atMost, atLeast]
            rcases min_cases u r with ⟨h1, h2⟩ | ⟨h1, h2⟩
            · rw [h1, abs_of_nonpos (by linarith), abs_of_nonpos (by linarith)]; linarith
            · rw [h1]; simp
          | some d =>
            have hxd := hx2 d rfl
            have hdu := hud u rfl d rfl
            simp only [limited, atMost, atLeast]
            rcases min_cases u r with ⟨h1, h2⟩ | ⟨h1, h2⟩
            · rw [h1, max_eq_right hdu, abs_of_nonpos (by linarith), abs_of_nonpos (by linarith)]; linarith
            · rw [h1]
              rcases max_cases d r with ⟨h3, h4⟩ | ⟨h3, h4⟩
              · rw [h3, abs_of_nonneg (by linarith), abs_of_nonneg (by linarith)]; linarith
              · rw [h3]; simp
      exact a1 ‖w‖ hw1 hw2
    have : ‖projectionBack frames Y ref up down f k - scale frames Y ref f k‖ ^ 2 ≤ ‖w - scale frames Y ref f k‖ ^ 2 := by gcongr
    nlinarith

/-- **C51, zero (deviation).** A scale of zero, where channel and reference are not correlated, is not lifted to the lower bound. -/
theorem C51_zero_deviation {frames : Nat} {Y : Nat → Nat → Nat → ℂ} {ref : Nat → Nat → ℂ} {f k : Nat} (up down : Option ℝ)
    (hc : projectionBack frames Y ref none none f k = 0) : projectionBack frames Y ref up down f k = 0 := by
  have e : projectionBack frames Y ref none none f k = scale frames Y ref f k := rfl
  rw [e] at hc
  unfold projectionBack
  rw [hc]
  have h1 : clipUp 0 up = 0 := by cases up <;> simp [clipUp]
  rw [h1]
  cases down <;> simp [clipDown]

/-- **C51, conflict.** With a lower bound above the upper bound the lower bound wins. -/
theorem C51_conflict {frames : Nat} {Y : Nat → Nat → Nat → ℂ} {ref : Nat → Nat → ℂ} {f k : Nat} {u d : ℝ} (hu : 0 < u) (hd : u < d)
    (hc : projectionBack frames Y ref none none f k ≠ 0) :
    ‖projectionBack frames Y ref (some u) (some d) f k‖ = d := by
  have hb := C51_bounds (up := some u) (down := some d) (by rintro _ ⟨⟩; exact hu) hc
  rw [hb, norm_scaled hc (limited_nonneg (by rintro _ ⟨⟩; exact hu) (norm_nonneg _))]
  simp only [limited, atMost, atLeast]
  exact max_eq_left ((min_le_left _ _).trans hd.le)

/-! ## The hypotheses can be met -/

/-- One frame, one bin: the reference is twice the channel, the scale 2, and bounds that matter. -/
example : Active 1 (fun _ _ _ => 1) 0 0 ∧ projectionBack 1 (fun _ _ _ => 1) (fun _ _ => 2) none none 0 0 = 2 ∧ (∀ u ∈ some (1 : ℝ), 0 < u) ∧
    (∀ u ∈ some (1 : ℝ), ∀ d ∈ some (1 / 2 : ℝ), d ≤ u) ∧ Within (some 1) (some (1 / 2)) 1 := by
  refine ⟨⟨0, by norm_num, by norm_num⟩, ?_, ?_, ?_, ?_, ?_⟩
  · have : starRingEnd ℂ (2 : ℂ) = 2 := Complex.conj_ofNat 2
    simp [projectionBack, clipUp, clipDown, scale, denom, num, this]
  · rintro _ ⟨⟩; norm_num
  · rintro _ ⟨⟩ _ ⟨⟩; norm_num
  · rintro _ ⟨⟩; exact norm_one.le
  · rintro _ ⟨⟩; rw [norm_one]; norm_num

/-- A channel that is not silent and not correlated to the reference. -/
example : Active 1 (fun _ _ _ => 1) 0 0 ∧ projectionBack 1 (fun _ _ _ => 1) (fun _ _ => 0) none none 0 0 = 0 := by
  refine ⟨⟨0, by norm_num, by norm_num⟩, ?_⟩
  simp [projectionBack, clipUp, clipDown, scale, denom, num]

end Verif.Bss
