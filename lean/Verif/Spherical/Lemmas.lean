import Mathlib.MeasureTheory.Constructions.HaarToSphere
import Mathlib.MeasureTheory.Measure.Lebesgue.VolumeOfBalls
import Mathlib.MeasureTheory.Function.JacobianOneDim
import Mathlib.Analysis.SpecialFunctions.PolarCoord
import Mathlib.Probability.Distributions.Beta
import Mathlib.Probability.Distributions.Gaussian.Real
import Mathlib.Analysis.InnerProductSpace.Projection.Reflection

/-!
# Integrals over spheres

Facts on the surface measure of the unit sphere (`volume.toSphere` of Mathlib) that
the proofs on the random directions need: integrals in polar coordinates, invariance by
isometries, and integration by slices of fixed first coordinate.
-/

namespace Verif.Spherical

open MeasureTheory Metric Set ENNReal

/-- The euclidean space of dimension `d`. -/
abbrev E (d : ℕ) := EuclideanSpace ℝ (Fin d)

/-- The surface measure on the unit sphere of dimension `d - 1`. -/
noncomputable abbrev σ (d : ℕ) : Measure (sphere (0 : E d) 1) := (volume : Measure (E d)).toSphere

theorem polar {d : ℕ} (hd : 0 < d) {F : E d → ℝ≥0∞} (hF : Measurable F) :
    ∫⁻ x, F x =
      ∫⁻ w, (∫⁻ r in Ioi (0 : ℝ), ENNReal.ofReal (r ^ (d - 1)) * F (r • w.1)) ∂(σ d) := by
  have : Nontrivial (E d) := by
    have : Nonempty (Fin d) := ⟨⟨0, hd⟩⟩
    infer_instance
  have h1 : ∫⁻ x, F x = ∫⁻ x : ({(0)}ᶜ : Set (E d)), F x.1 ∂((volume : Measure (E d)).comap (↑)) := by
    rw [lintegral_subtype_comap (measurableSet_singleton _).compl, restrict_compl_singleton]
  have h2 := (volume : Measure (E d)).measurePreserving_homeomorphUnitSphereProd
  have h3 := h2.lintegral_comp (f := fun p => F (p.2.1 • p.1.1)) (by fun_prop)
  rw [h1]
  have h4 : ∀ x : ({(0)}ᶜ : Set (E d)),
      ((homeomorphUnitSphereProd (E d) x).2.1 • (homeomorphUnitSphereProd (E d) x).1.1) = x.1 := by
    intro x
    have hx : ‖x.1‖ ≠ 0 := norm_ne_zero_iff.2 x.2
    simp [smul_smul, hx]
  simp only [h4] at h3
  rw [h3, lintegral_prod _ (by fun_prop)]
  refine lintegral_congr fun w => ?_
  rw [finrank_euclideanSpace_fin, Measure.volumeIoiPow, lintegral_withDensity_eq_lintegral_mul]
  · simp only [Pi.mul_apply]
    rw [lintegral_subtype_comap measurableSet_Ioi
      (f := fun r : ℝ => ENNReal.ofReal (r ^ (d - 1)) * F (r • w.1))]
  · fun_prop
  · fun_prop


theorem radial {d : ℕ} (hd : 0 < d) {f : E d → ℝ≥0∞} (hf : Measurable f) {g : ℝ → ℝ≥0∞}
    (hg : Measurable g) :
    ∫⁻ x : E d, f (‖x‖⁻¹ • x) * g ‖x‖ =
      (∫⁻ w, f w.1 ∂(σ d)) * ∫⁻ r in Ioi (0 : ℝ), ENNReal.ofReal (r ^ (d - 1)) * g r := by
  rw [polar hd (by fun_prop), ← lintegral_mul_const _ (by fun_prop)]
  refine lintegral_congr fun w => ?_
  rw [← lintegral_const_mul _ (by fun_prop)]
  refine setLIntegral_congr_fun measurableSet_Ioi fun r hr => ?_
  have hr' : (0 : ℝ) < r := hr
  have hw : ‖w.1‖ = 1 := by simp
  have hn : ‖r • w.1‖ = r := by rw [norm_smul, hw, mul_one, Real.norm_of_nonneg hr'.le]
  simp only [hn, smul_smul, inv_mul_cancel₀ hr'.ne', one_smul]
  ring

/-- The cut-off used to compare integrals. -/
noncomputable def cut : ℝ → ℝ≥0∞ := (Iio (1 : ℝ)).indicator 1

theorem cut_measurable : Measurable cut :=
  measurable_const.indicator measurableSet_Iio

theorem cut_mass {d : ℕ} (hd : 0 < d) :
    (∫⁻ r in Ioi (0 : ℝ), ENNReal.ofReal (r ^ (d - 1)) * cut r) ≠ 0 ∧
      (∫⁻ r in Ioi (0 : ℝ), ENNReal.ofReal (r ^ (d - 1)) * cut r) ≠ ∞ := by
  constructor
  · intro h0
    have h := radial hd (f := fun _ => 1) measurable_const cut_measurable
    rw [h0, mul_zero] at h
    have h1 : ∫⁻ x : E d, (1 : ℝ≥0∞) * cut ‖x‖ = volume (ball (0 : E d) 1) := by
      rw [← lintegral_indicator_one measurableSet_ball]
      refine lintegral_congr fun x => ?_
      by_cases hx : ‖x‖ < 1 <;> simp [cut, Set.indicator, hx]
    rw [h1] at h
    exact (measure_ball_pos volume (0 : E d) one_pos).ne' h
  · refine ne_of_lt (lt_of_le_of_lt (b := ∫⁻ r in Ioi (0 : ℝ), (Iio (1 : ℝ)).indicator 1 r) ?_ ?_)
    · refine setLIntegral_mono (measurable_const.indicator measurableSet_Iio) fun r hr => ?_
      by_cases h : r < 1
      · simp only [cut, Set.indicator, Set.mem_Iio, h, if_true, Pi.one_apply, mul_one]
        rw [ENNReal.ofReal_le_one]
        exact pow_le_one₀ (le_of_lt hr) h.le
      · simp [cut, Set.indicator, h]
    · rw [lintegral_indicator_one measurableSet_Iio, Measure.restrict_apply measurableSet_Iio,
        Set.inter_comm, Set.Ioi_inter_Iio]
      simp

theorem isometry_invariant {d : ℕ} (hd : 0 < d) (R : E d ≃ₗᵢ[ℝ] E d) {f : E d → ℝ≥0∞}
    (hf : Measurable f) : ∫⁻ w, f (R w.1) ∂(σ d) = ∫⁻ w, f w.1 ∂(σ d) := by
  have hR : Measurable R := R.continuous.measurable
  have h1 := radial hd (f := fun x => f (R x)) (hf.comp hR) cut_measurable
  have h2 := radial hd hf cut_measurable
  have h3 : ∫⁻ x : E d, f (R (‖x‖⁻¹ • x)) * cut ‖x‖ = ∫⁻ x : E d, f (‖x‖⁻¹ • x) * cut ‖x‖ := by
    have hm : Measurable fun x : E d => f (‖x‖⁻¹ • x) * cut ‖x‖ :=
      (hf.comp (by fun_prop)).mul (cut_measurable.comp measurable_norm)
    rw [← R.measurePreserving.lintegral_comp hm]
    simp
  rw [h1, h2] at h3
  exact (ENNReal.mul_left_inj (cut_mass hd).1 (cut_mass hd).2).1 h3

/-- The vector with first coordinate `t` followed by those of `y`. -/
def join {n : ℕ} (t : ℝ) (y : E n) : E (n + 1) := WithLp.toLp 2 (Fin.cons t y.ofLp)

theorem join_measurable {n : ℕ} : Measurable fun p : ℝ × E n => join p.1 p.2 := by
  refine (WithLp.measurable_toLp 2 _).comp (measurable_pi_lambda _ fun i => ?_)
  refine Fin.cases ?_ (fun j => ?_) i
  · simpa using measurable_fst
  · have : Measurable fun y : E n => y.ofLp j :=
      (measurable_pi_apply j).comp (WithLp.measurable_ofLp 2 _)
    simp only [Fin.cons_succ]
    exact this.comp measurable_snd

theorem join_norm {n : ℕ} (t : ℝ) (y : E n) : ‖join t y‖ = √(t ^ 2 + ‖y‖ ^ 2) := by
  rw [EuclideanSpace.norm_eq, EuclideanSpace.real_norm_sq_eq, Fin.sum_univ_succ]
  simp [join]

theorem smul_join {n : ℕ} (c t : ℝ) (y : E n) : c • join t y = join (c * t) (c • y) := by
  ext i
  refine Fin.cases ?_ (fun j => ?_) i <;> simp [join]

theorem lintegral_join {n : ℕ} {F : E (n + 1) → ℝ≥0∞} (hF : Measurable F) :
    ∫⁻ x, F x = ∫⁻ t : ℝ, ∫⁻ y : E n, F (join t y) := by
  rw [← (PiLp.volume_preserving_toLp (Fin (n + 1))).lintegral_comp hF]
  have h := (volume_preserving_piFinSuccAbove (fun _ : Fin (n + 1) => ℝ) 0).symm
  have hm : Measurable fun a : Fin (n + 1) → ℝ => F (WithLp.toLp 2 a) :=
    hF.comp (WithLp.measurable_toLp 2 _)
  have hm' : Measurable fun a => F (WithLp.toLp 2
      ((MeasurableEquiv.piFinSuccAbove (fun _ : Fin (n + 1) => ℝ) 0).symm a)) :=
    hm.comp (MeasurableEquiv.measurable _)
  rw [← h.lintegral_comp hm, Measure.volume_eq_prod, lintegral_prod _ hm'.aemeasurable]
  refine lintegral_congr fun t => ?_
  have hj : Measurable fun y : E n => F (join t y) :=
    hF.comp (join_measurable.comp measurable_prodMk_left)
  rw [← (PiLp.volume_preserving_toLp (Fin n)).lintegral_comp hj]
  refine lintegral_congr fun y => ?_
  congr 1
  ext i
  refine Fin.cases ?_ (fun j => ?_) i <;>
    simp [join, MeasurableEquiv.piFinSuccAbove, Fin.insertNthEquiv]


/-- In the half plane, in polar coordinates. -/
theorem half_plane {h : ℝ × ℝ → ℝ≥0∞} (hh : Measurable h) :
    ∫⁻ t : ℝ, ∫⁻ ρ in Ioi (0 : ℝ), h (t, ρ) =
      ∫⁻ θ in Ioo 0 Real.pi, ∫⁻ r in Ioi (0 : ℝ),
        ENNReal.ofReal r * h (r * Real.cos θ, r * Real.sin θ) := by
  have hs : MeasurableSet {p : ℝ × ℝ | 0 < p.2} := measurableSet_lt measurable_const measurable_snd
  set H : ℝ × ℝ → ℝ≥0∞ := {p : ℝ × ℝ | 0 < p.2}.indicator h with hH
  have hHm : Measurable H := hh.indicator hs
  have h1 : ∫⁻ p, H p = ∫⁻ t : ℝ, ∫⁻ ρ in Ioi (0 : ℝ), h (t, ρ) := by
    rw [Measure.volume_eq_prod, lintegral_prod _ hHm.aemeasurable]
    refine lintegral_congr fun t => ?_
    rw [← lintegral_indicator measurableSet_Ioi]
    refine lintegral_congr fun ρ => ?_
    by_cases hρ : 0 < ρ <;> simp [hH, Set.indicator, hρ]
  rw [← h1, ← lintegral_comp_polarCoord_symm]
  have hm2 : Measurable fun p : ℝ × ℝ => ENNReal.ofReal p.1 * H (p.1 * Real.cos p.2, p.1 * Real.sin p.2) :=
    (ENNReal.measurable_ofReal.comp measurable_fst).mul (hHm.comp (by fun_prop))
  have h2 : ∀ p : ℝ × ℝ, ENNReal.ofReal p.1 • H (polarCoord.symm p) =
      ENNReal.ofReal p.1 * H (p.1 * Real.cos p.2, p.1 * Real.sin p.2) := fun p => rfl
  simp only [h2, polarCoord_target]
  rw [Measure.volume_eq_prod, ← Measure.prod_restrict, lintegral_prod_symm _ hm2.aemeasurable]
  have h3 : ∀ θ : ℝ, (∫⁻ r in Ioi (0 : ℝ), ENNReal.ofReal r *
      H (r * Real.cos θ, r * Real.sin θ)) = {θ | 0 < Real.sin θ}.indicator
        (fun θ => ∫⁻ r in Ioi (0 : ℝ), ENNReal.ofReal r * h (r * Real.cos θ, r * Real.sin θ)) θ := by
    intro θ
    by_cases hθ : 0 < Real.sin θ
    · rw [Set.indicator_of_mem (by exact hθ)]
      refine setLIntegral_congr_fun measurableSet_Ioi fun r hr => ?_
      have : 0 < r * Real.sin θ := mul_pos hr hθ
      simp [hH, this]
    · rw [Set.indicator_of_notMem (by exact hθ)]
      rw [setLIntegral_congr_fun (g := fun _ => 0) measurableSet_Ioi fun r hr => ?_]
      · simp
      · have : ¬ 0 < r * Real.sin θ := by
          have hr' : (0 : ℝ) < r := hr
          rw [mul_pos_iff_of_pos_left hr']
          exact hθ
        simp [hH, this]
  simp only [h3]
  rw [setLIntegral_indicator (measurableSet_lt measurable_const Real.measurable_sin)]
  congr 2
  ext θ
  constructor
  · rintro ⟨h, h'⟩
    refine ⟨?_, h'.2⟩
    by_contra hn
    have := Real.sin_nonpos_of_nonpos_of_neg_pi_le (not_lt.1 hn) h'.1.le
    exact absurd h (not_lt.2 this)
  · intro h
    exact ⟨Real.sin_pos_of_mem_Ioo h, by linarith [h.1, h.2], h.2⟩

theorem radial_slice {n : ℕ} {f : E (n + 1) → ℝ≥0∞} (u : E (n + 1)) (hu : ‖u‖ = 1) {r : ℝ}
    (hr : 0 < r) : f (‖r • u‖⁻¹ • r • u) * cut ‖r • u‖ = f u * cut r := by
  have hn : ‖r • u‖ = r := by rw [norm_smul, hu, mul_one, Real.norm_of_nonneg hr.le]
  rw [hn, smul_smul, inv_mul_cancel₀ hr.ne', one_smul]

theorem one_slice {n : ℕ} (hn : 0 < n) {f : E (n + 1) → ℝ≥0∞} (v : E n) (hv : ‖v‖ = 1)
    {θ : ℝ} (hθ : θ ∈ Ioo 0 Real.pi) :
    (∫⁻ r in Ioi (0 : ℝ), ENNReal.ofReal r * (ENNReal.ofReal ((r * Real.sin θ) ^ (n - 1)) *
      (f (‖join (r * Real.cos θ) ((r * Real.sin θ) • v)‖⁻¹ •
          join (r * Real.cos θ) ((r * Real.sin θ) • v)) *
        cut ‖join (r * Real.cos θ) ((r * Real.sin θ) • v)‖))) =
      ENNReal.ofReal (Real.sin θ ^ (n - 1)) * f (join (Real.cos θ) (Real.sin θ • v)) *
        ∫⁻ r in Ioi (0 : ℝ), ENNReal.ofReal (r ^ (n + 1 - 1)) * cut r := by
  have hsin := Real.sin_pos_of_mem_Ioo hθ
  have hm : Measurable fun r : ℝ => ENNReal.ofReal (r ^ (n + 1 - 1)) * cut r :=
    Measurable.mul (by fun_prop) cut_measurable
  rw [← lintegral_const_mul _ hm]
  refine setLIntegral_congr_fun measurableSet_Ioi fun r hr => ?_
  have hr' : (0 : ℝ) < r := hr
  have hu : ‖join (Real.cos θ) (Real.sin θ • v)‖ = 1 := by
    rw [join_norm, norm_smul, hv, mul_one, Real.norm_of_nonneg hsin.le, Real.cos_sq_add_sin_sq,
      Real.sqrt_one]
  have hj : join (r * Real.cos θ) ((r * Real.sin θ) • v) =
      r • join (Real.cos θ) (Real.sin θ • v) := by
    rw [smul_join, smul_smul]
  beta_reduce
  rw [hj, radial_slice _ hu hr', mul_pow, ENNReal.ofReal_mul (by positivity), Nat.add_sub_cancel]
  have hp : ENNReal.ofReal (r ^ n) = ENNReal.ofReal r * ENNReal.ofReal (r ^ (n - 1)) := by
    rw [← ENNReal.ofReal_mul hr'.le, ← pow_succ', Nat.sub_add_cancel hn]
  rw [hp]
  ring

/-- Integration over the sphere by slices of fixed first coordinate. -/
theorem slices {n : ℕ} (hn : 0 < n) {f : E (n + 1) → ℝ≥0∞} (hf : Measurable f) :
    ∫⁻ w, f w.1 ∂(σ (n + 1)) = ∫⁻ v, (∫⁻ θ in Ioo 0 Real.pi,
      ENNReal.ofReal (Real.sin θ ^ (n - 1)) * f (join (Real.cos θ) (Real.sin θ • v.1))) ∂(σ n) := by
  have hc := cut_mass (Nat.succ_pos n)
  rw [← ENNReal.mul_left_inj hc.1 hc.2, ← radial (Nat.succ_pos n) hf cut_measurable]
  have hGm : Measurable fun x : E (n + 1) => f (‖x‖⁻¹ • x) * cut ‖x‖ :=
    (hf.comp (by fun_prop)).mul (cut_measurable.comp measurable_norm)
  generalize hG : (fun x : E (n + 1) => f (‖x‖⁻¹ • x) * cut ‖x‖) = G at hGm
  have hG' : ∀ x, G x = f (‖x‖⁻¹ • x) * cut ‖x‖ := fun x => by rw [← hG]
  have hGj : Measurable fun q : ℝ × E n => G (join q.1 q.2) := hGm.comp join_measurable
  rw [lintegral_join hGm]
  have h1 : ∀ t : ℝ, ∫⁻ y : E n, G (join t y) = ∫⁻ v, (∫⁻ r in Ioi (0 : ℝ),
      ENNReal.ofReal (r ^ (n - 1)) * G (join t (r • v.1))) ∂(σ n) := fun t =>
    polar hn (hGj.comp measurable_prodMk_left)
  simp only [h1]
  have hq : Measurable fun q : (ℝ × sphere (0 : E n) 1) × ℝ => (q.1.1, q.2 • q.1.2.1) := by
    fun_prop
  have hm3 : Measurable fun q : (ℝ × sphere (0 : E n) 1) × ℝ =>
      ENNReal.ofReal (q.2 ^ (n - 1)) * G (join q.1.1 (q.2 • q.1.2.1)) :=
    Measurable.mul (by fun_prop) (hGj.comp hq)
  have hm5 : Measurable fun q : ℝ × sphere (0 : E n) 1 => ∫⁻ r in Ioi (0 : ℝ),
      ENNReal.ofReal (r ^ (n - 1)) * G (join q.1 (r • q.2.1)) := hm3.lintegral_prod_right'
  rw [lintegral_lintegral_swap hm5.aemeasurable, ← lintegral_mul_const' _ _ hc.2]
  refine lintegral_congr fun v => ?_
  have hp : Measurable fun p : ℝ × ℝ => ((p.1, v), p.2) := by fun_prop
  have hm4 : Measurable fun p : ℝ × ℝ =>
      ENNReal.ofReal (p.2 ^ (n - 1)) * G (join p.1 (p.2 • v.1)) := hm3.comp hp
  rw [half_plane hm4, ← lintegral_mul_const' _ _ hc.2]
  refine setLIntegral_congr_fun measurableSet_Ioo fun θ hθ => ?_
  have h := one_slice hn (f := f) v.1 (by simp) hθ
  simp only [← hG'] at h
  exact h

end Verif.Spherical
