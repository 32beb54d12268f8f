import Mathlib.Probability.Distributions.Beta
import Mathlib.Probability.Distributions.Gaussian.Real
import Mathlib.Analysis.InnerProductSpace.Projection.Reflection
import Verif.Spherical.Lemmas
import Verif.Spherical.Model

/-!
# C90: random directions have the laws and densities that are announced
-/

namespace Verif.Spherical

open MeasureTheory Metric Set ENNReal Verif.Py

/-! ## Specification -/

/-- A vector of norm one. -/
def Unit {d : ℕ} (x : Fin d → ℝ) : Prop := ∑ i, x i ^ 2 = 1

/-- `p` is the density of the law of `X`, drawn with the measure `μ`, with respect to the
area on the sphere: the expectation of any function of `X` is its integral over the sphere
with the weight `p`. -/
def HasDensity {Ω : Type} [MeasurableSpace Ω] (μ : Measure Ω) {d : ℕ} (X : Ω → Fin d → ℝ)
    (p : (Fin d → ℝ) → ℝ) : Prop :=
  ∀ f : (Fin d → ℝ) → ℝ≥0∞, Measurable f →
    ∫⁻ a, f (X a) ∂μ = ∫⁻ w, f w.1.ofLp * ENNReal.ofReal (p w.1.ofLp) ∂(σ d)

/-- Independent standard normal numbers. -/
noncomputable abbrev normals (d : ℕ) : Measure (Fin d → ℝ) :=
  Measure.pi fun _ => ProbabilityTheory.gaussianReal 0 1

/-! ## Lemmas -/

theorem nrm_eq {d : ℕ} (x : Fin d → ℝ) : nrm x = ‖(WithLp.toLp 2 x : E d)‖ := by
  rw [EuclideanSpace.norm_eq]
  simp [nrm]

theorem Unit.nrm {d : ℕ} {x : Fin d → ℝ} (h : Unit x) : nrm x = 1 := by
  unfold Unit at h
  rw [Spherical.nrm, h, Real.sqrt_one]

theorem uniform_eq {d : ℕ} (x : Fin d → ℝ) :
    uniform x = (‖(WithLp.toLp 2 x : E d)‖⁻¹ • (WithLp.toLp 2 x : E d)).ofLp := by
  funext i
  simp [uniform, nrm_eq, div_eq_inv_mul]

theorem normals_density {d : ℕ} {F : (Fin d → ℝ) → ℝ≥0∞} (hF : Measurable F) :
    ∫⁻ x, F x ∂(normals d) =
      ∫⁻ x, (∏ i, ProbabilityTheory.gaussianPDF 0 1 (x i)) * F x := by
  induction d with
  | zero =>
    simp only [normals, volume_pi]
    rw [Measure.pi_of_empty, Measure.pi_of_empty]
    simp
  | succ d ih =>
    have hg := ProbabilityTheory.measurable_gaussianPDF 0 1
    have h1 := (measurePreserving_piFinSuccAbove
      (fun _ : Fin (d + 1) => ProbabilityTheory.gaussianReal 0 1) 0).symm
    have h2 := (volume_preserving_piFinSuccAbove (fun _ : Fin (d + 1) => ℝ) 0).symm
    have hm : Measurable fun a => F
      ((MeasurableEquiv.piFinSuccAbove (fun _ : Fin (d + 1) => ℝ) 0).symm a) :=
      hF.comp (MeasurableEquiv.measurable _)
    have hP : Measurable fun x : Fin (d + 1) → ℝ =>
        (∏ i, ProbabilityTheory.gaussianPDF 0 1 (x i)) * F x :=
      (Finset.measurable_fun_prod _ fun i _ => hg.comp (measurable_pi_apply i)).mul hF
    have hP' : Measurable fun a => (fun x : Fin (d + 1) → ℝ =>
        (∏ i, ProbabilityTheory.gaussianPDF 0 1 (x i)) * F x)
      ((MeasurableEquiv.piFinSuccAbove (fun _ : Fin (d + 1) => ℝ) 0).symm a) :=
      hP.comp (MeasurableEquiv.measurable _)
    rw [← h1.lintegral_comp hF, ← h2.lintegral_comp hP, lintegral_prod _ hm.aemeasurable,
      Measure.volume_eq_prod, lintegral_prod _ hP'.aemeasurable]
    have h3 : ProbabilityTheory.gaussianReal 0 1 =
        volume.withDensity (ProbabilityTheory.gaussianPDF 0 1) :=
      ProbabilityTheory.gaussianReal_of_var_ne_zero _ one_ne_zero
    have hQ : Measurable fun a : ℝ => ∫⁻ y, F
        ((MeasurableEquiv.piFinSuccAbove (fun _ : Fin (d + 1) => ℝ) 0).symm (a, y))
          ∂(normals d) := Measurable.lintegral_prod_right' hm
    change ∫⁻ a : ℝ, (∫⁻ y, F ((MeasurableEquiv.piFinSuccAbove (fun _ : Fin (d + 1) => ℝ) 0).symm
      (a, y)) ∂(normals d)) ∂(ProbabilityTheory.gaussianReal 0 1) = _
    rw [h3, lintegral_withDensity_eq_lintegral_mul _ hg hQ]
    refine lintegral_congr fun a => ?_
    have hS : Measurable fun y : Fin d → ℝ => F
        ((MeasurableEquiv.piFinSuccAbove (fun _ : Fin (d + 1) => ℝ) 0).symm (a, y)) :=
      hm.comp measurable_prodMk_left
    rw [Pi.mul_apply, ih hS, ← lintegral_const_mul']
    · refine lintegral_congr fun y => ?_
      beta_reduce
      rw [Fin.prod_univ_succ]
      simp [MeasurableEquiv.piFinSuccAbove, Fin.insertNthEquiv, mul_assoc]
    · exact ENNReal.ofReal_ne_top

theorem normals_radial {d : ℕ} (x : Fin d → ℝ) :
    (∏ i, ProbabilityTheory.gaussianPDF 0 1 (x i)) = ENNReal.ofReal
      ((√(2 * Real.pi))⁻¹ ^ d * Real.exp (-(‖(WithLp.toLp 2 x : E d)‖ ^ 2 / 2))) := by
  simp only [ProbabilityTheory.gaussianPDF]
  rw [← ENNReal.ofReal_prod_of_nonneg fun i _ => ProbabilityTheory.gaussianPDFReal_nonneg _ _ _]
  congr 1
  simp only [ProbabilityTheory.gaussianPDFReal, Finset.prod_mul_distrib, ← Real.exp_sum]
  rw [EuclideanSpace.real_norm_sq_eq]
  simp [Finset.sum_div, neg_div]

theorem sphere_area {d : ℕ} (hd : 0 < d) : (σ d) univ = ENNReal.ofReal (area d) := by
  have : Nonempty (Fin d) := ⟨⟨0, hd⟩⟩
  have : Nontrivial (E d) := inferInstance
  rw [Measure.toSphere_apply_univ, finrank_euclideanSpace_fin, EuclideanSpace.volume_ball]
  rw [area, ← ENNReal.ofReal_natCast, ENNReal.ofReal_one, one_pow, one_mul, Fintype.card_fin,
    ← ENNReal.ofReal_mul (Nat.cast_nonneg d), mul_div_assoc, Real.sqrt_eq_rpow, ← Real.rpow_natCast,
    ← Real.rpow_mul Real.pi_pos.le]
  ring_nf

theorem area_pos {d : ℕ} (hd : 0 < d) : 0 < area d := by
  have : (0 : ℝ) < d := Nat.cast_pos.2 hd
  unfold area
  have := Real.Gamma_pos_of_pos (show (0 : ℝ) < (d : ℝ) / 2 + 1 by positivity)
  positivity

theorem uniform_law {d : ℕ} (hd : 0 < d) {f : E d → ℝ≥0∞} (hf : Measurable f) :
    ∫⁻ x, f (WithLp.toLp 2 (uniform x)) ∂(normals d) =
      (∫⁻ w, f w.1 ∂(σ d)) * ENNReal.ofReal (uniformPdf d) := by
  have key : ∀ f : E d → ℝ≥0∞, Measurable f →
      ∫⁻ x, f (WithLp.toLp 2 (uniform x)) ∂(normals d) = (∫⁻ w, f w.1 ∂(σ d)) *
        ∫⁻ r in Ioi (0 : ℝ), ENNReal.ofReal (r ^ (d - 1)) *
          ENNReal.ofReal ((√(2 * Real.pi))⁻¹ ^ d * Real.exp (-(r ^ 2 / 2))) := by
    intro f hf
    have hm : Measurable fun x : E d => f (‖x‖⁻¹ • x) :=
      hf.comp (by fun_prop)
    have hm' : Measurable fun x : Fin d → ℝ => f (WithLp.toLp 2 (uniform x)) := by
      simp only [uniform_eq]
      exact hm.comp (WithLp.measurable_toLp 2 _)
    have hw : Measurable fun r : ℝ =>
        ENNReal.ofReal ((√(2 * Real.pi))⁻¹ ^ d * Real.exp (-(r ^ 2 / 2))) := by fun_prop
    have hn : Measurable fun x : E d => f (‖x‖⁻¹ • x) *
        ENNReal.ofReal ((√(2 * Real.pi))⁻¹ ^ d * Real.exp (-(‖x‖ ^ 2 / 2))) :=
      hm.mul (hw.comp measurable_norm)
    rw [normals_density hm', ← radial hd hf hw,
      ← (PiLp.volume_preserving_toLp (Fin d)).lintegral_comp hn]
    refine lintegral_congr fun x => ?_
    rw [normals_radial, uniform_eq, mul_comm]
  have h1 := key (fun _ => 1) measurable_const
  rw [lintegral_const, lintegral_const, measure_univ, sphere_area hd] at h1
  rw [key f hf]
  congr 1
  rw [uniformPdf, ENNReal.ofReal_div_of_pos (area_pos hd), ENNReal.ofReal_one, one_div]
  rw [one_mul, one_mul] at h1
  rw [mul_comm] at h1
  exact ENNReal.eq_inv_of_mul_eq_one_left h1.symm

/-! ## The reflection -/

/-- The vector `e1` of the euclidean space. -/
def eOne (n : ℕ) : E (n + 1) := WithLp.toLp 2 e1

/-- The reflection that exchanges `e1` and the location. -/
noncomputable def refl {n : ℕ} (loc : E (n + 1)) : E (n + 1) ≃ₗᵢ[ℝ] E (n + 1) :=
  (Submodule.span ℝ {eOne n - loc})ᗮ.reflection

theorem refl_apply {n : ℕ} (loc y : E (n + 1)) :
    refl loc y = y - (2 * (inner ℝ (eOne n - loc) y / ‖eOne n - loc‖ ^ 2)) • (eOne n - loc) := by
  rw [refl, Submodule.reflection_orthogonal_apply, Submodule.reflection_singleton_apply]
  simp only [RCLike.ofReal_real_eq_id, id_eq]
  rw [neg_sub, mul_smul, ofNat_smul_eq_nsmul ℝ 2]

theorem eOne_norm (n : ℕ) : ‖eOne n‖ = 1 := by
  rw [EuclideanSpace.norm_eq, Fin.sum_univ_succ]
  simp [eOne, e1]

theorem refl_eOne {n : ℕ} {loc : E (n + 1)} (h : ‖loc‖ = 1) : refl loc (eOne n) = loc :=
  Submodule.reflection_sub (by rw [h, eOne_norm])

/-- The vector before the reflection. -/
noncomputable def before {n : ℕ} (z : ℝ) (v : E n) : E (n + 1) :=
  join (2 * z - 1) (√(1 - (2 * z - 1) ^ 2) • v)

theorem power_eq {n : ℕ} (eps : ℝ) (loc : Fin (n + 1) → ℝ) (z : ℝ) (v : Fin n → ℝ) :
    power eps loc z v = (before z (WithLp.toLp 2 v) -
      (2 * (inner ℝ (eOne n - WithLp.toLp 2 loc) (before z (WithLp.toLp 2 v)) /
        (‖eOne n - WithLp.toLp 2 loc‖ + eps) ^ 2)) • (eOne n - WithLp.toLp 2 loc)).ofLp := by
  have hw : nrm (fun i => e1 i - loc i) = ‖eOne n - WithLp.toLp 2 loc‖ := by
    rw [nrm_eq]
    rfl
  funext i
  simp only [power, hw]
  have hy : ∀ i, (Fin.cons (2 * z - 1) fun i => √(1 - (2 * z - 1) ^ 2) * v i : Fin (n + 1) → ℝ) i =
      (before z (WithLp.toLp 2 v)).ofLp i := by
    intro i
    refine Fin.cases ?_ (fun j => ?_) i <;> simp [before, join]
  simp only [hy]
  rw [PiLp.inner_apply]
  simp only [PiLp.sub_apply, PiLp.smul_apply, smul_eq_mul, eOne, RCLike.inner_apply, conj_trivial]
  rw [Finset.mul_sum, Finset.sum_div, Finset.mul_sum, Finset.sum_mul]
  congr 1
  refine Finset.sum_congr rfl fun j _ => ?_
  generalize ‖(WithLp.toLp 2 e1 : E (n + 1)) - WithLp.toLp 2 loc‖ + eps = q
  ring

theorem power_zero {n : ℕ} (loc : Fin (n + 1) → ℝ) (z : ℝ) (v : Fin n → ℝ) :
    power 0 loc z v = (refl (WithLp.toLp 2 loc) (before z (WithLp.toLp 2 v))).ofLp := by
  rw [power_eq, refl_apply, add_zero]

theorem before_norm {n : ℕ} {z : ℝ} (h0 : 0 ≤ z) (h1 : z ≤ 1) {v : E n} (hv : ‖v‖ = 1) :
    ‖before z v‖ = 1 := by
  have h : 0 ≤ 1 - (2 * z - 1) ^ 2 := by nlinarith
  rw [before, join_norm, norm_smul, hv, mul_one, Real.norm_of_nonneg (Real.sqrt_nonneg _),
    Real.sq_sqrt h, add_sub_cancel, Real.sqrt_one]

theorem before_inner {n : ℕ} (z : ℝ) (v : E n) : inner ℝ (before z v) (eOne n) = 2 * z - 1 := by
  rw [PiLp.inner_apply, Fin.sum_univ_succ]
  simp [before, join, eOne, e1]

theorem unit_norm {d : ℕ} {x : Fin d → ℝ} : Unit x ↔ ‖(WithLp.toLp 2 x : E d)‖ = 1 := by
  rw [Unit, EuclideanSpace.norm_eq, Real.sqrt_eq_one]
  simp

/-! ## The law of the power spherical samples -/

theorem area_eq {n : ℕ} (hn : 0 < n) :
    area n = 2 * Real.pi ^ ((n : ℝ) / 2) / Real.Gamma ((n : ℝ) / 2) := by
  have hb : (0 : ℝ) < (n : ℝ) / 2 := by
    have : (0 : ℝ) < n := Nat.cast_pos.2 hn
    positivity
  have hG := Real.Gamma_pos_of_pos hb
  rw [area, Real.Gamma_add_one hb.ne']
  field_simp

theorem invZ_eq (n : ℕ) (k : ℝ) : invZ (n + 1) k = Real.Gamma ((n : ℝ) / 2 + k + (n : ℝ) / 2) /
    (2 ^ (n : ℝ) * 2 ^ k * Real.pi ^ ((n : ℝ) / 2) * Real.Gamma ((n : ℝ) / 2 + k)) := by
  have h : ((((n + 1 : ℕ) : ℝ) - 1) / 2) = (n : ℝ) / 2 := by
    push_cast
    ring
  have h2 : (2 : ℝ) ^ ((n : ℝ) / 2 + k + (n : ℝ) / 2) = 2 ^ (n : ℝ) * 2 ^ k := by
    rw [← Real.rpow_add two_pos]
    congr 1
    ring
  simp only [invZ, h, h2]
  rw [one_div_div]

theorem density_eq {n : ℕ} (hn : 0 < n) {k θ : ℝ} (hk : 0 < k) (hθ : θ ∈ Ioo 0 Real.pi) :
    (Real.sin θ / 2) * (1 / ProbabilityTheory.beta ((n : ℝ) / 2 + k) ((n : ℝ) / 2) *
        ((1 + Real.cos θ) / 2) ^ ((n : ℝ) / 2 + k - 1) *
        (1 - (1 + Real.cos θ) / 2) ^ ((n : ℝ) / 2 - 1)) * uniformPdf n =
      Real.sin θ ^ (n - 1) * (invZ (n + 1) k * (1 + Real.cos θ) ^ k) := by
  have hs := Real.sin_pos_of_mem_Ioo hθ
  have hcs := Real.sin_sq_add_cos_sq θ
  have hc1 : 0 < 1 + Real.cos θ := by nlinarith [Real.neg_one_le_cos θ, Real.cos_le_one θ]
  have hc2 : 0 < 1 - Real.cos θ := by nlinarith [Real.neg_one_le_cos θ, Real.cos_le_one θ]
  have hb : (0 : ℝ) < (n : ℝ) / 2 := by
    have : (0 : ℝ) < n := Nat.cast_pos.2 hn
    positivity
  have hGb := Real.Gamma_pos_of_pos hb
  have hGa := Real.Gamma_pos_of_pos (add_pos hb hk)
  have hGab := Real.Gamma_pos_of_pos (add_pos (add_pos hb hk) hb)
  have e1 : ((1 + Real.cos θ) / 2) ^ ((n : ℝ) / 2 + k - 1) *
      (1 - (1 + Real.cos θ) / 2) ^ ((n : ℝ) / 2 - 1) =
      (1 + Real.cos θ) ^ k / 2 ^ k * ((Real.sin θ / 2) ^ (2 : ℝ)) ^ ((n : ℝ) / 2 - 1) := by
    rw [show (n : ℝ) / 2 + k - 1 = k + ((n : ℝ) / 2 - 1) by ring,
      Real.rpow_add (by positivity), mul_assoc,
      ← Real.mul_rpow (by positivity) (by linarith), Real.div_rpow hc1.le two_pos.le]
    congr 2
    rw [Real.rpow_two]
    nlinarith
  have e2 : Real.sin θ / 2 * ((Real.sin θ / 2) ^ (2 : ℝ)) ^ ((n : ℝ) / 2 - 1) =
      Real.sin θ ^ (n - 1) * 2 / 2 ^ (n : ℝ) := by
    have hs2 : 0 < Real.sin θ / 2 := by positivity
    rw [← Real.rpow_mul hs2.le]
    nth_rewrite 1 [← Real.rpow_one (Real.sin θ / 2)]
    rw [← Real.rpow_add hs2, show (1 : ℝ) + 2 * ((n : ℝ) / 2 - 1) = ((n - 1 : ℕ) : ℝ) by
      rw [Nat.cast_sub hn]
      push_cast
      ring, Real.rpow_natCast, Real.rpow_natCast, div_pow]
    have h2 : (2 : ℝ) ^ n = 2 ^ (n - 1) * 2 := by
      rw [← pow_succ, Nat.sub_add_cancel hn]
    rw [h2]
    field_simp
  have hL : (Real.sin θ / 2) * (1 / ProbabilityTheory.beta ((n : ℝ) / 2 + k) ((n : ℝ) / 2) *
        ((1 + Real.cos θ) / 2) ^ ((n : ℝ) / 2 + k - 1) *
        (1 - (1 + Real.cos θ) / 2) ^ ((n : ℝ) / 2 - 1)) * uniformPdf n =
      1 / ProbabilityTheory.beta ((n : ℝ) / 2 + k) ((n : ℝ) / 2) * uniformPdf n *
        ((1 + Real.cos θ) ^ k / 2 ^ k) * (Real.sin θ ^ (n - 1) * 2 / 2 ^ (n : ℝ)) := by
    rw [← e2]
    calc _ = (Real.sin θ / 2) * (1 / ProbabilityTheory.beta ((n : ℝ) / 2 + k) ((n : ℝ) / 2)) *
          (((1 + Real.cos θ) / 2) ^ ((n : ℝ) / 2 + k - 1) *
            (1 - (1 + Real.cos θ) / 2) ^ ((n : ℝ) / 2 - 1)) * uniformPdf n := by ring
      _ = _ := by rw [e1]; ring
  rw [hL, invZ_eq, uniformPdf, area_eq hn, ProbabilityTheory.beta]
  have hp : (0 : ℝ) < Real.pi ^ ((n : ℝ) / 2) := Real.rpow_pos_of_pos Real.pi_pos _
  have h2k : (0 : ℝ) < 2 ^ k := Real.rpow_pos_of_pos two_pos _
  have h2n : (0 : ℝ) < 2 ^ (n : ℝ) := Real.rpow_pos_of_pos two_pos _
  field_simp

/-- Integrals for the beta distribution, in the angle to the first axis. -/
theorem beta_angle {a b : ℝ} {g : ℝ → ℝ≥0∞} (hg : Measurable g) :
    ∫⁻ z, g z ∂(ProbabilityTheory.betaMeasure a b) = ∫⁻ θ in Ioo 0 Real.pi,
      ENNReal.ofReal (Real.sin θ / 2) * (ENNReal.ofReal (1 / ProbabilityTheory.beta a b *
        ((1 + Real.cos θ) / 2) ^ (a - 1) * (1 - (1 + Real.cos θ) / 2) ^ (b - 1)) *
          g ((1 + Real.cos θ) / 2)) := by
  have hpm : Measurable (ProbabilityTheory.betaPDF a b) :=
    (ProbabilityTheory.measurable_betaPDFReal a b).ennreal_ofReal
  have h1 : ∫⁻ z, g z ∂(ProbabilityTheory.betaMeasure a b) =
      ∫⁻ z in Ioo (0 : ℝ) 1, ENNReal.ofReal (1 / ProbabilityTheory.beta a b * z ^ (a - 1) *
        (1 - z) ^ (b - 1)) * g z := by
    rw [ProbabilityTheory.betaMeasure, lintegral_withDensity_eq_lintegral_mul _ hpm hg,
      ← lintegral_indicator measurableSet_Ioo]
    refine lintegral_congr fun z => ?_
    by_cases hz : 0 < z ∧ z < 1
    · rw [Set.indicator_of_mem (by exact hz), Pi.mul_apply,
        ProbabilityTheory.betaPDF_of_pos_lt_one hz.1 hz.2]
    · rw [Set.indicator_of_notMem (by exact hz), Pi.mul_apply, ProbabilityTheory.betaPDF,
        ProbabilityTheory.betaPDFReal, if_neg hz]
      simp
  have himg : (fun θ => (1 + Real.cos θ) / 2) '' Ioo 0 Real.pi = Ioo (0 : ℝ) 1 := by
    ext z
    constructor
    · rintro ⟨θ, hθ, rfl⟩
      have hs := Real.sin_pos_of_mem_Ioo hθ
      have hcs := Real.sin_sq_add_cos_sq θ
      constructor
      · nlinarith [Real.neg_one_le_cos θ, Real.cos_le_one θ]
      · nlinarith [Real.neg_one_le_cos θ, Real.cos_le_one θ]
    · intro hz
      refine ⟨Real.arccos (2 * z - 1), ⟨Real.arccos_pos.2 (by linarith [hz.2]), ?_⟩, ?_⟩
      · refine lt_of_le_of_ne (Real.arccos_le_pi _) fun h => ?_
        have := Real.arccos_eq_pi.1 h
        linarith [hz.1]
      · simp only
        rw [Real.cos_arccos (by linarith [hz.1]) (by linarith [hz.2])]
        ring
  have hinj : InjOn (fun θ => (1 + Real.cos θ) / 2) (Ioo 0 Real.pi) := by
    intro x hx y hy h
    have h' : Real.cos x = Real.cos y := by
      have : (1 + Real.cos x) / 2 = (1 + Real.cos y) / 2 := h
      linarith
    exact Real.injOn_cos ⟨hx.1.le, hx.2.le⟩ ⟨hy.1.le, hy.2.le⟩ h'
  have hder : ∀ θ ∈ Ioo 0 Real.pi, HasDerivWithinAt (fun θ => (1 + Real.cos θ) / 2)
      (-Real.sin θ / 2) (Ioo 0 Real.pi) θ := fun θ _ =>
    (((Real.hasDerivAt_cos θ).const_add 1).div_const 2).hasDerivWithinAt
  rw [h1, ← himg, lintegral_image_eq_lintegral_abs_deriv_mul measurableSet_Ioo hder hinj]
  refine setLIntegral_congr_fun measurableSet_Ioo fun θ hθ => ?_
  have hs := Real.sin_pos_of_mem_Ioo hθ
  have : |-Real.sin θ / 2| = Real.sin θ / 2 := by
    rw [neg_div, abs_neg, abs_of_pos (by positivity)]
  simp only [this]

theorem before_cos {n : ℕ} {θ : ℝ} (hθ : θ ∈ Ioo 0 Real.pi) (v : E n) :
    before ((1 + Real.cos θ) / 2) v = join (Real.cos θ) (Real.sin θ • v) := by
  have hs := Real.sin_pos_of_mem_Ioo hθ
  have h : 2 * ((1 + Real.cos θ) / 2) - 1 = Real.cos θ := by ring
  rw [before, h, ← Real.abs_sin_eq_sqrt_one_sub_cos_sq, abs_of_pos hs]

theorem before_law {n : ℕ} (hn : 0 < n) {k : ℝ} (hk : 0 < k) {f : E (n + 1) → ℝ≥0∞}
    (hf : Measurable f) :
    ∫⁻ z, (∫⁻ x, f (before z (WithLp.toLp 2 (uniform x))) ∂(normals n))
        ∂(ProbabilityTheory.betaMeasure ((n : ℝ) / 2 + k) ((n : ℝ) / 2)) =
      ∫⁻ w, f w.1 * ENNReal.ofReal (invZ (n + 1) k * (1 + inner ℝ w.1 (eOne n)) ^ k)
        ∂(σ (n + 1)) := by
  have hb : Measurable fun q : ℝ × E n => before q.1 q.2 := by
    have h : Measurable fun q : ℝ × E n => (2 * q.1 - 1, √(1 - (2 * q.1 - 1) ^ 2) • q.2) := by
      fun_prop
    exact join_measurable.comp h
  have hfb : Measurable fun q : ℝ × E n => f (before q.1 q.2) := hf.comp hb
  have hfs : Measurable fun q : ℝ × sphere (0 : E n) 1 => f (before q.1 q.2.1) := by
    have h : Measurable fun q : ℝ × sphere (0 : E n) 1 => (q.1, q.2.1) := by fun_prop
    exact hfb.comp h
  have h1 : ∀ z, ∫⁻ x, f (before z (WithLp.toLp 2 (uniform x))) ∂(normals n) =
      (∫⁻ v, f (before z v.1) ∂(σ n)) * ENNReal.ofReal (uniformPdf n) := fun z =>
    uniform_law hn (hfb.comp measurable_prodMk_left)
  simp only [h1]
  have hg : Measurable fun z => (∫⁻ v, f (before z v.1) ∂(σ n)) * ENNReal.ofReal (uniformPdf n) :=
    (Measurable.lintegral_prod_right' hfs).mul_const _
  rw [beta_angle hg]
  have hk' : Measurable fun w : E (n + 1) =>
      ENNReal.ofReal (invZ (n + 1) k * (1 + inner ℝ w (eOne n)) ^ k) := by fun_prop
  have hfk : Measurable fun w : E (n + 1) =>
      f w * ENNReal.ofReal (invZ (n + 1) k * (1 + inner ℝ w (eOne n)) ^ k) := hf.mul hk'
  refine Eq.trans ?_ (slices hn hfk).symm
  have hjs : Measurable fun q : sphere (0 : E n) 1 × ℝ =>
      join (Real.cos q.2) (Real.sin q.2 • q.1.1) := by
    have h : Measurable fun q : sphere (0 : E n) 1 × ℝ => (Real.cos q.2, Real.sin q.2 • q.1.1) := by
      fun_prop
    exact join_measurable.comp h
  have hm : Measurable fun q : sphere (0 : E n) 1 × ℝ =>
      ENNReal.ofReal (Real.sin q.2 ^ (n - 1)) *
        (f (join (Real.cos q.2) (Real.sin q.2 • q.1.1)) * ENNReal.ofReal (invZ (n + 1) k *
          (1 + inner ℝ (join (Real.cos q.2) (Real.sin q.2 • q.1.1)) (eOne n)) ^ k)) :=
    Measurable.mul (by fun_prop) (hfk.comp hjs)
  have hsw := lintegral_lintegral_swap (μ := σ n) (ν := volume.restrict (Ioo 0 Real.pi))
    (f := fun v θ => ENNReal.ofReal (Real.sin θ ^ (n - 1)) *
        (f (join (Real.cos θ) (Real.sin θ • v.1)) * ENNReal.ofReal (invZ (n + 1) k *
          (1 + inner ℝ (join (Real.cos θ) (Real.sin θ • v.1)) (eOne n)) ^ k))) hm.aemeasurable
  refine Eq.trans ?_ hsw.symm
  refine setLIntegral_congr_fun measurableSet_Ioo fun θ hθ => ?_
  have hs := Real.sin_pos_of_mem_Ioo hθ
  have hi : ∀ v : E n, inner ℝ (join (Real.cos θ) (Real.sin θ • v)) (eOne n) = Real.cos θ := by
    intro v
    rw [← before_cos hθ, before_inner]
    ring
  simp only [before_cos hθ, hi]
  have hd := congrArg ENNReal.ofReal (density_eq hn hk hθ)
  have hc1 : 0 < 1 + Real.cos θ := by
    nlinarith [Real.neg_one_le_cos θ, Real.cos_le_one θ, Real.sin_sq_add_cos_sq θ]
  have hu : 0 ≤ uniformPdf n := by
    have := area_pos hn
    unfold uniformPdf
    positivity
  rw [ENNReal.ofReal_mul' hu, ENNReal.ofReal_mul (p := Real.sin θ / 2) (by positivity),
    ENNReal.ofReal_mul (p := Real.sin θ ^ (n - 1)) (by positivity)] at hd
  have hfj : Measurable fun v : sphere (0 : E n) 1 => f (join (Real.cos θ) (Real.sin θ • v.1)) := by
    have h : Measurable fun v : sphere (0 : E n) 1 => (Real.cos θ, Real.sin θ • v.1) := by fun_prop
    exact (hf.comp join_measurable).comp h
  calc _ = (ENNReal.ofReal (Real.sin θ / 2) * ENNReal.ofReal
          (1 / ProbabilityTheory.beta ((n : ℝ) / 2 + k) ((n : ℝ) / 2) *
            ((1 + Real.cos θ) / 2) ^ ((n : ℝ) / 2 + k - 1) *
            (1 - (1 + Real.cos θ) / 2) ^ ((n : ℝ) / 2 - 1)) * ENNReal.ofReal (uniformPdf n)) *
        ∫⁻ v, f (join (Real.cos θ) (Real.sin θ • v.1)) ∂(σ n) := by ring
    _ = _ := by
      rw [hd, ← lintegral_const_mul _ hfj]
      refine lintegral_congr fun v => ?_
      ring

theorem power_law {n : ℕ} (hn : 0 < n) {k : ℝ} (hk : 0 < k) {loc : Fin (n + 1) → ℝ}
    (hloc : Unit loc) {f : E (n + 1) → ℝ≥0∞} (hf : Measurable f) :
    ∫⁻ z, (∫⁻ x, f (WithLp.toLp 2 (power 0 loc z (uniform x))) ∂(normals n))
        ∂(ProbabilityTheory.betaMeasure ((n : ℝ) / 2 + k) ((n : ℝ) / 2)) =
      ∫⁻ w, f w.1 * ENNReal.ofReal (invZ (n + 1) k * (1 + ∑ i, w.1.ofLp i * loc i) ^ k)
        ∂(σ (n + 1)) := by
  set l : E (n + 1) := WithLp.toLp 2 loc with hl
  have hR : Measurable (refl l) := (refl l).continuous.measurable
  have h := before_law hn hk (hf.comp hR)
  simp only [power_zero]
  refine h.trans ?_
  have hk' : Measurable fun w : E (n + 1) =>
      f w * ENNReal.ofReal (invZ (n + 1) k * (1 + inner ℝ w l) ^ k) := hf.mul (by fun_prop)
  rw [show (∫⁻ w, f w.1 * ENNReal.ofReal (invZ (n + 1) k * (1 + ∑ i, w.1.ofLp i * loc i) ^ k)
        ∂(σ (n + 1))) = ∫⁻ w, f w.1 * ENNReal.ofReal (invZ (n + 1) k * (1 + inner ℝ w.1 l) ^ k)
        ∂(σ (n + 1)) from ?_, ← isometry_invariant (Nat.succ_pos n) (refl l) hk']
  · refine lintegral_congr fun w => ?_
    have he : inner ℝ (refl l w.1) l = inner ℝ w.1 (eOne n) := by
      have hel : refl l (eOne n) = l := refl_eOne (unit_norm.1 hloc)
      calc inner ℝ (refl l w.1) l = inner ℝ (refl l w.1) (refl l (eOne n)) := by rw [hel]
        _ = _ := (refl l).inner_map_map _ _
    rw [he, Function.comp]
  · refine lintegral_congr fun w => ?_
    rw [PiLp.inner_apply]
    simp only [RCLike.inner_apply, conj_trivial, hl]
    simp only [mul_comm]

/-! ## C90: shapes -/

/-- The array that is returned has the shape asked for followed by the dimension; in
`power_spherical` the two arrays that are concatenated along the last axis agree on the other
axes, and give that shape. -/
theorem C90_shapes (dim : ℕ) (hd : 0 < dim) (s : Size) :
    (∃ l, shape dim s = l ++ [dim] ∧ betaShape dim s = l ∧ restShape dim s = l ++ [dim - 1] ∧
      (match s with | .none => l = [] | .num n => l = [n] | .tuple t => l = t)) ∧
      1 + (dim - 1) = dim := by
  refine ⟨?_, by omega⟩
  cases s with
  | none => exact ⟨[], by simp [shape, betaShape, restShape]⟩
  | num n => exact ⟨[n], by simp [shape, betaShape, restShape]⟩
  | tuple t => exact ⟨t, by simp [shape, betaShape, restShape]⟩

/-! ## C90: uniform directions -/

/-- `uniform_spherical` gives vectors of norm one, uniformly on the sphere: the law of the
sample has with respect to the area the constant density announced by `UniformSpherical.pdf`. The
draws that would give NaN have probability zero. -/
theorem C90_uniform {d : ℕ} (hd : 0 < d) :
    (∀ x : Fin d → ℝ, x ≠ 0 → Unit (uniform x)) ∧
      (∀ᵐ x ∂(normals d), x ≠ 0) ∧
      HasDensity (normals d) uniform fun _ => uniformPdf d := by
  refine ⟨fun x hx => ?_, ?_, fun f hf => ?_⟩
  · have hx' : (WithLp.toLp 2 x : E d) ≠ 0 := fun h => hx (by simpa using h)
    rw [unit_norm, uniform_eq, WithLp.toLp_ofLp, norm_smul, norm_inv, norm_norm,
      inv_mul_cancel₀ (norm_ne_zero_iff.2 hx')]
  · have h : (normals d) {0} = 0 := by
      have h0 : (normals d) {0} = ∫⁻ x, ({0} : Set (Fin d → ℝ)).indicator 1 x ∂(normals d) := by
        rw [lintegral_indicator_one (measurableSet_singleton _)]
      have : Nonempty (Fin d) := ⟨⟨0, hd⟩⟩
      have hm : Measurable fun x : Fin d → ℝ => ({0} : Set (Fin d → ℝ)).indicator
          (1 : (Fin d → ℝ) → ℝ≥0∞) x := measurable_one.indicator (measurableSet_singleton _)
      rw [h0, normals_density hm]
      refine lintegral_eq_zero_of_ae_eq_zero ?_
      have hv : ∀ᵐ x ∂(volume : Measure (Fin d → ℝ)), x ≠ 0 := by
        rw [ae_iff]
        simp
      filter_upwards [hv] with x hx
      simp [hx]
    rw [ae_iff]
    simpa using h
  · have h := uniform_law hd (f := fun x => f x.ofLp) (hf.comp (WithLp.measurable_ofLp 2 _))
    have hm : Measurable fun w : sphere (0 : E d) 1 => f w.1.ofLp :=
      hf.comp ((WithLp.measurable_ofLp 2 _).comp measurable_subtype_coe)
    refine Eq.trans ?_ (lintegral_mul_const _ hm).symm
    exact h

/-- `UniformSpherical.pdf` is a density: positive, with integral one over the sphere. -/
theorem C90_uniform_density {d : ℕ} (hd : 0 < d) :
    0 < uniformPdf d ∧ ∫⁻ _, ENNReal.ofReal (uniformPdf d) ∂(σ d) = 1 := by
  have hA := area_pos hd
  refine ⟨one_div_pos.2 hA, ?_⟩
  rw [lintegral_const, sphere_area hd, uniformPdf, ← ENNReal.ofReal_mul (by positivity),
    one_div_mul_cancel hA.ne', ENNReal.ofReal_one]

/-! ## C90: the power spherical distribution -/

theorem new_ok {d : ℕ} {ndim : ℕ} {loc : Fin d → ℝ} {scale : Option ℝ} {D : Dist d}
    (h : Dist.new ndim loc scale = .ok D) :
    ndim = 1 ∧ 0 < D.scale ∧ D.loc = loc ∧ D.scale = scale.getD 1 ∧ D.zInv = invZ d D.scale := by
  unfold Dist.new at h
  split at h
  · cases h
  · rename_i hn
    refine ⟨by simpa using hn, ?_⟩
    cases scale with
    | none =>
      simp only at h
      split at h
      · cases h
      · cases h
        simp
    | some s =>
      simp only at h
      split at h
      · rename_i hs
        split at h
        · cases h
        · cases h
          simp [hs]
      · cases h

/-- The constructor accepts exactly the locations that are arrays with one axis, of norm one
up to `1e-5`, and the positive scales; anything else is a `ValueError`. A point of another
dimension than the location is an `AssertionError` for the density. -/
theorem C90_parameters {d : ℕ} (ndim : ℕ) (loc : Fin d → ℝ) (scale : Option ℝ) :
    ((∃ D, Dist.new ndim loc scale = .ok D) ↔
      ndim = 1 ∧ 0 < scale.getD 1 ∧ |√(∑ i, loc i ^ 2) - 1| ≤ 1 / 10 ^ 5) ∧
    (∀ e, Dist.new ndim loc scale = .error e → e = .valueError) ∧
    ∀ D, Dist.new ndim loc scale = .ok D → ∀ (k : ℕ) (x : Fin k → ℝ),
      (D.pdf x = .error .assertionError ↔ k ≠ d) := by
  refine ⟨?_, ?_, ?_⟩
  · unfold Dist.new
    by_cases h1 : ndim = 1
    · rw [if_neg (by simpa using h1)]
      by_cases h3 : 1 / 10 ^ 5 < |nrm loc - 1|
      · have h3' : ¬ |√(∑ i, loc i ^ 2) - 1| ≤ 1 / 10 ^ 5 := not_le.2 h3
        cases scale with
        | none => simp only [if_pos h3, h3', and_false, iff_false]; simp
        | some s =>
          simp only [if_pos h3, h3', and_false, iff_false]
          by_cases hs : 0 < s <;> simp [hs]
      · have h3' : |√(∑ i, loc i ^ 2) - 1| ≤ 1 / 10 ^ 5 := not_lt.1 h3
        cases scale with
        | none => simp only [if_neg h3, h3']; simp [h1]
        | some s =>
          simp only [if_neg h3, h3']
          by_cases hs : 0 < s <;> simp [hs, h1]
    · rw [if_pos (by simpa using h1)]
      simp [h1]
  · intro e h
    unfold Dist.new at h
    split at h
    · cases h; rfl
    · cases scale with
      | none =>
        simp only at h
        split at h <;> cases h
        rfl
      | some s =>
        simp only at h
        split at h
        · split at h <;> cases h
          rfl
        · cases h; rfl
  · intro D _ k x
    unfold Dist.pdf
    by_cases h : k = d <;> simp [h]

/-- The samples of the power spherical distribution have the density announced: for the
numbers that are drawn, and the reflection without the constant `_eps`, the law on the sphere
has the density `PowerSpherical.pdf`, in every dimension, for every location and scale. -/
theorem C90_power {n : ℕ} (hn : 0 < n) {ndim : ℕ} {loc : Fin (n + 1) → ℝ} {scale : Option ℝ}
    (hloc : Unit loc) {D : Dist (n + 1)} (hD : Dist.new ndim loc scale = .ok D) :
    ∃ p : (Fin (n + 1) → ℝ) → ℝ, (∀ x, D.pdf x = .ok (p x)) ∧
      HasDensity ((ProbabilityTheory.betaMeasure (betaParams (n + 1) D.scale).1
          (betaParams (n + 1) D.scale).2).prod (normals n))
        (fun q => power 0 loc q.1 (uniform q.2)) p := by
  obtain ⟨-, hs, hl, -, hz⟩ := new_ok hD
  refine ⟨fun x => D.zInv * (1 + ∑ i, x i * D.loc i) ^ D.scale, fun x => ?_, fun f hf => ?_⟩
  · simp [Dist.pdf]
  · have hp : betaParams (n + 1) D.scale = ((n : ℝ) / 2 + D.scale, (n : ℝ) / 2) := by
      unfold betaParams
      push_cast
      rw [add_sub_cancel_right]
    have h := power_law hn hs hloc (f := fun x => f x.ofLp)
      (hf.comp (WithLp.measurable_ofLp 2 _))
    have hm : Measurable fun q : ℝ × (Fin n → ℝ) => f (power 0 loc q.1 (uniform q.2)) := by
      refine hf.comp ?_
      simp only [power_zero, uniform_eq, WithLp.toLp_ofLp]
      have hb : Measurable fun q : ℝ × E n => before q.1 q.2 := by
        have h : Measurable fun q : ℝ × E n => (2 * q.1 - 1, √(1 - (2 * q.1 - 1) ^ 2) • q.2) := by
          fun_prop
        exact join_measurable.comp h
      have hR : Measurable (refl (WithLp.toLp 2 loc)) := (refl _).continuous.measurable
      have hu : Measurable fun y : E n => ‖y‖⁻¹ • y := by fun_prop
      exact (WithLp.measurable_ofLp 2 _).comp (hR.comp (hb.comp
        (measurable_fst.prodMk (hu.comp ((WithLp.measurable_toLp 2 _).comp measurable_snd)))))
    rw [hp, hz, hl, lintegral_prod _ hm.aemeasurable]
    exact h

/-- `PowerSpherical.pdf` is a density: its integral over the sphere is one, in every dimension,
for every location and scale, and it is largest at the location. -/
theorem C90_power_density {n : ℕ} (hn : 0 < n) {ndim : ℕ} {loc : Fin (n + 1) → ℝ}
    {scale : Option ℝ} (hloc : Unit loc) {D : Dist (n + 1)}
    (hD : Dist.new ndim loc scale = .ok D) :
    ∃ p : (Fin (n + 1) → ℝ) → ℝ, (∀ x, D.pdf x = .ok (p x)) ∧
      ∫⁻ w, ENNReal.ofReal (p w.1.ofLp) ∂(σ (n + 1)) = 1 ∧
      ∀ x, Unit x → 0 ≤ p x ∧ p x ≤ p loc := by
  obtain ⟨p, hp, hd⟩ := C90_power hn hloc hD
  obtain ⟨-, hs, hl, -, hz⟩ := new_ok hD
  refine ⟨p, hp, ?_, fun x hx => ?_⟩
  · have h := hd (fun _ => 1) measurable_const
    have hb : (betaParams (n + 1) D.scale).2 > 0 := by
      have : (0 : ℝ) < n := Nat.cast_pos.2 hn
      simp only [betaParams]
      push_cast
      rw [add_sub_cancel_right]
      positivity
    have ha : (betaParams (n + 1) D.scale).1 > 0 := add_pos hb hs
    have := ProbabilityTheory.isProbabilityMeasureBeta ha hb
    rw [lintegral_const, measure_univ] at h
    simpa using h.symm
  · have hpx : ∀ x, p x = D.zInv * (1 + ∑ i, x i * loc i) ^ D.scale := by
      intro x
      have := hp x
      simp [Dist.pdf, hl] at this
      exact this.symm
    have hin : ∀ x : Fin (n + 1) → ℝ, ∑ i, x i * loc i =
        inner ℝ (WithLp.toLp 2 x : E (n + 1)) (WithLp.toLp 2 loc) := by
      intro x
      rw [PiLp.inner_apply]
      simp [mul_comm]
    have hz0 : 0 ≤ D.zInv := by
      have h2n : (0 : ℝ) < (n : ℝ) / 2 := by
        have : (0 : ℝ) < n := Nat.cast_pos.2 hn
        positivity
      rw [hz, invZ_eq]
      have h1 := Real.Gamma_pos_of_pos (add_pos h2n hs)
      have h2 := Real.Gamma_pos_of_pos (add_pos (add_pos h2n hs) h2n)
      positivity
    have hc := abs_le.1 (abs_real_inner_le_norm (WithLp.toLp 2 x : E (n + 1)) (WithLp.toLp 2 loc))
    rw [unit_norm.1 hx, unit_norm.1 hloc, mul_one] at hc
    have h1 : ∑ i, loc i * loc i = 1 := by
      rw [← hloc]
      exact Finset.sum_congr rfl fun i _ => (sq (loc i)).symm
    rw [hpx, hpx, h1, hin]
    refine ⟨mul_nonneg hz0 (Real.rpow_nonneg (by linarith) _), ?_⟩
    exact mul_le_mul_of_nonneg_left (Real.rpow_le_rpow (by linarith) (by linarith) hs.le) hz0

/-- A sample of `power_spherical`, as it is computed, is close to a vector of norm one whose cosine
with the location is the number `2 z - 1` that was drawn. The distance is at most
`4 eps / (‖e1 - loc‖ + eps)`, and zero when the location is the first axis. -/
theorem C90_power_sample {n : ℕ} {eps : ℝ} (he : 0 < eps) {loc : Fin (n + 1) → ℝ} (hloc : Unit loc)
    {z : ℝ} (h0 : 0 ≤ z) (h1 : z ≤ 1) {v : Fin n → ℝ} (hv : Unit v) :
    ∃ y : Fin (n + 1) → ℝ, Unit y ∧ ∑ i, y i * loc i = 2 * z - 1 ∧
      (loc = e1 → power eps loc z v = y) ∧
      √(∑ i, (power eps loc z v i - y i) ^ 2) ≤
        4 * eps / (√(∑ i, (e1 i - loc i) ^ 2) + eps) := by
  set l : E (n + 1) := WithLp.toLp 2 loc with hl
  set b := before z (WithLp.toLp 2 v : E n) with hb
  have hbn : ‖b‖ = 1 := before_norm h0 h1 (unit_norm.1 hv)
  have hR : (refl l b).ofLp = power 0 loc z v := (power_zero loc z v).symm
  refine ⟨power 0 loc z v, ?_, ?_, fun h => ?_, ?_⟩
  · rw [unit_norm, ← hR, WithLp.toLp_ofLp, LinearIsometryEquiv.norm_map, hbn]
  · have hel : refl l (eOne n) = l := refl_eOne (unit_norm.1 hloc)
    have : ∑ i, power 0 loc z v i * loc i = inner ℝ (refl l b) l := by
      rw [PiLp.inner_apply, ← hR]
      simp [mul_comm, hl]
    rw [this]
    calc inner ℝ (refl l b) l = inner ℝ (refl l b) (refl l (eOne n)) := by rw [hel]
      _ = inner ℝ b (eOne n) := (refl l).inner_map_map _ _
      _ = _ := before_inner _ _
  · subst h
    rw [power_eq, power_eq]
    simp [eOne]
  · have hw : √(∑ i, (e1 i - loc i) ^ 2) = ‖eOne n - l‖ := by
      have := nrm_eq fun i => e1 i - loc i
      unfold nrm at this
      exact this
    have hd : √(∑ i, (power eps loc z v i - power 0 loc z v i) ^ 2) =
        ‖((2 * (inner ℝ (eOne n - l) b / ‖eOne n - l‖ ^ 2)) -
          (2 * (inner ℝ (eOne n - l) b / (‖eOne n - l‖ + eps) ^ 2))) • (eOne n - l)‖ := by
      have := nrm_eq fun i => power eps loc z v i - power 0 loc z v i
      unfold nrm at this
      rw [this]
      congr 1
      rw [power_eq, power_eq, ← hl, ← hb, add_zero]
      ext i
      simp only [PiLp.sub_apply, PiLp.smul_apply, smul_eq_mul]
      ring
    rw [hd, hw, norm_smul]
    set w := eOne n - l
    rcases eq_or_ne w 0 with hw0 | hw0
    · rw [hw0]
      simp
      positivity
    · have hwp : 0 < ‖w‖ := norm_pos_iff.2 hw0
      have hi : |inner ℝ w b| ≤ ‖w‖ := by
        have := abs_real_inner_le_norm w b
        rwa [hbn, mul_one] at this
      have hq : 0 < ‖w‖ + eps := by positivity
      have e : 2 * (inner ℝ w b / ‖w‖ ^ 2) - 2 * (inner ℝ w b / (‖w‖ + eps) ^ 2) =
          inner ℝ w b * (2 * eps * (2 * ‖w‖ + eps) / (‖w‖ ^ 2 * (‖w‖ + eps) ^ 2)) := by
        field_simp
        ring
      rw [e, Real.norm_eq_abs, abs_mul,
        abs_of_nonneg (by positivity : 0 ≤ 2 * eps * (2 * ‖w‖ + eps) / (‖w‖ ^ 2 * (‖w‖ + eps) ^ 2))]
      calc |inner ℝ w b| * (2 * eps * (2 * ‖w‖ + eps) / (‖w‖ ^ 2 * (‖w‖ + eps) ^ 2)) * ‖w‖
          ≤ ‖w‖ * (2 * eps * (2 * ‖w‖ + eps) / (‖w‖ ^ 2 * (‖w‖ + eps) ^ 2)) * ‖w‖ := by gcongr
        _ = 2 * eps * (2 * ‖w‖ + eps) / (‖w‖ + eps) ^ 2 := by field_simp
        _ ≤ _ := by
          rw [div_le_div_iff₀ (by positivity) hq]
          have : 0 ≤ eps * eps * (‖w‖ + eps) := by positivity
          nlinarith

/-- Deviation: the samples do not have norm one. For some location of norm one, near the first
axis, the sample can be the zero vector: the constant `_eps` that avoids a division by zero makes
the reflection a projection. -/
theorem C90_power_norm_deviation {eps : ℝ} (he : 0 < eps) (he1 : eps < 1 / 2) :
    ∃ (loc : Fin 2 → ℝ) (z : ℝ) (v : Fin 1 → ℝ), Unit loc ∧ 0 < z ∧ z < 1 ∧ Unit v ∧
      power eps loc z v = 0 := by
  have h2 : √2 ^ 2 = 2 := Real.sq_sqrt two_pos.le
  have h2p : 0 < √2 := Real.sqrt_pos.2 two_pos
  have h2b : √2 < 3 / 2 := by nlinarith
  set s := eps * (1 + √2) / 2 with hs
  have hs0 : 0 < s := by positivity
  have hs1 : s < 1 := by
    rw [hs]
    nlinarith
  set c := √(1 - s ^ 2) with hc
  have hcs : c ^ 2 = 1 - s ^ 2 := Real.sq_sqrt (by nlinarith)
  have ht : 2 * ((1 + s) / 2) - 1 = s := by ring
  have hn : nrm (fun i => e1 i - (![1 - 2 * s ^ 2, 2 * s * c] : Fin 2 → ℝ) i) = 2 * s := by
    unfold nrm
    rw [Fin.sum_univ_two, show (e1 0 - (![1 - 2 * s ^ 2, 2 * s * c] : Fin 2 → ℝ) 0) ^ 2 +
      (e1 1 - (![1 - 2 * s ^ 2, 2 * s * c] : Fin 2 → ℝ) 1) ^ 2 = (2 * s) ^ 2 by
        simp [e1, Fin.cons_one]
        nlinarith]
    exact Real.sqrt_sq (by positivity)
  have hq : 2 * s + eps = 2 * s * √2 := by
    rw [hs]
    nlinarith
  have hqq : (2 * s + eps) ^ 2 = 8 * s ^ 2 := by
    rw [hq, mul_pow, h2]
    ring
  have hq0 : 2 * s + eps ≠ 0 := by positivity
  refine ⟨![1 - 2 * s ^ 2, 2 * s * c], (1 + s) / 2, ![-1], ?_, by positivity, by linarith, ?_, ?_⟩
  · simp [Unit]
    nlinarith
  · simp [Unit]
  · funext i
    have hsum2 : ∀ g : Fin (1 + 1) → ℝ, ∑ j, g j = g 0 + g 1 := fun g => Fin.sum_univ_two g
    simp only [power, ht, hn, hsum2, ← hc]
    have a0 : (Fin.cons s (fun i => c * (![-1] : Fin 1 → ℝ) i) : Fin 2 → ℝ) 0 = s := rfl
    have a1 : (Fin.cons s (fun i => c * (![-1] : Fin 1 → ℝ) i) : Fin 2 → ℝ) 1 = -c := by
      rw [Fin.cons_one]
      simp
    have b0 : ((e1 : Fin 2 → ℝ) 0 - (![1 - 2 * s ^ 2, 2 * s * c] : Fin 2 → ℝ) 0) = 2 * s ^ 2 := by
      simp [e1]
    have b1 : ((e1 : Fin 2 → ℝ) 1 - (![1 - 2 * s ^ 2, 2 * s * c] : Fin 2 → ℝ) 1) = -(2 * s * c) := by
      simp [e1, Fin.cons_one]
    have hsum : 2 * s ^ 2 / (2 * s + eps) * s + -(2 * s * c) / (2 * s + eps) * -c =
        2 * s / (2 * s + eps) := by
      have : 2 * s ^ 2 * s + 2 * s * c ^ 2 = 2 * s := by rw [hcs]; ring
      field_simp
      nlinarith
    fin_cases i
    · simp only [Fin.zero_eta, Fin.isValue, a0, a1, b0, b1, hsum, Pi.zero_apply]
      rw [show 2 * (2 * s ^ 2 / (2 * s + eps)) * (2 * s / (2 * s + eps)) =
        8 * s ^ 3 / (2 * s + eps) ^ 2 by field_simp; ring, hqq]
      field_simp
      ring
    · simp only [Fin.mk_one, Fin.isValue, a0, a1, b0, b1, hsum, Pi.zero_apply]
      rw [show 2 * (-(2 * s * c) / (2 * s + eps)) * (2 * s / (2 * s + eps)) =
        -(8 * s ^ 2 * c) / (2 * s + eps) ^ 2 by field_simp; ring, hqq]
      field_simp
      ring

/-! ## C90: seeds -/

variable {Gen Eng Seed : Type}

/-- The state after a draw by the generator, when there is one. -/
theorem draw_some {α : Type} (L : Lib Gen Eng Seed) (f : Gen → α × Gen) (w : World Gen Eng) {g : Gen}
    (h : w.rng = some g) : draw L f w = ((f g).1, { w with rng := some (f g).2 }) := by
  simp [draw, getRng, h]

/-- Two states are alike when the generators are the same; what the entropy of the system will give
may differ. -/
def Alike (w w' : World Gen Eng) : Prop := w.rng = w'.rng ∧ w.rng.isSome ∧ w.eng = w'.eng

/-- No use of a generator that is seeded by the entropy of the system. -/
def Seeded (os : List (Op Gen Eng Seed)) : Prop :=
  ∀ o ∈ os, ∀ n l, o = .seed n l → n.isSome

theorem seed_alike (L : Lib Gen Eng Seed) (s : Seed) (l : Option ℕ) (w w' : World Gen Eng) :
    Alike (seed L (some s) l w) (seed L (some s) l w') := by
  cases l <;> simp [Alike, seed, setLibroom]

theorem step_alike (L : Lib Gen Eng Seed) {w w' : World Gen Eng} (h : Alike w w')
    (o : Op Gen Eng Seed) (ho : ∀ n l, o = .seed n l → n.isSome) :
    (step L w o).1 = (step L w' o).1 ∧ Alike (step L w o).2 (step L w' o).2 := by
  obtain ⟨h1, h2, h3⟩ := h
  obtain ⟨g, hg⟩ := Option.isSome_iff_exists.1 h2
  cases o with
  | seed n l =>
    obtain ⟨s, rfl⟩ := Option.isSome_iff_exists.1 (ho n l rfl)
    exact ⟨rfl, seed_alike L s l w w'⟩
  | numpy f =>
    have e := draw_some L f w hg
    have e' := draw_some L f w' (h1 ▸ hg)
    simp only [step, e, e']
    exact ⟨trivial, rfl, rfl, h3⟩
  | libroom f =>
    simp only [step, engDraw, h3]
    exact ⟨trivial, h1, h2, rfl⟩

theorem run_alike (L : Lib Gen Eng Seed) (os : List (Op Gen Eng Seed)) (hs : Seeded os) :
    ∀ {w w' : World Gen Eng}, Alike w w' →
      (run L os w).1 = (run L os w').1 ∧ Alike (run L os w).2 (run L os w').2 := by
  induction os with
  | nil => intro w w' h; exact ⟨rfl, h⟩
  | cons o os ih =>
    intro w w' h
    obtain ⟨h1, h2⟩ := step_alike L h o (hs o (by simp))
    obtain ⟨h3, h4⟩ := ih (fun o' ho' => hs o' (by simp [ho'])) h2
    simp only [run]
    exact ⟨by rw [h1, h3], h4⟩

/-- Seeding makes a program deterministic: after `seed(numpy=s)`, with or without a seed for the C++
code, the numbers that a program gets from both generators do not depend on the state before, that
is on what was drawn or seeded earlier, nor on the entropy of the system. -/
theorem C90_seed (L : Lib Gen Eng Seed) (s : Seed) (l : Option ℕ) (os : List (Op Gen Eng Seed))
    (hs : Seeded os) (w w' : World Gen Eng) :
    (run L (.seed (some s) l :: os) w).1 = (run L (.seed (some s) l :: os) w').1 := by
  simp only [run, step]
  rw [(run_alike L os hs (seed_alike L s l w w')).1]

/-- What a program does with the numpy generator. -/
def numpyOps : List (Op Gen Eng Seed) → List (Gen → ℝ × Gen)
  | [] => []
  | .numpy f :: os => f :: numpyOps os
  | _ :: os => numpyOps os

/-- What a program does with the C++ engine. -/
def libroomOps : List (Op Gen Eng Seed) → List (Eng → ℝ × Eng)
  | [] => []
  | .libroom f :: os => f :: libroomOps os
  | _ :: os => libroomOps os

/-- The state of a generator after a list of draws. -/
def after {G : Type} : List (G → ℝ × G) → G → G
  | [], g => g
  | f :: fs, g => after fs (f g).2

/-- The numbers drawn by a list of draws. -/
def drawn {G : Type} : List (G → ℝ × G) → G → List ℝ
  | [], _ => []
  | f :: fs, g => (f g).1 :: drawn fs (f g).2

/-- The numbers that the numpy draws of a program gave. -/
def numpyOut : List (Op Gen Eng Seed) → List (Option ℝ) → List ℝ
  | .numpy _ :: os, some x :: xs => x :: numpyOut os xs
  | _ :: os, _ :: xs => numpyOut os xs
  | _, _ => []

/-- The numbers that the draws of the C++ code gave. -/
def libroomOut : List (Op Gen Eng Seed) → List (Option ℝ) → List ℝ
  | .libroom _ :: os, some x :: xs => x :: libroomOut os xs
  | _ :: os, _ :: xs => libroomOut os xs
  | _, _ => []

/-- The program has only draws. -/
def OnlyDraws (os : List (Op Gen Eng Seed)) : Prop := ∀ o ∈ os, ∀ n l, o ≠ .seed n l

theorem run_draws (L : Lib Gen Eng Seed) (os : List (Op Gen Eng Seed)) (hs : OnlyDraws os) :
    ∀ (w : World Gen Eng) (g : Gen), w.rng = some g →
      numpyOut os (run L os w).1 = drawn (numpyOps os) g ∧
      libroomOut os (run L os w).1 = drawn (libroomOps os) w.eng := by
  induction os with
  | nil => intro w g _; exact ⟨rfl, rfl⟩
  | cons o os ih =>
    intro w g hg
    have hs' : OnlyDraws os := fun o' ho' => hs o' (by simp [ho'])
    cases o with
    | seed n l => exact absurd rfl (hs _ (by simp) n l)
    | numpy f =>
      have e := draw_some L f w hg
      obtain ⟨h1, h2⟩ := ih hs' { w with rng := some (f g).2 } _ rfl
      simp only [run, step, e, numpyOut, libroomOut, numpyOps, libroomOps, drawn]
      exact ⟨by rw [h1], h2⟩
    | libroom f =>
      obtain ⟨h1, h2⟩ := ih hs' { w with eng := (f w.eng).2 } g hg
      simp only [run, step, engDraw, numpyOut, libroomOut, numpyOps, libroomOps, drawn]
      exact ⟨h1, by rw [h2]⟩

/-- With two seeds the streams are separate: the numbers of the numpy generator are those of its
seed and the numbers of the C++ engine are those of its seed, however the draws are interleaved. -/
theorem C90_streams (L : Lib Gen Eng Seed) (s : Seed) (l : ℕ) (os : List (Op Gen Eng Seed))
    (hs : OnlyDraws os) (w : World Gen Eng) :
    numpyOut (.seed (some s) (some l) :: os) (run L (.seed (some s) (some l) :: os) w).1 =
        drawn (numpyOps os) (L.ofSeed s) ∧
      libroomOut (.seed (some s) (some l) :: os) (run L (.seed (some s) (some l) :: os) w).1 =
        drawn (libroomOps os) (L.engine l) := by
  obtain ⟨h1, h2⟩ := run_draws L os hs (seed L (some s) (some l) w) (L.ofSeed s) rfl
  simp only [run, step, numpyOut, libroomOut]
  exact ⟨h1, h2⟩

/-- Deviation: giving a seed to the C++ code changes the numbers of the numpy generator for the same
numpy seed. Without it one integer is drawn from the numpy generator to seed the C++ engine, so
that the program gets the numbers of the state after that draw. -/
theorem C90_seed_deviation (L : Lib Gen Eng Seed) (s : Seed) (os : List (Op Gen Eng Seed))
    (hs : OnlyDraws os) (w : World Gen Eng) :
    numpyOut (.seed (some s) none :: os) (run L (.seed (some s) none :: os) w).1 =
        drawn (numpyOps os) (L.integers (L.ofSeed s)).2 ∧
      libroomOut (.seed (some s) none :: os) (run L (.seed (some s) none :: os) w).1 =
        drawn (libroomOps os) (L.engine (L.integers (L.ofSeed s)).1) := by
  obtain ⟨h1, h2⟩ := run_draws L os hs (seed L (some s) none w) (L.integers (L.ofSeed s)).2 rfl
  simp only [run, step, numpyOut, libroomOut]
  exact ⟨h1, h2⟩

/-- Deviation: without any seed the C++ code is not random. As long as the generator of the package
was not used, the engine gives in every process the numbers of its initial state; the first use of
the package's generator then seeds it, and the numbers it gives change to those of a seed from the
entropy of the system. -/
theorem C90_unseeded_deviation (L : Lib Gen Eng Seed) (fresh : ℕ → Gen)
    (fs gs : List (Eng → ℝ × Eng)) (d : Gen → ℝ × Gen) :
    (run L (fs.map .libroom ++ .numpy d :: gs.map .libroom)
      { rng := none, eng := L.start, fresh := fresh }).1 =
      (drawn fs L.start).map some ++ some (d (L.integers (fresh 0)).2).1 ::
        (drawn gs (L.engine (L.integers (fresh 0)).1)).map some := by
  have h2 : ∀ (gs : List (Eng → ℝ × Eng)) (w : World Gen Eng),
      (run L (gs.map .libroom) w).1 = (drawn gs w.eng).map some := by
    intro gs
    induction gs with
    | nil => intro w; rfl
    | cons f gs ih =>
      intro w
      simp only [List.map_cons, run, step, engDraw, drawn]
      rw [ih]
  have h1 : ∀ (fs : List (Eng → ℝ × Eng)) (e : Eng),
      (run L (fs.map .libroom ++ .numpy d :: gs.map .libroom)
        { rng := none, eng := e, fresh := fresh }).1 =
      (drawn fs e).map some ++ some (d (L.integers (fresh 0)).2).1 ::
        (drawn gs (L.engine (L.integers (fresh 0)).1)).map some := by
    intro fs
    induction fs with
    | nil =>
      intro e
      simp only [List.map_nil, List.nil_append, run, step, drawn]
      rw [h2]
      simp [draw, getRng, seed, setLibroom, World.take]
    | cons f fs ih =>
      intro e
      simp only [List.map_cons, List.cons_append, run, step, engDraw, drawn]
      rw [ih]
  exact h1 fs L.start

/-- Deviation: `power_spherical` does not only use the generator it is given. The part of the sample
that is around the location is drawn from the generator of the package: for the same generator,
in the same state, two samples differ when the generator of the package gives different numbers. -/
theorem C90_rng_deviation {n : ℕ} (L : Lib Gen Eng Seed) (beta : Gen → ℝ × Gen)
    (normal : Gen → (Fin n → ℝ) × Gen) (g : Gen) (w w' : World Gen Eng) {q q' : Gen}
    (hq : w.rng = some q) (hq' : w'.rng = some q') (hne : (normal q).1 ≠ (normal q').1) :
    (powerDraws L beta normal (some g) w).1 ≠ (powerDraws L beta normal (some g) w').1 ∧
      (powerDraws L beta normal (some g) w).2.2.rng = some (normal q).2 := by
  simp only [powerDraws, draw_some L normal w hq, draw_some L normal w' hq']
  exact ⟨fun h => hne (Prod.mk.inj h).2, trivial⟩

/-! ## Examples -/

/-- The unit vector in the direction `(3, 4)`. -/
example : Unit (uniform ![(3 : ℝ), 4]) :=
  (C90_uniform two_pos).1 _ fun h => by simpa using congrFun h 0

/-- A location that is not an axis. -/
example : ∃ D : Dist 3, Dist.new 1 ![(2 : ℝ) / 3, 2 / 3, 1 / 3] (some (5 / 2)) = .ok D := by
  refine (C90_parameters 1 _ _).1.2 ⟨rfl, by norm_num, ?_⟩
  have : ∑ i, (![(2 : ℝ) / 3, 2 / 3, 1 / 3] : Fin 3 → ℝ) i ^ 2 = 1 := by
    simp [Fin.sum_univ_three]
    norm_num
  rw [this]
  norm_num

example : Unit ![(2 : ℝ) / 3, 2 / 3, 1 / 3] := by
  simp [Unit, Fin.sum_univ_three]
  norm_num

/-- The constant of the module is small enough for the deviation. -/
example : ∃ (loc : Fin 2 → ℝ) (z : ℝ) (v : Fin 1 → ℝ), Unit loc ∧ 0 < z ∧ z < 1 ∧ Unit v ∧
    power epsConst loc z v = 0 :=
  C90_power_norm_deviation (by unfold epsConst; norm_num) (by unfold epsConst; norm_num)

/-- A counter as a generator: the draw gives the state and adds one. -/
def counter : Lib ℕ ℕ ℕ :=
  { ofSeed := id, integers := fun g => (g, g + 1), engine := id, start := 5489 }

/-- One draw of the counter. -/
def count : List (Op ℕ ℕ ℕ) := [.numpy fun g => ((g : ℝ), g + 1)]

/-- The deviation on the seeds, with the counter. -/
example (w : World ℕ ℕ) :
    numpyOut (.seed (some 7) none :: count) (run counter (.seed (some 7) none :: count) w).1 = [8] ∧
    numpyOut (.seed (some 7) (some 0) :: count)
      (run counter (.seed (some 7) (some 0) :: count) w).1 = [7] := by
  have hc : OnlyDraws count := by
    intro o ho n l
    simp only [count, List.mem_singleton] at ho
    subst ho
    simp
  rw [(C90_seed_deviation counter 7 count hc w).1, (C90_streams counter 7 0 count hc w).1]
  constructor
  · simp [drawn, numpyOps, counter, count]
  · simp [drawn, numpyOps, counter, count]

/-- Two states of the generator of the package that give different samples. -/
example : (powerDraws (n := 1) counter (fun g => ((g : ℝ), g + 1)) (fun g => (fun _ => (g : ℝ), g + 1))
      (some 3) { rng := some 1, eng := 0, fresh := id }).1 ≠
    (powerDraws (n := 1) counter (fun g => ((g : ℝ), g + 1)) (fun g => (fun _ => (g : ℝ), g + 1))
      (some 3) { rng := some 2, eng := 0, fresh := id }).1 :=
  (C90_rng_deviation counter _ _ 3 _ _ rfl rfl fun h => by simpa using congrFun h 0).1

end Verif.Spherical
