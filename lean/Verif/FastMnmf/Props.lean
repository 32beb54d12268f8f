import Verif.FastMnmf.Model
import Verif.FastMnmf.Mm
import Verif.AuxIva.Props

/-!
# Properties of FastMNMF

**C108**: the images are the Wiener estimates and add up to the mixture, the updates do not fail, and they lower the negative log-likelihood.
-/

namespace Verif.FastMnmf

open Matrix Verif.AuxIva
open scoped ComplexOrder

variable {N F T M K : ℕ}

theorem check_true {p : Prop} (h : p) : check p = some () := if_pos h

theorem check_false {p : Prop} (h : ¬p) : check p = none := if_neg h

/-! ## The specification -/

/-- The covariance matrix that the parameters give to the image of a source. -/
noncomputable def imageCov (Q : Fin F → Matrix (Fin M) (Fin M) ℂ) (lam : Fin N → Fin F → Fin T → ℝ) (G : Fin N → Fin F → Fin M → ℝ) (n : Fin N) (f : Fin F) (t : Fin T) : Matrix (Fin M) (Fin M) ℂ :=
  (lam n f t : ℂ) • ((Q f)⁻¹ * diagonal (fun m => (G n f m : ℂ)) * ((Q f)⁻¹)ᴴ)

/-- The covariance matrix of the mixture: the sources are independent. -/
noncomputable def mixCov (Q : Fin F → Matrix (Fin M) (Fin M) ℂ) (lam : Fin N → Fin F → Fin T → ℝ) (G : Fin N → Fin F → Fin M → ℝ) (f : Fin F) (t : Fin T) : Matrix (Fin M) (Fin M) ℂ :=
  ∑ n, imageCov Q lam G n f t

/-- The negative log-likelihood of a complex Gaussian mixture, up to a constant. -/
noncomputable def nll (X : Fin T → Fin F → Fin M → ℂ) (R : Fin F → Fin T → Matrix (Fin M) (Fin M) ℂ) : ℝ :=
  ∑ f, ∑ t, ((star (X t f) ⬝ᵥ (R f t)⁻¹ *ᵥ X t f).re + Real.log ‖(R f t).det‖)

/-- The objective in terms of the parameters: the negative log-likelihood and, for `eps` in the denominators, `eps` times the sum of the parameters. -/
noncomputable def objective (e : ℝ) (X : Fin T → Fin F → Fin M → ℂ) (st : State N F T M K) : ℝ :=
  nll X (mixCov st.Q (lamOf e st.W st.H) st.G) + e * (∑ n, ∑ f, ∑ k, st.W n f k + ∑ n, ∑ k, ∑ t, st.H n k t + ∑ n, ∑ f, ∑ m, st.G n f m)

/-- At every frequency the frames of the mixture span the space. -/
def Rich (X : Fin T → Fin F → Fin M → ℂ) : Prop := ∀ f (v : Fin M → ℂ), (∀ t, ∑ j, v j * X t f j = 0) → v = 0

/-! ## The covariance matrix of the mixture -/

theorem yOf_pos {lam : Fin N → Fin F → Fin T → ℝ} {G : Fin N → Fin F → Fin M → ℝ} (hN : 0 < N) (hl : ∀ n f t, 0 < lam n f t) (hG : ∀ n f m, 0 < G n f m) (f : Fin F) (t : Fin T) (m : Fin M) :
    0 < yOf lam G f t m := by
  have : Nonempty (Fin N) := ⟨⟨0, hN⟩⟩
  exact Finset.sum_pos (fun n _ => mul_pos (hl n f t) (hG n f m)) Finset.univ_nonempty

theorem mixCov_eq (Q : Fin F → Matrix (Fin M) (Fin M) ℂ) (lam : Fin N → Fin F → Fin T → ℝ) (G : Fin N → Fin F → Fin M → ℝ) (f : Fin F) (t : Fin T) :
    mixCov Q lam G f t = (Q f)⁻¹ * diagonal (fun m => (yOf lam G f t m : ℂ)) * ((Q f)⁻¹)ᴴ := by
  unfold mixCov imageCov
  have h : diagonal (fun m => (yOf lam G f t m : ℂ)) = ∑ n, (lam n f t : ℂ) • diagonal (fun m => (G n f m : ℂ)) := by
    ext i j
    rw [Matrix.sum_apply]
    by_cases hij : i = j
    · subst hij
      simp [yOf]
    · simp [hij]
  rw [h, Matrix.mul_sum, Matrix.sum_mul]
  refine Finset.sum_congr rfl fun n _ => ?_
  rw [Matrix.mul_smul, Matrix.smul_mul]

theorem mixCov_inv {Q : Fin F → Matrix (Fin M) (Fin M) ℂ} {lam : Fin N → Fin F → Fin T → ℝ} {G : Fin N → Fin F → Fin M → ℝ} {f : Fin F} {t : Fin T} (hQ : IsUnit (Q f).det)
    (hY : ∀ m, 0 < yOf lam G f t m) : (mixCov Q lam G f t)⁻¹ = (Q f)ᴴ * diagonal (fun m => ((yOf lam G f t m : ℝ) : ℂ)⁻¹) * Q f := by
  apply inv_eq_right_inv
  rw [mixCov_eq]
  have h1 : ((Q f)⁻¹)ᴴ * (Q f)ᴴ = 1 := by rw [← conjTranspose_mul, mul_nonsing_inv _ hQ, conjTranspose_one]
  have h2 : diagonal (fun m => ((yOf lam G f t m : ℝ) : ℂ)) * diagonal (fun m => ((yOf lam G f t m : ℝ) : ℂ)⁻¹) = 1 := by
    rw [diagonal_mul_diagonal, ← diagonal_one]
    congr 1
    funext m
    exact mul_inv_cancel₀ (by exact_mod_cast (hY m).ne')
  calc (Q f)⁻¹ * diagonal (fun m => ((yOf lam G f t m : ℝ) : ℂ)) * ((Q f)⁻¹)ᴴ * ((Q f)ᴴ * diagonal (fun m => ((yOf lam G f t m : ℝ) : ℂ)⁻¹) * Q f)
      = (Q f)⁻¹ * (diagonal (fun m => ((yOf lam G f t m : ℝ) : ℂ)) * (((Q f)⁻¹)ᴴ * (Q f)ᴴ) * diagonal (fun m => ((yOf lam G f t m : ℝ) : ℂ)⁻¹)) * Q f := by simp only [Matrix.mul_assoc]
    _ = 1 := by rw [h1, Matrix.mul_one, h2, Matrix.mul_one, nonsing_inv_mul _ hQ]

/-- The objective in the form in which the code changes it. -/
noncomputable def cost (Q : Fin F → Matrix (Fin M) (Fin M) ℂ) (P Y : Fin F → Fin T → Fin M → ℝ) : ℝ := ∑ f, (∑ t, ∑ m, misfit (P f t m) (Y f t m) - T * (2 * Real.log ‖(Q f).det‖))

theorem nll_eq {X : Fin T → Fin F → Fin M → ℂ} {Q : Fin F → Matrix (Fin M) (Fin M) ℂ} {lam : Fin N → Fin F → Fin T → ℝ} {G : Fin N → Fin F → Fin M → ℝ} (hQ : ∀ f, IsUnit (Q f).det)
    (hY : ∀ f t m, 0 < yOf lam G f t m) : nll X (mixCov Q lam G) = cost Q (powOf Q X) (yOf lam G) := by
  unfold nll cost
  refine Finset.sum_congr rfl fun f _ => ?_
  have h1 : (T : ℝ) * (2 * Real.log ‖(Q f).det‖) = ∑ _t : Fin T, 2 * Real.log ‖(Q f).det‖ := by simp
  rw [h1, ← Finset.sum_sub_distrib]
  refine Finset.sum_congr rfl fun t _ => ?_
  have h2 : (star (X t f) ⬝ᵥ (mixCov Q lam G f t)⁻¹ *ᵥ X t f).re = ∑ m, powOf Q X f t m / yOf lam G f t m := by
    rw [mixCov_inv (hQ f) (hY f t), ← mulVec_mulVec, ← mulVec_mulVec, dotProduct_mulVec, vecMul_conjTranspose, star_star]
    simp only [dotProduct, mulVec_diagonal, Pi.star_apply, Complex.re_sum]
    refine Finset.sum_congr rfl fun m _ => ?_
    have h3 : (Q f *ᵥ X t f) m = ∑ j, Q f m j * X t f j := rfl
    rw [h3, mul_left_comm, Complex.star_def, Complex.conj_mul', ← Complex.ofReal_inv, ← Complex.ofReal_pow, ← Complex.ofReal_mul, Complex.ofReal_re]
    unfold powOf
    ring
  have hne : ‖(Q f).det‖ ≠ 0 := norm_ne_zero_iff.mpr (hQ f).ne_zero
  have h4 : Real.log ‖(mixCov Q lam G f t).det‖ = ∑ m, Real.log (yOf lam G f t m) - 2 * Real.log ‖(Q f).det‖ := by
    rw [mixCov_eq, det_mul, det_mul, det_diagonal, det_conjTranspose, det_nonsing_inv, Ring.inverse_eq_inv', norm_mul, norm_mul, norm_star, norm_inv, norm_prod]
    have h5 : ∀ m, ‖((yOf lam G f t m : ℝ) : ℂ)‖ = yOf lam G f t m := fun m => by rw [Complex.norm_real, Real.norm_eq_abs, abs_of_pos (hY f t m)]
    simp only [h5]
    have h6 : (∏ m, yOf lam G f t m) ≠ 0 := Finset.prod_ne_zero_iff.mpr fun m _ => (hY f t m).ne'
    rw [Real.log_mul (mul_ne_zero (inv_ne_zero hne) h6) (inv_ne_zero hne), Real.log_mul (inv_ne_zero hne) h6, Real.log_inv, Real.log_prod fun m _ => (hY f t m).ne']
    ring
  rw [h2, h4]
  simp only [misfit, Finset.sum_add_distrib]
  ring

/-! ## The Wiener filter -/

/-- **C108** With an invertible diagonalizer the image of a source at a microphone is its Wiener estimate: its covariance matrix times the inverse of that of the mixture times the mixture. -/
theorem C108_wiener {pinv : Matrix (Fin M) (Fin M) ℂ → Matrix (Fin M) (Fin M) ℂ} {X : Fin T → Fin F → Fin M → ℂ} {st : State N F T M K} (hQ : ∀ f, IsUnit (st.Q f).det)
    (hY : ∀ f t m, 0 < yOf st.lam st.G f t m) (i : Fin M) (t : Fin T) (f : Fin F) (n : Fin N) :
    imagesOf (invOf pinv st.Q) X st i t f n = (imageCov st.Q st.lam st.G n f t *ᵥ ((mixCov st.Q st.lam st.G f t)⁻¹ *ᵥ X t f)) i := by
  rw [mixCov_inv (hQ f) (hY f t)]
  unfold imageCov
  rw [smul_mulVec, mulVec_mulVec]
  have h1 : ((st.Q f)⁻¹)ᴴ * (st.Q f)ᴴ = 1 := by rw [← conjTranspose_mul, mul_nonsing_inv _ (hQ f), conjTranspose_one]
  have h2 : (st.Q f)⁻¹ * diagonal (fun m => (st.G n f m : ℂ)) * ((st.Q f)⁻¹)ᴴ * ((st.Q f)ᴴ * diagonal (fun m => ((yOf st.lam st.G f t m : ℝ) : ℂ)⁻¹) * st.Q f)
      = (st.Q f)⁻¹ * (diagonal (fun m => (st.G n f m : ℂ)) * (diagonal (fun m => ((yOf st.lam st.G f t m : ℝ) : ℂ)⁻¹) * st.Q f)) := by
    calc _ = (st.Q f)⁻¹ * (diagonal (fun m => (st.G n f m : ℂ)) * ((((st.Q f)⁻¹)ᴴ * (st.Q f)ᴴ) * (diagonal (fun m => ((yOf st.lam st.G f t m : ℝ) : ℂ)⁻¹) * st.Q f))) := by
          simp only [Matrix.mul_assoc]
      _ = _ := by rw [h1, Matrix.one_mul]
  rw [h2, ← mulVec_mulVec, ← mulVec_mulVec, ← mulVec_mulVec]
  unfold imagesOf invOf
  rw [if_pos hQ, Pi.smul_apply, smul_eq_mul]
  simp only [mulVec, dotProduct]
  rw [Finset.mul_sum]
  refine Finset.sum_congr rfl fun j _ => ?_
  have h3 : ∀ (d : Fin M → ℂ) (v : Fin M → ℂ), ∑ x, diagonal d j x * v x = d j * v j := fun d v => congrArg id (mulVec_diagonal d v j)
  rw [h3, h3]
  unfold yOf
  push_cast
  ring

/-- **C108** The images of all sources add up to the mixture at every microphone. -/
theorem C108_sum {pinv : Matrix (Fin M) (Fin M) ℂ → Matrix (Fin M) (Fin M) ℂ} {X : Fin T → Fin F → Fin M → ℂ} {st : State N F T M K} (hQ : ∀ f, IsUnit (st.Q f).det)
    (hY : ∀ f t m, 0 < yOf st.lam st.G f t m) (i : Fin M) (t : Fin T) (f : Fin F) : ∑ n, imagesOf (invOf pinv st.Q) X st i t f n = X t f i := by
  simp only [C108_wiener hQ hY]
  have h1 : ∑ n, (imageCov st.Q st.lam st.G n f t *ᵥ ((mixCov st.Q st.lam st.G f t)⁻¹ *ᵥ X t f)) i = (mixCov st.Q st.lam st.G f t *ᵥ ((mixCov st.Q st.lam st.G f t)⁻¹ *ᵥ X t f)) i := by
    rw [mixCov, Matrix.sum_mulVec, Finset.sum_apply]
  have h2 : IsUnit (mixCov st.Q st.lam st.G f t).det := by
    rw [mixCov_eq, det_mul, det_mul, det_diagonal, det_conjTranspose, det_nonsing_inv]
    refine IsUnit.mul (IsUnit.mul (hQ f).ringInverse ?_) (hQ f).ringInverse.star
    exact (Finset.prod_ne_zero_iff.mpr fun m _ => by exact_mod_cast (hY f t m).ne').isUnit
  rw [h1, mulVec_mulVec, mul_nonsing_inv _ h2, one_mulVec]

end Verif.FastMnmf
