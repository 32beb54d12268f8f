import Verif.AuxIva.Model
import Verif.Beam.Props
import Mathlib.LinearAlgebra.Matrix.SchurComplement
import Mathlib.Analysis.Matrix.Order
import Mathlib.Analysis.SpecialFunctions.Log.Basic

/-!
# Properties of independent vector analysis

**C82**: the objective of the analysis never increases.
-/

namespace Verif.AuxIva

open Matrix Verif.Py
open scoped ComplexOrder

variable {K L F T : Nat}

theorem gather_some {α : Type} {g : Fin F → Option α} {v : Fin F → α} : gather g = some v ↔ ∀ f, g f = some (v f) := by
  unfold gather
  split
  · rename_i h
    rw [Option.some.injEq]
    constructor
    · intro e f
      rw [← e]
      simp
    · intro e
      funext f
      simp [e f]
  · rename_i h
    constructor
    · exact nofun
    · intro e
      exact absurd (fun f => by simp [e f]) h

/-! ## The step for one row -/

/-- Power of a row under a covariance. -/
noncomputable def pw {ι : Type} [Fintype ι] (V : Matrix ι ι ℂ) (w : ι → ℂ) : ℝ := (w ⬝ᵥ V *ᵥ star w).re

theorem pw_nonneg {ι : Type} [Fintype ι] {V : Matrix ι ι ℂ} (hV : V.PosSemidef) (w : ι → ℂ) : 0 ≤ pw V w := by
  have h := hV.dotProduct_mulVec_nonneg (star w)
  rw [star_star] at h
  exact (Complex.le_def.mp h).1

theorem quad_ofReal {ι : Type} [Fintype ι] {V : Matrix ι ι ℂ} (hV : V.PosSemidef) (x : ι → ℂ) : star x ⬝ᵥ V *ᵥ x = ((star x ⬝ᵥ V *ᵥ x).re : ℂ) := by
  have h := hV.dotProduct_mulVec_nonneg x
  exact Complex.ext rfl (by simpa using (Complex.le_def.mp h).2.symm)

/-- What the new row is. -/
theorem row_spec {ι : Type} [Fintype ι] [DecidableEq ι] {A V : Matrix ι ι ℂ} (hV : V.PosSemidef) {s : ι} {w : ι → ℂ} (h : row A V s = some w) :
    V.PosDef ∧ IsUnit A.det ∧ ∃ (x : ι → ℂ) (q : ℝ), 0 < q ∧ A *ᵥ (V *ᵥ x) = Pi.single s 1 ∧ star x ⬝ᵥ V *ᵥ x = (q : ℂ) ∧ w = fun c => star (x c) / ((Real.sqrt q : ℝ) : ℂ) := by
  unfold row at h
  split at h
  · rename_i hu
    dsimp only at h
    rw [det_mul] at hu
    have hVu : IsUnit V.det := isUnit_of_mul_isUnit_right hu
    have hAu : IsUnit A.det := isUnit_of_mul_isUnit_left hu
    have hVpd : V.PosDef := hV.posDef_iff_isUnit.mpr ((isUnit_iff_isUnit_det V).mpr hVu)
    set x : ι → ℂ := (A * V)⁻¹ *ᵥ Pi.single s 1 with hx
    have hAx : A *ᵥ (V *ᵥ x) = Pi.single s 1 := by
      rw [mulVec_mulVec, hx, mulVec_mulVec, mul_nonsing_inv _ (by rw [det_mul]; exact hu), one_mulVec]
    have hx0 : x ≠ 0 := by
      intro h0
      rw [h0, mulVec_zero, mulVec_zero] at hAx
      have := congrFun hAx s
      simp at this
    have hq := hVpd.dotProduct_mulVec_pos hx0
    have hqr := quad_ofReal hV x
    have hq0 : 0 < (star x ⬝ᵥ V *ᵥ x).re := (Complex.lt_def.mp hq).1
    split at h
    · exact nomatch h
    · rw [Option.some.injEq] at h
      refine ⟨hVpd, hAu, x, (star x ⬝ᵥ V *ᵥ x).re, hq0, hAx, hqr, ?_⟩
      rw [← h, star_star]
      funext c
      congr 1
      rw [hqr, show (1 / 2 : ℂ) = ((1 / 2 : ℝ) : ℂ) by push_cast; rfl, ← Complex.ofReal_cpow hq0.le, Real.sqrt_eq_rpow]
      rfl
  · exact nomatch h

/-- Inequality of Cauchy and Schwarz. -/
theorem cauchy {ι : Type} [Fintype ι] {V : Matrix ι ι ℂ} (hV : V.PosSemidef) {x : ι → ℂ} {q : ℝ} (hq : 0 < q) (hx : star x ⬝ᵥ V *ᵥ x = (q : ℂ)) (v : ι → ℂ) :
    ‖v ⬝ᵥ V *ᵥ x‖ ^ 2 ≤ pw V v * q := by
  set y := star v with hy
  have hvy : v = star y := by rw [hy, star_star]
  set α : ℂ := (star x ⬝ᵥ V *ᵥ y) / q with hα
  have hq' : (q : ℂ) ≠ 0 := by exact_mod_cast hq.ne'
  have key := Verif.Beam.lcmv (𝕜 := ℂ) hV.1 (fun v => (Complex.le_def.mp (hV.dotProduct_mulVec_nonneg v)).1) (A := .of fun i (_ : Fin 1) => (V *ᵥ x) i) (x := α • x) (v := y) (y := fun _ => α)
    (by
      rw [mulVec_smul]
      funext i
      simp [mulVec, dotProduct, mul_comm])
    (by
      have e : ∀ u : ι → ℂ, ((Matrix.of fun i (_ : Fin 1) => (V *ᵥ x) i)ᴴ *ᵥ u) = fun _ => star x ⬝ᵥ V *ᵥ u := by
        intro u
        funext k
        rw [Verif.Beam.dot_mulVec_conj, hV.1]
        rfl
      rw [e, e, mulVec_smul, dotProduct_smul, hx, smul_eq_mul, hα, div_mul_cancel₀ _ hq'])
  have h1 : star (α • x) ⬝ᵥ V *ᵥ (α • x) = ((‖α‖ ^ 2 * q : ℝ) : ℂ) := by
    rw [mulVec_smul, dotProduct_smul, star_smul, smul_dotProduct, hx, smul_eq_mul, smul_eq_mul, ← mul_assoc, Complex.star_def, Complex.mul_conj, Complex.normSq_eq_norm_sq]
    push_cast
    rfl
  rw [h1] at key
  have h2 : ‖v ⬝ᵥ V *ᵥ x‖ = ‖α‖ * q := by
    have h3 : v ⬝ᵥ V *ᵥ x = star (star x ⬝ᵥ V *ᵥ y) := by
      rw [hvy, Verif.Beam.dot_mulVec_conj, hV.1]
      simp only [dotProduct, star_sum, star_mul', Pi.star_apply, star_star]
      exact Finset.sum_congr rfl fun i _ => mul_comm _ _
    rw [h3, norm_star, hα, norm_div, Complex.norm_real, Real.norm_eq_abs, abs_of_pos hq, div_mul_cancel₀ _ hq.ne']
  rw [h2]
  have h4 : pw V v = (star y ⬝ᵥ V *ᵥ y).re := by
    unfold pw
    rw [hvy, star_star]
  rw [h4]
  simp only [RCLike.re_to_complex, Complex.ofReal_re] at key
  nlinarith

theorem det_row {ι : Type} [Fintype ι] [DecidableEq ι] (A : Matrix ι ι ℂ) (i : ι) (b u : ι → ℂ) (h : A *ᵥ u = Pi.single i 1) : (A.updateRow i b).det = A.det * (b ⬝ᵥ u) := by
  rw [← cramer_transpose_apply, cramer_eq_adjugate_mulVec, ← adjugate_transpose, mulVec_transpose, ← dotProduct_single_one (v := b ᵥ* A.adjugate), ← dotProduct_mulVec, ← h, mulVec_mulVec, adjugate_mul,
    smul_mulVec, one_mulVec, dotProduct_smul, smul_eq_mul]

/-- A positive entry added to the diagonal does not make the determinant smaller. -/
theorem det_ge {ι : Type} [Fintype ι] [DecidableEq ι] {S A : Matrix ι ι ℂ} (hS : S.PosDef) {s : ι} {γ : ℂ} (hγ : 0 ≤ γ) (hA : A = S + Matrix.single s s γ) : S.det ≤ A.det := by
  have h1 : A = S.updateRow s (S s + γ • Pi.single s 1) := by
    rw [hA]
    ext i j
    rw [updateRow_apply]
    split
    · rename_i h
      subst h
      by_cases hj : j = i
      · subst hj
        simp
      · simp [hj, Ne.symm hj]
    · rename_i h
      simp [Ne.symm h]
  have h2 : A.det = S.det + γ * (S.det * S⁻¹ s s) := by
    rw [h1, det_updateRow_add, det_updateRow_smul, ← adjugate_apply, updateRow_eq_self]
    congr 2
    have hu : IsUnit S.det := (isUnit_iff_isUnit_det S).mp hS.isUnit
    rw [Matrix.inv_def, Matrix.smul_apply, smul_eq_mul, ← mul_assoc, Ring.mul_inverse_cancel _ hu, one_mul]
  have h3 : 0 ≤ S⁻¹ s s := (hS.inv.diag_pos (i := s)).le
  rw [h2]
  exact le_add_of_nonneg_right (mul_nonneg hγ (mul_nonneg hS.det_pos.le h3))

/-! ## The background -/

/-- The background is not correlated with the sources. -/
def Orth (C : Matrix (Chan K L) (Chan K L) ℂ) (W : Matrix (Fin K) (Chan K L) ℂ) (J : Matrix (Fin L) (Fin K) ℂ) : Prop := fromCols J (-1) * C * Wᴴ = (0 : Matrix (Fin L) (Fin K) ℂ)

theorem hat_blocks (C : Matrix (Chan K L) (Chan K L) ℂ) (W : Matrix (Fin K) (Chan K L) ℂ) (J : Matrix (Fin L) (Fin K) ℂ) :
    hat W J * C * (hat W J)ᴴ = fromBlocks (W * C * Wᴴ) (W * C * (fromCols J (-1))ᴴ) (fromCols J (-1) * C * Wᴴ) (fromCols J (-1) * C * (fromCols J (-1))ᴴ) := by
  unfold hat
  rw [conjTranspose_fromRows_eq_fromCols_conjTranspose, fromRows_mul, fromRows_mul_fromCols]

theorem hat_update (W : Matrix (Fin K) (Chan K L) ℂ) (J : Matrix (Fin L) (Fin K) ℂ) (s : Fin K) (w : Chan K L → ℂ) : hat (W.updateRow s w) J = (hat W J).updateRow (.inl s) w := by
  ext i j
  unfold hat
  rcases i with i | i
  · rw [fromRows_apply_inl, updateRow_apply, updateRow_apply]
    by_cases h : i = s
    · simp [h]
    · simp [h]
  · rw [fromRows_apply_inr, updateRow_apply]
    simp

/-- The determinants of the sources, when one row changes. -/
theorem grow {C : Matrix (Chan K L) (Chan K L) ℂ} (hC : C.PosDef) {W : Matrix (Fin K) (Chan K L) ℂ} {J : Matrix (Fin L) (Fin K) ℂ} (ho : Orth C W J) {s : Fin K} {w : Chan K L → ℂ} {q : ℝ}
    (hu : IsUnit (hat W J).det) (hq : 0 < q) (hd : (hat (W.updateRow s w) J).det * star (hat (W.updateRow s w) J).det = q * ((hat W J).det * star (hat W J).det)) :
    (q : ℂ) * (W * C * Wᴴ).det ≤ (W.updateRow s w * C * (W.updateRow s w)ᴴ).det := by
  set W' := W.updateRow s w with hW'
  set U : Matrix (Fin L) (Chan K L) ℂ := fromCols J (-1) with hU
  have hu' : IsUnit (hat W' J).det := by
    rw [isUnit_iff_ne_zero]
    intro h0
    rw [h0, zero_mul] at hd
    have h1 : (hat W J).det ≠ 0 := hu.ne_zero
    have h2 : (q : ℂ) ≠ 0 := by exact_mod_cast hq.ne'
    exact mul_ne_zero h2 (mul_ne_zero h1 (star_ne_zero.mpr h1)) hd.symm
  have hpd : ∀ A : Matrix (Chan K L) (Chan K L) ℂ, IsUnit A.det → (A * C * Aᴴ).PosDef := by
    intro A hA
    have h1 : Function.Injective (Aᴴ).mulVec := by
      apply mulVec_injective_of_isUnit
      rw [isUnit_iff_isUnit_det, det_conjTranspose]
      exact hA.star
    have := hC.conjTranspose_mul_mul_same h1
    rwa [conjTranspose_conjTranspose] at this
  have hM' := hpd _ hu'
  rw [hat_blocks, ← hU] at hM'
  have hM := hpd _ hu
  rw [hat_blocks, ← hU] at hM
  set D := U * C * Uᴴ with hD
  have hDpd : D.PosDef := by
    have := hM.submatrix (e := Sum.inr) Sum.inr_injective
    exact this
  have hBt : (W' * C * Uᴴ)ᴴ = U * C * W'ᴴ := by
    rw [conjTranspose_mul, conjTranspose_mul, conjTranspose_conjTranspose, hC.1, Matrix.mul_assoc]
  set B := W' * C * Uᴴ with hB
  let _ : Invertible D := hDpd.isUnit.invertible
  have hdetD : 0 < D.det := hDpd.det_pos
  set S := W' * C * W'ᴴ - B * D⁻¹ * Bᴴ with hS
  have hdet' : (hat W' J * C * (hat W' J)ᴴ).det = D.det * S.det := by
    rw [hat_blocks, ← hU, ← hB, ← hBt, ← hD, det_fromBlocks₂₂, invOf_eq_nonsing_inv]
  have hdet : (hat W J * C * (hat W J)ᴴ).det = (W * C * Wᴴ).det * D.det := by
    rw [hat_blocks, ← hU, show U * C * Wᴴ = 0 from ho, det_fromBlocks_zero₂₁]
  have hSq : S.det = q * (W * C * Wᴴ).det := by
    apply mul_left_cancel₀ hdetD.ne'
    rw [← hdet']
    rw [det_mul, det_mul, det_conjTranspose] at hdet ⊢
    linear_combination C.det * hd + q * hdet
  have hSpsd : S.PosSemidef := by
    rw [← hBt] at hM'
    exact (PosDef.fromBlocks₂₂ _ _ hDpd).mp hM'.posSemidef
  have hSpd : S.PosDef := by
    rw [hSpsd.posDef_iff_isUnit, isUnit_iff_isUnit_det, isUnit_iff_ne_zero]
    intro h0
    have h1 := (hpd _ hu').det_pos
    rw [hdet', h0, mul_zero] at h1
    exact lt_irrefl _ h1
  rw [← hSq]
  have hrow : ∀ j, j ≠ s → B j = 0 := by
    intro j hj
    have h1 : (W * C * Uᴴ) = 0 := by
      have := congrArg conjTranspose (show U * C * Wᴴ = 0 from ho)
      rwa [conjTranspose_mul, conjTranspose_mul, conjTranspose_conjTranspose, hC.1, conjTranspose_zero, ← Matrix.mul_assoc] at this
    funext k
    have h2 := congrFun (congrFun h1 j) k
    rw [Matrix.mul_assoc, mul_apply] at h2
    rw [hB, Matrix.mul_assoc, mul_apply, hW']
    simpa [updateRow_apply, hj] using h2
  refine det_ge hSpd (s := s) (γ := (B * D⁻¹ * Bᴴ) s s) ?_ ?_
  · have h1 := (hDpd.inv.posSemidef).mul_mul_conjTranspose_same B
    exact h1.diag_nonneg
  · rw [hS]
    ext j k
    rw [Matrix.add_apply, Matrix.sub_apply]
    by_cases hj : j = s
    · by_cases hk : k = s
      · subst hj
        subst hk
        simp
      · have h0 : (B * D⁻¹ * Bᴴ) j k = 0 := by
          rw [mul_apply]
          exact Finset.sum_eq_zero fun l _ => by rw [conjTranspose_apply, hrow k hk]; simp
        rw [h0]
        simp [Ne.symm hk]
    · have h0 : (B * D⁻¹ * Bᴴ) j k = 0 := by
        rw [Matrix.mul_assoc, mul_apply]
        exact Finset.sum_eq_zero fun l _ => by rw [hrow j hj]; simp
      rw [h0]
      simp [Ne.symm hj]

/-! ## Covariances -/

/-- Product of two rows under a covariance, as a mean over the frames. -/
theorem cross_weighted {ι : Type} [Fintype ι] (x : ι → Fin T → ℂ) (r : Fin T → ℝ) (v w : ι → ℂ) :
    v ⬝ᵥ weighted x r *ᵥ star w = (∑ t, (∑ c, v c * x c t) * star (∑ c, w c * x c t) / r t) / T := by
  have h1 : ∀ t, (∑ c, v c * x c t) * star (∑ c, w c * x c t) / (r t : ℂ) = ∑ i, ∑ j, v i * (x i t * ((1 / r t : ℝ) : ℂ) * star (x j t)) * star (w j) := by
    intro t
    rw [star_sum, Finset.sum_mul_sum, Finset.sum_div]
    apply Finset.sum_congr rfl
    intro i _
    rw [Finset.sum_div]
    apply Finset.sum_congr rfl
    intro j _
    rw [star_mul']
    push_cast
    ring
  rw [Finset.sum_congr rfl fun t _ => h1 t]
  simp only [dotProduct, mulVec, weighted, of_apply, Pi.star_apply]
  rw [Finset.sum_comm, Finset.sum_div]
  apply Finset.sum_congr rfl
  intro i _
  rw [Finset.mul_sum, Finset.sum_comm, Finset.sum_div]
  apply Finset.sum_congr rfl
  intro j _
  rw [← Finset.sum_mul, ← Finset.mul_sum]
  ring

/-- Power of a row under a covariance, as a mean over the frames. -/
theorem pw_weighted {ι : Type} [Fintype ι] (x : ι → Fin T → ℂ) (r : Fin T → ℝ) (w : ι → ℂ) : pw (weighted x r) w = (∑ t, ‖∑ c, w c * x c t‖ ^ 2 / r t) / T := by
  have h : w ⬝ᵥ weighted x r *ᵥ star w = (((∑ t, ‖∑ c, w c * x c t‖ ^ 2 / r t) / T : ℝ) : ℂ) := by
    rw [cross_weighted]
    push_cast
    congr 1
    apply Finset.sum_congr rfl
    intro t _
    rw [← Complex.mul_conj', Complex.star_def]
  unfold pw
  rw [h, Complex.ofReal_re]

theorem weighted_herm {ι : Type} (x : ι → Fin T → ℂ) (r : Fin T → ℝ) : (weighted x r).IsHermitian := by
  ext i j
  simp only [weighted, conjTranspose_apply, of_apply, star_div₀, star_sum, star_mul', Complex.star_def, Complex.conj_ofReal, map_natCast, Complex.conj_conj]
  congr 1
  exact Finset.sum_congr rfl fun t _ => by ring

theorem pw_conj {ι : Type} [Fintype ι] (V : Matrix ι ι ℂ) (x : ι → ℂ) : (star x ⬝ᵥ V *ᵥ x).re = pw V (star x) := by
  unfold pw
  rw [star_star]

theorem psd_of_pw {ι : Type} [Fintype ι] {V : Matrix ι ι ℂ} (hV : V.IsHermitian) (h : ∀ w, 0 ≤ pw V w) : V.PosSemidef := by
  apply PosSemidef.of_dotProduct_mulVec_nonneg hV
  intro x
  rw [Complex.le_def]
  refine ⟨by rw [pw_conj]; exact h _, ?_⟩
  have h1 : star (star x ⬝ᵥ V *ᵥ x) = star x ⬝ᵥ V *ᵥ x := by
    conv_rhs => rw [Verif.Beam.dot_mulVec_conj, hV]
    simp only [dotProduct, star_sum, star_mul', Pi.star_apply, star_star]
    exact Finset.sum_congr rfl fun i _ => mul_comm _ _
  rw [Complex.star_def, Complex.conj_eq_iff_im] at h1
  simpa using h1.symm

theorem weighted_psd {ι : Type} [Fintype ι] (x : ι → Fin T → ℂ) {r : Fin T → ℝ} (hr : ∀ t, 0 < r t) : (weighted x r).PosSemidef := by
  apply psd_of_pw (weighted_herm x r)
  intro w
  rw [pw_weighted]
  exact div_nonneg (Finset.sum_nonneg fun t _ => div_nonneg (sq_nonneg _) (hr t).le) (Nat.cast_nonneg _)

theorem cov_eq (x : Chan K L → Fin T → ℂ) : cov x = weighted x fun _ => 1 := by
  ext i j
  simp [cov, weighted]

/-- If one of the weighted covariances is definite, then so are all. -/
theorem definite {ι : Type} [Fintype ι] {x : ι → Fin T → ℂ} {r r' : Fin T → ℝ} (hr : ∀ t, 0 < r t) (hr' : ∀ t, 0 < r' t) (h : (weighted x r).PosDef) : (weighted x r').PosDef := by
  apply PosDef.of_dotProduct_mulVec_pos (weighted_herm x r')
  intro v hv
  have h1 := h.dotProduct_mulVec_pos hv
  have hp := (Complex.lt_def.mp h1).1
  rw [pw_conj, pw_weighted] at hp
  have hnn := (weighted_psd x hr').dotProduct_mulVec_nonneg v
  rw [quad_ofReal (weighted_psd x hr')]
  rw [pw_conj, pw_weighted]
  have : 0 < (∑ t, ‖∑ c, (star v) c * x c t‖ ^ 2 / r' t) / (T : ℝ) := by
    simp only [Complex.zero_re] at hp
    have hT : (0 : ℝ) < T := by
      rcases Nat.eq_zero_or_pos T with h0 | h0
      · subst h0
        simp at hp
      · exact_mod_cast h0
    apply div_pos _ hT
    have hs : 0 < ∑ t, ‖∑ c, (star v) c * x c t‖ ^ 2 / r t := by
      by_contra hc
      rw [not_lt] at hc
      exact absurd hp (not_lt.mpr (div_nonpos_of_nonpos_of_nonneg hc hT.le))
    obtain ⟨t, -, ht⟩ := Finset.exists_lt_of_sum_lt (s := Finset.univ) (f := fun _ : Fin T => (0 : ℝ)) (g := fun t => ‖∑ c, (star v) c * x c t‖ ^ 2 / r t) (by rw [Finset.sum_const_zero]; exact hs)
    apply Finset.sum_pos' (fun t _ => div_nonneg (sq_nonneg _) (hr' t).le) ⟨t, Finset.mem_univ t, ?_⟩
    have h2 : 0 < ‖∑ c, (star v) c * x c t‖ ^ 2 := by
      by_contra hc
      rw [not_lt] at hc
      exact absurd ht (not_lt.mpr (div_nonpos_of_nonpos_of_nonneg hc (hr t).le))
    exact div_pos h2 (hr' t)
  exact_mod_cast this

theorem orth_spec {C : Matrix (Chan K L) (Chan K L) ℂ} (hC : C.IsHermitian) {W : Matrix (Fin K) (Chan K L) ℂ} {J : Matrix (Fin L) (Fin K) ℂ} (h : orth C W = some J) : Orth C W J := by
  unfold orth at h
  dsimp only at h
  split at h
  · rename_i hu
    rw [Option.some.injEq] at h
    set t1 := (W * C).toCols₁
    set t2 := (W * C).toCols₂
    unfold Orth
    have h1 : C * Wᴴ = fromRows t1ᴴ t2ᴴ := by
      rw [← conjTranspose_fromCols_eq_fromRows_conjTranspose, fromCols_toCols, conjTranspose_mul, hC]
    rw [Matrix.mul_assoc, h1, fromCols_mul_fromRows, ← h, ← conjTranspose_mul, ← Matrix.mul_assoc, mul_nonsing_inv _ hu, Matrix.one_mul, Matrix.neg_mul, Matrix.one_mul, add_neg_cancel]
  · exact nomatch h

theorem orth_empty {C : Matrix (Chan K L) (Chan K L) ℂ} (hL : L = 0) (W : Matrix (Fin K) (Chan K L) ℂ) (J : Matrix (Fin L) (Fin K) ℂ) : Orth C W J := by
  subst hL
  exact Subsingleton.elim _ _

theorem updateJ_spec {X : Fin F → Chan K L → Fin T → ℂ} {st st' : State K L F} (h : updateJ X st = some st') : st'.W = st.W ∧ ∀ f, Orth (cov (X f)) (st'.W f) (st'.J f) := by
  unfold updateJ at h
  split at h
  · rename_i hL
    rw [Option.some.injEq] at h
    subst h
    exact ⟨rfl, fun f => orth_empty hL _ _⟩
  · rw [Option.map_eq_some_iff] at h
    obtain ⟨J, hJ, rfl⟩ := h
    refine ⟨rfl, fun f => ?_⟩
    have := gather_some.mp hJ f
    exact orth_spec (by rw [cov_eq]; exact weighted_herm _ _) this

/-- Determinant of the covariance of the sources. -/
noncomputable def vol (C : Matrix (Chan K L) (Chan K L) ℂ) (W : Matrix (Fin K) (Chan K L) ℂ) : ℝ := (W * C * Wᴴ).det.re

theorem vol_pos {C : Matrix (Chan K L) (Chan K L) ℂ} (hC : C.PosDef) {W : Matrix (Fin K) (Chan K L) ℂ} {J : Matrix (Fin L) (Fin K) ℂ} (hu : IsUnit (hat W J).det) :
    0 < vol C W ∧ (W * C * Wᴴ).det = (vol C W : ℂ) := by
  have h1 : Function.Injective ((hat W J)ᴴ).mulVec := by
    apply mulVec_injective_of_isUnit
    rw [isUnit_iff_isUnit_det, det_conjTranspose]
    exact hu.star
  have h2 := hC.conjTranspose_mul_mul_same h1
  rw [conjTranspose_conjTranspose, hat_blocks] at h2
  have h3 : (W * C * Wᴴ).PosDef := h2.submatrix (e := Sum.inl) Sum.inl_injective
  have h4 := Complex.lt_def.mp h3.det_pos
  exact ⟨h4.1, Complex.ext rfl (by simpa [vol] using h4.2.symm)⟩

/-- The step for one row at one frequency. -/
theorem row_step {x : Chan K L → Fin T → ℂ} {r : Fin T → ℝ} (hr : ∀ t, 0 < r t) {W : Matrix (Fin K) (Chan K L) ℂ} {J : Matrix (Fin L) (Fin K) ℂ} (ho : Orth (cov x) W J) {s : Fin K}
    {w : Chan K L → ℂ} (h : row (hat W J) (weighted x r) (.inl s) = some w) :
    pw (weighted x r) w = 1 ∧ 1 - Real.log (vol (cov x) (W.updateRow s w)) ≤ pw (weighted x r) (W s) - Real.log (vol (cov x) W) := by
  have hV := weighted_psd x hr
  obtain ⟨hVpd, hu, y, q, hq, hy, hyq, hw⟩ := row_spec hV h
  have hC : (cov x).PosDef := by
    rw [cov_eq]
    exact definite hr (fun _ => one_pos) hVpd
  have hsq : 0 < Real.sqrt q := Real.sqrt_pos.mpr hq
  have hsq' : ((Real.sqrt q : ℝ) : ℂ) ≠ 0 := by exact_mod_cast hsq.ne'
  have hqq : (q : ℂ) = ((Real.sqrt q : ℝ) : ℂ) * ((Real.sqrt q : ℝ) : ℂ) := by
    rw [← Complex.ofReal_mul, Real.mul_self_sqrt hq.le]
  have hwy : w = ((Real.sqrt q : ℝ) : ℂ)⁻¹ • star y := by
    rw [hw]
    funext c
    simp [div_eq_inv_mul]
  have hwV : w ⬝ᵥ weighted x r *ᵥ y = ((Real.sqrt q : ℝ) : ℂ) := by
    rw [hwy, smul_dotProduct, hyq, smul_eq_mul, hqq, inv_mul_cancel_left₀ hsq']
  have hpw : pw (weighted x r) w = 1 := by
    unfold pw
    have h1 : star w = ((Real.sqrt q : ℝ) : ℂ)⁻¹ • y := by
      rw [hwy, star_smul, star_star]
      congr 1
      simp
    rw [h1, mulVec_smul, dotProduct_smul, hwV, smul_eq_mul, inv_mul_cancel₀ hsq']
    rfl
  refine ⟨hpw, ?_⟩
  have hdet : (hat (W.updateRow s w) J).det = (hat W J).det * ((Real.sqrt q : ℝ) : ℂ) := by
    rw [hat_update, det_row _ _ _ _ hy, hwV]
  have hu' : IsUnit (hat (W.updateRow s w) J).det := by
    rw [hdet]
    exact hu.mul hsq'.isUnit
  have hgrow := grow hC ho (s := s) (w := w) hu hq (by
    rw [hdet, star_mul', hqq, Complex.star_def, Complex.conj_ofReal]
    ring)
  obtain ⟨hv, hve⟩ := vol_pos hC hu
  obtain ⟨hv', hve'⟩ := vol_pos hC hu'
  rw [hve, hve'] at hgrow
  have hgr : q * vol (cov x) W ≤ vol (cov x) (W.updateRow s w) := by exact_mod_cast hgrow
  have hone : W s ⬝ᵥ weighted x r *ᵥ y = 1 := by
    have h1 := congrFun hy (.inl s)
    rw [Pi.single_eq_same] at h1
    exact h1
  have hcs := cauchy hV hq hyq (W s)
  rw [hone, norm_one, one_pow] at hcs
  have hlog : Real.log q + Real.log (vol (cov x) W) ≤ Real.log (vol (cov x) (W.updateRow s w)) := by
    rw [← Real.log_mul hq.ne' hv.ne']
    exact Real.log_le_log (mul_pos hq hv) hgr
  have hlq : 1 - q⁻¹ ≤ Real.log q := Real.one_sub_inv_le_log_of_pos hq
  have hpq : q⁻¹ ≤ pw (weighted x r) (W s) := by
    rw [inv_eq_one_div, div_le_iff₀ hq]
    exact hcs
  linarith

/-! ## The objective -/

/-- Contrast function of one source at one frame (specification): the absolute value, or the logarithm of the variance, with a parabola near zero. -/
noncomputable def contrast (kind : Kind) (F : Nat) (a : ℝ) : ℝ :=
  match kind with
  | .laplace => if 2 * a < eps then a ^ 2 / eps + eps / 4 else a
  | .gauss => if a ^ 2 / F < eps then F * Real.log eps + a ^ 2 / eps else F * Real.log (a ^ 2 / F) + F

/-- Objective (specification): contrast of the sources minus the logarithm of the determinant of their covariance. -/
noncomputable def objective (kind : Kind) (X : Fin F → Chan K L → Fin T → ℂ) (W : Fin F → Matrix (Fin K) (Chan K L) ℂ) : ℝ :=
  ∑ s, (∑ t, contrast kind F (Real.sqrt (∑ f, ‖∑ c, W f s c * X f c t‖ ^ 2))) / T - ∑ f, Real.log (W f * cov (X f) * (W f)ᴴ).det.re

theorem eps_pos : 0 < eps := by
  unfold eps
  positivity

/-- The rest of the auxiliary function. -/
noncomputable def rest (kind : Kind) (F : Nat) (r : ℝ) : ℝ :=
  match kind with
  | .laplace => r / 4
  | .gauss => F * Real.log r

theorem contrast_le {kind : Kind} {F : Nat} (hF : 1 ≤ F) {a r : ℝ} (ha : 0 ≤ a) (hr : eps ≤ r) : contrast kind F a ≤ a ^ 2 / r + rest kind F r := by
  have he := eps_pos
  have hr0 : 0 < r := lt_of_lt_of_le he hr
  have hF0 : (0 : ℝ) < F := by exact_mod_cast hF
  cases kind
  · simp only [contrast, rest]
    split
    · rename_i h
      have h1 : a ^ 2 / r + r / 4 - (a ^ 2 / eps + eps / 4) = (r - eps) * (eps * r - 4 * a ^ 2) / (4 * eps * r) := by
        field_simp
        ring
      have h2 : 0 ≤ (r - eps) * (eps * r - 4 * a ^ 2) / (4 * eps * r) := by
        apply div_nonneg _ (by positivity)
        apply mul_nonneg (by linarith)
        nlinarith
      linarith
    · have h1 : a ^ 2 / r + r / 4 - a = (a - r / 2) ^ 2 / r := by
        field_simp
        ring
      have h2 : 0 ≤ (a - r / 2) ^ 2 / r := by positivity
      linarith
  · simp only [contrast, rest]
    set b := a ^ 2 / F with hb
    have hab : a ^ 2 = F * b := by
      rw [hb]
      field_simp
    have hb0 : 0 ≤ b := by positivity
    split
    · rename_i h
      have h1 : 1 - (r / eps)⁻¹ ≤ Real.log (r / eps) := Real.one_sub_inv_le_log_of_pos (by positivity)
      rw [Real.log_div hr0.ne' he.ne', inv_div] at h1
      have h2 : b / eps - b / r ≤ 1 - eps / r := by
        have h3 : 1 - eps / r - (b / eps - b / r) = (eps - b) * (r - eps) / (eps * r) := by
          field_simp
        have h4 : 0 ≤ (eps - b) * (r - eps) / (eps * r) := div_nonneg (mul_nonneg (by linarith) (by linarith)) (by positivity)
        linarith
      rw [hab, mul_div_assoc, mul_div_assoc, ← mul_add, ← mul_add]
      apply mul_le_mul_of_nonneg_left _ hF0.le
      linarith
    · rename_i h
      rw [not_lt] at h
      have hbp : 0 < b := lt_of_lt_of_le he h
      have h1 : Real.log (b / r) ≤ b / r - 1 := Real.log_le_sub_one_of_pos (by positivity)
      rw [Real.log_div hbp.ne' hr0.ne'] at h1
      rw [hab, mul_div_assoc, ← mul_add]
      nth_rewrite 2 [← mul_one (F : ℝ)]
      rw [← mul_add]
      apply mul_le_mul_of_nonneg_left _ hF0.le
      linarith

theorem contrast_eq {kind : Kind} {Y : Fin F → Fin K → Fin T → ℂ} (hF : 1 ≤ F) (s : Fin K) (t : Fin T) :
    contrast kind F (Real.sqrt (∑ f, ‖Y f s t‖ ^ 2)) = (∑ f, ‖Y f s t‖ ^ 2) / radius kind Y s t + rest kind F (radius kind Y s t) := by
  have he := eps_pos
  have hF0 : (0 : ℝ) < F := by exact_mod_cast hF
  have hsq : Real.sqrt (∑ f, ‖Y f s t‖ ^ 2) ^ 2 = ∑ f, ‖Y f s t‖ ^ 2 := Real.sq_sqrt (Finset.sum_nonneg fun _ _ => sq_nonneg _)
  rw [← hsq]
  cases kind
  · simp only [contrast, radius, rest, hsq]
    split
    · ring
    · rename_i h
      rw [not_lt] at h
      have h1 : 0 < Real.sqrt (∑ f, ‖Y f s t‖ ^ 2) := by linarith
      nth_rewrite 2 [← hsq]
      field_simp
      ring
  · simp only [contrast, radius, rest, hsq]
    split
    · ring
    · rename_i h
      rw [not_lt] at h
      have h1 : 0 < (∑ f, ‖Y f s t‖ ^ 2) / (F : ℝ) := lt_of_lt_of_le he h
      have h2 : 0 < ∑ f, ‖Y f s t‖ ^ 2 := by
        by_contra hc
        rw [not_lt] at hc
        exact absurd h1 (not_lt.mpr (div_nonpos_of_nonpos_of_nonneg hc hF0.le))
      rw [div_div_cancel₀ h2.ne']
      ring

theorem radius_ge (kind : Kind) (Y : Fin F → Fin K → Fin T → ℂ) (s : Fin K) (t : Fin T) : eps ≤ radius kind Y s t := by
  cases kind
  · simp only [radius]
    split
    · exact le_refl eps
    · rename_i h
      exact not_lt.mp h
  · simp only [radius]
    split
    · exact le_refl eps
    · rename_i h
      exact not_lt.mp h

/-- Auxiliary function without the rest. -/
noncomputable def aux (X : Fin F → Chan K L → Fin T → ℂ) (r : Fin K → Fin T → ℝ) (W : Fin F → Matrix (Fin K) (Chan K L) ℂ) : ℝ :=
  ∑ f, (∑ s, pw (weighted (X f) (r s)) (W f s) - Real.log (vol (cov (X f)) (W f)))

theorem aux_eq (X : Fin F → Chan K L → Fin T → ℂ) (r : Fin K → Fin T → ℝ) (W : Fin F → Matrix (Fin K) (Chan K L) ℂ) :
    aux X r W = ∑ s, (∑ t, (∑ f, ‖∑ c, W f s c * X f c t‖ ^ 2) / r s t) / T - ∑ f, Real.log (W f * cov (X f) * (W f)ᴴ).det.re := by
  unfold aux
  rw [Finset.sum_sub_distrib, Finset.sum_comm]
  congr 1
  apply Finset.sum_congr rfl
  intro s _
  simp only [pw_weighted]
  rw [← Finset.sum_div, Finset.sum_comm]
  simp only [Finset.sum_div]

theorem source_step {X : Fin F → Chan K L → Fin T → ℂ} {r : Fin K → Fin T → ℝ} (hr : ∀ s t, 0 < r s t) {st st' : State K L F} (ho : ∀ f, Orth (cov (X f)) (st.W f) (st.J f)) {s : Fin K}
    (h : source X r st s = some st') : (∀ f, Orth (cov (X f)) (st'.W f) (st'.J f)) ∧ aux X r st'.W ≤ aux X r st.W := by
  unfold source at h
  rw [Option.bind_eq_some_iff] at h
  obtain ⟨w, hw, hst⟩ := h
  obtain ⟨hW, ho'⟩ := updateJ_spec hst
  refine ⟨ho', ?_⟩
  rw [hW]
  apply Finset.sum_le_sum
  intro f _
  obtain ⟨h1, h2⟩ := row_step (hr s) (ho f) (gather_some.mp hw f)
  dsimp only
  rw [← Finset.add_sum_erase _ _ (Finset.mem_univ s), ← Finset.add_sum_erase (a := s) (f := fun s => pw (weighted (X f) (r s)) (st.W f s)) _ (Finset.mem_univ s)]
  rw [updateRow_self, h1]
  have h3 : ∑ j ∈ Finset.univ.erase s, pw (weighted (X f) (r j)) ((st.W f).updateRow s (w f) j) = ∑ j ∈ Finset.univ.erase s, pw (weighted (X f) (r j)) (st.W f j) :=
    Finset.sum_congr rfl fun j hj => by rw [updateRow_ne (Finset.ne_of_mem_erase hj)]
  rw [h3]
  linarith

theorem sources_step {X : Fin F → Chan K L → Fin T → ℂ} {r : Fin K → Fin T → ℝ} (hr : ∀ s t, 0 < r s t) (l : List (Fin K)) {st st' : State K L F}
    (ho : ∀ f, Orth (cov (X f)) (st.W f) (st.J f)) (h : l.foldlM (source X r) st = some st') : (∀ f, Orth (cov (X f)) (st'.W f) (st'.J f)) ∧ aux X r st'.W ≤ aux X r st.W := by
  induction l generalizing st with
  | nil =>
    simp only [List.foldlM_nil, Option.pure_def, Option.some.injEq] at h
    subst h
    exact ⟨ho, le_refl _⟩
  | cons s l ih =>
    rw [List.foldlM_cons, Option.bind_eq_bind, Option.bind_eq_some_iff] at h
    obtain ⟨st1, h1, h2⟩ := h
    obtain ⟨ho1, hle⟩ := source_step hr ho h1
    obtain ⟨ho2, hle2⟩ := ih ho1 h2
    exact ⟨ho2, hle2.trans hle⟩

/-- One iteration keeps the background orthogonal and does not increase the objective. -/
theorem epoch_step {kind : Kind} (hF : 1 ≤ F) {X : Fin F → Chan K L → Fin T → ℂ} {st st' : State K L F} (ho : ∀ f, Orth (cov (X f)) (st.W f) (st.J f)) (h : epoch kind X st = some st') :
    (∀ f, Orth (cov (X f)) (st'.W f) (st'.J f)) ∧ objective kind X st'.W ≤ objective kind X st.W := by
  unfold epoch at h
  set r := radius kind (demix X st.W) with hrd
  have hr : ∀ s t, eps ≤ r s t := radius_ge kind _
  obtain ⟨ho', hle⟩ := sources_step (fun s t => lt_of_lt_of_le eps_pos (hr s t)) _ ho h
  refine ⟨ho', ?_⟩
  rw [aux_eq, aux_eq] at hle
  have hup : ∀ W : Fin F → Matrix (Fin K) (Chan K L) ℂ, ∑ s, (∑ t, contrast kind F (Real.sqrt (∑ f, ‖∑ c, W f s c * X f c t‖ ^ 2))) / (T : ℝ) ≤
      ∑ s, (∑ t, (∑ f, ‖∑ c, W f s c * X f c t‖ ^ 2) / r s t) / (T : ℝ) + ∑ s, (∑ t, rest kind F (r s t)) / (T : ℝ) := by
    intro W
    rw [← Finset.sum_add_distrib]
    apply Finset.sum_le_sum
    intro s _
    rw [← add_div, ← Finset.sum_add_distrib]
    apply div_le_div_of_nonneg_right _ (Nat.cast_nonneg _)
    apply Finset.sum_le_sum
    intro t _
    have := contrast_le (kind := kind) hF (Real.sqrt_nonneg (∑ f, ‖∑ c, W f s c * X f c t‖ ^ 2)) (hr s t)
    rwa [Real.sq_sqrt (Finset.sum_nonneg fun _ _ => sq_nonneg _)] at this
  have heq : ∑ s, (∑ t, contrast kind F (Real.sqrt (∑ f, ‖∑ c, st.W f s c * X f c t‖ ^ 2))) / (T : ℝ) =
      ∑ s, (∑ t, (∑ f, ‖∑ c, st.W f s c * X f c t‖ ^ 2) / r s t) / (T : ℝ) + ∑ s, (∑ t, rest kind F (r s t)) / (T : ℝ) := by
    rw [← Finset.sum_add_distrib]
    apply Finset.sum_congr rfl
    intro s _
    rw [← add_div, ← Finset.sum_add_distrib]
    congr 1
    apply Finset.sum_congr rfl
    intro t _
    exact contrast_eq (Y := demix X st.W) hF s t
  have h1 := hup st'.W
  unfold objective
  linarith

theorem iterate_orth {kind : Kind} (hF : 1 ≤ F) {X : Fin F → Chan K L → Fin T → ℂ} {W0 : Option (Fin F → Matrix (Fin K) (Chan K L) ℂ)} {n : Nat} {st : State K L F}
    (h : iterate kind X W0 n = some st) : ∀ f, Orth (cov (X f)) (st.W f) (st.J f) := by
  induction n generalizing st with
  | zero => exact (updateJ_spec h).2
  | succ n ih =>
    unfold iterate at h
    rw [Option.bind_eq_some_iff] at h
    obtain ⟨st1, h1, h2⟩ := h
    exact (epoch_step hF (ih h1) h2).1

/-- **C82** No number of iterations increases the objective, for both models and with any number of channels, and from any number of iterations on. -/
theorem C82_objective {kind : Kind} (hF : 1 ≤ F) {X : Fin F → Chan K L → Fin T → ℂ} {W0 : Option (Fin F → Matrix (Fin K) (Chan K L) ℂ)} {n k : Nat} {st st' : State K L F}
    (h : iterate kind X W0 n = some st) (h' : iterate kind X W0 (n + k) = some st') : objective kind X st'.W ≤ objective kind X st.W := by
  induction k generalizing st' with
  | zero =>
    rw [Nat.add_zero, h, Option.some.injEq] at h'
    rw [h']
  | succ k ih =>
    rw [← Nat.add_assoc] at h'
    unfold iterate at h'
    rw [Option.bind_eq_some_iff] at h'
    obtain ⟨st1, h1, h2⟩ := h'
    exact (epoch_step hF (iterate_orth hF h1) h2).2.trans (ih h1)

/-- **C82** After every number of iterations the background is not correlated with any of the sources. -/
theorem C82_background {kind : Kind} (hF : 1 ≤ F) {X : Fin F → Chan K L → Fin T → ℂ} {W0 : Option (Fin F → Matrix (Fin K) (Chan K L) ℂ)} {n : Nat} {st : State K L F}
    (h : iterate kind X W0 n = some st) (f : Fin F) (b : Fin L) (s : Fin K) :
    ∑ t, (∑ c : Chan K L, (hat (st.W f) (st.J f)) (.inr b) c * X f c t) * star (∑ c, st.W f s c * X f c t) = 0 := by
  rcases Nat.eq_zero_or_pos T with h0 | h0
  · subst h0
    rfl
  · have h1 := congrFun (congrFun (iterate_orth hF h f) b) s
    have h2 : ((fromCols (st.J f) (-1) : Matrix (Fin L) (Chan K L) ℂ) * cov (X f) * (st.W f)ᴴ) b s = ((fromCols (st.J f) (-1) : Matrix (Fin L) (Chan K L) ℂ) b) ⬝ᵥ cov (X f) *ᵥ star (st.W f s) := by
      rw [Matrix.mul_assoc, mul_apply']
      congr 1
    rw [h2, cov_eq, cross_weighted] at h1
    have hT : (T : ℂ) ≠ 0 := by exact_mod_cast h0.ne'
    have h3 := (div_eq_zero_iff.mp h1).resolve_right hT
    simpa [hat] using h3

/-- **C82** The new row of a source has unit power under its weighted covariance and is orthogonal to all other rows under it, which stay as they are. -/
theorem C82_normal {X : Fin F → Chan K L → Fin T → ℂ} {r : Fin K → Fin T → ℝ} (hr : ∀ s t, 0 < r s t) {st st' : State K L F} {s : Fin K} (h : source X r st s = some st') (f : Fin F) :
    (∑ t, ‖∑ c, st'.W f s c * X f c t‖ ^ 2 / r s t) / T = 1 ∧
      ∀ k, k ≠ s → st'.W f k = st.W f k ∧ (∑ t, (∑ c, st'.W f k c * X f c t) * star (∑ c, st'.W f s c * X f c t) / r s t) / T = 0 := by
  unfold source at h
  rw [Option.bind_eq_some_iff] at h
  obtain ⟨w, hw, hst⟩ := h
  obtain ⟨hW, -⟩ := updateJ_spec hst
  have hwf := gather_some.mp hw f
  obtain ⟨-, -, y, q, hq, hy, hyq, hwy⟩ := row_spec (weighted_psd (X f) (hr s)) hwf
  have hs : st'.W f s = w f := by
    rw [hW]
    exact updateRow_self
  have hsq : ((Real.sqrt q : ℝ) : ℂ) ≠ 0 := by exact_mod_cast (Real.sqrt_pos.mpr hq).ne'
  have hstar : star (w f) = ((Real.sqrt q : ℝ) : ℂ)⁻¹ • y := by
    rw [hwy]
    funext c
    simp [div_eq_inv_mul]
  constructor
  · rw [← pw_weighted, hs]
    unfold pw
    have h2 : w f = ((Real.sqrt q : ℝ) : ℂ)⁻¹ • star y := by
      rw [hwy]
      funext c
      simp [div_eq_inv_mul]
    rw [hstar, mulVec_smul, dotProduct_smul, h2, smul_dotProduct, hyq, smul_eq_mul, smul_eq_mul,
      show (q : ℂ) = ((Real.sqrt q : ℝ) : ℂ) * ((Real.sqrt q : ℝ) : ℂ) by rw [← Complex.ofReal_mul, Real.mul_self_sqrt hq.le], inv_mul_cancel_left₀ hsq, inv_mul_cancel₀ hsq]
    rfl
  · intro k hk
    have hkr : st'.W f k = st.W f k := by
      rw [hW]
      exact updateRow_ne hk
    refine ⟨hkr, ?_⟩
    rw [← cross_weighted, hkr, hs, hstar, mulVec_smul, dotProduct_smul]
    have h1 := congrFun hy (.inl k)
    rw [Pi.single_eq_of_ne (by simpa using hk)] at h1
    have h2 : st.W f k ⬝ᵥ weighted (X f) (r s) *ᵥ y = 0 := h1
    rw [h2, smul_zero]

/-- **C82** Among all rows that could take the place of the old one, the new row is the best: it has the least power minus logarithm of the determinant. -/
theorem C82_best {ι : Type} [Fintype ι] [DecidableEq ι] {x : ι → Fin T → ℂ} {r : Fin T → ℝ} (hr : ∀ t, 0 < r t) {A : Matrix ι ι ℂ} {s : ι} {w : ι → ℂ} (h : row A (weighted x r) s = some w)
    (v : ι → ℂ) (hv : (A.updateRow s v).det ≠ 0) :
    (∑ t, ‖∑ c, w c * x c t‖ ^ 2 / r t) / T - 2 * Real.log ‖(A.updateRow s w).det‖ ≤ (∑ t, ‖∑ c, v c * x c t‖ ^ 2 / r t) / T - 2 * Real.log ‖(A.updateRow s v).det‖ := by
  have hV := weighted_psd x hr
  obtain ⟨-, hu, y, q, hq, hy, hyq, hwy⟩ := row_spec hV h
  have hsq0 := Real.sqrt_pos.mpr hq
  have hsq : ((Real.sqrt q : ℝ) : ℂ) ≠ 0 := by exact_mod_cast hsq0.ne'
  have h2 : w = ((Real.sqrt q : ℝ) : ℂ)⁻¹ • star y := by
    rw [hwy]
    funext c
    simp [div_eq_inv_mul]
  have hstar : star w = ((Real.sqrt q : ℝ) : ℂ)⁻¹ • y := by
    rw [hwy]
    funext c
    simp [div_eq_inv_mul]
  have hqq : (q : ℂ) = ((Real.sqrt q : ℝ) : ℂ) * ((Real.sqrt q : ℝ) : ℂ) := by rw [← Complex.ofReal_mul, Real.mul_self_sqrt hq.le]
  have hwV : w ⬝ᵥ weighted x r *ᵥ y = ((Real.sqrt q : ℝ) : ℂ) := by
    rw [h2, smul_dotProduct, hyq, smul_eq_mul, hqq, inv_mul_cancel_left₀ hsq]
  have hpw : pw (weighted x r) w = 1 := by
    unfold pw
    rw [hstar, mulVec_smul, dotProduct_smul, hwV, smul_eq_mul, inv_mul_cancel₀ hsq]
    rfl
  rw [← pw_weighted, ← pw_weighted, hpw]
  rw [det_row _ _ _ _ hy] at hv
  rw [det_row _ _ _ _ hy, det_row _ _ _ _ hy, hwV, norm_mul, norm_mul, Complex.norm_real, Real.norm_eq_abs, abs_of_pos hsq0]
  have hA : 0 < ‖A.det‖ := norm_pos_iff.mpr hu.ne_zero
  have hm : 0 < ‖v ⬝ᵥ weighted x r *ᵥ y‖ := norm_pos_iff.mpr (right_ne_zero_of_mul hv)
  have hcs := cauchy hV hq hyq v
  set p := pw (weighted x r) v
  set m := ‖v ⬝ᵥ weighted x r *ᵥ y‖
  have hp : 0 < p := by
    by_contra hc
    rw [not_lt] at hc
    have h3 : p * q ≤ 0 := mul_nonpos_of_nonpos_of_nonneg hc hq.le
    have h4 : 0 < m ^ 2 := by positivity
    linarith
  rw [Real.log_mul hA.ne' hsq0.ne', Real.log_mul hA.ne' hm.ne', Real.log_sqrt hq.le]
  have h3 : 2 * Real.log m ≤ Real.log p + Real.log q := by
    rw [← Real.log_mul hp.ne' hq.ne']
    have h4 := Real.log_le_log (by positivity) hcs
    rwa [Real.log_pow, Nat.cast_ofNat] at h4
  have h5 := Real.log_le_sub_one_of_pos hp
  linarith

theorem row_total {ι : Type} [Fintype ι] [DecidableEq ι] {A V : Matrix ι ι ℂ} (hV : V.PosDef) (hA : IsUnit A.det) (s : ι) : ∃ w, row A V s = some w ∧ IsUnit (A.updateRow s w).det := by
  have hu : IsUnit (A * V).det := by
    rw [det_mul]
    exact hA.mul ((isUnit_iff_isUnit_det V).mp hV.isUnit)
  have hex : ∃ w, row A V s = some w := by
    unfold row
    rw [if_pos hu]
    dsimp only
    rw [if_neg]
    · exact ⟨_, rfl⟩
    · intro h0
      rw [star_star] at h0
      have hx0 : (A * V)⁻¹ *ᵥ Pi.single s (1 : ℂ) ≠ 0 := by
        intro h1
        have h2 := congrArg (fun v => (A * V) *ᵥ v) h1
        simp only [mulVec_mulVec, mul_nonsing_inv _ hu, one_mulVec, mulVec_zero] at h2
        have := congrFun h2 s
        simp at this
      exact (hV.dotProduct_mulVec_pos hx0).ne' h0
  obtain ⟨w, hw⟩ := hex
  refine ⟨w, hw, ?_⟩
  obtain ⟨-, -, y, q, hq, hy, hyq, hwy⟩ := row_spec hV.posSemidef hw
  have hsq : ((Real.sqrt q : ℝ) : ℂ) ≠ 0 := by exact_mod_cast (Real.sqrt_pos.mpr hq).ne'
  have h2 : w = ((Real.sqrt q : ℝ) : ℂ)⁻¹ • star y := by
    rw [hwy]
    funext c
    simp [div_eq_inv_mul]
  rw [det_row _ _ _ _ hy, h2, smul_dotProduct, hyq, smul_eq_mul]
  refine hA.mul (mul_ne_zero (inv_ne_zero hsq) ?_).isUnit
  exact_mod_cast hq.ne'

theorem source_total (hL : L = 0) {X : Fin F → Chan K L → Fin T → ℂ} (hX : ∀ f, (cov (X f)).PosDef) {r : Fin K → Fin T → ℝ} (hr : ∀ s t, 0 < r s t) {st : State K L F}
    (hu : ∀ f, IsUnit (hat (st.W f) (st.J f)).det) (s : Fin K) : ∃ st', source X r st s = some st' ∧ ∀ f, IsUnit (hat (st'.W f) (st'.J f)).det := by
  have h1 : ∀ f, ∃ w, row (hat (st.W f) (st.J f)) (weighted (X f) (r s)) (.inl s) = some w ∧ IsUnit ((hat (st.W f) (st.J f)).updateRow (.inl s) w).det := by
    intro f
    apply row_total _ (hu f)
    have := hX f
    rw [cov_eq] at this
    exact definite (fun _ => one_pos) (hr s) this
  choose w hw hwu using h1
  refine ⟨{ st with W := fun f => (st.W f).updateRow s (w f) }, ?_, fun f => ?_⟩
  · unfold source
    rw [gather_some.mpr hw, Option.bind_some, updateJ, if_pos hL]
  · dsimp only
    rw [hat_update]
    exact hwu f

/-- **C82** With as many sources as channels, nothing ever fails, provided that the channels are linearly independent at every frequency and that the first matrices can be inverted. -/
theorem C82_determined {kind : Kind} (hL : L = 0) {X : Fin F → Chan K L → Fin T → ℂ} (hX : ∀ f, (cov (X f)).PosDef) {W0 : Option (Fin F → Matrix (Fin K) (Chan K L) ℂ)}
    (hW : ∀ W, W0 = some W → ∀ f, IsUnit (hat (W f) 0).det) (n : Nat) : ∃ st, iterate kind X W0 n = some st ∧ ∀ f, IsUnit (hat (st.W f) (st.J f)).det := by
  induction n with
  | zero =>
    refine ⟨{ W := W0.getD fun _ => fromCols 1 0, J := fun _ => 0 }, ?_, fun f => ?_⟩
    · unfold iterate init updateJ
      rw [if_pos hL]
    · cases W0 with
      | none =>
        have h1 : hat (fromCols 1 0 : Matrix (Fin K) (Chan K L) ℂ) 0 = fromBlocks 1 0 0 (-1) := by
          unfold hat
          rw [fromRows_fromCols_eq_fromBlocks]
        change IsUnit (hat (fromCols 1 0 : Matrix (Fin K) (Chan K L) ℂ) 0).det
        rw [h1, det_fromBlocks_zero₂₁, det_one, one_mul, det_neg, det_one, mul_one]
        exact (isUnit_one.neg).pow _
      | some W => exact hW W rfl f
  | succ n ih =>
    obtain ⟨st, h1, h2⟩ := ih
    have hr : ∀ s t, 0 < radius kind (demix X st.W) s t := fun s t => lt_of_lt_of_le eps_pos (radius_ge kind _ s t)
    have h3 : ∀ (l : List (Fin K)) (st1 : State K L F), (∀ f, IsUnit (hat (st1.W f) (st1.J f)).det) →
        ∃ st2, l.foldlM (source X (radius kind (demix X st.W))) st1 = some st2 ∧ ∀ f, IsUnit (hat (st2.W f) (st2.J f)).det := by
      intro l
      induction l with
      | nil => exact fun st1 hu => ⟨st1, rfl, hu⟩
      | cons s l ihl =>
        intro st1 hu
        obtain ⟨st2, h4, h5⟩ := source_total hL hX hr hu s
        obtain ⟨st3, h6, h7⟩ := ihl st2 h5
        refine ⟨st3, ?_, h7⟩
        rw [List.foldlM_cons, h4]
        exact h6
    obtain ⟨st', h8, h9⟩ := h3 (List.finRange K) st h2
    refine ⟨st', ?_, h9⟩
    unfold iterate
    rw [h1]
    exact h8

/-! ## The hypotheses can be met -/

/-- Two channels, each with one frame of its own. -/
def apart (K L : Nat) (c : Chan K L) (t : Fin 2) : ℂ := match c with
  | .inl i => if (i : Nat) = t then 1 else 0
  | .inr i => if (i : Nat) + K = t then 1 else 0

theorem weighted_apart (r : Fin 2 → ℝ) : weighted (apart 1 1) r = fromBlocks (diagonal fun _ => ((1 / r 0 : ℝ) : ℂ) / 2) 0 0 (diagonal fun _ => ((1 / r 1 : ℝ) : ℂ) / 2) := by
  ext i j
  rcases i with i | i <;> rcases j with j | j <;> simp [weighted, apart, Fin.fin_one_eq_zero]

example (kind : Kind) (n : Nat) : ∃ st, iterate kind (fun _ : Fin 1 => apart 2 0) none n = some st := by
  have h : (cov (apart 2 0)).PosDef := by
    have h1 : cov (apart 2 0) = diagonal fun _ => (1 / 2 : ℂ) := by
      ext i j
      rcases i with i | i
      · rcases j with j | j
        · fin_cases i <;> fin_cases j <;> simp [cov, apart]
        · exact j.elim0
      · exact i.elim0
    rw [h1, posDef_diagonal_iff]
    intro i
    norm_num
  obtain ⟨st, h1, -⟩ := C82_determined (kind := kind) rfl (X := fun _ : Fin 1 => apart 2 0) (fun _ => h) (W0 := none) nofun n
  exact ⟨st, h1⟩

theorem updateJ_apart (st : State 1 1 1) (h : st.W 0 0 (.inl 0) ≠ 0) : ∃ st', updateJ (fun _ => apart 1 1) st = some st' ∧ st'.W = st.W := by
  have h1 : ∀ f : Fin 1, ∃ J, orth (cov (apart 1 1)) (st.W f) = some J := by
    intro f
    unfold orth
    dsimp only
    rw [if_pos]
    · exact ⟨_, rfl⟩
    · rw [cov_eq, weighted_apart, det_fin_one, isUnit_iff_ne_zero, toCols₁_apply, mul_apply, Fin.fin_one_eq_zero f]
      simpa using h
  choose J hJ using h1
  refine ⟨{ st with J := J }, ?_, rfl⟩
  unfold updateJ
  rw [if_neg one_ne_zero, gather_some.mpr hJ]
  rfl

/-- One source and two channels. -/
example (kind : Kind) : ∃ st, iterate kind (fun _ : Fin 1 => apart 1 1) none 1 = some st := by
  obtain ⟨st, h1, h2⟩ := updateJ_apart { W := fun _ => fromCols 1 0, J := fun _ => 0 } (by simp)
  have hW : ∀ f, st.W f = fromCols 1 0 := fun f => by rw [h2]
  have hr : ∀ s t, 0 < radius kind (demix (fun _ : Fin 1 => apart 1 1) st.W) s t := fun s t => lt_of_lt_of_le eps_pos (radius_ge kind _ s t)
  set r := radius kind (demix (fun _ : Fin 1 => apart 1 1) st.W) with hrd
  have hV : (weighted (apart 1 1) (r 0)).PosDef := by
    have h3 : weighted (apart 1 1) (r 0) = diagonal (fun c => match c with | .inl _ => (((1 / r 0 0) / 2 : ℝ) : ℂ) | .inr _ => (((1 / r 0 1) / 2 : ℝ) : ℂ)) := by
      rw [weighted_apart]
      ext i j
      rcases i with i | i <;> rcases j with j | j <;> simp [Fin.fin_one_eq_zero]
    rw [h3, posDef_diagonal_iff]
    intro i
    have p0 : 0 < 1 / r 0 0 / 2 := by have := hr 0 0; positivity
    have p1 : 0 < 1 / r 0 1 / 2 := by have := hr 0 1; positivity
    rcases i with i | i
    · exact Complex.zero_lt_real.mpr p0
    · exact Complex.zero_lt_real.mpr p1
  have hu : ∀ f, IsUnit (hat (st.W f) (st.J f)).det := by
    intro f
    rw [hW f]
    unfold hat
    rw [fromRows_fromCols_eq_fromBlocks, det_fromBlocks_zero₁₂]
    simp
  have h4 : ∀ f : Fin 1, ∃ w, row (hat (st.W f) (st.J f)) (weighted (apart 1 1) (r 0)) (.inl 0) = some w ∧ w (.inl 0) ≠ 0 := by
    intro f
    obtain ⟨w, hw, -⟩ := row_total hV (hu f) (.inl 0)
    refine ⟨w, hw, ?_⟩
    obtain ⟨-, -, y, q, hq, hy, -, rfl⟩ := row_spec hV.posSemidef hw
    have hsq : ((Real.sqrt q : ℝ) : ℂ) ≠ 0 := by exact_mod_cast (Real.sqrt_pos.mpr hq).ne'
    have h5 := congrFun hy (.inl 0)
    rw [Pi.single_eq_same] at h5
    have h6 : st.W f 0 ⬝ᵥ weighted (apart 1 1) (r 0) *ᵥ y = 1 := h5
    rw [hW f, weighted_apart] at h6
    refine div_ne_zero (star_ne_zero.mpr ?_) hsq
    intro h7
    simp [dotProduct, mulVec, h7] at h6
  choose w hw hw0 using h4
  obtain ⟨st', h8, -⟩ := updateJ_apart { st with W := fun f => (st.W f).updateRow 0 (w f) } (by simpa using hw0 0)
  refine ⟨st', ?_⟩
  have h9 : iterate kind (fun _ : Fin 1 => apart 1 1) none 0 = some st := h1
  unfold iterate
  rw [h9, Option.bind_some]
  unfold epoch
  rw [← hrd, show List.finRange 1 = [0] from rfl, List.foldlM_cons]
  have h10 : source (fun _ : Fin 1 => apart 1 1) r st 0 = some st' := by
    unfold source
    rw [gather_some.mpr hw, Option.bind_some, h8]
  rw [h10]
  rfl

end Verif.AuxIva
