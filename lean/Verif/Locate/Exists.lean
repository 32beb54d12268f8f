import Verif.Locate.Props
import Mathlib.Analysis.InnerProductSpace.PiL2
import Mathlib.Analysis.InnerProductSpace.Projection.FiniteDimensional

/-!
# C102: solutions of least squares exist

The specification of `lstsq` can be met for all equations.
-/

namespace Verif.Locate

open Finset

/-- The point of least squares with the smallest norm, for a linear map. -/
theorem exists_least {E F : Type} [NormedAddCommGroup E] [InnerProductSpace ℝ E] [FiniteDimensional ℝ E] [NormedAddCommGroup F] [InnerProductSpace ℝ F] [FiniteDimensional ℝ F]
    (A : E →ₗ[ℝ] F) (b : F) : ∃ x : E, (∀ y, ‖A x - b‖ ^ 2 ≤ ‖A y - b‖ ^ 2) ∧ ∀ y, (∀ z, ‖A y - b‖ ^ 2 ≤ ‖A z - b‖ ^ 2) → ‖x‖ ^ 2 ≤ ‖y‖ ^ 2 := by
  obtain ⟨w, ⟨x0, rfl⟩, hw⟩ := Submodule.HasOrthogonalProjection.exists_orthogonal (K := LinearMap.range A) b
  obtain ⟨k, hk, hx⟩ := Submodule.HasOrthogonalProjection.exists_orthogonal (K := LinearMap.ker A) x0
  have hAk : A k = 0 := hk
  have hAx : A (x0 - k) = A x0 := by rw [map_sub, hAk, sub_zero]
  have hpy : ∀ y, ‖A y - b‖ ^ 2 = ‖A y - A x0‖ ^ 2 + ‖A x0 - b‖ ^ 2 := by
    intro y
    have h0 : inner ℝ (A y - A x0) (A x0 - b) = (0 : ℝ) := by
      have := (Submodule.mem_orthogonal _ _).mp hw (A y - A x0) ⟨y - x0, by rw [map_sub]⟩
      rw [← neg_sub b (A x0), inner_neg_right, this, neg_zero]
    have := norm_add_sq_real (A y - A x0) (A x0 - b)
    rw [h0, sub_add_sub_cancel] at this
    linarith
  refine ⟨x0 - k, ?_, ?_⟩
  · intro y
    rw [hAx, hpy y]
    have := sq_nonneg ‖A y - A x0‖
    linarith
  · intro y hy
    have h1 := hy x0
    rw [hpy y] at h1
    have h2 : ‖A y - A x0‖ = 0 := by
      have := sq_nonneg ‖A y - A x0‖
      have h3 : ‖A y - A x0‖ ^ 2 = 0 := by linarith
      exact pow_eq_zero_iff two_ne_zero |>.mp h3
    have h3 : y - (x0 - k) ∈ LinearMap.ker A := by
      rw [LinearMap.mem_ker, map_sub, hAx]
      exact norm_eq_zero.mp h2
    have h4 := (Submodule.mem_orthogonal _ _).mp hx _ h3
    have h5 := norm_add_sq_real (y - (x0 - k)) (x0 - k)
    rw [h4, sub_add_cancel] at h5
    have := sq_nonneg ‖y - (x0 - k)‖
    linarith

/-- For all equations there is a solution of least squares with the smallest norm. -/
theorem exists_lstsq : ∃ lstsq : List (Pt × ℝ) → Pt, IsLstsq lstsq := by
  have key : ∀ rows : List (Pt × ℝ), ∃ x : Pt, (∀ y, residual rows x ≤ residual rows y) ∧ ∀ y, (∀ z, residual rows y ≤ residual rows z) → norm2 x ≤ norm2 y := by
    intro rows
    have hsum : ∀ x : Pt, residual rows x = ∑ i : Fin rows.length, (∑ k, (rows.get i).1 k * x k - (rows.get i).2) ^ 2 := by
      intro x
      unfold residual
      rw [← List.sum_ofFn]
      congr 1
      conv_lhs => rw [← List.ofFn_get (l := rows)]
      rw [List.map_ofFn]
      rfl
    have hres : ∀ x : Pt, residual rows x = ‖(Matrix.of fun (i : Fin rows.length) k => (rows.get i).1 k).toEuclideanLin (WithLp.toLp 2 x) - WithLp.toLp 2 fun i => (rows.get i).2‖ ^ 2 := by
      intro x
      rw [hsum, EuclideanSpace.norm_sq_eq]
      apply sum_congr rfl
      intro i _
      rw [Real.norm_eq_abs, sq_abs]
      rfl
    have hn : ∀ x : Pt, norm2 x = ‖WithLp.toLp 2 x‖ ^ 2 := by
      intro x
      rw [EuclideanSpace.norm_sq_eq]
      exact sum_congr rfl fun k _ => by rw [Real.norm_eq_abs, sq_abs]
    obtain ⟨x, h1, h2⟩ := exists_least (Matrix.of fun (i : Fin rows.length) k => (rows.get i).1 k).toEuclideanLin (WithLp.toLp 2 fun i => (rows.get i).2)
    refine ⟨x.ofLp, ?_, ?_⟩
    · intro y
      rw [hres, hres]
      exact h1 _
    · intro y hy
      rw [hn, hn]
      refine h2 _ fun z => ?_
      have := hy z.ofLp
      rwa [hres, hres] at this
  choose f hf using key
  exact ⟨f, fun rows y => (hf rows).1 y, fun rows y h => (hf rows).2 y h⟩

/-- Five microphones which determine a source. -/
example : ∃ (lstsq : List (Pt × ℝ) → Pt), IsLstsq lstsq ∧ ∀ c t0 : ℝ, c ≠ 0 →
    tdoaLoc lstsq [![0, 0, 0], ![3/4, 0, 0], ![0, 3/4, 0], ![-3/4, 0, 0], ![0, 0, -1]]
      ([![0, 0, 0], ![3/4, 0, 0], ![0, 3/4, 0], ![-3/4, 0, 0], ![0, 0, -1]].map fun r => dist ![0, 0, 1] r / c + t0) c = .ok ![0, 0, 1] := by
  obtain ⟨lstsq, hl⟩ := exists_lstsq
  refine ⟨lstsq, hl, fun c t0 hc => ?_⟩
  have hq : Real.sqrt (25/16) = 5/4 := by
    rw [show (25/16 : ℝ) = (5/4) ^ 2 by norm_num, Real.sqrt_sq (by norm_num)]
  have hq2 : Real.sqrt 4 = 2 := by
    rw [show (4 : ℝ) = 2 ^ 2 by norm_num, Real.sqrt_sq (by norm_num)]
  have hd0 : dist ![0, 0, 1] ![0, 0, 0] = 1 := by
    unfold dist d2; simp [Fin.sum_univ_three]
  have hd1 : dist ![0, 0, 1] ![3/4, 0, 0] = 5/4 := by
    unfold dist d2; rw [← hq]; congr 1; simp [Fin.sum_univ_three]; norm_num
  have hd2 : dist ![0, 0, 1] ![0, 3/4, 0] = 5/4 := by
    unfold dist d2; rw [← hq]; congr 1; simp [Fin.sum_univ_three]; norm_num
  have hd3 : dist ![0, 0, 1] ![-3/4, 0, 0] = 5/4 := by
    unfold dist d2; rw [← hq]; congr 1; simp [Fin.sum_univ_three]; norm_num
  have hd4 : dist ![0, 0, 1] ![0, 0, -1] = 2 := by
    unfold dist d2; rw [← hq2]; congr 1; simp [Fin.sum_univ_three]; norm_num
  obtain ⟨loc, e, -, -, h⟩ := C102_tdoa_loc hl ![0, 0, 1] ![0, 0, 0] [![3/4, 0, 0], ![0, 3/4, 0], ![-3/4, 0, 0], ![0, 0, -1]] hc t0
    ⟨![3/4, 0, 0], by simp, by rw [hd0, hd1]; norm_num⟩
  rw [e, h]
  intro p u h
  have h1 := h ![3/4, 0, 0] (by simp) (by rw [hd0, hd1]; norm_num)
  have h2 := h ![0, 3/4, 0] (by simp) (by rw [hd0, hd2]; norm_num)
  have h3 := h ![-3/4, 0, 0] (by simp) (by rw [hd0, hd3]; norm_num)
  have h4 := h ![0, 0, -1] (by simp) (by rw [hd0, hd4]; norm_num)
  rw [hd0, hd1] at h1
  rw [hd0, hd2] at h2
  rw [hd0, hd3] at h3
  rw [hd0, hd4] at h4
  simp only [d2, Fin.sum_univ_three, Matrix.cons_val_zero, Matrix.cons_val_one, Matrix.cons_val] at h1 h2 h3 h4
  have e0 : p 0 = 0 := by linarith
  have e1 : p 1 = 0 := by linarith
  have e2 : p 2 = 1 := by linarith
  funext k
  fin_cases k
  · simpa using e0
  · simpa using e1
  · simpa using e2

end Verif.Locate
