import Verif.FriOpt.Model
import Verif.FriAlg.Props
import Mathlib.LinearAlgebra.Matrix.ToLinearEquiv
import Mathlib.LinearAlgebra.Matrix.DotProduct

namespace Verif.FriOpt

open Matrix FriAlg ComplexConjugate

variable {μ : Type*} [Fintype μ] {M K : ℕ}

/-- The squared norm of the measurements of a sequence. -/
def quad (x : Band μ M) (d : Seq M → ℝ) : ℝ := (x.G *ᵥ d) ⬝ᵥ (x.G *ᵥ d)

theorem quad_nonneg (x : Band μ M) (d : Seq M → ℝ) : 0 ≤ quad x d := by
  unfold quad dotProduct
  exact Finset.sum_nonneg fun i _ => mul_self_nonneg _

theorem quad_gtg (x : Band μ M) (d e : Seq M → ℝ) : (x.G *ᵥ d) ⬝ᵥ (x.G *ᵥ e) = d ⬝ᵥ (x.gtg *ᵥ e) := by
  unfold Band.gtg
  rw [← Matrix.mulVec_mulVec, Matrix.dotProduct_mulVec d, Matrix.vecMul_transpose]

theorem quad_add (x : Band μ M) (d e : Seq M → ℝ) : quad x (d + e) = quad x d + 2 * (d ⬝ᵥ (x.gtg *ᵥ e)) + quad x e := by
  unfold quad
  rw [Matrix.mulVec_add, add_dotProduct, dotProduct_add, dotProduct_add, dotProduct_comm (x.G *ᵥ e), quad_gtg x d e]
  ring

theorem gtg_gi {x : Band μ M} (h : x.gtg.det ≠ 0) (v : Seq M → ℝ) : x.gtg *ᵥ (x.gi *ᵥ v) = v := by
  unfold Band.gi
  rw [Matrix.mulVec_mulVec, Matrix.mul_nonsing_inv _ (isUnit_iff_ne_zero.mpr h), Matrix.one_mulVec]

theorem gi_gtg {x : Band μ M} (h : x.gtg.det ≠ 0) (v : Seq M → ℝ) : x.gi *ᵥ (x.gtg *ᵥ v) = v := by
  unfold Band.gi
  rw [Matrix.mulVec_mulVec, Matrix.nonsing_inv_mul _ (isUnit_iff_ne_zero.mpr h), Matrix.one_mulVec]

theorem quad_eq_zero {x : Band μ M} (h : x.gtg.det ≠ 0) {d : Seq M → ℝ} (hd : quad x d = 0) : d = 0 := by
  have h1 : x.G *ᵥ d = 0 := dotProduct_self_eq_zero.mp hd
  rw [← gi_gtg h d]
  unfold Band.gtg
  rw [← Matrix.mulVec_mulVec, h1, Matrix.mulVec_zero, Matrix.mulVec_zero]

/-- The least measurements for a given output of the filter. -/
theorem core {x : Band μ M} (h : x.gtg.det ≠ 0) (R : Matrix (Out M K) (Seq M) ℝ) (hS : (R * (x.gi * Rᵀ)).det ≠ 0) (v : Out M K → ℝ) :
    R *ᵥ (x.gi *ᵥ (Rᵀ *ᵥ ((R * (x.gi * Rᵀ))⁻¹ *ᵥ v))) = v ∧
    quad x (x.gi *ᵥ (Rᵀ *ᵥ ((R * (x.gi * Rᵀ))⁻¹ *ᵥ v))) = v ⬝ᵥ ((R * (x.gi * Rᵀ))⁻¹ *ᵥ v) ∧
    ∀ d, R *ᵥ d = v → quad x d = v ⬝ᵥ ((R * (x.gi * Rᵀ))⁻¹ *ᵥ v) + quad x (d - x.gi *ᵥ (Rᵀ *ᵥ ((R * (x.gi * Rᵀ))⁻¹ *ᵥ v))) := by
  set w := (R * (x.gi * Rᵀ))⁻¹ *ᵥ v with hw
  set d0 := x.gi *ᵥ (Rᵀ *ᵥ w) with hd0
  have h1 : R *ᵥ d0 = v := by
    rw [hd0, Matrix.mulVec_mulVec, Matrix.mulVec_mulVec, Matrix.mul_assoc, hw, Matrix.mulVec_mulVec, Matrix.mul_nonsing_inv _ (isUnit_iff_ne_zero.mpr hS), Matrix.one_mulVec]
  have hg : x.gtg *ᵥ d0 = Rᵀ *ᵥ w := gtg_gi h _
  have hin : ∀ d, d ⬝ᵥ (x.gtg *ᵥ d0) = (R *ᵥ d) ⬝ᵥ w := by
    intro d
    rw [hg, Matrix.dotProduct_mulVec, Matrix.vecMul_transpose]
  have h2 : quad x d0 = v ⬝ᵥ w := by
    unfold quad
    rw [quad_gtg, hin, h1]
  refine ⟨h1, h2, ?_⟩
  intro d hd
  have := quad_add x (d - d0) d0
  rw [sub_add_cancel, hin, Matrix.mulVec_sub, hd, h1, sub_self, zero_dotProduct, h2] at this
  rw [this]
  ring

/-- A surjective filter matrix makes the linear system of `compute_b` regular. -/
theorem det_ne_zero {x : Band μ M} (h : x.gtg.det ≠ 0) {R : Matrix (Out M K) (Seq M) ℝ} (hR : ∀ v, ∃ b, R *ᵥ b = v) : (R * (x.gi * Rᵀ)).det ≠ 0 := by
  intro h0
  obtain ⟨w, hw, hw0⟩ := Matrix.exists_mulVec_eq_zero_iff.mpr h0
  apply hw
  rw [← Matrix.mulVec_mulVec, ← Matrix.mulVec_mulVec] at hw0
  have h1 : quad x (x.gi *ᵥ (Rᵀ *ᵥ w)) = 0 := by
    unfold quad
    rw [quad_gtg, gtg_gi h, Matrix.dotProduct_mulVec, Matrix.vecMul_transpose, hw0, zero_dotProduct]
  have h2 := quad_eq_zero h h1
  have h3 : Rᵀ *ᵥ w = 0 := by
    rw [← gtg_gi h (Rᵀ *ᵥ w), h2, Matrix.mulVec_zero]
  obtain ⟨b, hb⟩ := hR w
  have h4 : w ⬝ᵥ w = b ⬝ᵥ (Rᵀ *ᵥ w) := by
    rw [Matrix.dotProduct_mulVec b, Matrix.vecMul_transpose, hb]
  rw [h3, dotProduct_zero] at h4
  exact dotProduct_self_eq_zero.mp h4

/-- The least squares solution. -/
theorem misfit_beta {x : Band μ M} (h : x.gtg.det ≠ 0) (b : Seq M → ℝ) :
    (x.a - x.G *ᵥ b) ⬝ᵥ (x.a - x.G *ᵥ b) = (x.a - x.G *ᵥ x.beta) ⬝ᵥ (x.a - x.G *ᵥ x.beta) + quad x (b - x.beta) := by
  have h1 : x.a - x.G *ᵥ b = (x.a - x.G *ᵥ x.beta) - x.G *ᵥ (b - x.beta) := by
    rw [Matrix.mulVec_sub]
    abel
  have h2 : x.Gᵀ *ᵥ (x.a - x.G *ᵥ x.beta) = 0 := by
    have := gtg_gi h (x.Gᵀ *ᵥ x.a)
    rw [Matrix.mulVec_sub, ← this, Matrix.mulVec_mulVec (M := x.Gᵀ), sub_eq_zero]
    rfl
  have h3 : (x.a - x.G *ᵥ x.beta) ⬝ᵥ (x.G *ᵥ (b - x.beta)) = 0 := by
    rw [Matrix.dotProduct_mulVec, ← Matrix.mulVec_transpose, h2, zero_dotProduct]
  have h4 : ∀ r g : μ → ℝ, r ⬝ᵥ g = 0 → (r - g) ⬝ᵥ (r - g) = r ⬝ᵥ r + g ⬝ᵥ g := by
    intro r g h
    rw [sub_dotProduct, dotProduct_sub, dotProduct_sub, dotProduct_comm g r, h]
    ring
  rw [h1, h4 _ _ h3]
  rfl

/-- The matrix of the objective, if no linear system is singular. -/
theorem mtxObj_eq (bands : List (Band μ M)) (R : Matrix (Out M K) (Seq M) ℝ) {m : Matrix (Fil K) (Fil K) ℝ} :
    mtxObj bands R = some m ↔ (∀ x ∈ bands, (R * (x.gi * Rᵀ)).det ≠ 0) ∧ m = (bands.map fun x => (x.tb K)ᵀ * ((R * (x.gi * Rᵀ))⁻¹ * x.tb K)).sum := by
  have key : ∀ (bands : List (Band μ M)) (m0 : Matrix (Fil K) (Fil K) ℝ), bands.foldlM (addObj R) m0 = some m ↔
      (∀ x ∈ bands, (R * (x.gi * Rᵀ)).det ≠ 0) ∧ m = m0 + (bands.map fun x => (x.tb K)ᵀ * ((R * (x.gi * Rᵀ))⁻¹ * x.tb K)).sum := by
    intro bands
    induction bands with
    | nil =>
      intro m0
      simp [eq_comm]
    | cons x xs ih =>
      intro m0
      rw [List.foldlM_cons]
      by_cases h : (R * (x.gi * Rᵀ)).det = 0
      · have h1 : addObj R m0 x = none := by
          unfold addObj solve
          rw [if_pos h]
          rfl
        rw [h1]
        simp [h]
      · have h1 : addObj R m0 x = some (m0 + (x.tb K)ᵀ * ((R * (x.gi * Rᵀ))⁻¹ * x.tb K)) := by
          unfold addObj solve
          rw [if_neg h]
          rfl
        rw [h1, Option.bind_eq_bind, Option.bind_some]
        rw [ih]
        simp [h, add_assoc]
  have := key bands 0
  rw [zero_add] at this
  exact this

/-- The quadratic form of the objective. -/
theorem obj_quad (bands : List (Band μ M)) (R : Matrix (Out M K) (Seq M) ℝ) (y z : Fil K → ℝ) :
    y ⬝ᵥ ((bands.map fun x => (x.tb K)ᵀ * ((R * (x.gi * Rᵀ))⁻¹ * x.tb K)).sum *ᵥ z) = (bands.map fun x => (x.tb K *ᵥ y) ⬝ᵥ ((R * (x.gi * Rᵀ))⁻¹ *ᵥ (x.tb K *ᵥ z))).sum := by
  induction bands with
  | nil => simp
  | cons x xs ih =>
    rw [List.map_cons, List.sum_cons, List.map_cons, List.sum_cons, Matrix.add_mulVec, dotProduct_add, ih]
    congr 1
    rw [← Matrix.mulVec_mulVec, ← Matrix.mulVec_mulVec, Matrix.dotProduct_mulVec y, Matrix.vecMul_transpose]

/-- The system with the constraint: unique solution. -/
theorem kkt_eq {m : Matrix (Fil K) (Fil K) ℝ} {c0 c : Fil K → ℝ} (h : kkt m c0 = some c) :
    (∃ l : ℝ, m *ᵥ c + l • c0 = 0) ∧ c0 ⬝ᵥ c = 1 ∧ ∀ y (l : ℝ), m *ᵥ y + l • c0 = 0 → c0 ⬝ᵥ y = 0 → y = 0 := by
  unfold kkt solve at h
  split at h
  · simp at h
  · rename_i hd
    set A := fromBlocks m (replicateCol Unit c0) (replicateRow Unit c0) (0 : Matrix Unit Unit ℝ) with hA
    have hmul : ∀ (y : Fil K → ℝ) (l : ℝ), A *ᵥ Sum.elim y (fun _ => l) = Sum.elim (m *ᵥ y + l • c0) (fun _ => c0 ⬝ᵥ y) := by
      intro y l
      rw [hA, fromBlocks_mulVec]
      funext i
      cases i with
      | inl i =>
        simp only [Sum.elim_inl, Pi.add_apply, Sum.elim_comp_inl, Sum.elim_comp_inr]
        congr 1
        simp [Matrix.mulVec, dotProduct, mul_comm]
      | inr i =>
        simp only [Sum.elim_inr, Pi.add_apply, Sum.elim_comp_inl, Sum.elim_comp_inr]
        simp [Matrix.mulVec, dotProduct]
    set s : (Fil K ⊕ Unit) → ℝ := fun i => (A⁻¹ * replicateCol Unit (Sum.elim (0 : Fil K → ℝ) (1 : Unit → ℝ)) : Matrix (Fil K ⊕ Unit) Unit ℝ) i () with hs
    have hsol : A *ᵥ s = Sum.elim (0 : Fil K → ℝ) (1 : Unit → ℝ) := by
      have h1 : s = A⁻¹ *ᵥ Sum.elim (0 : Fil K → ℝ) (1 : Unit → ℝ) := by
        funext i
        rfl
      rw [h1, Matrix.mulVec_mulVec, Matrix.mul_nonsing_inv _ (isUnit_iff_ne_zero.mpr hd), Matrix.one_mulVec]
    have hc : c = fun i => s (.inl i) := by
      simp only [Option.map_some, Option.some.injEq] at h
      exact h.symm
    have hsum : s = Sum.elim c (fun _ => s (.inr ())) := by
      funext i
      cases i with
      | inl i => rw [hc]; rfl
      | inr i => rfl
    rw [hsum, hmul] at hsol
    refine ⟨⟨s (.inr ()), ?_⟩, ?_, ?_⟩
    · funext i
      have := congrFun hsol (.inl i)
      simpa using this
    · have := congrFun hsol (.inr ())
      simpa using this
    · intro y l h1 h2
      have h3 : A *ᵥ Sum.elim y (fun _ => l) = 0 := by
        rw [hmul, h1, h2]
        funext i
        cases i <;> rfl
      by_contra hy
      exact hd (Matrix.exists_mulVec_eq_zero_iff.mp ⟨_, fun e => hy (funext fun i => congrFun e (.inl i)), h3⟩)

theorem kkt_none {m : Matrix (Fil K) (Fil K) ℝ} {c0 : Fil K → ℝ} (h : kkt m c0 = none) : ∃ y, ∃ l : ℝ, (y ≠ 0 ∨ l ≠ 0) ∧ m *ᵥ y + l • c0 = 0 ∧ c0 ⬝ᵥ y = 0 := by
  unfold kkt solve at h
  split at h
  · rename_i hd
    obtain ⟨s, hs, hs0⟩ := Matrix.exists_mulVec_eq_zero_iff.mpr hd
    rw [fromBlocks_mulVec] at hs0
    refine ⟨fun i => s (.inl i), s (.inr ()), ?_, ?_, ?_⟩
    · by_contra hh
      push Not at hh
      apply hs
      funext i
      cases i with
      | inl i => exact congrFun hh.1 i
      | inr i => exact hh.2
    · funext i
      have := congrFun hs0 (.inl i)
      simp only [Sum.elim_inl, Pi.add_apply, Pi.zero_apply] at this
      rw [Pi.zero_apply, ← this]
      simp only [Pi.add_apply]
      congr 1
      simp [Matrix.mulVec, dotProduct, mul_comm]
    · have := congrFun hs0 (.inr ())
      simpa [Matrix.mulVec, dotProduct] using this
  · simp at h

end Verif.FriOpt
