import Verif.Adaptive.Model
import Verif.DataStructures.Lemmas
import Mathlib.LinearAlgebra.Matrix.ToLinearEquiv
import Mathlib.Tactic.Linarith
import Mathlib.Tactic.LinearCombination
import Mathlib.Tactic.FieldSimp
import Mathlib.Tactic.Positivity

/-! Helper lemmas for the adaptive filters. -/

namespace Verif.Adaptive

open Verif.Py Verif.DataStructures Matrix Finset

/-! ### Array updates -/

theorem base_spec {L : Nat} (hL : 1 ≤ L) (s : Nlms L) (hx : s.x.length = L) (xn dn : ℝ) :
    s.base xn dn = .ok { s with n := s.n + 1, x := xn :: s.x.dropLast, d := dn } := by
  obtain ⟨a, t, hat⟩ : ∃ a t, s.x = a :: t := by
    cases h : s.x with
    | nil => rw [h] at hx; simp at hx; omega
    | cons a t => exact ⟨a, t, rfl⟩
  have hsl : slice s.x (some 0) (some (-1)) = s.x.dropLast := by
    have h0 : clampIdx s.x.length 0 = 0 := by simp [clampIdx]
    have h1 : clampIdx s.x.length (-1) = s.x.length - 1 := by
      have := clampIdx_neg s.x.length (k := 1) (by omega); simpa using this
    simp only [slice, sliceStart, sliceStop, h0, h1]
    rw [List.dropLast_eq_take]; simp
  have hst : sliceStart s.x.length (some 1) = 1 := by
    have := clampIdx_nat s.x.length 1
    simp only [sliceStart]
    rw [show ((1 : Nat) : Int) = 1 by rfl] at this
    rw [this]; omega
  have hset : setSlice s.x (some 1) none s.x.dropLast = .ok (s.x.take 1 ++ s.x.dropLast) := by
    have hlen : s.x.dropLast.length = s.x.length - 1 := by simp
    revert hlen
    generalize s.x.dropLast = v
    intro hlen
    simp only [setSlice, hst, sliceStop]
    rw [Nat.max_eq_right (by omega)]
    match v, hlen with
    | [y], hlen =>
      simp only [List.length_singleton] at hlen
      simp [← hlen]
    | [], hlen => simp only; rw [if_pos (by simpa using hlen)]; simp
    | y :: z :: t, hlen => simp only; rw [if_pos (by simpa using hlen)]; simp
  unfold Nlms.base
  rw [hsl, hset]
  simp only
  have : s.x.take 1 ++ s.x.dropLast = a :: s.x.dropLast := by rw [hat]; rfl
  rw [this]
  simp [Py.set, normIdx]

theorem pushZeros_spec (k : Nat) : ∀ {b : Buffer ℝ} {q : List ℝ}, Rep b q →
    ∃ b', pushZeros b k = .ok b' ∧ Rep b' (List.replicate k 0 ++ q) := by
  induction k with
  | zero => intro b q h; exact ⟨b, rfl, by simpa using h⟩
  | succ k ih =>
    intro b q h
    obtain ⟨b1, e1, r1⟩ := rep_push h (0 : ℝ)
    obtain ⟨b2, e2, r2⟩ := ih r1
    refine ⟨b2, by unfold pushZeros; rw [e1]; exact e2, ?_⟩
    have : List.replicate (k + 1) (0 : ℝ) ++ q = List.replicate k 0 ++ 0 :: q := by
      rw [List.replicate_succ']; simp
    rw [this]; exact r2

/-! ### Linear algebra -/

variable {L : Nat}

theorem symm_of_inv {R P : Matrix (Fin L) (Fin L) ℝ} (hs : Rᵀ = R) (hi : R * P = 1) : Pᵀ = P := by
  have h1 : Pᵀ * R = 1 := by
    have := congrArg Matrix.transpose hi
    rwa [Matrix.transpose_mul, hs, Matrix.transpose_one] at this
  calc Pᵀ = Pᵀ * (R * P) := by rw [hi, Matrix.mul_one]
    _ = P := by rw [← Matrix.mul_assoc, h1, Matrix.one_mul]

theorem dot_symm {P : Matrix (Fin L) (Fin L) ℝ} (hs : Pᵀ = P) (a b : Fin L → ℝ) :
    a ⬝ᵥ P *ᵥ b = b ⬝ᵥ P *ᵥ a := by
  rw [Matrix.dotProduct_mulVec, ← Matrix.mulVec_transpose, hs, dotProduct_comm]

theorem inv_nonneg_form {R P : Matrix (Fin L) (Fin L) ℝ} (hi : R * P = 1)
    (hn : ∀ v, 0 ≤ v ⬝ᵥ R *ᵥ v) (y : Fin L → ℝ) : 0 ≤ y ⬝ᵥ P *ᵥ y := by
  have h := hn (P *ᵥ y)
  rw [Matrix.mulVec_mulVec, hi, Matrix.one_mulVec, dotProduct_comm] at h
  exact h

theorem vmv_mulVec (a b v : Fin L → ℝ) : vecMulVec a b *ᵥ v = (b ⬝ᵥ v) • a := by
  funext i
  simp only [Matrix.mulVec, vecMulVec_apply, dotProduct, Pi.smul_apply, smul_eq_mul]
  rw [Finset.sum_mul]
  apply Finset.sum_congr rfl
  intro j _; ring

theorem mul_vmv (A : Matrix (Fin L) (Fin L) ℝ) (a b : Fin L → ℝ) : A * vecMulVec a b = vecMulVec (A *ᵥ a) b := by
  ext i j
  simp only [Matrix.mul_apply, vecMulVec_apply, Matrix.mulVec, dotProduct]
  rw [Finset.sum_mul]
  apply Finset.sum_congr rfl
  intro k _; ring

theorem vmv_mul (A : Matrix (Fin L) (Fin L) ℝ) (a b : Fin L → ℝ) : vecMulVec a b * A = vecMulVec a (Aᵀ *ᵥ b) := by
  ext i j
  simp only [Matrix.mul_apply, vecMulVec_apply, Matrix.mulVec, dotProduct, Matrix.transpose_apply]
  rw [Finset.mul_sum]
  apply Finset.sum_congr rfl
  intro k _; ring

/-- One step of RLS keeps the normal equations. -/
theorem rls_core {R P : Matrix (Fin L) (Fin L) ℝ} {w z : Fin L → ℝ} {lmbd : ℝ} (hl : 0 < lmbd) (hs : Rᵀ = R)
    (hn : ∀ v, 0 ≤ v ⬝ᵥ R *ᵥ v) (hi : R * P = 1) (hw : R *ᵥ w = z) (u : Fin L → ℝ) (d : ℝ) :
    (lmbd • R + vecMulVec u u) * (rlsStep lmbd w P u d).2 = 1 ∧
    (lmbd • R + vecMulVec u u) *ᵥ (rlsStep lmbd w P u d).1 = lmbd • z + d • u := by
  have hP := symm_of_inv hs hi
  have hl0 : lmbd ≠ 0 := hl.ne'
  have hq : 0 ≤ u ⬝ᵥ P *ᵥ u := inv_nonneg_form hi hn u
  have hden : 1 + u ⬝ᵥ (P *ᵥ (lmbd⁻¹ • u)) = 1 + lmbd⁻¹ * (u ⬝ᵥ P *ᵥ u) := by
    rw [Matrix.mulVec_smul, dotProduct_smul, smul_eq_mul]
  have hpos : 0 < 1 + lmbd⁻¹ * (u ⬝ᵥ P *ᵥ u) := by
    have : 0 ≤ lmbd⁻¹ * (u ⬝ᵥ P *ᵥ u) := mul_nonneg (inv_nonneg.mpr hl.le) hq
    linarith
  unfold rlsStep
  simp only
  rw [hden]
  set q := u ⬝ᵥ P *ᵥ u with hqd
  set dn := 1 + lmbd⁻¹ * q with hdn
  have hdn0 : dn ≠ 0 := hpos.ne'
  have hlq : q = lmbd * (dn - 1) := by rw [hdn]; field_simp; ring
  set g := dn⁻¹ • P *ᵥ (lmbd⁻¹ • u) with hg
  have hRg : R *ᵥ g = (dn⁻¹ * lmbd⁻¹) • u := by
    rw [hg, Matrix.mulVec_smul, Matrix.mulVec_mulVec, hi, Matrix.one_mulVec, smul_smul]
  have hug : u ⬝ᵥ g = dn⁻¹ * (dn - 1) := by
    rw [hg, Matrix.mulVec_smul, dotProduct_smul, dotProduct_smul, smul_eq_mul, smul_eq_mul, ← hqd, hlq]
    field_simp
  constructor
  · rw [Matrix.mul_smul, Matrix.add_mul, Matrix.mul_sub, Matrix.mul_sub, Matrix.smul_mul, hi, Matrix.smul_mul,
      mul_vmv, hRg, mul_vmv, vmv_mulVec, hug, vmv_mul, hP]
    ext i j
    simp only [Matrix.smul_apply, Matrix.add_apply, Matrix.sub_apply, vecMulVec_apply, Pi.smul_apply, smul_eq_mul]
    field_simp
    ring
  · rw [Matrix.mulVec_add, Matrix.add_mulVec, Matrix.add_mulVec, Matrix.smul_mulVec, Matrix.smul_mulVec, hw,
      Matrix.mulVec_smul, hRg, vmv_mulVec, vmv_mulVec, dotProduct_smul, hug]
    funext i
    simp only [Pi.add_apply, Pi.smul_apply, smul_eq_mul]
    field_simp
    ring

/-- A block step keeps the normal equations. -/
theorem block_core {B : Nat} {R P : Matrix (Fin L) (Fin L) ℝ} {w z : Fin L → ℝ} {lmbd : ℝ} (hl : 0 < lmbd) (hs : Rᵀ = R)
    (hn : ∀ v, 0 ≤ v ⬝ᵥ R *ᵥ v) (hi : R * P = 1) (hw : R *ᵥ w = z) (X : Matrix (Fin B) (Fin L) ℝ) (d : Fin B → ℝ) :
    ∃ r, blockRlsStep (fun i : Fin B => lmbd ^ (B - (i : Nat))) ((lmbd⁻¹) ^ B) w P X d = .ok r ∧
      (lmbd ^ B • R + Xᵀ * diagonal (fun i : Fin B => lmbd ^ (i : Nat)) * X) * r.2 = 1 ∧
      (lmbd ^ B • R + Xᵀ * diagonal (fun i : Fin B => lmbd ^ (i : Nat)) * X) *ᵥ r.1 =
        lmbd ^ B • z + Xᵀ *ᵥ (fun i : Fin B => lmbd ^ (i : Nat) * d i) := by
  have hP := symm_of_inv hs hi
  set dg : Fin B → ℝ := fun i => lmbd ^ (B - (i : Nat)) with hdg
  set la : Fin B → ℝ := fun i => lmbd ^ (i : Nat) with hla
  set M0 := diagonal dg + X * (P * Xᵀ) with hM0
  have hM0s : M0ᵀ = M0 := by
    rw [hM0, Matrix.transpose_add, Matrix.diagonal_transpose, Matrix.transpose_mul, Matrix.transpose_mul,
      Matrix.transpose_transpose, hP, Matrix.mul_assoc]
  have hdet : M0.det ≠ 0 := by
    intro hd
    obtain ⟨v, hv0, hv⟩ := Matrix.exists_mulVec_eq_zero_iff.mpr hd
    have h1 : v ⬝ᵥ M0 *ᵥ v = 0 := by rw [hv]; simp
    have h2 : v ⬝ᵥ M0 *ᵥ v = (∑ i, dg i * v i ^ 2) + (Xᵀ *ᵥ v) ⬝ᵥ P *ᵥ (Xᵀ *ᵥ v) := by
      rw [hM0, Matrix.add_mulVec, dotProduct_add]
      congr 1
      · simp only [dotProduct, Matrix.mulVec_diagonal]
        apply Finset.sum_congr rfl
        intro i _; ring
      · rw [← Matrix.mulVec_mulVec, ← Matrix.mulVec_mulVec, Matrix.dotProduct_mulVec, ← Matrix.mulVec_transpose]
    have h3 : 0 ≤ (Xᵀ *ᵥ v) ⬝ᵥ P *ᵥ (Xᵀ *ᵥ v) := inv_nonneg_form hi hn _
    have h4 : ∀ i ∈ (Finset.univ : Finset (Fin B)), 0 ≤ dg i * v i ^ 2 := by
      intro i _
      exact mul_nonneg (pow_nonneg hl.le _) (sq_nonneg _)
    have h5 : ∑ i, dg i * v i ^ 2 = 0 := by
      have := Finset.sum_nonneg h4
      linarith
    rw [Finset.sum_eq_zero_iff_of_nonneg h4] at h5
    apply hv0
    funext i
    have h6 := h5 i (Finset.mem_univ i)
    have h7 : dg i ≠ 0 := (pow_pos hl _).ne'
    have : v i ^ 2 = 0 := by
      rcases mul_eq_zero.mp h6 with h | h
      · exact absurd h h7
      · exact h
    simpa using this
  have hunit : IsUnit M0.det := isUnit_iff_ne_zero.mpr hdet
  have hMM : M0 * M0⁻¹ = 1 := Matrix.mul_nonsing_inv _ hunit
  have hMis : (M0⁻¹)ᵀ = M0⁻¹ := by rw [Matrix.transpose_nonsing_inv, hM0s]
  unfold blockRlsStep
  simp only
  rw [hM0s, if_neg hdet]
  refine ⟨_, rfl, ?_⟩
  simp only
  have hpi : (P * Xᵀ)ᵀ = X * P := by rw [Matrix.transpose_mul, Matrix.transpose_transpose, hP]
  have hg : (M0⁻¹ * (P * Xᵀ)ᵀ)ᵀ = P * Xᵀ * M0⁻¹ := by
    rw [Matrix.transpose_mul, Matrix.transpose_transpose, hMis]
  rw [hg, hpi]
  have hRg : R * (P * Xᵀ * M0⁻¹) = Xᵀ * M0⁻¹ := by
    rw [← Matrix.mul_assoc, ← Matrix.mul_assoc, hi, Matrix.one_mul]
  have hXg : X * (P * Xᵀ * M0⁻¹) = 1 - diagonal dg * M0⁻¹ := by
    have : X * (P * Xᵀ) = M0 - diagonal dg := by rw [hM0]; simp
    rw [← Matrix.mul_assoc, this, Matrix.sub_mul, hMM]
  have hLD : diagonal la * diagonal dg = lmbd ^ B • (1 : Matrix (Fin B) (Fin B) ℝ) := by
    rw [Matrix.diagonal_mul_diagonal, ← Matrix.diagonal_one, ← Matrix.diagonal_smul]
    congr 1
    funext i
    simp only [hla, hdg, Pi.smul_apply, smul_eq_mul, mul_one]
    rw [← pow_add]
    congr 1
    have := i.isLt; omega
  have hD : Xᵀ * diagonal la * X * (P * Xᵀ * M0⁻¹) = Xᵀ * diagonal la - lmbd ^ B • (Xᵀ * M0⁻¹) := by
    rw [Matrix.mul_assoc (Xᵀ * diagonal la) X, hXg, Matrix.mul_sub, Matrix.mul_one, ← Matrix.mul_assoc,
      Matrix.mul_assoc Xᵀ (diagonal la) (diagonal dg), hLD, Matrix.mul_smul, Matrix.mul_one, Matrix.smul_mul]
  have hsum : (lmbd ^ B • R + Xᵀ * diagonal la * X) * (P * Xᵀ * M0⁻¹) = Xᵀ * diagonal la := by
    rw [Matrix.add_mul, Matrix.smul_mul, hRg, hD]
    abel
  have hlB : lmbd ^ B ≠ 0 := (pow_pos hl _).ne'
  constructor
  · rw [Matrix.mul_smul, Matrix.mul_sub, ← Matrix.mul_assoc, hsum, Matrix.add_mul, Matrix.smul_mul, hi,
      Matrix.mul_assoc (Xᵀ * diagonal la) X P, add_sub_cancel_right, smul_smul, inv_pow, inv_mul_cancel₀ hlB,
      one_smul]
  · rw [Matrix.mulVec_add, Matrix.mulVec_mulVec, hsum, Matrix.add_mulVec, Matrix.smul_mulVec, hw,
      Matrix.mulVec_sub, Matrix.mulVec_mulVec, add_assoc]
    congr 1
    rw [add_sub_cancel, ← Matrix.mulVec_mulVec]
    congr 1
    funext i
    rw [Matrix.mulVec_diagonal]

end Verif.Adaptive
