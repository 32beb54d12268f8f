import Verif.FriAlg.Model
import Mathlib.LinearAlgebra.Vandermonde
import Mathlib.Algebra.BigOperators.Fin
import Mathlib.Analysis.SpecialFunctions.Complex.Arg

namespace Verif.FriAlg

open Matrix ComplexConjugate

/-! ## Specification -/

/-- The entries of a complex array, zero outside. -/
noncomputable def get {n : ℕ} (v : Fin n → ℂ) (i : ℕ) : ℂ := if h : i < n then v ⟨i, h⟩ else 0

/-- The convolution of a filter with a sequence, where they overlap completely. -/
noncomputable def conv {L K : ℕ} (c : Fin (K + 1) → ℂ) (b : Fin L → ℂ) (i : ℕ) : ℂ := ∑ l : Fin (K + 1), c l * get b (K + i - l)

/-- Hermitian symmetry around the centre. -/
def Symm {n : ℕ} (v : Fin n → ℂ) : Prop := ∀ i : Fin n, v i.rev = conj (v i)

/-! ## Lemmas -/

theorem get_toC {n : ℕ} (v : Fin n ⊕ Fin n → ℝ) (i : ℕ) : get (toC v) i = ⟨arr (fun i => v (.inl i)) i, arr (fun i => v (.inr i)) i⟩ := by
  unfold get arr toC
  split <;> rfl

theorem toeplitz_apply (m n : ℕ) (c r : ℕ → ℝ) (i : Fin m) (j : Fin n) : toeplitz m n c r i j = if (j : ℕ) ≤ i then c (i - j) else r (j - i) := rfl

/-- The rows of the first Toeplitz matrix. -/
theorem toeplitz_b {L K : ℕ} (v : Fin L → ℝ) (x : Fin (K + 1) → ℝ) (i : Fin (L - K)) :
    (toeplitz (L - K) (K + 1) (fun i => arr v (K + i)) (fun i => arr v (K - i)) *ᵥ x) i = ∑ l : Fin (K + 1), x l * arr v (K + i - l) := by
  unfold Matrix.mulVec dotProduct
  refine Finset.sum_congr rfl fun l _ => ?_
  beta_reduce
  rw [toeplitz_apply, mul_comm]
  congr 1
  have := l.2
  split
  · congr 1
    omega
  · congr 1
    omega

/-- The rows of the second Toeplitz matrix. -/
theorem toeplitz_c {L K : ℕ} (v : Fin L → ℝ) (x : Fin (K + 1) → ℝ) (i : Fin (L - K)) :
    (toeplitz (L - K) L (fun i => if i = 0 then arr x K else 0) (fun i => if i ≤ K then arr x (K - i) else 0) *ᵥ v) i = ∑ l : Fin (K + 1), x l * arr v (K + i - l) := by
  have hi := i.2
  have h1 : ∀ j : Fin L, toeplitz (L - K) L (fun i => if i = 0 then arr x K else 0) (fun i => if i ≤ K then arr x (K - i) else 0) i j * v j =
      ∑ l : Fin (K + 1), if (j : ℕ) = K + i - l then x l * arr v (K + i - l) else 0 := by
    intro j
    have hj := j.2
    rw [toeplitz_apply]
    by_cases hr : (i : ℕ) ≤ j ∧ (j : ℕ) ≤ K + i
    · have hT : (if (j : ℕ) ≤ i then (if (i : ℕ) - j = 0 then arr x K else 0) else if (j : ℕ) - i ≤ K then arr x (K - (j - i)) else 0) = arr x (K + i - j) := by
        split_ifs
        · congr 1
          omega
        · omega
        · congr 1
          omega
        · omega
      have hv : arr v j = v j := by unfold arr; rw [dif_pos hj]
      have hx : arr x (K + i - j) = x ⟨K + i - j, by omega⟩ := by unfold arr; rw [dif_pos]
      rw [hT, Finset.sum_eq_single ⟨K + i - j, by omega⟩]
      · have e : K + (i : ℕ) - (K + i - j) = j := by omega
        simp only [e, if_true]
        rw [hv, hx]
      · intro l _ hl
        rw [if_neg]
        intro h
        apply hl
        ext
        simp only
        have := l.2
        omega
      · simp
    · rw [Finset.sum_eq_zero]
      · split
        · rw [if_neg (by omega), zero_mul]
        · rw [if_neg (by omega), zero_mul]
      · intro l _
        rw [if_neg]
        have := l.2
        omega
  unfold Matrix.mulVec dotProduct
  rw [Finset.sum_congr rfl fun j _ => h1 j, Finset.sum_comm]
  refine Finset.sum_congr rfl fun l _ => ?_
  have hl := l.2
  rw [Finset.sum_eq_single ⟨K + i - l, by omega⟩]
  · rw [if_pos rfl]
  · intro j _ hj
    rw [if_neg]
    intro h
    exact hj (Fin.ext h)
  · simp

theorem conv_parts {L K : ℕ} (c : Fin (K + 1) ⊕ Fin (K + 1) → ℝ) (b : Fin L ⊕ Fin L → ℝ) (i : ℕ) :
    (conv (toC c) (toC b) i).re = ∑ l : Fin (K + 1), c (.inl l) * arr (fun i => b (.inl i)) (K + i - l) - ∑ l : Fin (K + 1), c (.inr l) * arr (fun i => b (.inr i)) (K + i - l) ∧
    (conv (toC c) (toC b) i).im = ∑ l : Fin (K + 1), c (.inl l) * arr (fun i => b (.inr i)) (K + i - l) + ∑ l : Fin (K + 1), c (.inr l) * arr (fun i => b (.inl i)) (K + i - l) := by
  unfold conv
  simp only [get_toC]
  rw [Complex.re_sum, Complex.im_sum, ← Finset.sum_sub_distrib, ← Finset.sum_add_distrib]
  exact ⟨Finset.sum_congr rfl fun l _ => by simp [toC, Complex.mul_re], Finset.sum_congr rfl fun l _ => by simp [toC, Complex.mul_im]⟩

theorem tmtx_conv {L K : ℕ} {ι : Type*} [Fintype ι] (D : Matrix (Fin L ⊕ Fin L) ι ℝ) (b : ι → ℝ) (c : Fin (K + 1) ⊕ Fin (K + 1) → ℝ) (i : Fin (L - K)) :
    toC (tmtx K D b *ᵥ c) i = conv (toC c) (toC (D *ᵥ b)) i := by
  obtain ⟨h1, h2⟩ := conv_parts c (D *ᵥ b) i
  unfold tmtx
  simp only
  rw [fromBlocks_mulVec]
  apply Complex.ext
  · rw [h1]
    simp only [toC, Sum.elim_inl, Pi.add_apply, Matrix.neg_mulVec, Pi.neg_apply, toeplitz_b, Function.comp]
    ring
  · rw [h2]
    simp only [toC, Sum.elim_inr, Pi.add_apply, toeplitz_b, Function.comp]

theorem rmtx_conv {L K : ℕ} {ι : Type*} [Fintype ι] (D : Matrix (Fin L ⊕ Fin L) ι ℝ) (b : ι → ℝ) (c : Fin (K + 1) ⊕ Fin (K + 1) → ℝ) (i : Fin (L - K)) :
    toC (rmtx K D c *ᵥ b) i = conv (toC c) (toC (D *ᵥ b)) i := by
  obtain ⟨h1, h2⟩ := conv_parts c (D *ᵥ b) i
  unfold rmtx
  simp only
  rw [← Matrix.mulVec_mulVec, fromBlocks_mulVec]
  apply Complex.ext
  · rw [h1]
    simp only [toC, Sum.elim_inl, Pi.add_apply, Matrix.neg_mulVec, Pi.neg_apply, toeplitz_c]
    rw [show (D *ᵥ b) ∘ Sum.inl = fun i => (D *ᵥ b) (Sum.inl i) from rfl, show (D *ᵥ b) ∘ Sum.inr = fun i => (D *ᵥ b) (Sum.inr i) from rfl]
    ring
  · rw [h2]
    simp only [toC, Sum.elim_inr, Pi.add_apply, toeplitz_c]
    rw [show (D *ᵥ b) ∘ Sum.inl = fun i => (D *ᵥ b) (Sum.inl i) from rfl, show (D *ᵥ b) ∘ Sum.inr = fun i => (D *ᵥ b) (Sum.inr i) from rfl]
    ring

theorem toC_injective {n : ℕ} {v w : Fin n ⊕ Fin n → ℝ} (h : toC v = toC w) : v = w := by
  funext i
  cases i with
  | inl i => exact congrArg Complex.re (congrFun h i)
  | inr i => exact congrArg Complex.im (congrFun h i)

theorem arr_sum {m : ℕ} (x : Fin m → ℝ) (a : ℕ) (s : ℝ) : ∑ j : Fin m, (if (j : ℕ) = a then s else 0) * x j = s * arr x a := by
  unfold arr
  by_cases h : a < m
  · rw [dif_pos h, Finset.sum_eq_single ⟨a, h⟩]
    · rw [if_pos rfl]
    · intro j _ hj
      rw [if_neg (fun e => hj (Fin.ext e)), zero_mul]
    · simp
  · rw [dif_neg h, Finset.sum_eq_zero, mul_zero]
    intro j _
    rw [if_neg (fun e : (j : ℕ) = a => h (e ▸ j.2)), zero_mul]

/-- Matrices that mirror the entries, with the other sign for the imaginary parts. -/
theorem symm_spec {n h1 h2 K : ℕ} (hn : n = K + 1) (hh1 : h1 = K / 2 + 1) (hh2 : h2 = (K + 1) / 2) {A : Matrix (Fin n) (Fin h1) ℝ} {B : Matrix (Fin n) (Fin h2) ℝ}
    (hA : ∀ i j, A i j = if (j : ℕ) = min (i : ℕ) (K - i) then 1 else 0) (hB : ∀ i j, B i j = if (j : ℕ) = min (i : ℕ) (K - i) then (if (i : ℕ) ≤ K - i then 1 else -1) else 0) :
    (∀ x, Symm (toC (fromBlocks A 0 0 B *ᵥ x))) ∧ ∀ c : Fin n → ℂ, Symm c → ∃! x, toC (fromBlocks A 0 0 B *ᵥ x) = c := by
  have hval : ∀ x i, toC (fromBlocks A 0 0 B *ᵥ x) i = ⟨arr (fun j => x (.inl j)) (min (i : ℕ) (K - i)), (if (i : ℕ) ≤ K - i then 1 else -1) * arr (fun j => x (.inr j)) (min (i : ℕ) (K - i))⟩ := by
    intro x i
    unfold toC
    rw [fromBlocks_mulVec]
    simp only [Sum.elim_inl, Sum.elim_inr, Matrix.zero_mulVec, add_zero, zero_add]
    congr 1
    · unfold Matrix.mulVec dotProduct
      simp only [hA]
      rw [arr_sum, one_mul]
      rfl
    · unfold Matrix.mulVec dotProduct
      simp only [hB]
      rw [arr_sum]
      rfl
  have hrev : ∀ i : Fin n, (i.rev : ℕ) = K - i := by
    intro i
    rw [Fin.val_rev]
    omega
  constructor
  · intro x i
    rw [hval, hval, hrev]
    have hi := i.2
    rw [show K - (K - (i : ℕ)) = i by omega, min_comm (K - (i : ℕ)) i]
    apply Complex.ext
    · rw [Complex.conj_re]
    · rw [Complex.conj_im]
      simp only
      rcases lt_trichotomy (i : ℕ) (K - i) with h | h | h
      · rw [if_neg (by omega), if_pos h.le]
        ring
      · have : arr (fun j => x (.inr j)) (min (i : ℕ) (K - i)) = 0 := by
          unfold arr
          rw [dif_neg]
          omega
        rw [this]
        simp
      · rw [if_pos (by omega), if_neg (by omega)]
        ring
  · intro c hc
    refine ⟨Sum.elim (fun j => (c ⟨j, by have := j.2; omega⟩).re) (fun j => (c ⟨j, by have := j.2; omega⟩).im), ?_, ?_⟩
    · funext i
      have hi := i.2
      rw [hval]
      simp only [Sum.elim_inl, Sum.elim_inr]
      have hfull : arr (fun j : Fin h1 => (c ⟨j, by have := j.2; omega⟩).re) (min (i : ℕ) (K - i)) = (c ⟨min (i : ℕ) (K - i), by omega⟩).re := by
        unfold arr
        rw [dif_pos]
        omega
      have hlow : min (i : ℕ) (K - i) < h2 → arr (fun j : Fin h2 => (c ⟨j, by have := j.2; omega⟩).im) (min (i : ℕ) (K - i)) = (c ⟨min (i : ℕ) (K - i), by omega⟩).im := by
        intro h
        unfold arr
        rw [dif_pos h]
      rw [hfull]
      rcases lt_trichotomy (i : ℕ) (K - i) with h | h | h
      · rw [hlow (by omega), if_pos h.le, one_mul]
        have : (⟨min (i : ℕ) (K - i), by omega⟩ : Fin n) = i := Fin.ext (by simp only; omega)
        rw [this]
      · have e : (⟨min (i : ℕ) (K - i), by omega⟩ : Fin n) = i := Fin.ext (by simp only; omega)
        have e2 : i.rev = i := Fin.ext (by rw [hrev]; omega)
        have h3 := hc i
        rw [e2] at h3
        have h4 := Complex.conj_eq_iff_im.mp h3.symm
        rw [e]
        apply Complex.ext
        · rfl
        · rw [h4]
          have : arr (fun j : Fin h2 => (c ⟨j, by have := j.2; omega⟩).im) (min (i : ℕ) (K - i)) = 0 := by
            unfold arr
            rw [dif_neg]
            omega
          simp only
          rw [this, mul_zero]
      · rw [hlow (by omega), if_neg (by omega)]
        have e : (⟨min (i : ℕ) (K - i), by omega⟩ : Fin n) = i.rev := Fin.ext (by rw [hrev]; simp only; omega)
        rw [e, hc i]
        apply Complex.ext
        · simp
        · simp
    · intro x hx
      funext j
      cases j with
      | inl j =>
        have hj := j.2
        have := congrArg Complex.re (congrFun hx ⟨j, by omega⟩)
        rw [hval] at this
        simp only at this
        rw [show min (j : ℕ) (K - j) = j by omega] at this
        rw [Sum.elim_inl, ← this]
        unfold arr
        rw [dif_pos hj]
      | inr j =>
        have hj := j.2
        have := congrArg Complex.im (congrFun hx ⟨j, by omega⟩)
        rw [hval] at this
        simp only at this
        rw [show min (j : ℕ) (K - j) = j by omega, if_pos (by omega), one_mul] at this
        rw [Sum.elim_inr, ← this]
        unfold arr
        rw [dif_pos hj]

theorem conv_symm {L K : ℕ} {c : Fin (K + 1) → ℂ} {b : Fin L → ℂ} (hc : Symm c) (hb : Symm b) (i : ℕ) (hi : i < L - K) : conv c b (L - K - 1 - i) = conj (conv c b i) := by
  unfold conv
  rw [map_sum, ← Equiv.sum_comp Fin.revPerm]
  refine Finset.sum_congr rfl fun l _ => ?_
  have hl := l.2
  rw [map_mul, Fin.revPerm_apply, hc l, Fin.val_rev]
  congr 1
  have h1 : K + (L - K - 1 - i) - (K + 1 - ((l : ℕ) + 1)) < L := by omega
  have h2 : K + i - l < L := by omega
  unfold get
  rw [dif_pos h1, dif_pos h2, ← hb]
  congr 1
  ext
  rw [Fin.val_rev]
  simp only
  omega

theorem shrink_zero {o : ℕ} {u : Fin o ⊕ Fin o → ℝ} (hu : Symm (toC u)) : shrink o *ᵥ u = 0 ↔ ∀ i, toC u i = 0 := by
  have hval : ∀ (m : ℕ) (hm : m ≤ o) (x : Fin o → ℝ) (i : Fin m), (mtx m o (fun i j => if j < m then eye i j else 0) *ᵥ x) i = x ⟨i, by have := i.2; omega⟩ := by
    intro m hm x i
    unfold Matrix.mulVec dotProduct mtx eye
    have hi := i.2
    rw [Finset.sum_eq_single ⟨i, by omega⟩]
    · simp
    · intro j _ hj
      have : (i : ℕ) ≠ j := fun e => hj (Fin.ext e.symm)
      simp [this]
    · simp
  have h1 : shrink o *ᵥ u = 0 ↔ (∀ i : Fin ((o + 1) / 2), u (.inl ⟨i, by have := i.2; omega⟩) = 0) ∧ ∀ i : Fin (o / 2), u (.inr ⟨i, by have := i.2; omega⟩) = 0 := by
    unfold shrink
    rw [fromBlocks_mulVec]
    simp only [Matrix.zero_mulVec, add_zero, zero_add]
    constructor
    · intro h
      constructor
      · intro i
        have := congrFun h (.inl i)
        rw [Sum.elim_inl, hval _ (by omega)] at this
        exact this
      · intro i
        have := congrFun h (.inr i)
        rw [Sum.elim_inr, hval _ (by omega)] at this
        exact this
    · rintro ⟨ha, hb⟩
      funext i
      cases i with
      | inl i =>
        rw [Sum.elim_inl, hval _ (by omega)]
        exact ha i
      | inr i =>
        rw [Sum.elim_inr, hval _ (by omega)]
        exact hb i
  rw [h1]
  constructor
  · rintro ⟨ha, hb⟩
    have hlow : ∀ i : Fin o, (i : ℕ) < (o + 1) / 2 → toC u i = 0 := by
      intro i hi
      have hre : u (.inl i) = 0 := ha ⟨i, hi⟩
      by_cases h : (i : ℕ) < o / 2
      · have him : u (.inr i) = 0 := hb ⟨i, h⟩
        exact Complex.ext hre him
      · have e : i.rev = i := Fin.ext (by rw [Fin.val_rev]; have := i.2; omega)
        have h3 := hu i
        rw [e] at h3
        exact Complex.ext hre (Complex.conj_eq_iff_im.mp h3.symm)
    intro i
    by_cases h : (i : ℕ) < (o + 1) / 2
    · exact hlow i h
    · have h3 := hu i
      rw [hlow i.rev (by rw [Fin.val_rev]; have := i.2; omega)] at h3
      exact (map_eq_zero _).mp h3.symm
  · intro h
    exact ⟨fun i => congrArg Complex.re (h _), fun i => congrArg Complex.im (h _)⟩

/-! ## Theorems -/

/-- `cpx_mtx2real`: products with complex matrices by real numbers. -/
theorem C119_real {m n : ℕ} (A : Matrix (Fin m) (Fin n) ℂ) (x : Fin n ⊕ Fin n → ℝ) : toC (cpxMtx2real A *ᵥ x) = A *ᵥ toC x := by
  funext i
  unfold cpxMtx2real
  rw [fromBlocks_mulVec]
  unfold toC Matrix.mulVec dotProduct
  apply Complex.ext
  · rw [Complex.re_sum]
    simp only [Sum.elim_inl, Pi.add_apply]
    rw [← Finset.sum_add_distrib]
    refine Finset.sum_congr rfl fun j _ => ?_
    simp [Complex.mul_re]
    ring
  · rw [Complex.im_sum]
    simp only [Sum.elim_inr, Pi.add_apply]
    rw [← Finset.sum_add_distrib]
    refine Finset.sum_congr rfl fun j _ => ?_
    simp [Complex.mul_im]
    ring

/-- `hermitian_expan`: every sequence with Hermitian symmetry, and only these, from exactly one vector of real numbers. -/
theorem C119_sequence (M : ℕ) : (∀ x, Symm (toC (hermD (M + 1) *ᵥ x))) ∧ ∀ b, Symm b → ∃! x, toC (hermD (M + 1) *ᵥ x) = b := by
  refine symm_spec (K := 2 * M) (by omega) (by omega) (by omega) ?_ ?_
  · intro i j
    have hi := i.2
    have hj := j.2
    unfold herm1 mtx vstack dropRow revCols eye
    rw [Matrix.of_apply]
    split_ifs <;> first | rfl | omega
  · intro i j
    have hi := i.2
    have hj := j.2
    unfold herm2 mtx vstack dropRow revCols eye
    rw [Matrix.of_apply]
    split_ifs <;> first | rfl | omega | (simp; omega)

/-- `coef_expan_mtx`: the same for filters of even and odd length. -/
theorem C119_filter (K : ℕ) : (∀ x, Symm (toC (coefD K *ᵥ x))) ∧ ∀ c, Symm c → ∃! x, toC (coefD K *ᵥ x) = c := by
  refine symm_spec (K := K) rfl rfl rfl ?_ ?_
  · intro i j
    have hi := i.2
    have hj := j.2
    unfold coef1
    split
    · unfold mtx vstack dropRow revCols eye
      rw [Matrix.of_apply]
      split_ifs <;> first | rfl | omega
    · unfold mtx vstack revCols eye
      rw [Matrix.of_apply]
      split_ifs <;> first | rfl | omega
  · intro i j
    have hi := i.2
    have hj := j.2
    unfold coef2
    split
    · unfold mtx vstack dropRow revCols eye
      rw [Matrix.of_apply]
      split_ifs <;> first | rfl | omega | (simp; omega)
    · unfold mtx vstack revCols eye
      rw [Matrix.of_apply]
      split_ifs <;> first | rfl | omega | (simp; omega)

/-- `Tmtx_ri` and `Rmtx_ri` are dual: both give the convolution of the filter with the sequence. -/
theorem C119_dual {L K : ℕ} {ι : Type*} [Fintype ι] (D : Matrix (Fin L ⊕ Fin L) ι ℝ) (b : ι → ℝ) (c : Fin (K + 1) ⊕ Fin (K + 1) → ℝ) :
    tmtx K D b *ᵥ c = rmtx K D c *ᵥ b ∧ ∀ i : Fin (L - K), toC (tmtx K D b *ᵥ c) i = conv (toC c) (toC (D *ᵥ b)) i :=
  ⟨toC_injective (funext fun i => by rw [tmtx_conv, rmtx_conv]), tmtx_conv D b c⟩

/-- The reduced matrices are dual, too, and the reduced product vanishes exactly if the convolution does. -/
theorem C119_half (M K : ℕ) (b : Fin (M + 1) ⊕ Fin (M + 1 - 1) → ℝ) (c : Fin (K / 2 + 1) ⊕ Fin ((K + 1) / 2) → ℝ) :
    tmtxHalf M K b *ᵥ c = rmtxHalf M K c *ᵥ b ∧ (tmtxHalf M K b *ᵥ c = 0 ↔ ∀ i < 2 * M + 1 - K, conv (toC (coefD K *ᵥ c)) (toC (hermD (M + 1) *ᵥ b)) i = 0) := by
  have hT : tmtxHalf M K b *ᵥ c = shrink (2 * (M + 1) - 1 - K) *ᵥ (tmtx K (hermD (M + 1)) b *ᵥ (coefD K *ᵥ c)) := by
    unfold tmtxHalf
    rw [Matrix.mulVec_mulVec, Matrix.mulVec_mulVec, Matrix.mul_assoc]
  have hR : rmtxHalf M K c *ᵥ b = shrink (2 * (M + 1) - 1 - K) *ᵥ (rmtx K (hermD (M + 1)) (coefD K *ᵥ c) *ᵥ b) := by
    unfold rmtxHalf
    rw [Matrix.mulVec_mulVec]
  obtain ⟨hd, hv⟩ := C119_dual (K := K) (hermD (M + 1)) b (coefD K *ᵥ c)
  refine ⟨by rw [hT, hR, hd], ?_⟩
  rw [hT, shrink_zero]
  · constructor
    · intro h i hi
      have := h ⟨i, by omega⟩
      rw [hv] at this
      exact this
    · intro h i
      rw [hv]
      exact h i (by have := i.2; omega)
  · intro i
    rw [hv, hv, Fin.val_rev]
    have hi := i.2
    rw [show 2 * (M + 1) - 1 - K - ((i : ℕ) + 1) = 2 * (M + 1) - 1 - K - 1 - i by omega]
    exact conv_symm ((C119_filter K).1 c) ((C119_sequence M).1 b) i hi

theorem poly_eval {K : ℕ} (c : Fin (K + 1) → ℂ) (u : ℂ) : (poly c).eval u = ∑ l : Fin (K + 1), c l * u ^ (K - (l : ℕ)) := by
  unfold poly
  rw [Polynomial.eval_finsetSum]
  simp only [Polynomial.eval_monomial]

theorem poly_coeff {K : ℕ} (c : Fin (K + 1) → ℂ) (l : Fin (K + 1)) : (poly c).coeff (K - (l : ℕ)) = c l := by
  unfold poly
  rw [Polynomial.finsetSum_coeff, Finset.sum_eq_single l]
  · rw [Polynomial.coeff_monomial, if_pos rfl]
  · intro j _ hj
    rw [Polynomial.coeff_monomial, if_neg]
    intro h
    apply hj
    ext
    have := j.2
    have := l.2
    omega
  · simp

/-- The samples of the sinusoids, times the values of the polynomial. -/
theorem conv_exp {K n M : ℕ} (c : Fin (K + 1) → ℂ) {psi : Fin n → ℝ} {alpha : Fin n → ℂ} {b : Fin (2 * M + 1) → ℂ}
    (hb : ∀ i : Fin (2 * M + 1), b i = ∑ k, alpha k * Complex.exp (-Complex.I * ((((i : ℕ) : ℝ) - M) * psi k : ℝ))) (i : ℕ) (hi : i < 2 * M + 1 - K) :
    conv c b i = ∑ k, alpha k * Complex.exp (Complex.I * ((M : ℝ) * psi k : ℝ)) * (poly c).eval (Complex.exp (-Complex.I * (psi k : ℝ))) * Complex.exp (-Complex.I * (psi k : ℝ)) ^ i := by
  have h1 : ∀ (m : ℕ) (_ : m < 2 * M + 1), get b m = ∑ k, alpha k * Complex.exp (Complex.I * ((M : ℝ) * psi k : ℝ)) * Complex.exp (-Complex.I * (psi k : ℝ)) ^ m := by
    intro m hm
    unfold get
    rw [dif_pos hm, hb]
    refine Finset.sum_congr rfl fun k _ => ?_
    rw [mul_assoc, ← Complex.exp_nat_mul, ← Complex.exp_add]
    congr 2
    push_cast
    ring
  unfold conv
  have h2 : ∀ l : Fin (K + 1), c l * get b (K + i - l) = ∑ k, alpha k * Complex.exp (Complex.I * ((M : ℝ) * psi k : ℝ)) * (c l * Complex.exp (-Complex.I * (psi k : ℝ)) ^ (K - (l : ℕ))) * Complex.exp (-Complex.I * (psi k : ℝ)) ^ i := by
    intro l
    have hl := l.2
    rw [h1 _ (by omega), Finset.mul_sum]
    refine Finset.sum_congr rfl fun k _ => ?_
    rw [show K + i - (l : ℕ) = (K - l) + i by omega, pow_add]
    ring
  rw [Finset.sum_congr rfl fun l _ => h2 l, Finset.sum_comm]
  refine Finset.sum_congr rfl fun k _ => ?_
  rw [poly_eval, ← Finset.sum_mul, ← Finset.mul_sum]

/-- A filter whose polynomial vanishes at the sinusoids annihilates their samples. -/
theorem C119_annihilate {K n M : ℕ} (c : Fin (K + 1) → ℂ) {psi : Fin n → ℝ} {alpha : Fin n → ℂ} {b : Fin (2 * M + 1) → ℂ}
    (hb : ∀ i : Fin (2 * M + 1), b i = ∑ k, alpha k * Complex.exp (-Complex.I * ((((i : ℕ) : ℝ) - M) * psi k : ℝ)))
    (hc : ∀ k, ∑ l : Fin (K + 1), c l * Complex.exp (-Complex.I * (psi k : ℝ)) ^ (K - (l : ℕ)) = 0) (i : ℕ) (hi : i < 2 * M + 1 - K) : conv c b i = 0 := by
  rw [conv_exp c hb i hi]
  refine Finset.sum_eq_zero fun k _ => ?_
  rw [poly_eval, hc k]
  ring

/-- The angles of a unit number give back the azimuth. -/
theorem angle_back {phi : ℝ} (h0 : 0 ≤ phi) (h1 : phi < 2 * Real.pi) {u : ℂ} (hu : u = Complex.exp (-Complex.I * ((phi + Real.pi : ℝ) : ℂ))) :
    Frida.toDoa (-Complex.arg (u / (‖u‖ : ℂ)) - 2 * Real.pi * ⌊-Complex.arg (u / (‖u‖ : ℂ)) / (2 * Real.pi)⌋) = phi := by
  have hpi := Real.two_pi_pos
  have hnorm : ‖u‖ = 1 := by
    rw [hu, show -Complex.I * ((phi + Real.pi : ℝ) : ℂ) = ((-(phi + Real.pi) : ℝ) : ℂ) * Complex.I by push_cast; ring]
    exact Complex.norm_exp_ofReal_mul_I _
  rw [hnorm, Complex.ofReal_one, div_one]
  have harg : u = Complex.exp (Complex.arg u * Complex.I) := by
    conv_lhs => rw [← Complex.norm_mul_exp_arg_mul_I u, hnorm]
    simp
  rw [hu] at harg
  rw [← hu] at harg
  have h2 : Complex.exp (-Complex.I * ((phi + Real.pi : ℝ) : ℂ)) = Complex.exp (Complex.arg u * Complex.I) := by rw [← hu]; exact harg
  obtain ⟨m, hm⟩ := Complex.exp_eq_exp_iff_exists_int.mp h2
  have h3 : -(phi + Real.pi) = Complex.arg u + m * (2 * Real.pi) := by
    have := congrArg Complex.im hm
    simp at this
    linarith
  have harg2 : Complex.arg u = -(phi + Real.pi) - m * (2 * Real.pi) := by linarith
  set f := ⌊-Complex.arg u / (2 * Real.pi)⌋
  unfold Frida.toDoa
  set y := -Complex.arg u - 2 * Real.pi * f - Real.pi with hy
  have hf1 := Int.floor_le (y / (2 * Real.pi))
  have hf2 := Int.lt_floor_add_one (y / (2 * Real.pi))
  rw [le_div_iff₀ hpi] at hf1
  rw [div_lt_iff₀ hpi] at hf2
  set g := ⌊y / (2 * Real.pi)⌋
  have hval : y - 2 * Real.pi * g = phi + 2 * Real.pi * ((m - f - g : ℤ) : ℝ) := by
    rw [hy, harg2]
    push_cast
    ring
  rw [hval]
  have hz : m - f - g = 0 := by
    have ha : 0 ≤ phi + 2 * Real.pi * ((m - f - g : ℤ) : ℝ) := by rw [← hval]; linarith
    have hb : phi + 2 * Real.pi * ((m - f - g : ℤ) : ℝ) < 2 * Real.pi := by rw [← hval]; linarith
    have h5 : ((m - f - g : ℤ) : ℝ) < 1 := by
      by_contra hc
      have := mul_le_mul_of_nonneg_left (not_lt.mp hc) hpi.le
      linarith
    have h6 : -1 < ((m - f - g : ℤ) : ℝ) := by
      by_contra hc
      have := mul_le_mul_of_nonneg_left (not_lt.mp hc) hpi.le
      linarith
    have h7 : m - f - g < 1 := by exact_mod_cast h5
    have h8 : -1 < m - f - g := by exact_mod_cast h6
    omega
  rw [hz]
  simp

/-- If the samples are those of `K` sources at different azimuths (with the propagation directions half a turn away), then every filter that annihilates them, other than zero, gives exactly
these azimuths: `M` at least `K` is enough, as `pt_src_recon_multiband` asserts. -/
theorem C119_recover {K M : ℕ} (hKM : K ≤ M) {c : Fin (K + 1) → ℂ} (hc : c ≠ 0) {phi : Fin K → ℝ} (hinj : Function.Injective phi) (hrange : ∀ k, 0 ≤ phi k ∧ phi k < 2 * Real.pi)
    {alpha : Fin K → ℂ} (halpha : ∀ k, alpha k ≠ 0) {b : Fin (2 * M + 1) → ℂ}
    (hb : ∀ i : Fin (2 * M + 1), b i = ∑ k, alpha k * Complex.exp (-Complex.I * ((((i : ℕ) : ℝ) - M) * (phi k + Real.pi) : ℝ))) (hann : ∀ i < 2 * M + 1 - K, conv c b i = 0) :
    azimuths c = Finset.univ.val.map phi := by
  have hpi := Real.two_pi_pos
  set u : Fin K → ℂ := fun k => Complex.exp (-Complex.I * ((phi k + Real.pi : ℝ) : ℂ)) with hu
  have huinj : Function.Injective u := by
    intro k l h
    have h1 := angle_back (hrange k).1 (hrange k).2 (u := u k) rfl
    have h2 := angle_back (hrange l).1 (hrange l).2 (u := u l) rfl
    rw [h] at h1
    exact hinj (h1.symm.trans h2)
  have hroot : ∀ k, (poly c).eval (u k) = 0 := by
    have hz : (fun k => alpha k * Complex.exp (Complex.I * ((M : ℝ) * (phi k + Real.pi) : ℝ)) * (poly c).eval (u k)) = 0 := by
      apply Matrix.eq_zero_of_forall_pow_sum_mul_pow_eq_zero huinj
      intro i
      have := hann i (by have := i.2; omega)
      rw [conv_exp c hb i (by have := i.2; omega)] at this
      exact this
    intro k
    have := congrFun hz k
    simp only [Pi.zero_apply, mul_eq_zero, Complex.exp_ne_zero, or_false] at this
    exact this.resolve_left (halpha k)
  have hne : poly c ≠ 0 := by
    intro h
    apply hc
    funext l
    rw [← poly_coeff c l, h]
    simp
  have hdeg : (poly c).natDegree ≤ K := by
    unfold poly
    refine Polynomial.natDegree_sum_le_of_forall_le _ _ fun l _ => ?_
    exact le_trans (Polynomial.natDegree_monomial_le _) (by omega)
  have hroots : (poly c).roots = Finset.univ.val.map u := by
    symm
    apply Multiset.eq_of_le_of_card_le
    · rw [Multiset.le_iff_subset ((Multiset.nodup_map_iff_of_injective huinj).mpr Finset.univ.nodup)]
      intro x hx
      obtain ⟨k, _, rfl⟩ := Multiset.mem_map.mp hx
      exact (Polynomial.mem_roots hne).mpr (hroot k)
    · rw [Multiset.card_map]
      refine le_trans (Polynomial.card_roots' _) ?_
      simpa using hdeg
  unfold azimuths
  rw [hroots, Multiset.map_map]
  refine Multiset.map_congr rfl fun k _ => ?_
  exact angle_back (hrange k).1 (hrange k).2 rfl

/-! ## Examples -/

/-- Two sources, `M = 2`, the filter with the two roots. -/
example (phi : Fin 2 → ℝ) (h : phi = ![1, 2]) (u : Fin 2 → ℂ) (hu : u = fun k => Complex.exp (-Complex.I * ((phi k + Real.pi : ℝ) : ℂ))) :
    azimuths (K := 2) ![1, -(u 0 + u 1), u 0 * u 1] = {1, 2} := by
  have hpi := Real.two_le_pi
  rw [C119_recover (M := 2) (b := fun i => ∑ k, 1 * Complex.exp (-Complex.I * ((((i : ℕ) : ℝ) - (2 : ℕ)) * (phi k + Real.pi) : ℝ))) (alpha := fun _ => 1) (phi := phi) le_rfl ?_ ?_ ?_ (fun _ => one_ne_zero)
    (fun i => rfl) ?_]
  · rw [h]
    rfl
  · intro hc
    have := congrFun hc 0
    simp at this
  · intro a b hab
    rw [h] at hab
    fin_cases a <;> fin_cases b <;> simp_all
  · intro k
    rw [h]
    fin_cases k <;> constructor <;> norm_num <;> linarith
  · refine C119_annihilate _ (fun i => rfl) ?_
    intro k
    have hk : Complex.exp (-Complex.I * ((phi k + Real.pi : ℝ) : ℂ)) = u k := by rw [hu]
    rw [hk, Fin.sum_univ_three]
    fin_cases k <;> simp <;> ring

/-- A sequence with Hermitian symmetry. -/
example : ∃! x, toC (hermD (1 + 1) *ᵥ x) = (![⟨1, 2⟩, 3, ⟨1, -2⟩] : Fin 3 → ℂ) := by
  refine (C119_sequence 1).2 _ ?_
  intro i
  fin_cases i
  · exact Complex.ext rfl rfl
  · exact Complex.ext rfl (by simp [Fin.rev])
  · exact Complex.ext rfl (by simp [Fin.rev])

example : ∃! x, toC (coefD 1 *ᵥ x) = (![⟨1, 2⟩, ⟨1, -2⟩] : Fin 2 → ℂ) := by
  refine (C119_filter 1).2 _ ?_
  intro i
  fin_cases i
  · exact Complex.ext rfl rfl
  · exact Complex.ext rfl (by simp [Fin.rev])

end Verif.FriAlg
