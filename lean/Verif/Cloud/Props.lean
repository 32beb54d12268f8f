import Verif.Cloud.Model
import Mathlib.LinearAlgebra.Matrix.Rank
import Mathlib.LinearAlgebra.Matrix.NonsingularInverse
import Mathlib.LinearAlgebra.Matrix.Diagonal
import Mathlib.Data.Fin.Rev
import Mathlib.Tactic.LinearCombination
import Mathlib.Tactic.FieldSimp
import Mathlib.Tactic.FinCases
import Mathlib.Data.Fin.Tuple.Sort
import Verif.Angles.Props

/-!
# C101: point clouds

Small specification: the squared distance of two columns; clouds with the same distances.
-/

namespace Verif.Cloud

open Verif.Py Finset

/-- The squared distance of two points. -/
def dist2 {d m : Nat} (X : Fin d → Fin m → ℝ) (i j : Fin m) : ℝ := ∑ k, (X k i - X k j) ^ 2

/-- Two clouds with the same distances. -/
def Congruent {d e m : Nat} (X : Fin d → Fin m → ℝ) (Y : Fin e → Fin m → ℝ) : Prop := ∀ i j, dist2 Y i j = dist2 X i j

/-- **C101, distance matrix.** `EDM` has the squared distances of the points. -/
theorem C101_edm {d m : Nat} (X : Fin d → Fin m → ℝ) (i j : Fin m) : edm X i j = dist2 X i j := by
  unfold edm dist2
  simp only [one_mul, mul_one]
  rw [mul_sum, ← sum_sub_distrib, ← sum_add_distrib]
  exact sum_congr rfl fun k _ => by ring

/-! ## Multidimensional scaling -/

/-- `np.linalg.eig` for a matrix with a basis of real eigenvectors: eigenvectors of norm one, independent. Nothing is said about their angles. -/
structure IsEig {n : Nat} (G : Fin n → Fin n → ℝ) (s : Fin n → ℝ) (U : Fin n → Fin n → ℝ) : Prop where
  eq : ∀ i k, ∑ j, G i j * U j k = s k * U i k
  unit : ∀ k, ∑ i, U i k ^ 2 = 1
  basis : IsUnit (Matrix.of U)

/-- A cloud minus its centre. -/
noncomputable def centred {d m : Nat} (X : Fin d → Fin m → ℝ) : Fin d → Fin m → ℝ := fun k i => X k i - (∑ a, X k a) / m

theorem centring_sum {n : Nat} (hn : n ≠ 0) (i : Fin n) : ∑ a, centring n i a = 0 := by
  have hN : (n : ℝ) ≠ 0 := by exact_mod_cast hn
  unfold centring
  rw [sum_sub_distrib, sum_ite_eq, if_pos (mem_univ _), sum_const, card_univ, Fintype.card_fin, nsmul_eq_mul]
  field_simp
  ring

theorem centring_symm {n : Nat} (i j : Fin n) : centring n i j = centring n j i := by
  unfold centring
  simp only [eq_comm]

theorem centring_apply {d n : Nat} (X : Fin d → Fin n → ℝ) (k : Fin d) (i : Fin n) : ∑ a, centring n i a * X k a = centred X k i := by
  unfold centring centred
  simp only [sub_mul, ite_mul, one_mul, zero_mul]
  rw [sum_sub_distrib, sum_ite_eq, if_pos (mem_univ _), ← mul_sum]
  ring

theorem gram_edm {d n : Nat} (X : Fin d → Fin n → ℝ) (i j : Fin n) : gramOf (edm X) i j = ∑ k, centred X k i * centred X k j := by
  have hn : n ≠ 0 := by
    rintro rfl
    exact i.elim0
  have h1 : mul (centring n) (mul (edm X) (centring n)) i j = ∑ a, ∑ b, centring n i a * edm X a b * centring n j b := by
    unfold mul
    apply sum_congr rfl
    intro a _
    rw [mul_sum]
    exact sum_congr rfl fun b _ => by rw [centring_symm b j]; ring
  have h2 : ∀ a b, centring n i a * edm X a b * centring n j b =
      centring n i a * ((∑ k, X k b * X k b) * centring n j b) + (centring n i a * ∑ k, X k a * X k a) * centring n j b - 2 * ∑ k, (centring n i a * X k a) * (centring n j b * X k b) := by
    intro a b
    unfold edm
    simp only
    have : ∑ k, (centring n i a * X k a) * (centring n j b * X k b) = centring n i a * centring n j b * ∑ k, X k a * X k b := by
      rw [mul_sum]
      exact sum_congr rfl fun k _ => by ring
    rw [this]
    ring
  have h3 : ∑ a, ∑ b, centring n i a * ((∑ k, X k b * X k b) * centring n j b) = 0 := by
    simp only [← mul_sum]
    rw [← sum_mul, centring_sum hn, zero_mul]
  have h4 : ∑ a, ∑ b, (centring n i a * ∑ k, X k a * X k a) * centring n j b = 0 := by
    simp only [← mul_sum]
    rw [← sum_mul, centring_sum hn, mul_zero]
  have h5 : ∑ a, ∑ b, 2 * ∑ k, (centring n i a * X k a) * (centring n j b * X k b) = 2 * ∑ k, centred X k i * centred X k j := by
    simp only [← mul_sum]
    congr 1
    have : ∀ a : Fin n, ∑ b, ∑ k, (centring n i a * X k a) * (centring n j b * X k b) = ∑ k, (centring n i a * X k a) * centred X k j := by
      intro a
      rw [sum_comm]
      exact sum_congr rfl fun k _ => by rw [← mul_sum, centring_apply]
    rw [sum_congr rfl fun a _ => this a, sum_comm]
    exact sum_congr rfl fun k _ => by rw [← sum_mul, centring_apply]
  unfold gramOf
  rw [h1]
  simp only [h2, sum_add_distrib, sum_sub_distrib]
  rw [h3, h4, h5]
  ring

theorem dist2_centred {d m : Nat} (X : Fin d → Fin m → ℝ) (i j : Fin m) : dist2 (centred X) i j = dist2 X i j := by
  unfold dist2 centred
  exact sum_congr rfl fun k _ => by ring

theorem dist2_gram {d m : Nat} (X : Fin d → Fin m → ℝ) (i j : Fin m) : dist2 X i j = ∑ k, X k j * X k j - 2 * ∑ k, X k i * X k j + ∑ k, X k i * X k i := by
  unfold dist2
  rw [mul_sum, ← sum_sub_distrib, ← sum_add_distrib]
  exact sum_congr rfl fun k _ => by ring

section Eig

variable {d n : Nat} {Z : Fin d → Fin n → ℝ} {s : Fin n → ℝ} {U : Fin n → Fin n → ℝ}

theorem eig_nonneg (h : IsEig (fun i j => ∑ k, Z k i * Z k j) s U) (k : Fin n) : 0 ≤ s k := by
  have h1 : s k = ∑ i, U i k * ∑ j, (∑ l, Z l i * Z l j) * U j k := by
    rw [sum_congr rfl fun i _ => by rw [h.eq i k]]
    have : ∑ i, U i k * (s k * U i k) = s k * ∑ i, U i k ^ 2 := by
      rw [mul_sum]
      exact sum_congr rfl fun i _ => by ring
    rw [this, h.unit, mul_one]
  have h2 : ∑ i, U i k * ∑ j, (∑ l, Z l i * Z l j) * U j k = ∑ l, (∑ i, Z l i * U i k) ^ 2 := by
    have e1 : ∀ i : Fin n, U i k * ∑ j, (∑ l, Z l i * Z l j) * U j k = ∑ l, (Z l i * U i k) * ∑ j, Z l j * U j k := by
      intro i
      have : ∑ j, (∑ l, Z l i * Z l j) * U j k = ∑ l, Z l i * ∑ j, Z l j * U j k := by
        simp only [sum_mul]
        rw [sum_comm]
        apply sum_congr rfl
        intro l _
        rw [mul_sum]
        exact sum_congr rfl fun j _ => by ring
      rw [this, mul_sum]
      exact sum_congr rfl fun l _ => by ring
    rw [sum_congr rfl fun i _ => e1 i, sum_comm]
    exact sum_congr rfl fun l _ => by rw [← sum_mul, sq]
  rw [h1, h2]
  exact sum_nonneg fun l _ => sq_nonneg _

theorem eig_count (h : IsEig (fun i j => ∑ k, Z k i * Z k j) s U) : (univ.filter fun k => s k ≠ 0).card ≤ d := by
  set G : Matrix (Fin n) (Fin n) ℝ := Matrix.of fun i j => ∑ k, Z k i * Z k j with hG
  have hGZ : G = (Matrix.of Z).transpose * Matrix.of Z := by
    ext i j
    simp [hG, Matrix.mul_apply]
  have hGU : G * Matrix.of U = Matrix.of U * Matrix.diagonal s := by
    ext i k
    rw [Matrix.mul_apply, Matrix.mul_diagonal]
    simp only [hG, Matrix.of_apply]
    rw [h.eq i k]
    ring
  have hr : (Matrix.diagonal s).rank ≤ G.rank := by
    have hd : IsUnit (Matrix.of U).det := (Matrix.isUnit_iff_isUnit_det _).mp h.basis
    rw [← Matrix.rank_mul_eq_right_of_isUnit_det (Matrix.of U) (Matrix.diagonal s) hd, ← hGU]
    exact Matrix.rank_mul_le_left _ _
  have hr2 : G.rank ≤ d := by
    rw [hGZ]
    refine (Matrix.rank_mul_le_right _ _).trans ?_
    simpa using Matrix.rank_le_card_height (Matrix.of Z)
  rw [Matrix.rank_diagonal] at hr
  have : (univ.filter fun k => s k ≠ 0).card = Fintype.card { i // s i ≠ 0 } := by
    rw [Fintype.card_subtype]
  omega

/-- Different eigenvalues of a symmetric matrix have orthogonal eigenvectors. -/
theorem eig_orthogonal (h : IsEig (fun i j => ∑ k, Z k i * Z k j) s U) {k l : Fin n} (hkl : s k ≠ s l) : ∑ i, U i k * U i l = 0 := by
  have h1 : s k * ∑ i, U i k * U i l = s l * ∑ i, U i k * U i l := by
    have e1 : s k * ∑ i, U i k * U i l = ∑ i, ∑ j, (∑ t, Z t i * Z t j) * U j k * U i l := by
      rw [mul_sum]
      apply sum_congr rfl
      intro i _
      rw [← sum_mul, h.eq i k]
      ring
    have e2 : s l * ∑ i, U i k * U i l = ∑ i, ∑ j, (∑ t, Z t i * Z t j) * U j l * U i k := by
      rw [mul_sum]
      apply sum_congr rfl
      intro i _
      rw [← sum_mul, h.eq i l]
      ring
    rw [e1, e2, sum_comm]
    apply sum_congr rfl
    intro i _
    apply sum_congr rfl
    intro j _
    rw [show ∑ t, Z t j * Z t i = ∑ t, Z t i * Z t j from sum_congr rfl fun t _ => mul_comm _ _]
    ring
  by_contra hne
  exact hkl (mul_right_cancel₀ hne h1)

/-- Positive eigenvalues that are repeated, if any, come with orthogonal eigenvectors. Holds if there are none. -/
def Separated (s : Fin n → ℝ) (U : Fin n → Fin n → ℝ) : Prop := ∀ k l, k ≠ l → 0 < s k → s k = s l → ∑ i, U i k * U i l = 0

theorem eig_expand (h : IsEig (fun i j => ∑ k, Z k i * Z k j) s U) (hsep : Separated s U) (i j : Fin n) : ∑ k, s k * (U i k * U j k) = ∑ k, Z k i * Z k j := by
  set G : Matrix (Fin n) (Fin n) ℝ := Matrix.of fun i j => ∑ k, Z k i * Z k j with hG
  set P : Matrix (Fin n) (Fin n) ℝ := Matrix.of fun i j => ∑ k, s k * (U i k * U j k) with hP
  have key : P * Matrix.of U = G * Matrix.of U := by
    ext a l
    rw [Matrix.mul_apply, Matrix.mul_apply]
    simp only [hG, hP, Matrix.of_apply]
    rw [h.eq a l]
    have e1 : ∑ b, (∑ k, s k * (U a k * U b k)) * U b l = ∑ k, s k * U a k * ∑ b, U b k * U b l := by
      simp only [sum_mul, mul_sum]
      rw [sum_comm]
      exact sum_congr rfl fun k _ => sum_congr rfl fun b _ => by ring
    rw [e1, sum_eq_single l]
    · have : ∑ b, U b l * U b l = 1 := by
        rw [← h.unit l]
        exact sum_congr rfl fun b _ => by ring
      rw [this, mul_one]
    · intro k _ hk
      rcases eq_or_lt_of_le (eig_nonneg h k) with h0 | h0
      · rw [← h0]
        ring
      · by_cases hs : s k = s l
        · rw [hsep k l hk h0 hs, mul_zero]
        · rw [eig_orthogonal h hs, mul_zero]
    · intro hl
      exact absurd (mem_univ _) hl
  have hPG : P = G := by
    obtain ⟨u, hu⟩ := h.basis
    have := congrArg (· * (↑u⁻¹ : Matrix (Fin n) (Fin n) ℝ)) key
    simp only [Matrix.mul_assoc] at this
    rw [← hu, Units.mul_inv, Matrix.mul_one, Matrix.mul_one] at this
    exact this
  have := congrFun (congrFun hPG i) j
  simpa [hP, hG] using this

end Eig

/-- Decreasing numbers, at most `d` of them different from zero: those from `d` on are zero. -/
theorem sorted_tail {n d : Nat} {s : Fin n → ℝ} (ha : Antitone s) (h0 : ∀ k, 0 ≤ s k) (hc : (univ.filter fun k => s k ≠ 0).card ≤ d) (k : Fin n) (hk : d ≤ k.1) : s k = 0 := by
  by_contra hne
  have hpos : 0 < s k := lt_of_le_of_ne (h0 k) (Ne.symm hne)
  have hsub : Finset.Iic k ⊆ univ.filter fun k => s k ≠ 0 := by
    intro l hl
    rw [mem_filter]
    refine ⟨mem_univ _, ?_⟩
    have := ha (mem_Iic.mp hl)
    intro h
    linarith
  have := card_le_card hsub
  rw [Fin.card_Iic] at this
  omega

/-- **C101, multidimensional scaling.** From the distances of any points in dimension `d ≤ dim`, `classical_mds` gives points with these distances, for all eigenvectors as specified, if the positive
eigenvalues are different or their eigenvectors are orthogonal. -/
theorem C101_mds {d n : Nat} (X : Fin d → Fin n → ℝ) {dim : Nat} (hd : d ≤ dim) {eig : (Fin n → Fin n → ℝ) → (Fin n → ℝ) × (Fin n → Fin n → ℝ)}
    (heig : IsEig (gramOf (edm X)) (eig (gramOf (edm X))).1 (eig (gramOf (edm X))).2) (hsep : Separated (eig (gramOf (edm X))).1 (eig (gramOf (edm X))).2)
    {argsort : (Fin n → ℝ) → Equiv.Perm (Fin n)} (hsort : ∀ x, Monotone (x ∘ argsort x)) :
    ∃ Y, classicalMds eig argsort dim (edm X) = some Y ∧ Congruent X Y := by
  have hgram : gramOf (edm X) = fun i j => ∑ k, centred X k i * centred X k j := by
    funext i j
    exact gram_edm X i j
  set s0 := (eig (gramOf (edm X))).1 with hs0
  set U0 := (eig (gramOf (edm X))).2 with hU0
  have he : IsEig (fun i j => ∑ k, centred X k i * centred X k j) s0 U0 := by
    rw [← hgram]
    exact heig
  set σ : Equiv.Perm (Fin n) := Fin.revPerm.trans (argsort s0) with hσ
  have hs : ∀ k : Fin n, s0 ((argsort s0) k.rev) = s0 (σ k) := fun k => rfl
  have hanti : Antitone fun k => s0 (σ k) := by
    intro a b hab
    exact hsort s0 (Fin.rev_le_rev.mpr hab)
  have hcount : (univ.filter fun k => s0 (σ k) ≠ 0).card ≤ d := by
    refine le_trans (le_of_eq ?_) (eig_count he)
    apply card_bij (fun k _ => σ k)
    · intro k hk
      simpa using hk
    · intro a _ b _ hab
      exact σ.injective hab
    · intro b hb
      exact ⟨σ.symm b, by simpa using hb, by simp⟩
  have hzero : ∀ k : Fin n, d ≤ k.1 → s0 (σ k) = 0 := sorted_tail hanti (fun k => eig_nonneg he _) hcount
  unfold classicalMds
  simp only
  rw [if_neg]
  · have hrow : ∀ (k : Fin (min dim n)) (i : Fin n), ∑ l : Fin n, Real.sqrt (if k.1 = l.1 then s0 ((argsort s0) l.rev) else 0) * U0 i ((argsort s0) l.rev) =
        Real.sqrt (s0 (σ ⟨k.1, by omega⟩)) * U0 i (σ ⟨k.1, by omega⟩) := by
      intro k i
      rw [sum_eq_single (⟨k.1, by omega⟩ : Fin n)]
      · rw [if_pos rfl]
        rfl
      · intro l _ hl
        rw [if_neg, Real.sqrt_zero, zero_mul]
        intro hkl
        exact hl (Fin.ext hkl.symm)
      · intro hl
        exact absurd (mem_univ _) hl
    refine ⟨_, congrArg some (funext fun k => funext fun i => hrow k i), ?_⟩
    have hg : ∀ i j, ∑ k : Fin (min dim n), (Real.sqrt (s0 (σ ⟨k.1, by omega⟩)) * U0 i (σ ⟨k.1, by omega⟩)) * (Real.sqrt (s0 (σ ⟨k.1, by omega⟩)) * U0 j (σ ⟨k.1, by omega⟩)) =
        ∑ k, centred X k i * centred X k j := by
      intro i j
      rw [← eig_expand he hsep i j]
      set f : ℕ → ℝ := fun k => if h : k < n then s0 (σ ⟨k, h⟩) * (U0 i (σ ⟨k, h⟩) * U0 j (σ ⟨k, h⟩)) else 0 with hf
      have e1 : ∑ k : Fin (min dim n), (Real.sqrt (s0 (σ ⟨k.1, by omega⟩)) * U0 i (σ ⟨k.1, by omega⟩)) * (Real.sqrt (s0 (σ ⟨k.1, by omega⟩)) * U0 j (σ ⟨k.1, by omega⟩)) = ∑ k : Fin (min dim n), f k.1 := by
        apply sum_congr rfl
        intro k _
        have hk : k.1 < n := by omega
        simp only [hf]
        rw [dif_pos hk]
        have := Real.mul_self_sqrt (eig_nonneg he (σ ⟨k.1, hk⟩))
        linear_combination (U0 i (σ ⟨k.1, hk⟩) * U0 j (σ ⟨k.1, hk⟩)) * this
      have e2 : ∑ k, s0 k * (U0 i k * U0 j k) = ∑ k : Fin n, f k.1 := by
        rw [← Equiv.sum_comp σ]
        apply sum_congr rfl
        intro k _
        simp only [hf]
        rw [dif_pos k.2]
      rw [e1, e2, Fin.sum_univ_eq_sum_range f, Fin.sum_univ_eq_sum_range f]
      apply sum_subset
      · intro k hk
        rw [mem_range] at *
        omega
      · intro k hk1 hk2
        rw [mem_range] at hk1 hk2
        simp only [hf]
        rw [dif_pos hk1, hzero ⟨k, hk1⟩ (by simp only; omega), zero_mul]
    intro i j
    rw [← dist2_centred X, dist2_gram, dist2_gram (centred X)]
    rw [hg, hg, hg]
  · rintro ⟨k, l, hkl⟩
    split at hkl
    · exact absurd (eig_nonneg he _) (not_le.mpr hkl)
    · exact lt_irrefl _ hkl

/-- Two points on a line. -/
example : IsEig (gramOf (edm (fun (_ : Fin 1) (i : Fin 2) => ![-1, 1] i))) ![2, 0] ![![1 / Real.sqrt 2, 1 / Real.sqrt 2], ![-1 / Real.sqrt 2, 1 / Real.sqrt 2]] ∧
    Separated ![2, 0] ![![1 / Real.sqrt 2, 1 / Real.sqrt 2], ![-1 / Real.sqrt 2, 1 / Real.sqrt 2]] := by
  have h2 : Real.sqrt 2 * Real.sqrt 2 = 2 := Real.mul_self_sqrt (by norm_num)
  have h0 : Real.sqrt 2 ≠ 0 := by positivity
  refine ⟨⟨?_, ?_, ?_⟩, ?_⟩
  · intro i k
    simp only [gram_edm]
    fin_cases i <;> fin_cases k <;> simp [centred, Fin.sum_univ_two] <;> ring
  · intro k
    fin_cases k <;> simp [Fin.sum_univ_two, div_pow] <;> norm_num
  · rw [Matrix.isUnit_iff_isUnit_det, Matrix.det_fin_two, isUnit_iff_ne_zero]
    simp only [Matrix.of_apply, Matrix.cons_val_zero, Matrix.cons_val_one]
    intro h
    field_simp at h
    norm_num at h
  · intro k l hkl h1 h3
    fin_cases k <;> fin_cases l <;> simp at hkl h1 h3

/-- **C101, deviation.** The eigenvectors are from `np.linalg.eig`, which does not make them orthogonal. For the corners of an equilateral triangle, the positive eigenvalue is double: with unit eigenvectors
that are not orthogonal the distances are lost. -/
theorem C101_mds_repeated_deviation :
    ∃ (X : Fin 2 → Fin 3 → ℝ) (eig : (Fin 3 → Fin 3 → ℝ) → (Fin 3 → ℝ) × (Fin 3 → Fin 3 → ℝ)) (argsort : (Fin 3 → ℝ) → Equiv.Perm (Fin 3)) (Y : Fin (min 2 3) → Fin 3 → ℝ),
      IsEig (gramOf (edm X)) (eig (gramOf (edm X))).1 (eig (gramOf (edm X))).2 ∧ (∀ x, Monotone (x ∘ argsort x)) ∧ classicalMds eig argsort 2 (edm X) = some Y ∧ ¬ Congruent X Y := by
  have h2 : Real.sqrt 2 * Real.sqrt 2 = 2 := Real.mul_self_sqrt (by norm_num)
  have h3 : Real.sqrt 3 * Real.sqrt 3 = 3 := Real.mul_self_sqrt (by norm_num)
  have h20 : Real.sqrt 2 ≠ 0 := by positivity
  have h30 : Real.sqrt 3 ≠ 0 := by positivity
  set X : Fin 2 → Fin 3 → ℝ := ![![0, 1, 1 / 2], ![0, 0, Real.sqrt 3 / 2]] with hX
  set s : Fin 3 → ℝ := ![0, 1 / 2, 1 / 2] with hs
  set U : Fin 3 → Fin 3 → ℝ := ![![1 / Real.sqrt 3, 1 / Real.sqrt 2, 1 / Real.sqrt 2], ![1 / Real.sqrt 3, -1 / Real.sqrt 2, 0], ![1 / Real.sqrt 3, 0, -1 / Real.sqrt 2]] with hU
  have hD : edm X = fun i j => if i = j then 0 else 1 := by
    funext i j
    rw [C101_edm]
    unfold dist2
    fin_cases i <;> fin_cases j <;> simp [hX, Fin.sum_univ_two] <;> nlinarith
  have hG : gramOf (edm X) = fun i j => if i = j then 1 / 3 else -1 / 6 := by
    rw [hD]
    funext i j
    unfold gramOf mul centring
    fin_cases i <;> fin_cases j <;> simp [Fin.sum_univ_three] <;> norm_num
  have hmono : Monotone s := by
    intro a b hab
    fin_cases a <;> fin_cases b <;> simp [hs] at hab ⊢
  have hid : Tuple.sort s = Equiv.refl _ := Tuple.sort_eq_refl_iff_monotone.mpr hmono
  refine ⟨X, fun _ => (s, U), fun x => Tuple.sort x, fun k i => ∑ l : Fin 3, Real.sqrt (if k.1 = l.1 then s l.rev else 0) * U i l.rev, ?_, fun x => Tuple.monotone_sort x, ?_, ?_⟩
  · rw [hG]
    refine ⟨?_, ?_, ?_⟩
    · intro i k
      fin_cases i <;> fin_cases k <;> simp [Fin.sum_univ_three, hs, hU] <;> ring
    · intro k
      fin_cases k <;> simp [Fin.sum_univ_three, hU, div_pow] <;> norm_num
    · rw [Matrix.isUnit_iff_isUnit_det, Matrix.det_fin_three, isUnit_iff_ne_zero]
      simp [hU]
      intro h
      field_simp at h
      norm_num at h
  · unfold classicalMds
    simp only [hid, Equiv.refl_apply]
    rw [if_neg]
    rintro ⟨k, l, hkl⟩
    split at hkl
    · fin_cases l <;> simp [hs] at hkl <;> norm_num at hkl
    · exact lt_irrefl _ hkl
  · intro h
    have h12 := h 1 2
    rw [← C101_edm X, hD] at h12
    have hq : Real.sqrt (1 / 2) * Real.sqrt (1 / 2) = 1 / 2 := Real.mul_self_sqrt (by norm_num)
    have hi : (1 / Real.sqrt 2) * (1 / Real.sqrt 2) = 1 / 2 := by
      rw [div_mul_div_comm, h2]
      norm_num
    have : dist2 (fun (k : Fin 2) i => ∑ l : Fin 3, Real.sqrt (if k.1 = l.1 then s l.rev else 0) * U i l.rev) 1 2 = 1 / 2 := by
      have r0 : (0 : Fin 3).rev = 2 := rfl
      have r1 : (1 : Fin 3).rev = 1 := rfl
      have r2 : (2 : Fin 3).rev = 0 := rfl
      unfold dist2
      rw [Fin.sum_univ_two]
      simp only [Fin.sum_univ_three, r0, r1, r2]
      have e1 : s 2 = 1 / 2 := rfl
      have e2 : s 1 = 1 / 2 := rfl
      have u1 : U 1 2 = 0 := rfl
      have u2 : U 2 2 = -1 / Real.sqrt 2 := rfl
      have u3 : U 1 1 = -1 / Real.sqrt 2 := rfl
      have u4 : U 2 1 = 0 := rfl
      simp only [Fin.val_zero, Fin.val_one, Fin.val_two, if_true, if_false, zero_ne_one, one_ne_zero, OfNat.zero_ne_ofNat, OfNat.one_ne_ofNat, e1, e2, u1, u2, u3, u4, Real.sqrt_zero]
      have : (Real.sqrt (1 / 2) * (-1 / Real.sqrt 2)) ^ 2 = 1 / 4 := by
        rw [mul_pow, div_pow, sq (Real.sqrt (1 / 2)), hq, sq (Real.sqrt 2), h2]
        norm_num
      nlinarith
    have e : dist2 (fun (k : Fin (min 2 3)) i => ∑ l : Fin 3, Real.sqrt (if k.1 = l.1 then s l.rev else 0) * U i l.rev) 1 2 = 1 / 2 := this
    rw [e] at h12
    simp only [show ((1 : Fin 3) = 2) = False from by decide, if_false] at h12
    norm_num at h12

/-- **C101, shapes.** An array that is not square raises `ValueError`; the cloud from a square one is that of `classical_mds`. -/
theorem C101_from_edm {r c : Nat} (eig : (Fin r → Fin r → ℝ) → (Fin r → ℝ) × (Fin r → Fin r → ℝ)) (argsort : (Fin r → ℝ) → Equiv.Perm (Fin r)) (dim : Nat) :
    (r ≠ c → ∀ D : Fin r → Fin c → ℝ, fromEdm eig argsort dim D = .error .valueError) ∧ ∀ D : Fin r → Fin r → ℝ, fromEdm eig argsort dim D = .ok (classicalMds eig argsort dim D) := by
  refine ⟨fun h D => ?_, fun D => ?_⟩
  · unfold fromEdm
    rw [dif_pos h]
  · unfold fromEdm
    rw [dif_neg (by simp)]
    rfl

/-- **C101, deviation.** The method `'tri'` always raises; in the plane, with two points or more, a name that is not defined. -/
theorem C101_trilateration_deviation (dim m : Nat) : (∃ e, trilateration dim m = .error e) ∧ (dim = 2 → 2 ≤ m → trilateration dim m = .error .nameError) := by
  unfold trilateration
  refine ⟨?_, fun h1 h2 => ?_⟩
  · split
    · exact ⟨_, rfl⟩
    · split <;> exact ⟨_, rfl⟩
  · rw [if_neg (by omega), if_neg (by omega)]

/-- **C101, labels.** One label per point, or an error; the default labels are the numbers. A label refers to its first occurrence. -/
theorem C101_labels (m : Nat) : (∀ l : List String, l.length ≠ m → labelsOf m (some l) = .error .valueError) ∧ (∀ l : List String, l.length = m → labelsOf m (some l) = .ok l) ∧
    (∃ l, labelsOf m none = .ok l ∧ l.length = m ∧ ∀ k, k < m → l[k]? = some (toString k)) ∧
    ∀ (l : List String) (s : String) (i : Int), key2ind true l (.label s) = .ok i → ∃ k : Nat, i = k ∧ l[k]? = some s ∧ ∀ j, j < k → l[j]? ≠ some s := by
  refine ⟨fun l h => by simp [labelsOf, h], fun l h => by simp [labelsOf, h], ⟨_, rfl, by simp, fun k hk => by simp [hk]⟩, ?_⟩
  intro l s i h
  unfold key2ind at h
  simp only [Bool.true_eq_false, if_false] at h
  split at h
  · rename_i hmem
    cases h
    refine ⟨_, rfl, List.getElem?_idxOf hmem, fun j hj hjs => ?_⟩
    have hjl := List.getElem?_eq_some_iff.mp hjs
    obtain ⟨hlt, he⟩ := hjl
    have := List.not_of_lt_findIdx (p := (· == s)) (xs := l) (i := j) hj
    simp [he] at this
  · cases h

/-! ## Motions -/

theorem arctan2_cos (y x : ℝ) : Real.sqrt (x ^ 2 + y ^ 2) * Real.cos (arctan2 y x) = x := Verif.Angles.arctan2_cos y x

theorem arctan2_sin (y x : ℝ) : Real.sqrt (x ^ 2 + y ^ 2) * Real.sin (arctan2 y x) = y := Verif.Angles.arctan2_sin y x

theorem rot_norm (θ : ℝ) (p q : ℝ × ℝ) : ((rot θ p).1 - (rot θ q).1) ^ 2 + ((rot θ p).2 - (rot θ q).2) ^ 2 = (p.1 - q.1) ^ 2 + (p.2 - q.2) ^ 2 := by
  unfold rot
  simp only
  linear_combination ((p.1 - q.1) ^ 2 + (p.2 - q.2) ^ 2) * Real.sin_sq_add_cos_sq θ

theorem rot_self (x y : ℝ) : rot (arctan2 y x) (x, y) = (Real.sqrt (x ^ 2 + y ^ 2), 0) := by
  have h1 := arctan2_cos y x
  have h2 := arctan2_sin y x
  have h3 := Real.sin_sq_add_cos_sq (arctan2 y x)
  unfold rot
  simp only [Prod.mk.injEq]
  generalize hr : Real.sqrt (x ^ 2 + y ^ 2) = r at h1 h2 ⊢
  generalize Real.cos (arctan2 y x) = c at h1 h3 ⊢
  generalize Real.sin (arctan2 y x) = t at h2 h3 ⊢
  subst h1 h2
  constructor
  · linear_combination r * h3
  · ring

theorem rot_zero (θ : ℝ) : rot θ (0, 0) = (0, 0) := by
  simp [rot]

/-- **C101, normalisation in the plane.** The distances are kept, the first reference is at the origin, the second on the positive half of the first axis, the third above it. -/
theorem C101_normalize2 {m : Nat} {labels : List String} (X : Fin 2 → Fin m → ℝ) {refs : Option (List Ref)} {rs : List Int} (hrs : key2inds true labels (refs.getD [.num 0, .num 1, .num 2, .num 3]) = .ok rs)
    (hlen : 3 ≤ rs.length) {r0 r1 r2 : Fin m} (h0 : refAt m rs 0 = .ok r0) (h1 : refAt m rs 1 = .ok r1) (h2 : refAt m rs 2 = .ok r2) :
    ∃ Y, normalizeAt2 true labels X refs = .ok Y ∧ Congruent X Y ∧ (∀ k, Y k r0 = 0) ∧ (0 ≤ Y 0 r1 ∧ Y 1 r1 = 0) ∧ 0 ≤ Y 1 r2 := by
  refine ⟨normalize2 X r0 r1 r2, ?_, ?_⟩
  · unfold normalizeAt2
    rw [hrs]
    simp only [Except.bind]
    rw [if_neg (by omega), h0]
    simp only
    rw [h1]
    simp only
    rw [h2]
    rfl
  set θ := arctan2 (X 1 r1 - X 1 r0) (X 0 r1 - X 0 r0) with hθ
  have hsign : ∃ ε : ℝ, (ε = 1 ∨ ε = -1) ∧ (∀ i, normalize2 X r0 r1 r2 0 i = (rot θ (X 0 i - X 0 r0, X 1 i - X 1 r0)).1 ∧ normalize2 X r0 r1 r2 1 i = ε * (rot θ (X 0 i - X 0 r0, X 1 i - X 1 r0)).2) ∧
      0 ≤ ε * (rot θ (X 0 r2 - X 0 r0, X 1 r2 - X 1 r0)).2 := by
    by_cases h : (rot θ (X 0 r2 - X 0 r0, X 1 r2 - X 1 r0)).2 < 0
    · refine ⟨-1, Or.inr rfl, fun i => ?_, by linarith⟩
      unfold normalize2
      simp only [Matrix.cons_val_zero, Matrix.cons_val_one, ← hθ]
      rw [if_pos h]
      simp
    · refine ⟨1, Or.inl rfl, fun i => ?_, by linarith [not_lt.mp h]⟩
      unfold normalize2
      simp only [Matrix.cons_val_zero, Matrix.cons_val_one, ← hθ]
      rw [if_neg h]
      simp
  obtain ⟨ε, hε, hY, hpos⟩ := hsign
  have hε2 : ε ^ 2 = 1 := by rcases hε with h | h <;> rw [h] <;> norm_num
  refine ⟨fun i j => ?_, fun k => ?_, ?_, ?_⟩
  · unfold dist2
    rw [Fin.sum_univ_two, Fin.sum_univ_two, (hY i).1, (hY i).2, (hY j).1, (hY j).2]
    have := rot_norm θ (X 0 i - X 0 r0, X 1 i - X 1 r0) (X 0 j - X 0 r0, X 1 j - X 1 r0)
    simp only at this
    linear_combination this + ((rot θ (X 0 i - X 0 r0, X 1 i - X 1 r0)).2 - (rot θ (X 0 j - X 0 r0, X 1 j - X 1 r0)).2) ^ 2 * hε2
  · fin_cases k
    · change normalize2 X r0 r1 r2 0 r0 = 0
      rw [(hY r0).1, sub_self, sub_self, rot_zero]
    · change normalize2 X r0 r1 r2 1 r0 = 0
      rw [(hY r0).2, sub_self, sub_self, rot_zero, mul_zero]
  · rw [(hY r1).1, (hY r1).2, hθ, rot_self]
    exact ⟨Real.sqrt_nonneg _, by simp⟩
  · rw [(hY r2).2]
    exact hpos

/-- What `normalize3` does, coordinate by coordinate. -/
theorem normalize3_eq {m : Nat} (X : Fin 3 → Fin m → ℝ) (r0 r1 r2 r3 : Fin m) : ∃ θ φ ε : ℝ, (ε = 1 ∨ ε = -1) ∧ θ = arctan2 (X 1 r1 - X 1 r0) (X 0 r1 - X 0 r0) ∧
    φ = arctan2 (X 2 r2 - X 2 r0) (rot θ (X 0 r2 - X 0 r0, X 1 r2 - X 1 r0)).2 ∧
    (∀ i, normalize3 X r0 r1 r2 r3 0 i = (rot θ (X 0 i - X 0 r0, X 1 i - X 1 r0)).1 ∧
      normalize3 X r0 r1 r2 r3 1 i = (rot φ ((rot θ (X 0 i - X 0 r0, X 1 i - X 1 r0)).2, X 2 i - X 2 r0)).1 ∧
      normalize3 X r0 r1 r2 r3 2 i = ε * (rot φ ((rot θ (X 0 i - X 0 r0, X 1 i - X 1 r0)).2, X 2 i - X 2 r0)).2) ∧
    0 ≤ ε * (rot φ ((rot θ (X 0 r3 - X 0 r0, X 1 r3 - X 1 r0)).2, X 2 r3 - X 2 r0)).2 := by
  set θ := arctan2 (X 1 r1 - X 1 r0) (X 0 r1 - X 0 r0) with hθ
  set φ := arctan2 (X 2 r2 - X 2 r0) (rot θ (X 0 r2 - X 0 r0, X 1 r2 - X 1 r0)).2 with hφ
  by_cases h : (rot φ ((rot θ (X 0 r3 - X 0 r0, X 1 r3 - X 1 r0)).2, X 2 r3 - X 2 r0)).2 < 0
  · refine ⟨θ, φ, -1, Or.inr rfl, rfl, rfl, fun i => ?_, by linarith⟩
    unfold normalize3
    simp only [Matrix.cons_val_zero, Matrix.cons_val_one, Matrix.cons_val, ← hθ, ← hφ]
    rw [if_pos h]
    simp
  · refine ⟨θ, φ, 1, Or.inl rfl, rfl, rfl, fun i => ?_, by linarith [not_lt.mp h]⟩
    unfold normalize3
    simp only [Matrix.cons_val_zero, Matrix.cons_val_one, Matrix.cons_val, ← hθ, ← hφ]
    rw [if_neg h]
    simp

/-- **C101, normalisation in space.** The distances are kept, the first reference is at the origin, the third in the plane of the first two axes, the fourth above it. The second is on the first axis
if it has the height of the first. -/
theorem C101_normalize3 {m : Nat} {labels : List String} (X : Fin 3 → Fin m → ℝ) {refs : Option (List Ref)} {rs : List Int} (hrs : key2inds true labels (refs.getD [.num 0, .num 1, .num 2, .num 3]) = .ok rs)
    (hlen : 4 ≤ rs.length) {r0 r1 r2 r3 : Fin m} (h0 : refAt m rs 0 = .ok r0) (h1 : refAt m rs 1 = .ok r1) (h2 : refAt m rs 2 = .ok r2) (h3 : refAt m rs 3 = .ok r3) :
    ∃ Y, normalizeAt3 true labels X refs = .ok Y ∧ Congruent X Y ∧ (∀ k, Y k r0 = 0) ∧ (0 ≤ Y 1 r2 ∧ Y 2 r2 = 0) ∧ 0 ≤ Y 2 r3 ∧ 0 ≤ Y 0 r1 ∧ (X 2 r1 = X 2 r0 → Y 1 r1 = 0 ∧ Y 2 r1 = 0) := by
  refine ⟨normalize3 X r0 r1 r2 r3, ?_, ?_⟩
  · unfold normalizeAt3
    rw [hrs]
    simp only [Except.bind]
    rw [if_neg (by omega), h0]
    simp only
    rw [h1]
    simp only
    rw [h2]
    simp only
    rw [h3]
    rfl
  obtain ⟨θ, φ, ε, hε, hθ, hφ, hY, hpos⟩ := normalize3_eq X r0 r1 r2 r3
  have hε2 : ε ^ 2 = 1 := by rcases hε with h | h <;> rw [h] <;> norm_num
  refine ⟨fun i j => ?_, fun k => ?_, ?_, ?_, ?_, fun hz => ?_⟩
  · unfold dist2
    rw [Fin.sum_univ_three, Fin.sum_univ_three, (hY i).1, (hY i).2.1, (hY i).2.2, (hY j).1, (hY j).2.1, (hY j).2.2]
    have e1 := rot_norm θ (X 0 i - X 0 r0, X 1 i - X 1 r0) (X 0 j - X 0 r0, X 1 j - X 1 r0)
    have e2 := rot_norm φ ((rot θ (X 0 i - X 0 r0, X 1 i - X 1 r0)).2, X 2 i - X 2 r0) ((rot θ (X 0 j - X 0 r0, X 1 j - X 1 r0)).2, X 2 j - X 2 r0)
    simp only at e1 e2
    linear_combination e1 + e2 + ((rot φ ((rot θ (X 0 i - X 0 r0, X 1 i - X 1 r0)).2, X 2 i - X 2 r0)).2 - (rot φ ((rot θ (X 0 j - X 0 r0, X 1 j - X 1 r0)).2, X 2 j - X 2 r0)).2) ^ 2 * hε2
  · fin_cases k
    · change normalize3 X r0 r1 r2 r3 0 r0 = 0
      rw [(hY r0).1, sub_self, sub_self, rot_zero]
    · change normalize3 X r0 r1 r2 r3 1 r0 = 0
      rw [(hY r0).2.1, sub_self, sub_self, sub_self, rot_zero, rot_zero]
    · change normalize3 X r0 r1 r2 r3 2 r0 = 0
      rw [(hY r0).2.2, sub_self, sub_self, sub_self, rot_zero, rot_zero, mul_zero]
  · rw [(hY r2).2.1, (hY r2).2.2, hφ, rot_self]
    exact ⟨Real.sqrt_nonneg _, by simp⟩
  · rw [(hY r3).2.2]
    exact hpos
  · rw [(hY r1).1, hθ, rot_self]
    exact Real.sqrt_nonneg _
  · rw [(hY r1).2.1, (hY r1).2.2, hz, sub_self, hθ, rot_self, rot_zero, mul_zero]
    exact ⟨rfl, rfl⟩

/-- **C101, deviation.** In space, the second reference is not on the first axis in general: only the first two coordinates are used for the first rotation. -/
theorem C101_normalize_axis_deviation : ∃ X : Fin 3 → Fin 4 → ℝ, ∃ Y, normalizeAt3 true ["0", "1", "2", "3"] X none = .ok Y ∧ Y 2 1 ≠ 0 := by
  set X : Fin 3 → Fin 4 → ℝ := ![![0, 1, 0, 0], ![0, 0, 1, 0], ![0, 1, 0, 1]] with hX
  refine ⟨X, normalize3 X 0 1 2 3, rfl, ?_⟩
  obtain ⟨θ, φ, ε, hε, hθ, hφ, hY, hpos⟩ := normalize3_eq X 0 1 2 3
  have ha : arctan2 0 1 = 0 := by
    unfold arctan2
    exact Complex.arg_one
  have hθ0 : θ = 0 := by
    rw [hθ]
    simp [hX, ha]
  have hφ0 : φ = 0 := by
    rw [hφ, hθ0]
    simp [hX, rot, ha]
  rw [(hY 1).2.2, hθ0, hφ0]
  simp [hX, rot]
  rcases hε with h | h <;> rw [h] <;> norm_num

/-- **C101, references.** Fewer than three references in the plane, fewer than four in space: `ValueError`. -/
theorem C101_few_references {m : Nat} {labels : List String} {refs : List Ref} {rs : List Int} (hrs : key2inds true labels refs = .ok rs) :
    (rs.length < 3 → ∀ X : Fin 2 → Fin m → ℝ, normalizeAt2 true labels X (some refs) = .error .valueError) ∧
      (rs.length < 4 → ∀ X : Fin 3 → Fin m → ℝ, normalizeAt3 true labels X (some refs) = .error .valueError) := by
  refine ⟨fun h X => ?_, fun h X => ?_⟩
  · unfold normalizeAt2
    rw [Option.getD_some, hrs]
    simp only [Except.bind]
    rw [if_pos h]
  · unfold normalizeAt3
    rw [Option.getD_some, hrs]
    simp only [Except.bind]
    rw [if_pos h]

/-- **C101, deviation.** The type of the axis is taken from the marker: a marker by label with an axis by number raises `ValueError`, a marker by number with an axis by name `IndexError`. -/
theorem C101_axis_type_deviation {m : Nat} {labels : List String} (X : Fin 3 → Fin m → ℝ) (s ax : String) (n a : Int) :
    (s ∈ labels → alignAt3 true labels X (.label s) (.num a) = .error .valueError) ∧ alignAt3 true labels X (.num n) (.name ax) = .error .indexError := by
  refine ⟨fun h => ?_, ?_⟩
  · simp [alignAt3, key2ind, h, axisOf, Except.bind]
  · simp [alignAt3, key2ind, axisOf, Except.bind]

/-- **C101, translation.** The distances are kept and the marker is at the origin. -/
theorem C101_center {d m : Nat} {labels : List String} (X : Fin d → Fin m → ℝ) {marker : Ref} {i : Int} (hi : key2ind true labels marker = .ok i) {c : Fin m} (hc : column m i = .ok c) :
    ∃ Y, center true labels X marker = .ok Y ∧ Congruent X Y ∧ ∀ k, Y k c = 0 := by
  refine ⟨fun k j => X k j - X k c, ?_, fun i j => ?_, fun k => sub_self _⟩
  · unfold center
    rw [hi]
    simp only [Except.bind]
    rw [hc]
    rfl
  · unfold dist2
    exact sum_congr rfl fun k _ => by ring

theorem swapRows_two {m : Nat} (Y : Fin 3 → Fin m → ℝ) : swapRows Y 2 = Y := by
  unfold swapRows
  simp

/-- **C101, rotation about the third axis.** The distances and the heights are kept, and the marker is above or below the positive half of the first axis. -/
theorem C101_align {m : Nat} {labels : List String} (X : Fin 3 → Fin m → ℝ) {marker : Ref} {axis : Axis} {i a : Int} (hi : key2ind true labels marker = .ok i) {c : Fin m} (hc : column m i = .ok c)
    (ha : axisOf marker axis = .ok a) (ha2 : column 3 a = .ok 2) :
    ∃ Y, alignAt3 true labels X marker axis = .ok Y ∧ Congruent X Y ∧ Y 2 = X 2 ∧ 0 ≤ Y 0 c ∧ Y 1 c = 0 := by
  refine ⟨align3 X 2 c, ?_, ?_⟩
  · unfold alignAt3
    rw [hi]
    simp only [Except.bind]
    rw [ha]
    simp only
    rw [ha2]
    simp only
    rw [hc]
    rfl
  set θ := arctan2 (X 1 c) (X 0 c) with hθ
  have hY : ∀ j, align3 X 2 c 0 j = (rot θ (X 0 j, X 1 j)).1 ∧ align3 X 2 c 1 j = (rot θ (X 0 j, X 1 j)).2 ∧ align3 X 2 c 2 j = X 2 j := by
    intro j
    unfold align3
    simp only [swapRows_two]
    exact ⟨rfl, rfl, rfl⟩
  refine ⟨fun i j => ?_, funext fun j => (hY j).2.2, ?_, ?_⟩
  · unfold dist2
    rw [Fin.sum_univ_three, Fin.sum_univ_three, (hY i).1, (hY i).2.1, (hY i).2.2, (hY j).1, (hY j).2.1, (hY j).2.2]
    have := rot_norm θ (X 0 i, X 1 i) (X 0 j, X 1 j)
    simp only at this
    linear_combination this
  · rw [(hY c).1, hθ, rot_self]
    exact Real.sqrt_nonneg _
  · rw [(hY c).2.1, hθ, rot_self]

/-- **C101, rotation in the plane.** -/
theorem C101_align2 {m : Nat} (X : Fin 2 → Fin m → ℝ) (c : Fin m) : Congruent X (align2 X c) ∧ 0 ≤ align2 X c 0 c ∧ align2 X c 1 c = 0 := by
  set θ := arctan2 (X 1 c) (X 0 c) with hθ
  have hY : ∀ j, align2 X c 0 j = (rot θ (X 0 j, X 1 j)).1 ∧ align2 X c 1 j = (rot θ (X 0 j, X 1 j)).2 := fun j => ⟨rfl, rfl⟩
  refine ⟨fun i j => ?_, ?_, ?_⟩
  · unfold dist2
    rw [Fin.sum_univ_two, Fin.sum_univ_two, (hY i).1, (hY i).2, (hY j).1, (hY j).2]
    have := rot_norm θ (X 0 i, X 1 i) (X 0 j, X 1 j)
    simp only at this
    linear_combination this
  · rw [(hY c).1, hθ, rot_self]
    exact Real.sqrt_nonneg _
  · rw [(hY c).2, hθ, rot_self]

/-- **C101, deviation.** The exchange of rows with views copies the third row over the other one. About the first or the second axis, the coordinates along this axis are lost: they become the heights. -/
theorem C101_align_axis_deviation {m : Nat} (X : Fin 3 → Fin m → ℝ) {a : Fin 3} (ha : a ≠ 2) (c : Fin m) : align3 X a c a = X 2 ∧ align3 X a c 2 = X 2 := by
  have hs : ∀ Y : Fin 3 → Fin m → ℝ, swapRows Y a a = Y 2 ∧ swapRows Y a 2 = Y 2 := by
    intro Y
    unfold swapRows
    constructor
    · rw [Function.update_of_ne ha, Function.update_self]
    · rw [Function.update_self, Function.update_self]
  unfold align3
  constructor
  · rw [(hs _).1]
    funext j
    exact congrFun (hs X).2 j
  · rw [(hs _).2]
    funext j
    exact congrFun (hs X).2 j

/-- **C101, deviation.** Two points at distance one along the first axis fall together. -/
theorem C101_align_collapse_deviation : ∃ X : Fin 3 → Fin 2 → ℝ, dist2 X 0 1 = 1 ∧ ∀ c, dist2 (align3 X 0 c) 0 1 = 0 := by
  refine ⟨![![0, 1], ![0, 0], ![0, 0]], by simp [dist2, Fin.sum_univ_three], fun c => ?_⟩
  have h1 := C101_align_axis_deviation (![![0, 1], ![0, 0], ![0, 0]] : Fin 3 → Fin 2 → ℝ) (a := 0) (by decide) c
  unfold dist2
  rw [Fin.sum_univ_three, h1.1, h1.2]
  have : ∀ j, align3 (![![0, 1], ![0, 0], ![0, 0]] : Fin 3 → Fin 2 → ℝ) 0 c 1 j = 0 := by
    intro j
    unfold align3 swapRows rot
    fin_cases j <;> simp [Function.update]
  rw [this, this]
  simp

/-- **C101, deviation.** `key2ind` uses the name `unicode`. In Python 3 it does not exist, and `normalize`, `center`, `align` and `doa` raise `NameError`, whatever the references. -/
theorem C101_unicode_deviation {m : Nat} (labels : List String) (X : Fin 3 → Fin m → ℝ) (X2 : Fin 2 → Fin m → ℝ) (r r' : Ref) (l : List Ref) (axis : Axis) :
    key2ind false labels r = .error .nameError ∧ normalizeAt3 false labels X none = .error .nameError ∧ normalizeAt3 false labels X (some (r :: l)) = .error .nameError ∧
      normalizeAt2 false labels X2 none = .error .nameError ∧ center false labels X r = .error .nameError ∧ alignAt3 false labels X r axis = .error .nameError ∧
      doa false labels X r r' = .error .nameError := by
  refine ⟨?_, ?_, ?_, ?_, ?_, ?_, ?_⟩ <;>
    simp [key2ind, normalizeAt3, normalizeAt2, center, alignAt3, doa, key2inds, Except.bind]

/-- **C101, direction.** The two angles give the direction from the receiver to the source. -/
theorem C101_doa {m : Nat} {labels : List String} (X : Fin 3 → Fin m → ℝ) {receiver source : Ref} {i j : Int} (hi : key2ind true labels receiver = .ok i) (hj : key2ind true labels source = .ok j) {r s : Fin m}
    (hr : column m i = .ok r) (hs : column m j = .ok s) :
    ∃ az el, doa true labels X receiver source = .ok (az, el) ∧ X 0 s - X 0 r = Real.sqrt (dist2 X s r) * (Real.cos el * Real.cos az) ∧
      X 1 s - X 1 r = Real.sqrt (dist2 X s r) * (Real.cos el * Real.sin az) ∧ X 2 s - X 2 r = Real.sqrt (dist2 X s r) * Real.sin el := by
  set v : Fin 3 → ℝ := fun k => X k s - X k r with hv
  refine ⟨arctan2 (v 1) (v 0), arctan2 (v 2) (Real.sqrt (v 0 ^ 2 + v 1 ^ 2)), ?_, ?_⟩
  · unfold doa
    rw [hj]
    simp only [Except.bind]
    rw [hi]
    simp only
    rw [hs]
    simp only
    rw [hr]
    rfl
  have hd : dist2 X s r = Real.sqrt (v 0 ^ 2 + v 1 ^ 2) ^ 2 + v 2 ^ 2 := by
    rw [Real.sq_sqrt (by positivity)]
    unfold dist2
    rw [Fin.sum_univ_three]
  have e1 := arctan2_cos (v 2) (Real.sqrt (v 0 ^ 2 + v 1 ^ 2))
  have e2 := arctan2_sin (v 2) (Real.sqrt (v 0 ^ 2 + v 1 ^ 2))
  have f1 := arctan2_cos (v 1) (v 0)
  have f2 := arctan2_sin (v 1) (v 0)
  rw [hd]
  refine ⟨?_, ?_, e2.symm⟩
  · change v 0 = _
    rw [← mul_assoc, e1, f1]
  · change v 1 = _
    rw [← mul_assoc, e1, f2]

/-! ## Flattening -/

/-- The left matrix of the singular value decomposition of an array with as many columns as rows or more. -/
def IsSvdLeft {d k : Nat} (A : Fin d → Fin k → ℝ) (U : Fin d → Fin d → ℝ) : Prop :=
  ∃ (S : Fin d → ℝ) (V : Fin d → Fin k → ℝ), (∀ a t, A a t = ∑ b, U a b * (S b * V b t)) ∧ (∀ b c, ∑ a, U a b * U a c = if b = c then 1 else 0) ∧
    (∀ b c, ∑ t, V b t * V c t = if b = c then 1 else 0) ∧ Antitone S ∧ ∀ b, 0 ≤ S b

theorem ortho_rows {d : Nat} {U : Fin d → Fin d → ℝ} (h : ∀ b c, ∑ a, U a b * U a c = if b = c then 1 else 0) (a c : Fin d) : ∑ b, U a b * U c b = if a = c then 1 else 0 := by
  have h1 : (Matrix.of U).transpose * Matrix.of U = 1 := by
    ext b c
    rw [Matrix.mul_apply, Matrix.one_apply]
    simpa using h b c
  have h2 := mul_eq_one_comm.mp h1
  have := congrFun (congrFun h2 a) c
  rw [Matrix.mul_apply, Matrix.one_apply] at this
  simpa using this

/-- An orthogonal matrix keeps sums of squares. -/
theorem ortho_norm {d : Nat} {U : Fin d → Fin d → ℝ} (h : ∀ b c, ∑ a, U a b * U a c = if b = c then 1 else 0) (v : Fin d → ℝ) : ∑ b, (∑ a, U a b * v a) ^ 2 = ∑ a, v a ^ 2 := by
  have e1 : ∀ b, (∑ a, U a b * v a) ^ 2 = ∑ a, ∑ c, (U a b * U c b) * (v a * v c) := by
    intro b
    rw [sq, sum_mul_sum]
    exact sum_congr rfl fun a _ => sum_congr rfl fun c _ => by ring
  rw [sum_congr rfl fun b _ => e1 b, sum_comm]
  apply sum_congr rfl
  intro a _
  rw [sum_comm]
  have : ∀ c, ∑ b, U a b * U c b * (v a * v c) = if a = c then v a * v c else 0 := by
    intro c
    rw [← sum_mul, ortho_rows h]
    split <;> simp
  rw [sum_congr rfl fun c _ => this c, sum_ite_eq, if_pos (mem_univ _), sq]

/-- **C101, flattening.** With as many points as dimensions or more in the group, the distances are kept, and the last coordinate of the group is as constant as possible: for no direction is the sum of the
squared deviations from the centre smaller. -/
theorem C101_flatten {d m k : Nat} (hk : k ≠ 0) (hdk : d + 1 ≤ k) {svd : (Fin (d + 1) → Fin k → ℝ) → Fin (d + 1) → Fin (min (d + 1) k) → ℝ}
    (X : Fin (d + 1) → Fin m → ℝ) (L : Fin k → Fin m)
    (hsvd : IsSvdLeft (fun a t => X a (L t) - (∑ t, X a (L t)) / k) fun a b => svd (fun a t => X a (L t) - (∑ t, X a (L t)) / k) a (b.cast (by omega))) :
    ∃ Y, flatten svd X L = .ok Y ∧ Congruent X Y ∧ ∃ c : Fin (d + 1) → ℝ, (∀ a, c a = (∑ t, X a (L t)) / k) ∧
      ∀ u : Fin (d + 1) → ℝ, ∑ a, u a ^ 2 = 1 → ∑ t, (Y (Fin.last d) (L t) - c (Fin.last d)) ^ 2 ≤ ∑ t, (∑ a, u a * (X a (L t) - c a)) ^ 2 := by
  set c : Fin (d + 1) → ℝ := fun a => (∑ t, X a (L t)) / k with hc
  set A : Fin (d + 1) → Fin k → ℝ := fun a t => X a (L t) - c a with hA
  set U : Fin (d + 1) → Fin (d + 1) → ℝ := fun a b => svd A a (b.cast (by omega)) with hU
  obtain ⟨S, V, hfac, hUo, hVo, hanti, hS⟩ := hsvd
  change ∀ a t, A a t = ∑ b, U a b * (S b * V b t) at hfac
  change ∀ b c, ∑ a, U a b * U a c = if b = c then 1 else 0 at hUo
  refine ⟨fun b i => (∑ a, U a b * (X a i - c a)) + c b, ?_, ?_, c, fun a => rfl, ?_⟩
  · unfold flatten
    rw [if_neg hk]
    simp only
    rw [dif_pos hdk]
  · intro i j
    unfold dist2
    have : ∀ b, (∑ a, U a b * (X a i - c a)) + c b - ((∑ a, U a b * (X a j - c a)) + c b) = ∑ a, U a b * (X a i - X a j) := by
      intro b
      rw [add_sub_add_right_eq_sub, ← sum_sub_distrib]
      exact sum_congr rfl fun a _ => by ring
    simp only [this]
    exact ortho_norm hUo fun a => X a i - X a j
  · intro u hu
    have hV2 : ∀ w : Fin (d + 1) → ℝ, ∑ t, (∑ b, w b * V b t) ^ 2 = ∑ b, w b ^ 2 := by
      intro w
      have e1 : ∀ t, (∑ b, w b * V b t) ^ 2 = ∑ b, ∑ c, (w b * w c) * (V b t * V c t) := by
        intro t
        rw [sq, sum_mul_sum]
        exact sum_congr rfl fun a _ => sum_congr rfl fun c _ => by ring
      rw [sum_congr rfl fun t _ => e1 t, sum_comm]
      apply sum_congr rfl
      intro b _
      rw [sum_comm]
      have : ∀ c, ∑ t, w b * w c * (V b t * V c t) = if b = c then w b * w c else 0 := by
        intro c
        rw [← mul_sum, hVo]
        split <;> simp
      rw [sum_congr rfl fun c _ => this c, sum_ite_eq, if_pos (mem_univ _), sq]
    have hproj : ∀ (w : Fin (d + 1) → ℝ) (t : Fin k), ∑ a, w a * A a t = ∑ b, ((∑ a, U a b * w a) * S b) * V b t := by
      intro w t
      simp only [hfac, mul_sum, sum_mul]
      rw [sum_comm]
      exact sum_congr rfl fun b _ => sum_congr rfl fun a _ => by ring
    have hl : ∑ t, ((∑ a, U a (Fin.last d) * (X a (L t) - c a)) + c (Fin.last d) - c (Fin.last d)) ^ 2 = S (Fin.last d) ^ 2 := by
      have : ∀ t, (∑ a, U a (Fin.last d) * (X a (L t) - c a)) + c (Fin.last d) - c (Fin.last d) = ∑ b, ((if b = Fin.last d then 1 else 0) * S b) * V b t := by
        intro t
        rw [add_sub_cancel_right]
        have := hproj (fun a => U a (Fin.last d)) t
        simp only [hUo] at this
        exact this
      simp only [this]
      rw [hV2, sum_eq_single (Fin.last d)]
      · simp
      · intro b _ hb
        rw [if_neg hb]
        ring
      · intro h
        exact absurd (mem_univ _) h
    simp only
    rw [hl]
    have hr : ∑ t, (∑ a, u a * (X a (L t) - c a)) ^ 2 = ∑ b, ((∑ a, U a b * u a) * S b) ^ 2 := by
      rw [← hV2]
      exact sum_congr rfl fun t _ => by rw [← hproj]
    rw [hr]
    calc S (Fin.last d) ^ 2 = ∑ b, (∑ a, U a b * u a) ^ 2 * S (Fin.last d) ^ 2 := by
          rw [← sum_mul, ortho_norm hUo, hu, one_mul]
      _ ≤ ∑ b, ((∑ a, U a b * u a) * S b) ^ 2 := by
          apply sum_le_sum
          intro b _
          rw [mul_pow]
          apply mul_le_mul_of_nonneg_left _ (sq_nonneg _)
          have h1 := hanti (Fin.le_last b)
          have h2 := hS (Fin.last d)
          nlinarith

/-- The decomposition for the four corners of a rectangle. -/
example : IsSvdLeft (![![2, 2, -2, -2], ![1, -1, 1, -1]] : Fin 2 → Fin 4 → ℝ) ![![1, 0], ![0, 1]] := by
  refine ⟨![4, 2], ![![1 / 2, 1 / 2, -1 / 2, -1 / 2], ![1 / 2, -1 / 2, 1 / 2, -1 / 2]], ?_, ?_, ?_, ?_, ?_⟩
  · intro a t
    fin_cases a <;> fin_cases t <;> simp [Fin.sum_univ_two] <;> norm_num
  · intro b c
    fin_cases b <;> fin_cases c <;> simp [Fin.sum_univ_two]
  · intro b c
    fin_cases b <;> fin_cases c <;> simp [Fin.sum_univ_four] <;> norm_num
  · intro b c h
    fin_cases b <;> fin_cases c <;> simp at h ⊢
    norm_num
  · intro b
    fin_cases b <;> simp

/-- **C101, deviation.** A group with fewer points than dimensions: `ValueError`, except for a single point, for which all coordinates but for the centre become the same. -/
theorem C101_flatten_small_deviation {d m k : Nat} (hdk : k < d) (svd : (Fin d → Fin k → ℝ) → Fin d → Fin (min d k) → ℝ) (X : Fin d → Fin m → ℝ) (L : Fin k → Fin m) :
    (k ≠ 1 → flatten svd X L = .error .valueError) ∧ (k = 1 → ∃ (Y : Fin d → Fin m → ℝ) (c : Fin d → ℝ), flatten svd X L = .ok Y ∧ (∀ a, c a = (∑ t, X a (L t)) / k) ∧ ∀ a b i, Y a i - c a = Y b i - c b) := by
  constructor
  · intro h1
    unfold flatten
    by_cases h0 : k = 0
    · rw [if_pos h0]
    · rw [if_neg h0]
      simp only
      rw [dif_neg (by omega), dif_neg h1]
  · intro h1
    unfold flatten
    rw [if_neg (by omega)]
    simp only
    rw [dif_neg (by omega), dif_pos h1]
    refine ⟨_, fun a => (∑ t, X a (L t)) / k, rfl, fun a => rfl, fun a b i => ?_⟩
    simp only
    ring

/-- Four points in space, with the default references. -/
example : key2inds true ["0", "1", "2", "3"] ((none : Option (List Ref)).getD [.num 0, .num 1, .num 2, .num 3]) = .ok [0, 1, 2, 3] ∧ refAt 4 [0, 1, 2, 3] 0 = .ok 0 ∧ refAt 4 [0, 1, 2, 3] 1 = .ok 1 ∧
    refAt 4 [0, 1, 2, 3] 2 = .ok 2 ∧ refAt 4 [0, 1, 2, 3] 3 = .ok 3 ∧ key2ind true ["a", "b"] (.label "b") = .ok 1 ∧ axisOf (.label "b") (.name "z") = .ok 2 ∧ column 3 2 = .ok 2 :=
  ⟨rfl, rfl, rfl, rfl, rfl, rfl, rfl, rfl⟩

end Verif.Cloud
