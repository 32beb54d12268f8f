import Verif.SphInterp.Model
import Verif.RegGrid.Props
import Mathlib.LinearAlgebra.Matrix.ConjTranspose
import Mathlib.Analysis.Complex.Basic
import Mathlib.Data.List.GetD
import Mathlib.Tactic.FieldSimp
import Mathlib.Algebra.BigOperators.Field

namespace Verif.SphInterp

open Verif.Py Matrix

/-! ## Specification -/

/-- `X` is the pseudo-inverse of `M` in which the singular values up to `rcond` times the largest one are dropped: what `np.linalg.pinv(M, rcond)` computes from some (reduced)
singular value decomposition. -/
def IsPinv (rcond : ℝ) {n K : ℕ} (M : Matrix (Fin n) (Fin K) ℂ) (X : Matrix (Fin K) (Fin n) ℂ) : Prop :=
  ∃ (r : ℕ) (U : Matrix (Fin n) (Fin r) ℂ) (s : Fin r → ℝ) (V : Matrix (Fin K) (Fin r) ℂ), Uᴴ * U = 1 ∧ Vᴴ * V = 1 ∧ (∀ i, 0 ≤ s i) ∧
    M = U * diagonal (fun i => (s i : ℂ)) * Vᴴ ∧
    ∀ inv : Fin r → ℝ, (∀ i, (∀ j, rcond * s j < s i) → inv i = (s i)⁻¹) → (∀ i, (∃ j, s i ≤ rcond * s j) → inv i = 0) → X = V * diagonal (fun i => (inv i : ℂ)) * Uᴴ

/-- Squared norm of a vector. -/
def nsq {n : ℕ} (x : Fin n → ℂ) : ℝ := ∑ i, Complex.normSq (x i)

/-- The condition number of `M` is less than `1 / rcond`. -/
def WellConditioned (rcond : ℝ) {n K : ℕ} (M : Matrix (Fin n) (Fin K) ℂ) : Prop :=
  ∀ x y : Fin K → ℂ, x ≠ 0 → y ≠ 0 → rcond ^ 2 * nsq (M *ᵥ x) * nsq y < nsq (M *ᵥ y) * nsq x

/-- Complex harmonics: the conjugate is the harmonic of the opposite order times `(-1)^m`. -/
def Harmonics (Y : ℤ → ℤ → ℝ → ℝ → ℂ) : Prop := ∀ n m t p, |m| ≤ n → Y n (-m) t p = (((-1 : ℝ) ^ m : ℝ) : ℂ) * (starRingEnd ℂ) (Y n m t p)

/-! ## Lemmas: the basis -/

theorem basisIdx_succ (d : ℕ) : basisIdx (d + 1) = basisIdx d ++ (List.range (2 * (d + 1) + 1)).map fun (k : ℕ) => (((d + 1 : ℕ) : ℤ), (k : ℤ) - ((d + 1 : ℕ) : ℤ)) := by
  unfold basisIdx
  rw [List.range_succ, List.flatMap_append]
  simp

theorem basisIdx_length (d : ℕ) : (basisIdx d).length = (d + 1) ^ 2 := by
  induction d with
  | zero => rfl
  | succ d ih =>
    rw [basisIdx_succ, List.length_append, ih, List.length_map, List.length_range]
    ring

theorem basisIdx_get? {d n : ℕ} {k : ℕ} (hn : n ≤ d) (hk : k < 2 * n + 1) : (basisIdx d)[n ^ 2 + k]? = some ((n : ℤ), (k : ℤ) - n) := by
  induction d with
  | zero =>
    obtain rfl : n = 0 := by omega
    obtain rfl : k = 0 := by omega
    rfl
  | succ d ih =>
    rw [basisIdx_succ]
    rcases hn.eq_or_lt with rfl | hlt
    · rw [List.getElem?_append_right (by rw [basisIdx_length]; omega), basisIdx_length, Nat.add_sub_cancel_left, List.getElem?_map,
        List.getElem?_range hk]
      rfl
    · rw [List.getElem?_append_left, ih (by omega)]
      rw [basisIdx_length]
      have : (n + 1) ^ 2 ≤ (d + 1) ^ 2 := Nat.pow_le_pow_left (by omega) 2
      nlinarith

theorem mem_basisIdx {d : ℕ} {p : ℤ × ℤ} : p ∈ basisIdx d ↔ |p.2| ≤ p.1 ∧ p.1 ≤ d := by
  unfold basisIdx
  simp only [List.mem_flatMap, List.mem_range, List.mem_map]
  constructor
  · rintro ⟨i, hi, k, hk, rfl⟩
    simp only [abs_le]
    omega
  · rintro ⟨h1, h2⟩
    rw [abs_le] at h1
    refine ⟨p.1.toNat, by omega, (p.2 + p.1).toNat, by omega, Prod.ext ?_ ?_⟩ <;> simp only <;> omega

theorem basisIdx_nodup (d : ℕ) : (basisIdx d).Nodup := by
  unfold basisIdx
  rw [List.nodup_flatMap]
  constructor
  · intro i _
    refine List.nodup_range.map ?_
    intro a b h
    simp only [Prod.mk.injEq] at h
    omega
  · refine List.pairwise_lt_range.imp ?_
    intro a b hab
    simp only [Function.onFun]
    intro x hx hy
    obtain ⟨k, _, rfl⟩ := List.mem_map.mp hx
    obtain ⟨l, _, h⟩ := List.mem_map.mp hy
    simp only [Prod.mk.injEq] at h
    omega

theorem idx_valid {d : ℕ} (k : Fin (basisIdx d).length) : |((basisIdx d)[k]).2| ≤ ((basisIdx d)[k]).1 := (mem_basisIdx.mp (List.getElem_mem k.2)).1

/-- The position of the opposite order. -/
def opp (d : ℕ) (k : Fin (basisIdx d).length) : Fin (basisIdx d).length :=
  ⟨(basisIdx d).idxOf (((basisIdx d)[k]).1, -((basisIdx d)[k]).2), by
    apply List.idxOf_lt_length_of_mem
    have := mem_basisIdx.mp (List.getElem_mem k.2)
    exact mem_basisIdx.mpr ⟨by simpa using this.1, this.2⟩⟩

theorem opp_get (d : ℕ) (k : Fin (basisIdx d).length) : (basisIdx d)[opp d k] = (((basisIdx d)[k]).1, -((basisIdx d)[k]).2) := by
  unfold opp
  simp

theorem opp_opp (d : ℕ) (k : Fin (basisIdx d).length) : opp d (opp d k) = k := by
  have h1 := opp_get d (opp d k)
  rw [opp_get d k] at h1
  simp only [neg_neg, Prod.mk.eta] at h1
  exact Fin.ext ((basisIdx_nodup d).getElem_inj_iff.mp h1)

/-- The matrix that gives the conjugate of the basis. -/
noncomputable def flip (d : ℕ) : Matrix (Fin (basisIdx d).length) (Fin (basisIdx d).length) ℂ :=
  fun i k => if i = opp d k then (((-1 : ℝ) ^ ((basisIdx d)[k]).2 : ℝ) : ℂ) else 0

theorem sgn_sq (m : ℤ) : ((-1 : ℝ) ^ m) * ((-1 : ℝ) ^ m) = 1 := by
  rw [← mul_zpow]; norm_num

theorem flip_unitary (d : ℕ) : flip d * (flip d)ᴴ = 1 := by
  ext i j
  rw [mul_apply]
  simp only [flip, conjTranspose_apply]
  rw [Finset.sum_eq_single (opp d i)]
  · rw [opp_opp, if_pos rfl]
    by_cases h : j = i
    · rw [if_pos h, one_apply, if_pos h.symm]
      simp only [Complex.star_def, Complex.conj_ofReal, ← Complex.ofReal_mul, sgn_sq, Complex.ofReal_one]
    · rw [if_neg h, one_apply, if_neg (fun e => h e.symm)]
      simp
  · intro k _ hk
    rw [if_neg, zero_mul]
    intro h
    rw [h, opp_opp] at hk
    exact hk rfl
  · simp

theorem basis_conj {Y} (hY : Harmonics Y) (d : ℕ) (g : Grid) : (basis Y d g).map (starRingEnd ℂ) = basis Y d g * flip d := by
  ext i k
  rw [mul_apply]
  simp only [flip, map_apply]
  rw [Finset.sum_eq_single (opp d k)]
  · rw [if_pos rfl]
    unfold basis
    rw [opp_get d k, hY _ _ _ _ (idx_valid k), mul_comm, ← mul_assoc, ← Complex.ofReal_mul, sgn_sq]
    simp
  · intro j _ hj
    rw [if_neg hj, mul_zero]
  · simp

/-! ## Lemmas: uniqueness of the truncated pseudo-inverse -/

/-- The inverses of the singular values that are kept. -/
noncomputable def kept {r : ℕ} (rcond : ℝ) (s : Fin r → ℝ) (i : Fin r) : ℝ := open Classical in if ∀ j, rcond * s j < s i then (s i)⁻¹ else 0

theorem pinv_kept {rcond : ℝ} {r : ℕ} {s : Fin r → ℝ} : (∀ i, (∀ j, rcond * s j < s i) → kept rcond s i = (s i)⁻¹) ∧ (∀ i, (∃ j, s i ≤ rcond * s j) → kept rcond s i = 0) := by
  constructor
  · intro i h
    unfold kept
    rw [if_pos h]
  · rintro i ⟨j, h⟩
    unfold kept
    rw [if_neg]
    intro h2
    exact absurd (h2 j) (not_lt.mpr h)

theorem kept_unique {rcond : ℝ} {r : ℕ} {s inv : Fin r → ℝ} (h1 : ∀ i, (∀ j, rcond * s j < s i) → inv i = (s i)⁻¹) (h2 : ∀ i, (∃ j, s i ≤ rcond * s j) → inv i = 0) : inv = kept rcond s := by
  funext i
  unfold kept
  split
  · rename_i h; exact h1 i h
  · rename_i h
    push Not at h
    exact h2 i h

/-- A form with the squares. -/
theorem pinv_square {rcond : ℝ} {r : ℕ} {s : Fin r → ℝ} (i : Fin r) : (kept rcond s i) ^ 2 * s i = kept rcond s i := by
  unfold kept
  split
  · rename_i h
    have : s i ≠ 0 := by
      intro h0
      have := h i
      rw [h0] at this
      simp at this
    field_simp
  · ring

section Unique

variable {n K : ℕ} {rcond : ℝ} {M : Matrix (Fin n) (Fin K) ℂ} {r r' : ℕ} {U : Matrix (Fin n) (Fin r) ℂ} {s : Fin r → ℝ} {V : Matrix (Fin K) (Fin r) ℂ}
  {U' : Matrix (Fin n) (Fin r') ℂ} {s' : Fin r' → ℝ} {V' : Matrix (Fin K) (Fin r') ℂ}

theorem gram (hU : Uᴴ * U = 1) (hM : M = U * diagonal (fun i => (s i : ℂ)) * Vᴴ) : Mᴴ * M = V * diagonal (fun i => ((s i ^ 2 : ℝ) : ℂ)) * Vᴴ := by
  rw [hM, conjTranspose_mul, conjTranspose_mul, conjTranspose_conjTranspose, diagonal_conjTranspose]
  have : diagonal (star fun i => (s i : ℂ)) = diagonal (fun i => (s i : ℂ)) := by
    congr 1
    funext i
    simp
  rw [this]
  calc V * (diagonal (fun i => (s i : ℂ)) * Uᴴ) * (U * diagonal (fun i => (s i : ℂ)) * Vᴴ)
      = V * (diagonal (fun i => (s i : ℂ)) * ((Uᴴ * U) * diagonal (fun i => (s i : ℂ)))) * Vᴴ := by simp only [Matrix.mul_assoc]
    _ = V * diagonal (fun i => ((s i ^ 2 : ℝ) : ℂ)) * Vᴴ := by
      rw [hU, Matrix.one_mul, diagonal_mul_diagonal]
      congr 3
      funext i
      push_cast
      ring

/-- The pseudo-inverse from the Gram matrix. -/
theorem pinv_gram (hV : Vᴴ * V = 1) (hM : M = U * diagonal (fun i => (s i : ℂ)) * Vᴴ) :
    V * diagonal (fun i => (kept rcond s i : ℂ)) * Uᴴ = V * diagonal (fun i => ((kept rcond s i ^ 2 : ℝ) : ℂ)) * Vᴴ * Mᴴ := by
  rw [hM, conjTranspose_mul, conjTranspose_mul, conjTranspose_conjTranspose, diagonal_conjTranspose]
  have : diagonal (star fun i => (s i : ℂ)) = diagonal (fun i => (s i : ℂ)) := by
    congr 1
    funext i
    simp
  rw [this]
  calc V * diagonal (fun i => (kept rcond s i : ℂ)) * Uᴴ = V * (diagonal (fun i => ((kept rcond s i ^ 2 : ℝ) : ℂ)) * (1 * diagonal (fun i => (s i : ℂ)))) * Uᴴ := by
        rw [Matrix.one_mul, diagonal_mul_diagonal]
        congr 3
        funext i
        rw [← Complex.ofReal_mul, pinv_square]
    _ = _ := by rw [← hV]; simp only [Matrix.mul_assoc]

/-- Equal singular values where the two bases meet. -/
theorem meet (hU : Uᴴ * U = 1) (hV : Vᴴ * V = 1) (hs : ∀ i, 0 ≤ s i) (hM : M = U * diagonal (fun i => (s i : ℂ)) * Vᴴ)
    (hU' : U'ᴴ * U' = 1) (hV' : V'ᴴ * V' = 1) (hs' : ∀ i, 0 ≤ s' i) (hM' : M = U' * diagonal (fun i => (s' i : ℂ)) * V'ᴴ) (i : Fin r') (j : Fin r) (hw : (V'ᴴ * V) i j ≠ 0) :
    s' i = s j := by
  have h : diagonal (fun i => ((s' i ^ 2 : ℝ) : ℂ)) * (V'ᴴ * V) = (V'ᴴ * V) * diagonal (fun i => ((s i ^ 2 : ℝ) : ℂ)) := by
    have h1 := gram hU hM
    rw [gram hU' hM'] at h1
    calc diagonal (fun i => ((s' i ^ 2 : ℝ) : ℂ)) * (V'ᴴ * V) = V'ᴴ * (V' * diagonal (fun i => ((s' i ^ 2 : ℝ) : ℂ)) * V'ᴴ) * V := by
          rw [show V'ᴴ * (V' * diagonal (fun i => ((s' i ^ 2 : ℝ) : ℂ)) * V'ᴴ) * V = (V'ᴴ * V') * (diagonal (fun i => ((s' i ^ 2 : ℝ) : ℂ)) * (V'ᴴ * V)) by simp only [Matrix.mul_assoc],
            hV', Matrix.one_mul]
      _ = V'ᴴ * V * diagonal (fun i => ((s i ^ 2 : ℝ) : ℂ)) * (Vᴴ * V) := by rw [h1]; simp only [Matrix.mul_assoc]
      _ = _ := by rw [hV, Matrix.mul_one]
  have h2 := congrFun (congrFun h i) j
  rw [diagonal_mul, mul_diagonal, mul_comm ((V'ᴴ * V) i j)] at h2
  have h3 := mul_right_cancel₀ hw h2
  have h4 : s' i ^ 2 = s j ^ 2 := by exact_mod_cast h3
  exact (sq_eq_sq₀ (hs' i) (hs j)).mp h4

/-- Columns with a nonzero singular value are in the span of the other basis. -/
theorem column (hU : Uᴴ * U = 1) (hV : Vᴴ * V = 1) (hs : ∀ i, 0 ≤ s i) (hM : M = U * diagonal (fun i => (s i : ℂ)) * Vᴴ)
    (hU' : U'ᴴ * U' = 1) (hV' : V'ᴴ * V' = 1) (hs' : ∀ i, 0 ≤ s' i) (hM' : M = U' * diagonal (fun i => (s' i : ℂ)) * V'ᴴ) (j : Fin r) (hj : s j ≠ 0) (k : Fin K) :
    V k j = (V' * (V'ᴴ * V)) k j := by
  have h : V * diagonal (fun i => ((s i ^ 2 : ℝ) : ℂ)) = V' * (diagonal (fun i => ((s' i ^ 2 : ℝ) : ℂ)) * (V'ᴴ * V)) := by
    have h1 := gram hU hM
    rw [gram hU' hM'] at h1
    calc V * diagonal (fun i => ((s i ^ 2 : ℝ) : ℂ)) = V * diagonal (fun i => ((s i ^ 2 : ℝ) : ℂ)) * Vᴴ * V := by rw [Matrix.mul_assoc _ Vᴴ V, hV, Matrix.mul_one]
      _ = _ := by rw [← h1]; simp only [Matrix.mul_assoc]
  have h2 := congrFun (congrFun h k) j
  rw [mul_diagonal, mul_apply] at h2
  have hj2 : ((s j ^ 2 : ℝ) : ℂ) ≠ 0 := by exact_mod_cast pow_ne_zero 2 hj
  apply mul_right_cancel₀ hj2
  rw [h2, mul_apply, Finset.sum_mul]
  refine Finset.sum_congr rfl fun i _ => ?_
  rw [diagonal_mul]
  by_cases hw : (V'ᴴ * V) i j = 0
  · rw [hw]; ring
  · rw [meet hU hV hs hM hU' hV' hs' hM' i j hw]
    ring

theorem kept_meet (hr : 0 ≤ rcond) (hU : Uᴴ * U = 1) (hV : Vᴴ * V = 1) (hs : ∀ i, 0 ≤ s i) (hM : M = U * diagonal (fun i => (s i : ℂ)) * Vᴴ)
    (hU' : U'ᴴ * U' = 1) (hV' : V'ᴴ * V' = 1) (hs' : ∀ i, 0 ≤ s' i) (hM' : M = U' * diagonal (fun i => (s' i : ℂ)) * V'ᴴ) (i : Fin r') (j : Fin r) (hw : (V'ᴴ * V) i j ≠ 0)
    (h : ∀ k, rcond * s' k < s' i) (k : Fin r) : rcond * s k < s j := by
  have he := meet hU hV hs hM hU' hV' hs' hM' i j hw
  have hpos : 0 < s' i := lt_of_le_of_lt (mul_nonneg hr (hs' i)) (h i)
  rw [← he]
  by_cases hk : s k = 0
  · rw [hk, mul_zero]; exact hpos
  · have hex : ∃ l, (V'ᴴ * V) l k ≠ 0 := by
      by_contra hn
      push Not at hn
      have hz : ∀ a, V a k = 0 := by
        intro a
        rw [column hU hV hs hM hU' hV' hs' hM' k hk a, mul_apply]
        exact Finset.sum_eq_zero fun l _ => by rw [hn l, mul_zero]
      have h1 := congrFun (congrFun hV k) k
      rw [mul_apply, one_apply, if_pos rfl] at h1
      rw [Finset.sum_eq_zero (fun a _ => by rw [hz a, mul_zero])] at h1
      exact zero_ne_one h1
    obtain ⟨l, hl⟩ := hex
    rw [← meet hU hV hs hM hU' hV' hs' hM' l k hl]
    exact h l

theorem conj_swap (i : Fin r') (j : Fin r) : (Vᴴ * V') j i = star ((V'ᴴ * V) i j) := by
  have : Vᴴ * V' = (V'ᴴ * V)ᴴ := by rw [conjTranspose_mul, conjTranspose_conjTranspose]
  rw [this, conjTranspose_apply]

theorem kept_eq (hr : 0 ≤ rcond) (hU : Uᴴ * U = 1) (hV : Vᴴ * V = 1) (hs : ∀ i, 0 ≤ s i) (hM : M = U * diagonal (fun i => (s i : ℂ)) * Vᴴ)
    (hU' : U'ᴴ * U' = 1) (hV' : V'ᴴ * V' = 1) (hs' : ∀ i, 0 ≤ s' i) (hM' : M = U' * diagonal (fun i => (s' i : ℂ)) * V'ᴴ) (i : Fin r') (j : Fin r) (hw : (V'ᴴ * V) i j ≠ 0) :
    kept rcond s' i = kept rcond s j := by
  have he := meet hU hV hs hM hU' hV' hs' hM' i j hw
  have h1 := kept_meet hr hU hV hs hM hU' hV' hs' hM' i j hw
  have h2 := kept_meet hr hU' hV' hs' hM' hU hV hs hM j i (by rw [conj_swap]; simpa using hw)
  unfold kept
  by_cases h : ∀ k, rcond * s' k < s' i
  · rw [if_pos h, if_pos (h1 h), he]
  · rw [if_neg h, if_neg (fun hh => h (h2 hh))]

theorem half (hr : 0 ≤ rcond) (hU : Uᴴ * U = 1) (hV : Vᴴ * V = 1) (hs : ∀ i, 0 ≤ s i) (hM : M = U * diagonal (fun i => (s i : ℂ)) * Vᴴ)
    (hU' : U'ᴴ * U' = 1) (hV' : V'ᴴ * V' = 1) (hs' : ∀ i, 0 ≤ s' i) (hM' : M = U' * diagonal (fun i => (s' i : ℂ)) * V'ᴴ) :
    V * diagonal (fun i => ((kept rcond s i ^ 2 : ℝ) : ℂ)) = V' * (diagonal (fun i => ((kept rcond s' i ^ 2 : ℝ) : ℂ)) * (V'ᴴ * V)) := by
  ext k j
  rw [mul_diagonal, mul_apply]
  by_cases hj : s j = 0
  · have h0 : kept rcond s j = 0 := by
      unfold kept
      split
      · rw [hj, inv_zero]
      · rfl
    rw [h0]
    symm
    rw [Finset.sum_eq_zero]
    · simp
    · intro i _
      rw [diagonal_mul]
      by_cases hw : (V'ᴴ * V) i j = 0
      · rw [hw]; ring
      · rw [kept_eq hr hU hV hs hM hU' hV' hs' hM' i j hw, h0]
        simp
  · rw [column hU hV hs hM hU' hV' hs' hM' j hj k, mul_apply, Finset.sum_mul]
    refine Finset.sum_congr rfl fun i _ => ?_
    rw [diagonal_mul]
    by_cases hw : (V'ᴴ * V) i j = 0
    · rw [hw]; ring
    · rw [kept_eq hr hU hV hs hM hU' hV' hs' hM' i j hw]
      ring

end Unique

/-- The truncated pseudo-inverse does not depend on the decomposition. -/
theorem pinv_unique {rcond : ℝ} (hr : 0 ≤ rcond) {n K : ℕ} {M : Matrix (Fin n) (Fin K) ℂ} {X X' : Matrix (Fin K) (Fin n) ℂ} (h : IsPinv rcond M X) (h' : IsPinv rcond M X') : X = X' := by
  obtain ⟨r, U, s, V, hU, hV, hs, hM, hX⟩ := h
  obtain ⟨r', U', s', V', hU', hV', hs', hM', hX'⟩ := h'
  rw [hX _ pinv_kept.1 pinv_kept.2, hX' _ pinv_kept.1 pinv_kept.2, pinv_gram hV hM, pinv_gram hV' hM']
  congr 1
  have h1 := half hr hU hV hs hM hU' hV' hs' hM'
  have h2 := half hr hU' hV' hs' hM' hU hV hs hM
  have h3 := congrArg conjTranspose h2
  simp only [conjTranspose_mul, diagonal_conjTranspose, conjTranspose_conjTranspose] at h3
  have hd : ∀ {q : ℕ} (a : Fin q → ℝ), diagonal (star fun i => ((a i ^ 2 : ℝ) : ℂ)) = diagonal (fun i => ((a i ^ 2 : ℝ) : ℂ)) := by
    intro q a
    congr 1
    funext i
    simp
  rw [hd, hd] at h3
  -- `h3`: D' V'ᴴ = V'ᴴ V D Vᴴ
  calc V * diagonal (fun i => ((kept rcond s i ^ 2 : ℝ) : ℂ)) * Vᴴ
      = V' * (diagonal (fun i => ((kept rcond s' i ^ 2 : ℝ) : ℂ)) * (V'ᴴ * V)) * Vᴴ := by rw [h1]
    _ = V' * (diagonal (fun i => ((kept rcond s' i ^ 2 : ℝ) : ℂ)) * V'ᴴ * V * Vᴴ) := by simp only [Matrix.mul_assoc]
    _ = V' * (V'ᴴ * V * (diagonal (fun i => ((kept rcond s i ^ 2 : ℝ) : ℂ)) * (Vᴴ * V)) * Vᴴ) := by rw [h3]; simp only [Matrix.mul_assoc]
    _ = V' * (V'ᴴ * V * diagonal (fun i => ((kept rcond s i ^ 2 : ℝ) : ℂ)) * Vᴴ) := by rw [hV, Matrix.mul_one]
    _ = V' * diagonal (fun i => ((kept rcond s' i ^ 2 : ℝ) : ℂ)) * V'ᴴ := by rw [Matrix.mul_assoc V', h3]

/-! ## Lemmas: the matrix of the interpolation is real -/

theorem map_conj_mul {a b c : ℕ} (A : Matrix (Fin a) (Fin b) ℂ) (B : Matrix (Fin b) (Fin c) ℂ) : (A * B).map (starRingEnd ℂ) = A.map (starRingEnd ℂ) * B.map (starRingEnd ℂ) :=
  Matrix.map_mul

theorem map_conj_conjTranspose {a b : ℕ} (A : Matrix (Fin a) (Fin b) ℂ) : (A.map (starRingEnd ℂ))ᴴ = Aᴴ.map (starRingEnd ℂ) := by
  ext i j
  simp [conjTranspose_apply]

theorem map_conj_diagonal {a : ℕ} (s : Fin a → ℝ) : (diagonal fun i => (s i : ℂ)).map (starRingEnd ℂ) = diagonal fun i => (s i : ℂ) := by
  ext i j
  by_cases h : i = j
  · subst h; simp
  · simp [diagonal_apply_ne _ h]

theorem map_conj_one {a : ℕ} : (1 : Matrix (Fin a) (Fin a) ℂ).map (starRingEnd ℂ) = 1 := by
  ext i j
  by_cases h : i = j
  · subst h; simp
  · simp [one_apply_ne h]

theorem pinv_conj {rcond : ℝ} {n K : ℕ} {M : Matrix (Fin n) (Fin K) ℂ} {X : Matrix (Fin K) (Fin n) ℂ} (h : IsPinv rcond M X) :
    IsPinv rcond (M.map (starRingEnd ℂ)) (X.map (starRingEnd ℂ)) := by
  obtain ⟨r, U, s, V, hU, hV, hs, hM, hX⟩ := h
  refine ⟨r, U.map (starRingEnd ℂ), s, V.map (starRingEnd ℂ), ?_, ?_, hs, ?_, ?_⟩
  · rw [map_conj_conjTranspose, ← map_conj_mul, hU, map_conj_one]
  · rw [map_conj_conjTranspose, ← map_conj_mul, hV, map_conj_one]
  · rw [hM, map_conj_mul, map_conj_mul, map_conj_diagonal, map_conj_conjTranspose]
  · intro inv h1 h2
    rw [hX inv h1 h2, map_conj_mul, map_conj_mul, map_conj_diagonal, map_conj_conjTranspose]

theorem pinv_mul {rcond : ℝ} {n K : ℕ} {M : Matrix (Fin n) (Fin K) ℂ} {X : Matrix (Fin K) (Fin n) ℂ} {P : Matrix (Fin K) (Fin K) ℂ} (hP : P * Pᴴ = 1) (h : IsPinv rcond M X) :
    IsPinv rcond (M * P) (Pᴴ * X) := by
  obtain ⟨r, U, s, V, hU, hV, hs, hM, hX⟩ := h
  refine ⟨r, U, s, Pᴴ * V, hU, ?_, hs, ?_, ?_⟩
  · rw [conjTranspose_mul, conjTranspose_conjTranspose, Matrix.mul_assoc, ← Matrix.mul_assoc P, hP, Matrix.one_mul, hV]
  · rw [hM, conjTranspose_mul, conjTranspose_conjTranspose]
    simp only [Matrix.mul_assoc]
  · intro inv h1 h2
    rw [hX inv h1 h2]
    simp only [Matrix.mul_assoc]

/-- The matrix from the measured responses to those on a grid. -/
noncomputable def operator {n K q : ℕ} (w : Fin n → ℝ) (X : Matrix (Fin K) (Fin n) ℂ) (Ysh : Matrix (Fin q) (Fin K) ℂ) : Matrix (Fin q) (Fin n) ℂ :=
  Ysh * X * diagonal fun i => (w i : ℂ)

theorem weighted_eq {n K : ℕ} (w : Fin n → ℝ) (Ysh : Matrix (Fin n) (Fin K) ℂ) : weighted w Ysh = (diagonal fun i => (w i : ℂ)) * Ysh := by
  ext i k
  rw [diagonal_mul]
  rfl

theorem operator_real {Y} (hY : Harmonics Y) {rcond : ℝ} (hr : 0 ≤ rcond) (d : ℕ) (g new : Grid) (w : Fin g.n → ℝ) {X} (hX : IsPinv rcond (weighted w (basis Y d g)) X) :
    (operator w X (basis Y d new)).map (starRingEnd ℂ) = operator w X (basis Y d new) := by
  have h1 : (weighted w (basis Y d g)).map (starRingEnd ℂ) = weighted w (basis Y d g) * flip d := by
    rw [weighted_eq, map_conj_mul, map_conj_diagonal, basis_conj hY, Matrix.mul_assoc]
  have h2 := pinv_conj hX
  rw [h1] at h2
  have h3 := pinv_unique hr h2 (pinv_mul (flip_unitary d) hX)
  unfold operator
  rw [map_conj_mul, map_conj_mul, map_conj_diagonal, basis_conj hY, h3, Matrix.mul_assoc (basis Y d new) (flip d), ← Matrix.mul_assoc (flip d), flip_unitary, Matrix.one_mul]

theorem rfft_sum {n : ℕ} (N : ℕ) (a : Fin n → ℝ) (x : Fin n → ℕ → ℝ) (f : ℕ) : ∑ j, (a j : ℂ) * DFT.rfft N (x j) f = DFT.rfft N (fun t => ∑ j, a j * x j t) f := by
  unfold DFT.rfft DFT.dft
  simp only [Finset.mul_sum, Complex.ofReal_sum, Finset.sum_mul]
  rw [Finset.sum_comm]
  refine Finset.sum_congr rfl fun t _ => Finset.sum_congr rfl fun j _ => ?_
  push_cast
  ring

theorem synth_real {n K q T N : ℕ} (w : Fin n → ℝ) (X : Matrix (Fin K) (Fin n) ℂ) (Ysh : Matrix (Fin q) (Fin K) ℂ) (A : Matrix (Fin q) (Fin n) ℝ)
    (hA : operator w X Ysh = A.map Complex.ofReal) (ir : Fin n → Fin T → ℝ) (i : Fin q) (t : Fin N) : synth N Ysh (gamma N w X ir) i t = ∑ j, A i j * sample (ir j) t := by
  unfold synth
  have h : (fun f => ∑ k, Ysh i k * gamma N w X ir k f) = DFT.rfft N (fun t => ∑ j, A i j * sample (ir j) t) := by
    funext f
    rw [← rfft_sum]
    unfold gamma
    simp only [Finset.mul_sum]
    rw [Finset.sum_comm]
    refine Finset.sum_congr rfl fun j _ => ?_
    have h1 := congrFun (congrFun hA i) j
    unfold operator at h1
    rw [mul_diagonal, mul_apply, map_apply] at h1
    rw [← h1, Finset.sum_mul, Finset.sum_mul]
    refine Finset.sum_congr rfl fun k _ => ?_
    ring
  rw [h, DFT.irfft_rfft _ t.2]

/-! ## Lemmas: the weights -/

theorem lookup_eq {C w : List ℝ} (hC : C.Pairwise (· < ·)) (hl : w.length = C.length) {q : ℕ} (hq : q < C.length) : lookup C w C[q] = some w[q] := by
  unfold lookup
  have hz : q < (List.zip C w).length := by rw [List.length_zip]; omega
  rw [Option.map_eq_some_iff]
  cases hf : (List.zip C w).reverse.find? fun (p : ℝ × ℝ) => decide (p.1 = C[q]) with
  | none =>
    exfalso
    rw [List.find?_eq_none] at hf
    have := hf (List.zip C w)[q] (List.mem_reverse.mpr (List.getElem_mem hz))
    simp at this
  | some p =>
    refine ⟨p, rfl, ?_⟩
    have h1 := List.find?_some hf
    have h2 := List.mem_reverse.mp (List.mem_of_find?_eq_some hf)
    obtain ⟨l, hl2, rfl⟩ := List.mem_iff_getElem.mp h2
    simp only [List.getElem_zip, decide_eq_true_eq] at h1 ⊢
    have hnd : C.Nodup := hC.imp ne_of_lt
    have := hnd.getElem_inj_iff.mp h1
    subst this
    rfl

theorem bounds_length {C : List ℝ} (h : C ≠ []) : (bounds C).length = C.length + 1 := by
  have := List.length_pos_iff.mpr h
  simp [bounds]
  omega

theorem areas_length {C : List ℝ} (h : C ≠ []) (nAz : ℕ) : (areas C nAz).length = C.length := by
  simp [areas, bounds_length h]

theorem bounds_get {C : List ℝ} (h : C ≠ []) (q : ℕ) (hq : q < (bounds C).length) : (bounds C)[q] =
    if h0 : q = 0 then 0 else if h1 : q < C.length then (C[q - 1] + C[q]) / 2 else Real.pi := by
  have hl := bounds_length h
  have hp := List.length_pos_iff.mpr h
  by_cases h0 : q = 0
  · subst h0
    rw [dif_pos rfl]
    rfl
  · rw [dif_neg h0]
    obtain ⟨k, rfl⟩ : ∃ k, q = k + 1 := ⟨q - 1, by omega⟩
    have hz : (List.zipWith (fun (x y : ℝ) => (x + y) / 2) C C.tail).length = C.length - 1 := by simp
    rw [show (bounds C)[k + 1] = (List.zipWith (fun (x y : ℝ) => (x + y) / 2) C C.tail ++ [Real.pi])[k]'(by rw [List.length_append, hz]; simp; omega) from rfl]
    by_cases h1 : k + 1 < C.length
    · rw [dif_pos h1, List.getElem_append_left (by rw [hz]; omega)]
      simp
    · rw [dif_neg h1, List.getElem_append_right (by rw [hz]; omega)]
      simp

/-- Colatitudes that increase, from 0 to pi. -/
theorem bounds_lt {C : List ℝ} (hC : C.Pairwise (· < ·)) (hne : C ≠ []) (hr : ∀ c ∈ C, 0 ≤ c ∧ c ≤ Real.pi) (q : ℕ) (hq : q < C.length) :
    (bounds C)[q]'(by rw [bounds_length hne]; omega) < (bounds C)[q + 1]'(by rw [bounds_length hne]; omega) := by
  have hlt : ∀ i j (hi : i < C.length) (hj : j < C.length), i < j → C[i] < C[j] := fun i j hi hj h => List.pairwise_iff_getElem.mp hC i j hi hj h
  have hpi := Real.pi_pos
  rw [bounds_get hne, bounds_get hne, dif_neg (Nat.succ_ne_zero q)]
  by_cases h0 : q = 0
  · rw [dif_pos h0]
    by_cases h1 : q + 1 < C.length
    · rw [dif_pos h1]
      have h2 := hlt q (q + 1) hq h1 (by omega)
      have h3 := (hr _ (List.getElem_mem hq)).1
      simp only [Nat.add_sub_cancel]
      linarith
    · rw [dif_neg h1]
      exact hpi
  · rw [dif_neg h0, dif_pos hq]
    have h2 := hlt (q - 1) q (by omega) hq (by omega)
    by_cases h1 : q + 1 < C.length
    · rw [dif_pos h1]
      have h3 := hlt q (q + 1) hq h1 (by omega)
      simp only [Nat.add_sub_cancel]
      linarith
    · rw [dif_neg h1]
      have h3 := (hr _ (List.getElem_mem hq)).2
      linarith

theorem bounds_range {C : List ℝ} (hne : C ≠ []) (hr : ∀ c ∈ C, 0 ≤ c ∧ c ≤ Real.pi) (q : ℕ) (hq : q < (bounds C).length) : (bounds C)[q] ∈ Set.Icc 0 Real.pi := by
  have hpi := Real.pi_pos.le
  rw [bounds_get hne]
  split
  · exact ⟨le_rfl, hpi⟩
  · split
    · rename_i h0 h1
      have h2 := hr _ (List.getElem_mem (show q - 1 < C.length by omega))
      have h3 := hr _ (List.getElem_mem h1)
      exact ⟨by linarith [h2.1, h3.1], by linarith [h2.2, h3.2]⟩
    · exact ⟨hpi, le_rfl⟩

theorem areas_pos {C : List ℝ} (hC : C.Pairwise (· < ·)) (hne : C ≠ []) (hr : ∀ c ∈ C, 0 ≤ c ∧ c ≤ Real.pi) {nAz : ℕ} (hA : 0 < nAz) (q : ℕ) (hq : q < (areas C nAz).length) : 0 < (areas C nAz)[q] := by
  have hq' : q < C.length := by rwa [areas_length hne] at hq
  have h1 := Real.strictAntiOn_cos (bounds_range hne hr q (by rw [bounds_length hne]; omega)) (bounds_range hne hr (q + 1) (by rw [bounds_length hne]; omega)) (bounds_lt hC hne hr q hq')
  have hpi := Real.pi_pos
  have hn : (0 : ℝ) < nAz := by exact_mod_cast hA
  have he : (areas C nAz)[q] = -(Real.cos ((bounds C)[q + 1]'(by rw [bounds_length hne]; omega)) - Real.cos ((bounds C)[q]'(by rw [bounds_length hne]; omega))) * (2 * Real.pi / nAz) := by
    simp [areas]
  rw [he]
  have : 0 < 2 * Real.pi / nAz := by positivity
  nlinarith

theorem telescope (k : ℝ) (a : ℝ) (l : List ℝ) : (List.zipWith (fun (x y : ℝ) => -(Real.cos y - Real.cos x) * k) (a :: l) l).sum = (Real.cos a - Real.cos ((a :: l).getLast (by simp))) * k := by
  induction l generalizing a with
  | nil => simp
  | cons b t ih =>
    rw [List.zipWith_cons_cons, List.sum_cons, ih b, List.getLast_cons_cons]
    ring

theorem areas_sum (C : List ℝ) (nAz : ℕ) : (areas C nAz).sum = 2 * (2 * Real.pi / nAz) := by
  unfold areas
  rw [show bounds C = 0 :: (bounds C).tail from rfl, List.tail_cons, telescope]
  have : (0 :: (bounds C).tail).getLast (by simp) = Real.pi := by
    simp [bounds]
  rw [this, Real.cos_zero, Real.cos_pi]
  ring

theorem mesh_sum (A C : List ℝ) (f : ℝ → ℝ) : ((RegGrid.mesh A C).map fun p => f p.2).sum = A.length * (C.map f).sum := by
  unfold RegGrid.mesh
  induction C with
  | nil => simp
  | cons c t ih =>
    rw [List.flatMap_cons, List.map_append, List.sum_append, ih, List.map_cons, List.sum_cons, List.map_map]
    have : (List.map ((fun p : ℝ × ℝ => f p.2) ∘ fun a => (a, c)) A).sum = A.length * f c := by
      rw [show ((fun p : ℝ × ℝ => f p.2) ∘ fun a => (a, c)) = fun _ => f c from rfl]
      simp
    rw [this]
    ring

/-! ## Theorems -/

/-- The columns of the basis: the harmonic of degree `n` and order `m` is column `n^2 + n + m`, of `(degree + 1)^2`. -/
theorem C115_basis (d : ℕ) : (basisIdx d).length = (d + 1) ^ 2 ∧ ∀ n m : ℤ, |m| ≤ n → n ≤ d → (basisIdx d)[(n ^ 2 + n + m).toNat]? = some (n, m) := by
  refine ⟨basisIdx_length d, ?_⟩
  intro n m h1 h2
  rw [abs_le] at h1
  obtain ⟨a, rfl⟩ := Int.eq_ofNat_of_zero_le (show 0 ≤ n by omega)
  obtain ⟨k, hk⟩ := Int.eq_ofNat_of_zero_le (show 0 ≤ (a : ℤ) + m by omega)
  have := basisIdx_get? (d := d) (n := a) (k := k) (by omega) (by omega)
  rw [show ((a : ℤ) ^ 2 + a + m).toNat = a ^ 2 + k by
    rw [add_assoc, hk]
    exact_mod_cast Int.toNat_natCast (a ^ 2 + k), this]
  congr 2
  omega

/-- The weights of a regular grid: there is one for every point, they are positive and their sum is one. -/
theorem C115_weights (g : Grid) (voronoi : Fin g.n → ℝ) {A C : List ℝ} (hb : ∀ i, |g.azimuth i| ≤ 2 * Real.pi) (hc : ∀ i, 0 ≤ g.colatitude i ∧ g.colatitude i ≤ Real.pi)
    (h : RegGrid.detectRegularGrid (List.ofFn g.azimuth) (List.ofFn g.colatitude) = .ok (some (A, C))) (hN : A.length ≤ 50000) :
    ∃ w, weights g voronoi = .ok w ∧ (∀ i, 0 < w i) ∧ ∑ i, w i = 1 := by
  obtain ⟨⟨hlen, hperm⟩, hsp, hC⟩ := RegGrid.C114_sound (by
    intro a ha
    obtain ⟨i, rfl⟩ := List.mem_ofFn.mp ha
    exact hb i) h hN
  have hpi := Real.pi_pos
  have hmem : ∀ i, (g.azimuth i, g.colatitude i) ∈ C.flatMap fun c => A.map fun a => (a, c) := by
    intro i
    rw [← hperm.mem_iff]
    rw [List.mem_iff_getElem]
    exact ⟨i, by simp, by simp⟩
  have hcolmem : ∀ i, g.colatitude i ∈ C ∧ g.azimuth i ∈ A := by
    intro i
    obtain ⟨c, hc, hx⟩ := List.mem_flatMap.mp (hmem i)
    obtain ⟨a, ha, he⟩ := List.mem_map.mp hx
    simp only [Prod.mk.injEq] at he
    exact ⟨he.2 ▸ hc, he.1 ▸ ha⟩
  have hlook : ∀ c ∈ C, ∃ q, ∃ hq : q < C.length, C[q] = c ∧ ∃ hw : q < (areas C A.length).length, lookup C (areas C A.length) c = some (areas C A.length)[q] := by
    intro c hc
    obtain ⟨q, hq, rfl⟩ := List.mem_iff_getElem.mp hc
    have hne : C ≠ [] := List.ne_nil_of_mem hc
    exact ⟨q, hq, rfl, by rw [areas_length hne]; exact hq, lookup_eq hC (areas_length hne _) hq⟩
  unfold weights
  rw [h]
  show ∃ w, regularWeights g.colatitude C A.length = .ok w ∧ _
  unfold regularWeights
  rw [if_pos (by
    intro i
    obtain ⟨q, _, _, _, he⟩ := hlook _ (hcolmem i).1
    rw [he]; rfl)]
  refine ⟨_, rfl, ?_, ?_⟩
  · intro i
    obtain ⟨q, hq, hqe, hw, he⟩ := hlook _ (hcolmem i).1
    rw [he, Option.getD_some]
    have := areas_pos hC (List.ne_nil_of_mem (hcolmem i).1) (by
      intro c hc'
      have : c ∈ List.ofFn g.colatitude := by
        have h1 : c ∈ ((List.zip (List.ofFn g.azimuth) (List.ofFn g.colatitude)).map Prod.snd) := by
          rw [(hperm.map Prod.snd).mem_iff]
          exact List.mem_map.mpr ⟨(g.azimuth i, c), List.mem_flatMap.mpr ⟨c, hc', List.mem_map.mpr ⟨_, (hcolmem i).2, rfl⟩⟩, rfl⟩
        rwa [← List.unzip_snd, List.unzip_zip hlen] at h1
      obtain ⟨k, rfl⟩ := List.mem_ofFn.mp this
      exact hc k) (List.length_pos_of_mem (hcolmem i).2) q hw
    positivity
  · rw [← Finset.sum_div]
    have h1 : ∑ i, (lookup C (areas C A.length) (g.colatitude i)).getD 0 = ((RegGrid.mesh A C).map fun p => (fun c => (lookup C (areas C A.length) c).getD 0) p.2).sum := by
      rw [show RegGrid.mesh A C = C.flatMap fun c => A.map fun a => (a, c) from rfl, ← (hperm.map _).sum_eq]
      rw [show (List.map (fun p : ℝ × ℝ => (fun c => (lookup C (areas C A.length) c).getD 0) p.2) (List.zip (List.ofFn g.azimuth) (List.ofFn g.colatitude))) =
        ((List.zip (List.ofFn g.azimuth) (List.ofFn g.colatitude)).map Prod.snd).map (fun c => (lookup C (areas C A.length) c).getD 0) by rw [List.map_map]; rfl]
      rw [← List.unzip_snd, List.unzip_zip hlen, List.map_ofFn, List.sum_ofFn]
      rfl
    rw [h1, mesh_sum A C fun c => (lookup C (areas C A.length) c).getD 0]
    have hAC : A ≠ [] ∧ C ≠ [] := by
      constructor
      · rintro rfl
        have hz : (List.ofFn g.azimuth) = [] := by
          have := hperm.length_eq
          rw [List.length_zip, ← hlen, min_self, show (C.flatMap fun c => ([] : List ℝ).map fun a => (a, c)) = [] by simp] at this
          exact List.length_eq_zero_iff.mp this
        have := (RegGrid.C114_raises (List.ofFn g.azimuth) (List.ofFn g.colatitude)).1.mpr ⟨hz, List.length_eq_zero_iff.mp (by rw [← hlen, hz]; rfl)⟩
        obtain ⟨e, he⟩ := this
        rw [h] at he
        simp at he
      · rintro rfl
        have hz : (List.ofFn g.azimuth) = [] := by
          have := hperm.length_eq
          simp only [List.flatMap_nil, List.length_nil, List.length_zip] at this
          rw [← hlen, min_self] at this
          exact List.length_eq_zero_iff.mp this
        have := (RegGrid.C114_raises (List.ofFn g.azimuth) (List.ofFn g.colatitude)).1.mpr ⟨hz, List.length_eq_zero_iff.mp (by rw [← hlen, hz]; rfl)⟩
        obtain ⟨e, he⟩ := this
        rw [h] at he
        simp at he
    have h2 : C.map (fun c => (lookup C (areas C A.length) c).getD 0) = areas C A.length := by
      apply List.ext_getElem
      · rw [List.length_map, areas_length hAC.2]
      · intro q hq1 hq2
        rw [List.getElem_map, lookup_eq hC (areas_length hAC.2 _) (by simpa using hq1)]
        rfl
    rw [h2, areas_sum]
    have hn : (A.length : ℝ) ≠ 0 := by
      have := List.length_pos_iff.mpr hAC.1
      exact_mod_cast this.ne'
    field_simp
    norm_num

/-- The weight of a point is its share of the ring between the middles of its colatitude and the neighbouring ones, relative to the area of the sphere. -/
theorem C115_cell (g : Grid) (voronoi : Fin g.n → ℝ) {A C : List ℝ} (h : RegGrid.detectRegularGrid (List.ofFn g.azimuth) (List.ofFn g.colatitude) = .ok (some (A, C)))
    (hC : C.Pairwise (· < ·)) {w : Fin g.n → ℝ} (hw : weights g voronoi = .ok w) (i : Fin g.n) (q : ℕ) (hq : q < C.length) (hi : g.colatitude i = C[q]) (lo hi' : ℝ)
    (hlo : lo = if h0 : q = 0 then 0 else (C[q - 1] + C[q]) / 2) (hhi : hi' = if h1 : q + 1 < C.length then (C[q] + C[q + 1]) / 2 else Real.pi) :
    w i = (Real.cos lo - Real.cos hi') / (2 * A.length) := by
  have hne : C ≠ [] := by
    rintro rfl
    simp at hq
  unfold weights at hw
  rw [h] at hw
  change regularWeights g.colatitude C A.length = .ok w at hw
  unfold regularWeights at hw
  split at hw
  swap
  · simp at hw
  have hwi := congrFun (Except.ok.inj hw) i
  rw [← hwi]
  rw [hi, lookup_eq hC (areas_length hne _) hq, Option.getD_some]
  have he : (areas C A.length)[q]'(by rw [areas_length hne]; exact hq) =
      -(Real.cos ((bounds C)[q + 1]'(by rw [bounds_length hne]; omega)) - Real.cos ((bounds C)[q]'(by rw [bounds_length hne]; omega))) * (2 * Real.pi / A.length) := by
    simp [areas]
  rw [he, bounds_get hne, bounds_get hne, dif_neg (Nat.succ_ne_zero q)]
  have h2 : (if h0 : q = 0 then (0 : ℝ) else if h1 : q < C.length then (C[q - 1] + C[q]) / 2 else Real.pi) = lo := by
    rw [hlo]
    simp only [hq, dite_true]
  simp only [Nat.add_sub_cancel]
  rw [h2, ← hhi]
  have hpi := Real.pi_pos.ne'
  field_simp
  ring

/-- The array of responses has to fit the grid. -/
theorem C115_raises (Y : ℤ → ℤ → ℝ → ℝ → ℂ) (pinv : (n K : ℕ) → Matrix (Fin n) (Fin K) ℂ → Matrix (Fin K) (Fin n) ℂ) (g : Grid) (voronoi : Fin g.n → ℝ) {m T : ℕ} (irs : Fin m → Fin T → ℝ)
    (new : Grid) (d : ℕ) (nfft : Option ℕ) (h : g.n ≠ m) : sphericalInterpolation Y pinv g voronoi irs new d nfft = .error .valueError := by
  unfold sphericalInterpolation
  rw [dif_neg h]

/-- Whatever the responses, the result at every point is at all times the same real combination of the measured responses, padded with zeros or cut to `nfft` samples: nothing is
lost by the real part of the inverse transform. -/
theorem C115_linear {Y} (hY : Harmonics Y) (pinv : (n K : ℕ) → Matrix (Fin n) (Fin K) ℂ → Matrix (Fin K) (Fin n) ℂ) (g new : Grid) (voronoi : Fin g.n → ℝ) (d : ℕ) {w : Fin g.n → ℝ}
    (hw : weights g voronoi = .ok w) (hp : IsPinv 1e-2 (weighted w (basis Y d g)) (pinv _ _ (weighted w (basis Y d g)))) :
    ∃ (A : Fin new.n → Fin g.n → ℝ) (B : Fin g.n → Fin g.n → ℝ), ∀ (T : ℕ) (irs : Fin g.n → Fin T → ℝ) (nfft : Option ℕ), nfft.getD T ≠ 0 →
      sphericalInterpolation Y pinv g voronoi irs new d nfft =
        .ok (fun i t => ∑ j, A i j * (if h : t.1 < T then irs j ⟨t.1, h⟩ else 0), fun i t => ∑ j, B i j * (if h : t.1 < T then irs j ⟨t.1, h⟩ else 0)) := by
  have hreal : ∀ q : Grid, operator w (pinv _ _ (weighted w (basis Y d g))) (basis Y d q) = ((operator w (pinv _ _ (weighted w (basis Y d g))) (basis Y d q)).map Complex.re).map Complex.ofReal := by
    intro q
    have h := operator_real hY (by norm_num) d g q w hp
    ext i j
    have h1 := congrFun (congrFun h i) j
    rw [map_apply] at h1
    rw [map_apply, map_apply]
    exact (Complex.conj_eq_iff_re.mp h1).symm
  refine ⟨fun i j => (operator w (pinv _ _ (weighted w (basis Y d g))) (basis Y d new) i j).re, fun i j => (operator w (pinv _ _ (weighted w (basis Y d g))) (basis Y d g) i j).re, ?_⟩
  intro T irs nfft h0
  unfold sphericalInterpolation
  rw [dif_pos rfl, hw]
  show (if nfft.getD T = 0 then _ else _) = _
  rw [if_neg h0]
  congr 1
  refine Prod.ext ?_ ?_
  · funext i t
    exact synth_real w _ (basis Y d new) _ (hreal new) _ i t
  · funext i t
    exact synth_real w _ (basis Y d g) _ (hreal g) _ i t

theorem nsq_eq {n : ℕ} (x : Fin n → ℂ) : ((nsq x : ℝ) : ℂ) = star x ⬝ᵥ x := by
  unfold nsq dotProduct
  push_cast
  refine Finset.sum_congr rfl fun i _ => ?_
  rw [Complex.normSq_eq_conj_mul_self]
  rfl

theorem nsq_isometry {n r : ℕ} {U : Matrix (Fin n) (Fin r) ℂ} (hU : Uᴴ * U = 1) (z : Fin r → ℂ) : nsq (U *ᵥ z) = nsq z := by
  have h : ((nsq (U *ᵥ z) : ℝ) : ℂ) = (nsq z : ℝ) := by
    rw [nsq_eq, nsq_eq, star_mulVec, dotProduct_mulVec, vecMul_vecMul, hU, vecMul_one]
  exact_mod_cast h

theorem nsq_single {r : ℕ} (j : Fin r) (a : ℂ) : nsq (Pi.single j a) = Complex.normSq a := by
  unfold nsq
  rw [Finset.sum_eq_single j]
  · simp
  · intro i _ hi
    simp [hi]
  · simp

/-- Nothing is dropped for a well conditioned matrix: the pseudo-inverse is a left inverse. -/
theorem pinv_left {rcond : ℝ} {n K : ℕ} {M : Matrix (Fin n) (Fin K) ℂ} {X : Matrix (Fin K) (Fin n) ℂ} (h : IsPinv rcond M X) (hc : WellConditioned rcond M) : X * M = 1 := by
  obtain ⟨r, U, s, V, hU, hV, hs, hM, hX⟩ := h
  have hMV : M * V = U * diagonal (fun i => (s i : ℂ)) := by rw [hM, Matrix.mul_assoc _ Vᴴ, hV, Matrix.mul_one]
  have hcol : ∀ j, nsq (V *ᵥ Pi.single j 1) = 1 ∧ nsq (M *ᵥ (V *ᵥ Pi.single j 1)) = s j ^ 2 := by
    intro j
    constructor
    · rw [nsq_isometry hV, nsq_single, map_one]
    · rw [mulVec_mulVec, hMV, ← mulVec_mulVec, nsq_isometry hU, diagonal_mulVec_single, nsq_single, mul_one, Complex.normSq_ofReal]
      ring
  have hne : ∀ j, V *ᵥ Pi.single j (1 : ℂ) ≠ 0 := by
    intro j h0
    have := (hcol j).1
    rw [h0] at this
    simp [nsq] at this
  have hlarge : ∀ i j, rcond * s j < s i := by
    intro i j
    have := hc _ _ (hne j) (hne i)
    rw [(hcol i).1, (hcol i).2, (hcol j).1, (hcol j).2, mul_one, mul_one, ← mul_pow] at this
    exact lt_of_pow_lt_pow_left₀ 2 (hs i) this
  have hVV : V * Vᴴ = 1 := by
    have hker : ∀ a : Fin K → ℂ, a - V *ᵥ (Vᴴ *ᵥ a) = 0 := by
      intro a
      by_contra hn
      have := hc _ _ hn hn
      have h0 : M *ᵥ (a - V *ᵥ (Vᴴ *ᵥ a)) = 0 := by
        rw [mulVec_sub, mulVec_mulVec, hMV, hM, mulVec_mulVec, sub_self]
      rw [h0] at this
      simp [nsq] at this
    ext i j
    have h1 := congrFun (hker (Pi.single j 1)) i
    rw [mulVec_mulVec, Pi.sub_apply, mulVec_single_one, Pi.zero_apply, sub_eq_zero] at h1
    rw [one_apply]
    rw [col_apply] at h1
    rw [← h1]
    simp [Pi.single_apply]
  rw [hX (fun i => (s i)⁻¹) (fun i _ => rfl) (fun i ⟨j, hj⟩ => absurd (hlarge i j) (not_lt.mpr hj))]
  have hs0 : ∀ i, s i ≠ 0 := by
    intro i h0
    have := hlarge i i
    rw [h0] at this
    simp at this
  calc V * diagonal (fun i => (((s i)⁻¹ : ℝ) : ℂ)) * Uᴴ * M
      = V * diagonal (fun i => (((s i)⁻¹ : ℝ) : ℂ)) * ((Uᴴ * U) * diagonal (fun i => (s i : ℂ))) * Vᴴ := by rw [hM]; simp only [Matrix.mul_assoc]
    _ = V * (diagonal (fun i => (((s i)⁻¹ : ℝ) : ℂ)) * diagonal (fun i => (s i : ℂ))) * Vᴴ := by rw [hU, Matrix.one_mul]; simp only [Matrix.mul_assoc]
    _ = 1 := by
      rw [diagonal_mul_diagonal]
      have : (fun i => (((s i)⁻¹ : ℝ) : ℂ) * (s i : ℂ)) = fun _ => 1 := by
        funext i
        rw [← Complex.ofReal_mul, inv_mul_cancel₀ (hs0 i), Complex.ofReal_one]
      rw [this, diagonal_one, Matrix.mul_one, hVV]

/-- Sound fields of limited degree are interpolated exactly: if the measured responses are, at all times, the values of a combination of harmonics up to the degree used, the results
are the values of the same combination on the target grid, and the measured responses on the original grid. The grid has to be good enough that no singular value is dropped. -/
theorem C115_exact {Y} (hY : Harmonics Y) (pinv : (n K : ℕ) → Matrix (Fin n) (Fin K) ℂ → Matrix (Fin K) (Fin n) ℂ) (g new : Grid) (voronoi : Fin g.n → ℝ) (d : ℕ) {w : Fin g.n → ℝ}
    (hw : weights g voronoi = .ok w) (hp : IsPinv 1e-2 (weighted w (basis Y d g)) (pinv _ _ (weighted w (basis Y d g)))) (hc : WellConditioned 1e-2 (weighted w (basis Y d g)))
    {T : ℕ} (irs : Fin g.n → Fin T → ℝ) (hT : T ≠ 0) (coef : ℤ × ℤ → Fin T → ℂ)
    (hf : ∀ j t, (irs j t : ℂ) = ((basisIdx d).map fun p => Y p.1 p.2 (g.colatitude j) (g.azimuth j) * coef p t).sum) :
    ∃ target, sphericalInterpolation Y pinv g voronoi irs new d none = .ok (target, irs) ∧
      ∀ i t, (target i t : ℂ) = ((basisIdx d).map fun p => Y p.1 p.2 (new.colatitude i) (new.azimuth i) * coef p t).sum := by
  set X := pinv _ _ (weighted w (basis Y d g)) with hXd
  have hXM := pinv_left hp hc
  have hsum : ∀ (q : Grid) (i : Fin q.n) (t : Fin T), ((basisIdx d).map fun p => Y p.1 p.2 (q.colatitude i) (q.azimuth i) * coef p t).sum =
      ∑ k : Fin (basisIdx d).length, basis Y d q i k * coef (basisIdx d)[k] t := by
    intro q i t
    rw [← List.sum_ofFn]
    congr 1
    apply List.ext_getElem
    · simp
    · intro k h1 h2
      simp [basis]
  have hval : ∀ (q : Grid) (i : Fin q.n) (t : Fin T), synth T (basis Y d q) (gamma T w X irs) i t = ((basisIdx d).map fun p => Y p.1 p.2 (q.colatitude i) (q.azimuth i) * coef p t).sum := by
    intro q i t
    have hreal : operator w X (basis Y d q) = ((operator w X (basis Y d q)).map Complex.re).map Complex.ofReal := by
      have h := operator_real hY (by norm_num) d g q w hp
      ext i j
      have h1 := congrFun (congrFun h i) j
      rw [map_apply] at h1
      rw [map_apply, map_apply]
      exact (Complex.conj_eq_iff_re.mp h1).symm
    rw [synth_real w X (basis Y d q) _ hreal irs i t, hsum]
    have hmul : operator w X (basis Y d q) * basis Y d g = basis Y d q := by
      unfold operator
      rw [Matrix.mul_assoc, ← weighted_eq, Matrix.mul_assoc, hXM, Matrix.mul_one]
    push_cast
    have h2 : ∀ j, (((operator w X (basis Y d q)).map Complex.re i j : ℝ) : ℂ) = operator w X (basis Y d q) i j := fun j => (congrFun (congrFun hreal i) j).symm
    have h3 : ∀ j, ((sample (irs j) t : ℝ) : ℂ) = ∑ k : Fin (basisIdx d).length, basis Y d g j k * coef (basisIdx d)[k] t := by
      intro j
      unfold sample
      rw [dif_pos t.2, hf j t, hsum]
    simp only [h2, h3, Finset.mul_sum]
    rw [Finset.sum_comm]
    refine Finset.sum_congr rfl fun k _ => ?_
    have h4 := congrFun (congrFun hmul i) k
    rw [mul_apply] at h4
    rw [← h4, Finset.sum_mul]
    refine Finset.sum_congr rfl fun j _ => ?_
    ring
  refine ⟨synth T (basis Y d new) (gamma T w X irs), ?_, fun i t => hval new i t⟩
  unfold sphericalInterpolation
  rw [dif_pos rfl, hw]
  show (if T = 0 then _ else _) = _
  rw [if_neg hT]
  congr 1
  refine Prod.ext rfl ?_
  funext i t
  have h1 : ((synth T (basis Y d g) (gamma T w X irs) i t : ℝ) : ℂ) = irs i t := by rw [hval g i t, hf]
  exact_mod_cast h1

/-! ## Example: four points, degree zero -/

def flat (_ m : ℤ) (_ _ : ℝ) : ℂ := if m = 0 then 1 else 0

theorem flat_harmonics : Harmonics flat := by
  intro n m t p _
  unfold flat
  by_cases h : m = 0
  · subst h; simp
  · simp [h]

noncomputable def four : Grid := ⟨4, ![Real.pi, 0, 0, Real.pi], ![1, 2, 1, 2]⟩

theorem four_detect : RegGrid.detectRegularGrid (List.ofFn four.azimuth) (List.ofFn four.colatitude) = .ok (some ([0, Real.pi], [1, 2])) := by
  have h1 : List.ofFn four.azimuth = [Real.pi, 0, 0, Real.pi] := by simp [four, List.ofFn_succ]
  have h2 : List.ofFn four.colatitude = [1, 2, 1, 2] := by simp [four, List.ofFn_succ]
  rw [h1, h2]
  exact RegGrid.four

theorem four_weights : ∃ w, weights four 0 = .ok w ∧ (∀ i, 0 < w i) ∧ ∑ i, w i = 1 := by
  have hpi := Real.pi_gt_three
  refine C115_weights four 0 ?_ ?_ four_detect (by simp)
  · intro i
    have h0 : |Real.pi| ≤ 2 * Real.pi := by rw [abs_of_pos Real.pi_pos]; linarith
    have h1 : |(0 : ℝ)| ≤ 2 * Real.pi := by rw [abs_zero]; linarith
    fin_cases i
    · exact h0
    · exact h1
    · exact h1
    · exact h0
  · intro i
    have h0 : (0 : ℝ) ≤ 1 ∧ (1 : ℝ) ≤ Real.pi := ⟨by norm_num, by linarith⟩
    have h1 : (0 : ℝ) ≤ 2 ∧ (2 : ℝ) ≤ Real.pi := ⟨by norm_num, by linarith⟩
    fin_cases i
    · exact h0
    · exact h1
    · exact h0
    · exact h1

example : ∃ w, weights four 0 = .ok w ∧ w (0 : Fin 4) = (1 - Real.cos (3 / 2)) / 4 := by
  obtain ⟨w, hw, _⟩ := four_weights
  refine ⟨w, hw, ?_⟩
  have h := C115_cell four 0 four_detect (by norm_num) hw (0 : Fin 4) 0 (by simp) rfl 0 (3 / 2) (by simp) (by norm_num)
  rw [h, Real.cos_zero]
  norm_num

/-- The pseudo-inverse of a column. -/
noncomputable def colPinv (n K : ℕ) (M : Matrix (Fin n) (Fin K) ℂ) : Matrix (Fin K) (Fin n) ℂ := fun k j => star (M j k) / (nsq fun i => M i k : ℝ)

theorem colPinv_isPinv {rcond : ℝ} (hr : rcond < 1) {n : ℕ} (M : Matrix (Fin n) (Fin 1) ℂ) (hM : 0 < nsq fun i => M i 0) : IsPinv rcond M (colPinv n 1 M) := by
  set a := nsq fun i => M i 0 with ha
  have hs : Real.sqrt a * Real.sqrt a = a := Real.mul_self_sqrt hM.le
  have hs0 : Real.sqrt a ≠ 0 := (Real.sqrt_pos.mpr hM).ne'
  have hsc : ((Real.sqrt a : ℝ) : ℂ) ≠ 0 := by exact_mod_cast hs0
  refine ⟨1, Matrix.of fun i _ => M i 0 / (Real.sqrt a : ℝ), fun _ => Real.sqrt a, 1, ?_, by simp, fun _ => Real.sqrt_nonneg _, ?_, ?_⟩
  · ext i j
    rw [Subsingleton.elim i 0, Subsingleton.elim j 0, mul_apply, one_apply, if_pos rfl]
    simp only [conjTranspose_apply, of_apply]
    have h1 : ∀ x : ℂ, star (x / (Real.sqrt a : ℝ)) * (x / (Real.sqrt a : ℝ)) = ((Complex.normSq x / a : ℝ) : ℂ) := by
      intro x
      rw [star_div₀, Complex.star_def, Complex.conj_ofReal, div_mul_div_comm, ← Complex.normSq_eq_conj_mul_self, ← Complex.ofReal_mul, hs]
      push_cast
      rfl
    simp only [h1]
    rw [← Complex.ofReal_sum, ← Finset.sum_div, ← show a = ∑ i, Complex.normSq (M i 0) from rfl, div_self hM.ne', Complex.ofReal_one]
  · rw [conjTranspose_one, Matrix.mul_one]
    ext i j
    rw [Subsingleton.elim j 0, mul_diagonal, of_apply, div_mul_cancel₀ _ hsc]
  · intro inv h1 _
    have h2 := h1 0 (by
      intro j
      have : 0 < Real.sqrt a := Real.sqrt_pos.mpr hM
      nlinarith)
    ext k j
    rw [Subsingleton.elim k 0, Matrix.one_mul, diagonal_mul, h2, conjTranspose_apply, of_apply]
    unfold colPinv
    rw [star_div₀, Complex.star_def, Complex.conj_ofReal, ← ha]
    have : ((a : ℝ) : ℂ) = (Real.sqrt a : ℝ) * (Real.sqrt a : ℝ) := by rw [← Complex.ofReal_mul, hs]
    rw [this, Complex.ofReal_inv]
    field_simp

theorem column_conditioned {rcond : ℝ} (h0 : 0 ≤ rcond) (hr : rcond < 1) {n : ℕ} (M : Matrix (Fin n) (Fin 1) ℂ) (hM : 0 < nsq fun i => M i 0) : WellConditioned rcond M := by
  have h1 : ∀ x : Fin 1 → ℂ, nsq (M *ᵥ x) = (nsq fun i => M i 0) * nsq x := by
    intro x
    unfold nsq
    rw [Finset.sum_mul]
    refine Finset.sum_congr rfl fun i _ => ?_
    simp [mulVec, dotProduct]
  have h2 : ∀ x : Fin 1 → ℂ, x ≠ 0 → 0 < nsq x := by
    intro x hx
    unfold nsq
    rw [Fin.sum_univ_one]
    apply Complex.normSq_pos.mpr
    intro h
    apply hx
    funext i
    rw [Subsingleton.elim i 0, h]
    rfl
  intro x y hx hy
  rw [h1, h1]
  have hxp := h2 x hx
  have hyp := h2 y hy
  have : 0 < (nsq fun i => M i 0) * nsq x * nsq y := by positivity
  nlinarith [mul_pos this (show 0 < 1 - rcond ^ 2 by nlinarith)]

theorem four_column {w : Fin 4 → ℝ} (hw : ∀ i, 0 < w i) : 0 < nsq fun i => weighted (n := 4) (K := 1) w (basis flat 0 four) i 0 := by
  unfold nsq
  refine Finset.sum_pos ?_ ⟨0, Finset.mem_univ _⟩
  intro i _
  apply Complex.normSq_pos.mpr
  have : weighted (n := 4) (K := 1) w (basis flat 0 four) i 0 = (w i : ℂ) := by
    show (w i : ℂ) * flat 0 0 _ _ = _
    simp [flat]
  show weighted (n := 4) (K := 1) w (basis flat 0 four) i 0 ≠ 0
  exact this ▸ (by exact_mod_cast (hw i).ne')

/-- Responses that do not depend on the direction are the same on the new grid. -/
example : ∃ target, sphericalInterpolation flat colPinv four 0 (fun (_ : Fin 4) (t : Fin 3) => (t : ℝ)) ⟨2, ![3, 4], ![0, 1]⟩ 0 none = .ok (target, fun _ t => (t : ℝ)) ∧
    ∀ i t, (target i t : ℂ) = (([(0, 0)] : List (ℤ × ℤ)).map fun _ => (1 : ℂ) * (((t : Fin 3) : ℕ) : ℂ)).sum := by
  obtain ⟨w, hw, hpos, _⟩ := four_weights
  obtain ⟨target, h1, h2⟩ := C115_exact flat_harmonics colPinv four ⟨2, ![3, 4], ![0, 1]⟩ 0 0 hw
    (colPinv_isPinv (by norm_num) (weighted (n := 4) (K := 1) w (basis flat 0 four)) (four_column hpos))
    (column_conditioned (by norm_num) (by norm_num) (weighted (n := 4) (K := 1) w (basis flat 0 four)) (four_column hpos))
    (fun (_ : Fin 4) (t : Fin 3) => (t : ℝ)) (by norm_num) (fun _ t => ((t : ℕ) : ℂ)) (by
      intro j t
      show _ = (([(0, 0)] : List (ℤ × ℤ)).map fun p => flat p.1 p.2 _ _ * _).sum
      simp [flat])
  exact ⟨target, h1, fun i t => by rw [h2 i t]; rfl⟩

example : ∃ (A : Fin 2 → Fin 4 → ℝ) (B : Fin 4 → Fin 4 → ℝ), ∀ (T : ℕ) (irs : Fin 4 → Fin T → ℝ) (nfft : Option ℕ), nfft.getD T ≠ 0 →
    sphericalInterpolation flat colPinv four 0 irs ⟨2, ![3, 4], ![0, 1]⟩ 0 nfft =
      .ok (fun i t => ∑ j, A i j * (if h : t.1 < T then irs j ⟨t.1, h⟩ else 0), fun i t => ∑ j, B i j * (if h : t.1 < T then irs j ⟨t.1, h⟩ else 0)) := by
  obtain ⟨w, hw, hpos, _⟩ := four_weights
  exact C115_linear flat_harmonics colPinv four ⟨2, ![3, 4], ![0, 1]⟩ 0 0 hw
    (colPinv_isPinv (by norm_num) (weighted (n := 4) (K := 1) w (basis flat 0 four)) (four_column hpos))

example : sphericalInterpolation flat colPinv four 0 (fun (_ : Fin 5) (t : Fin 3) => (t : ℝ)) four 0 none = .error .valueError := C115_raises _ _ _ _ _ _ _ _ (by decide)

end Verif.SphInterp
