import Verif.Locate.Props
import Mathlib.Analysis.Matrix.Spectrum

/-!
# C102: line search with distance matrices
-/

namespace Verif.Locate

open Verif.Py Finset

/-- `eigh`: the eigenvalues of a basis of eigenvectors. -/
def IsEigh {n : Nat} (eigh : (Fin n → Fin n → ℝ) → Fin n → ℝ) : Prop := ∀ D : Fin n → Fin n → ℝ, (∀ i j, D i j = D j i) → ∃ U, Cloud.IsEig D (eigh D) U

/-- The cloud with one more point. -/
def extended {dim m : Nat} (R : Fin dim → Fin m → ℝ) (s : Fin dim → ℝ) : Fin dim → Fin (m + 1) → ℝ := fun k i => if h : i.1 < m then R k ⟨i, h⟩ else s k

/-- The distance of a point to a microphone. -/
noncomputable def distTo {dim m : Nat} (R : Fin dim → Fin m → ℝ) (s : Fin dim → ℝ) (i : Fin m) : ℝ := Real.sqrt (∑ k, (s k - R k i) ^ 2)

theorem bordered_symm {dim m : Nat} (R : Fin dim → Fin m → ℝ) (dif : Fin m → ℝ) (d : ℝ) (i j : Fin (m + 1)) : bordered R dif d i j = bordered R dif d j i := by
  unfold bordered
  by_cases hi : i.1 < m <;> by_cases hj : j.1 < m
  · simp only [dif_pos hi, dif_pos hj, Cloud.C101_edm, Cloud.dist2]
    exact sum_congr rfl fun k _ => by ring
  · simp only [dif_pos hi, dif_neg hj]
  · simp only [dif_neg hi, dif_pos hj]
  · simp only [dif_neg hi, dif_neg hj]

/-- At the true distances the bordered matrix is the distance matrix of the cloud with the source. -/
theorem bordered_true {dim m : Nat} (R : Fin dim → Fin m → ℝ) (s : Fin dim → ℝ) {dif : Fin m → ℝ} {d : ℝ} (h : ∀ i, dif i + d = distTo R s i) : bordered R dif d = Cloud.edm (extended R s) := by
  funext i j
  rw [Cloud.C101_edm]
  unfold bordered Cloud.dist2 extended
  have hs : ∀ i, (dif i + d) ^ 2 = ∑ k, (s k - R k i) ^ 2 := fun i => by
    rw [h i]; exact Real.sq_sqrt (sum_nonneg fun _ _ => sq_nonneg _)
  by_cases hi : i.1 < m <;> by_cases hj : j.1 < m
  · simp only [dif_pos hi, dif_pos hj, Cloud.C101_edm, Cloud.dist2]
  · simp only [dif_pos hi, dif_neg hj, hs]
    exact sum_congr rfl fun k _ => by ring
  · simp only [dif_neg hi, dif_pos hj, hs]
  · simp only [dif_neg hi, dif_neg hj, sub_self]
    simp

/-- A distance matrix has at most two eigenvalues more than the dimension. -/
theorem edm_count {dim n : Nat} (X : Fin dim → Fin n → ℝ) {w : Fin n → ℝ} {U : Fin n → Fin n → ℝ} (h : Cloud.IsEig (Cloud.edm X) w U) : (univ.filter fun k => w k ≠ 0).card ≤ dim + 2 := by
  let P : Matrix (Fin n) (Fin dim ⊕ Fin 2) ℝ := Matrix.of fun i k => Sum.elim (fun k => -2 * X k i) ![1, ∑ l, X l i * X l i] k
  let Q : Matrix (Fin dim ⊕ Fin 2) (Fin n) ℝ := Matrix.of fun k j => Sum.elim (fun k => X k j) ![∑ l, X l j * X l j, 1] k
  have hPQ : (Matrix.of (Cloud.edm X) : Matrix (Fin n) (Fin n) ℝ) = P * Q := by
    ext i j
    rw [Matrix.mul_apply, Fintype.sum_sum_type, Fin.sum_univ_two]
    simp only [P, Q, Matrix.of_apply, Sum.elim_inl, Sum.elim_inr, Matrix.cons_val_zero, Matrix.cons_val_one, Cloud.edm]
    rw [show ∑ k, -2 * X k i * X k j = -2 * ∑ k, X k i * X k j by rw [mul_sum]; exact sum_congr rfl fun k _ => by ring]
    ring
  have hGU : (Matrix.of (Cloud.edm X) : Matrix (Fin n) (Fin n) ℝ) * Matrix.of U = Matrix.of U * Matrix.diagonal w := by
    ext i k
    rw [Matrix.mul_apply, Matrix.mul_diagonal]
    simp only [Matrix.of_apply]
    rw [h.eq i k]
    ring
  have hr : (Matrix.diagonal w).rank ≤ (Matrix.of (Cloud.edm X) : Matrix (Fin n) (Fin n) ℝ).rank := by
    have hd : IsUnit (Matrix.of U).det := (Matrix.isUnit_iff_isUnit_det _).mp h.basis
    rw [← Matrix.rank_mul_eq_right_of_isUnit_det (Matrix.of U) (Matrix.diagonal w) hd, ← hGU]
    exact Matrix.rank_mul_le_left _ _
  have hr2 : (Matrix.of (Cloud.edm X) : Matrix (Fin n) (Fin n) ℝ).rank ≤ dim + 2 := by
    rw [hPQ]
    refine (Matrix.rank_mul_le_right _ _).trans ?_
    simpa using Matrix.rank_le_card_height Q
  rw [Matrix.rank_diagonal] at hr
  have : (univ.filter fun k => w k ≠ 0).card = Fintype.card { i // w i ≠ 0 } := by
    rw [Fintype.card_subtype]
  omega

theorem sum_slice_nonneg {l : List ℝ} (h : ∀ x ∈ l, 0 ≤ x) (a b : Option Int) : 0 ≤ (slice l a b).sum := by
  unfold slice
  exact List.sum_nonneg fun x hx => h x (List.mem_of_mem_drop (List.mem_of_mem_take hx))

theorem costOf_nonneg {n : Nat} (w : Fin n → ℝ) : 0 ≤ costOf w := by
  unfold costOf
  apply sum_slice_nonneg
  intro x hx
  rw [List.mem_insertionSort, List.mem_ofFn] at hx
  obtain ⟨k, rfl⟩ := hx
  exact abs_nonneg _

/-- Sorted numbers that are not negative: if at most `r` are not zero, those before the last `r` are. -/
theorem sorted_zero {l : List ℝ} (hs : l.Pairwise (· ≤ ·)) (h0 : ∀ x ∈ l, 0 ≤ x) {r : Nat} (hc : (l.countP fun x => open Classical in decide (x ≠ 0)) ≤ r) : ∀ x ∈ l.take (l.length - r), x = 0 := by
  intro x hx
  by_contra hne
  obtain ⟨i, hi, rfl⟩ := List.mem_iff_getElem.mp hx
  rw [List.length_take] at hi
  rw [List.getElem_take] at hne
  have hpos : 0 < l[i]'(by omega) := lt_of_le_of_ne (h0 _ (List.getElem_mem _)) (Ne.symm hne)
  have hall : ∀ y ∈ l.drop i, y ≠ 0 := by
    intro y hy
    obtain ⟨j, hj, rfl⟩ := List.mem_iff_getElem.mp hy
    rw [List.length_drop] at hj
    rw [List.getElem_drop]
    rcases Nat.eq_zero_or_pos j with h | h
    · subst h; exact hpos.ne'
    · have := (List.pairwise_iff_getElem.mp hs) i (i + j) (by omega) (by omega) (by omega)
      intro h'; rw [h'] at this; linarith
  have h1 : ((l.drop i).countP fun x => open Classical in decide (x ≠ 0)) = (l.drop i).length := by
    rw [List.countP_eq_length]
    intro y hy
    simpa using hall y hy
  have h2 : ((l.drop i).countP fun x => open Classical in decide (x ≠ 0)) ≤ l.countP fun x => open Classical in decide (x ≠ 0) := (List.drop_sublist i l).countP_le
  rw [h1, List.length_drop] at h2
  omega

theorem countP_ofFn {n : Nat} (w : Fin n → ℝ) : ((List.ofFn fun k => |w k|).countP fun x => open Classical in decide (x ≠ 0)) = (univ.filter fun k => w k ≠ 0).card := by
  rw [List.ofFn_eq_map, List.countP_map, List.countP_eq_length_filter]
  simp [Finset.card, Finset.filter, Fin.univ_def, Function.comp_def]

/-- At most five eigenvalues are not zero: the cost is zero. -/
theorem costOf_zero {n : Nat} (hn : 5 ≤ n) {w : Fin n → ℝ} (h : (univ.filter fun k => w k ≠ 0).card ≤ 5) : costOf w = 0 := by
  unfold costOf
  set l := (List.ofFn fun k => |w k|).insertionSort (· ≤ ·) with hl
  have hlen : l.length = n := by rw [hl, List.length_insertionSort, List.length_ofFn]
  have e : slice l none (some ((n : Int) - 5)) = l.take (l.length - 5) := by
    unfold slice sliceStart sliceStop
    simp only [List.drop_zero, Nat.sub_zero]
    rw [show ((n : Int) - 5) = ((n - 5 : Nat) : Int) by omega, clampIdx_nat, hlen]
    congr 1
    omega
  rw [e]
  apply List.sum_eq_zero
  refine sorted_zero (List.pairwise_insertionSort (· ≤ ·) _) ?_ ?_
  · intro x hx
    rw [List.mem_insertionSort, List.mem_ofFn] at hx
    obtain ⟨k, rfl⟩ := hx
    exact abs_nonneg _
  · rw [(List.perm_insertionSort (· ≤ ·) _).countP_eq, countP_ofFn]
    exact h

theorem linspace_length (a b : ℝ) (n : Nat) : (linspace a b n).length = n := by simp [linspace]

theorem linspace_getElem (a b : ℝ) {n i : Nat} (h : i < (linspace a b n).length) : (linspace a b n)[i] = a + i * ((b - a) / (n - 1 : Nat)) := by
  simp [linspace]

/-- **C102, line search.** At least four microphones in at most three dimensions, and numbers that are the distances to a source up to a constant. Every cost is at least zero, and it is zero for an offset that is
the distance to the nearest microphone. The offsets go from one bound to the other. -/
theorem C102_search {dim m : Nat} (hdim : dim ≤ 3) (hm : 4 ≤ m) {eigh : (Fin (m + 1) → Fin (m + 1) → ℝ) → Fin (m + 1) → ℝ} (he : IsEigh eigh) (R : Fin dim → Fin m → ℝ) (s : Fin dim → ℝ) (t0 lo hi : ℝ)
    (steps : Nat) : ∃ cost d : List ℝ, lineSearch eigh R (fun i => distTo R s i + t0) lo hi steps = .ok (cost, d) ∧ cost.length = steps ∧ d.length = steps ∧ (∀ x ∈ cost, 0 ≤ x) ∧
      (∀ i, i < steps → (∃ j, d.getD i 0 = distTo R s j ∧ ∀ j', distTo R s j ≤ distTo R s j') → cost.getD i 1 = 0) ∧ (1 ≤ steps → d.getD 0 0 = lo) ∧ (2 ≤ steps → d.getD (steps - 1) 0 = hi) := by
  have h0 : 0 < m := by omega
  refine ⟨_, _, by unfold lineSearch; rw [dif_pos h0], by rw [List.length_map, linspace_length], linspace_length _ _ _, ?_, ?_, ?_, ?_⟩
  · intro x hx
    obtain ⟨y, _, rfl⟩ := List.mem_map.mp hx
    exact costOf_nonneg _
  · rintro i hi' ⟨j, hj, hmin⟩
    have hil : i < (linspace lo hi steps).length := by rw [linspace_length]; exact hi'
    rw [List.getD_eq_getElem _ _ hil] at hj
    rw [List.getD_eq_getElem _ _ (by rw [List.length_map]; exact hil), List.getElem_map, hj]
    have hlow : (univ : Finset (Fin m)).inf' ⟨⟨0, h0⟩, mem_univ _⟩ (fun i => distTo R s i + t0) = distTo R s j + t0 := by
      apply le_antisymm
      · exact inf'_le _ (mem_univ j)
      · apply le_inf'
        intro k _
        have := hmin k
        linarith
    have hb := bordered_true R s (dif := fun i => distTo R s i + t0 - (univ : Finset (Fin m)).inf' ⟨⟨0, h0⟩, mem_univ _⟩ (fun i => distTo R s i + t0)) (d := distTo R s j)
      (fun k => by rw [hlow]; ring)
    rw [hb]
    obtain ⟨U, hU⟩ := he (Cloud.edm (extended R s)) (fun a b => by rw [← hb]; exact bordered_symm _ _ _ a b)
    exact costOf_zero (by omega) ((edm_count _ hU).trans (by omega))
  · intro h1
    rw [List.getD_eq_getElem _ _ (by rw [linspace_length]; omega), linspace_getElem]
    simp
  · intro h1
    rw [List.getD_eq_getElem _ _ (by rw [linspace_length]; omega), linspace_getElem]
    have : ((steps - 1 : Nat) : ℝ) ≠ 0 := by
      have : steps - 1 ≠ 0 := by omega
      exact_mod_cast this
    field_simp
    ring

/-- **C102, deviation.** With four microphones, enough for a source in three dimensions, all costs are zero: the search tells nothing. With none there is a `ValueError`. -/
theorem C102_search_four_deviation {dim : Nat} (eigh : (Fin 5 → Fin 5 → ℝ) → Fin 5 → ℝ) (R : Fin dim → Fin 4 → ℝ) (tdoa : Fin 4 → ℝ) (lo hi : ℝ) (steps : Nat) :
    (∃ d, lineSearch eigh R tdoa lo hi steps = .ok (List.replicate steps 0, d)) ∧
      ∀ (eigh : (Fin 1 → Fin 1 → ℝ) → Fin 1 → ℝ) (R : Fin dim → Fin 0 → ℝ) (tdoa : Fin 0 → ℝ), lineSearch eigh R tdoa lo hi steps = .error .valueError := by
  constructor
  · refine ⟨linspace lo hi steps, ?_⟩
    unfold lineSearch
    rw [dif_pos (by omega)]
    simp only
    congr 2
    have : ∀ w : Fin 5 → ℝ, costOf w = 0 := by
      intro w
      unfold costOf slice sliceStart sliceStop
      simp [clampIdx]
    simp only [this]
    rw [List.map_const', linspace_length]
  · intro eigh R tdoa
    unfold lineSearch
    rw [dif_neg (by omega)]

/-- **C102, deviation.** With three microphones that are not all at one place, in any dimension, the cost is never zero: only the largest eigenvalue is left out. -/
theorem C102_search_three_deviation {dim : Nat} {eigh : (Fin 4 → Fin 4 → ℝ) → Fin 4 → ℝ} (he : IsEigh eigh) (R : Fin dim → Fin 3 → ℝ) {a b : Fin 3} (hab : 0 < Cloud.dist2 R a b) (tdoa : Fin 3 → ℝ)
    (lo hi : ℝ) (steps : Nat) : ∃ cost d : List ℝ, lineSearch eigh R tdoa lo hi steps = .ok (cost, d) ∧ ∀ x ∈ cost, 0 < x := by
  refine ⟨_, _, by unfold lineSearch; rw [dif_pos (by omega)], ?_⟩
  intro x hx
  obtain ⟨y, _, rfl⟩ := List.mem_map.mp hx
  set D := bordered R (fun i => tdoa i - (univ : Finset (Fin 3)).inf' ⟨⟨0, by omega⟩, mem_univ _⟩ tdoa) y with hD
  obtain ⟨U, hU⟩ := he D (fun i j => bordered_symm _ _ _ i j)
  set w := eigh D with hw
  have hGU : (Matrix.of D : Matrix (Fin 4) (Fin 4) ℝ) * Matrix.of U = Matrix.of U * Matrix.diagonal w := by
    ext i k
    rw [Matrix.mul_apply, Matrix.mul_diagonal]
    simp only [Matrix.of_apply]
    rw [hU.eq i k]
    ring
  have hdet : IsUnit (Matrix.of U).det := (Matrix.isUnit_iff_isUnit_det _).mp hU.basis
  have hDU : (Matrix.of D : Matrix (Fin 4) (Fin 4) ℝ) = Matrix.of U * Matrix.diagonal w * (Matrix.of U)⁻¹ := by
    rw [← hGU, Matrix.mul_assoc, Matrix.mul_nonsing_inv _ hdet, Matrix.mul_one]
  have htr : ∑ k, w k = 0 := by
    have h1 : Matrix.trace (Matrix.of D : Matrix (Fin 4) (Fin 4) ℝ) = ∑ k, w k := by
      rw [hDU, Matrix.trace_mul_comm, ← Matrix.mul_assoc, Matrix.nonsing_inv_mul _ hdet, Matrix.one_mul, Matrix.trace_diagonal]
    rw [← h1]
    unfold Matrix.trace
    apply sum_eq_zero
    intro i _
    simp only [Matrix.diag_apply, Matrix.of_apply, hD, bordered]
    by_cases hi : i.1 < 3
    · simp only [dif_pos hi, Cloud.C101_edm, Cloud.dist2, sub_self]
      simp
    · simp only [dif_neg hi]
  have hne : ∃ k, w k ≠ 0 := by
    by_contra h
    push Not at h
    have hz : Matrix.diagonal w = (0 : Matrix (Fin 4) (Fin 4) ℝ) := by
      rw [show w = 0 from funext h]; exact Matrix.diagonal_zero
    rw [hz, Matrix.mul_zero, Matrix.zero_mul] at hDU
    have := congrFun (congrFun hDU a.castSucc) b.castSucc
    simp only [Matrix.of_apply, hD, bordered, Fin.val_castSucc, dif_pos a.2, dif_pos b.2, Fin.eta, Cloud.C101_edm, Matrix.zero_apply] at this
    linarith
  refine lt_of_le_of_ne (costOf_nonneg _) ?_
  intro h0
  set l := (List.ofFn fun k => |w k|).insertionSort (· ≤ ·) with hl
  have hlen : l.length = 4 := by rw [hl, List.length_insertionSort, List.length_ofFn]
  have hnn : ∀ x ∈ l, 0 ≤ x := by
    intro x hx
    rw [hl, List.mem_insertionSort, List.mem_ofFn] at hx
    obtain ⟨k, rfl⟩ := hx
    exact abs_nonneg _
  have e : costOf w = (l.take 3).sum := by
    unfold costOf slice sliceStart sliceStop
    rw [← hl, hlen]
    rfl
  rw [e] at h0
  have hz : ∀ x ∈ l.take 3, x = 0 := by
    intro x hx
    refine le_antisymm ?_ (hnn x (List.mem_of_mem_take hx))
    rw [h0]
    exact List.single_le_sum (fun y hy => hnn y (List.mem_of_mem_take hy)) x hx
  -- three of the four are zero, and the sum is
  have hcount : (univ.filter fun k => w k ≠ 0).card ≤ 1 := by
    rw [← countP_ofFn, ← (List.perm_insertionSort (· ≤ ·) _).countP_eq, ← hl, ← List.take_append_drop 3 l, List.countP_append, List.countP_eq_zero.mpr, zero_add]
    · refine (List.countP_le_length).trans ?_
      rw [List.length_drop, hlen]
    · intro x hx
      simp [hz x hx]
  obtain ⟨k, hk⟩ := hne
  have : ∑ j, w j = w k := by
    apply sum_eq_single k
    · intro j _ hj
      by_contra hj0
      exact hj (card_le_one.mp hcount j (by simp [hj0]) k (by simp [hk]))
    · intro h; exact absurd (mem_univ k) h
  rw [htr] at this
  exact hk this.symm

/-- Symmetric matrices have a basis of eigenvectors. -/
theorem exists_eigh (n : Nat) : ∃ eigh : (Fin n → Fin n → ℝ) → Fin n → ℝ, IsEigh eigh := by
  have key : ∀ D : Fin n → Fin n → ℝ, ∃ w : Fin n → ℝ, (∀ i j, D i j = D j i) → ∃ U, Cloud.IsEig D w U := by
    intro D
    by_cases hs : ∀ i j, D i j = D j i
    · have hH : (Matrix.of D : Matrix (Fin n) (Fin n) ℝ).IsHermitian := by
        ext i j
        simp [hs i j]
      refine ⟨hH.eigenvalues, fun _ => ⟨fun i k => hH.eigenvectorBasis k i, ?_, ?_, ?_⟩⟩
      · intro i k
        have := congrFun (hH.mulVec_eigenvectorBasis k) i
        simpa [Matrix.mulVec, dotProduct] using this
      · intro k
        have h1 : ‖hH.eigenvectorBasis k‖ ^ 2 = 1 := by rw [hH.eigenvectorBasis.orthonormal.1 k]; norm_num
        rw [EuclideanSpace.norm_sq_eq] at h1
        rw [← h1]
        exact sum_congr rfl fun i _ => by rw [Real.norm_eq_abs, sq_abs]
      · have : (Matrix.of fun i k => hH.eigenvectorBasis k i) = (hH.eigenvectorUnitary : Matrix (Fin n) (Fin n) ℝ) := by
          ext i k
          rw [Matrix.IsHermitian.eigenvectorUnitary_apply]
          rfl
        rw [this]
        exact Unitary.isUnit_coe
    · exact ⟨0, fun h => absurd h hs⟩
  choose f hf using key
  exact ⟨f, hf⟩

/-- Five microphones and a source; the second offset searched is the distance to the nearest microphone. -/
example : ∃ (eigh : (Fin 6 → Fin 6 → ℝ) → Fin 6 → ℝ) (cost d : List ℝ), lineSearch eigh (fun (_ : Fin 3) (i : Fin 5) => if i = 0 then (0 : ℝ) else i)
    (fun i => distTo (fun (_ : Fin 3) (i : Fin 5) => if i = 0 then (0 : ℝ) else i) (fun (k : Fin 3) => if k = 0 then 1 else 0) i + 7) 0 2 3 = .ok (cost, d) ∧
    cost.getD 1 1 = 0 := by
  obtain ⟨eigh, he⟩ := exists_eigh 6
  obtain ⟨cost, d, e, -, -, -, hc, -⟩ := C102_search (le_refl 3) (show 4 ≤ 5 by omega) he (fun (_ : Fin 3) (i : Fin 5) => if i = 0 then (0 : ℝ) else i) (fun (k : Fin 3) => if k = 0 then 1 else 0) 7 0 2 3
  refine ⟨eigh, cost, d, e, hc 1 (by omega) ⟨0, ?_, ?_⟩⟩
  · unfold lineSearch at e
    rw [dif_pos (by omega)] at e
    injection e with e
    rw [← (Prod.mk.inj e).2]
    simp [linspace, distTo, List.range_succ]
  · intro j
    unfold distTo
    apply Real.sqrt_le_sqrt
    simp only [Fin.sum_univ_three]
    fin_cases j <;> norm_num [Fin.ext_iff]

end Verif.Locate
