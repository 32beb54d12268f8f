import Verif.FastMnmf.Steps

/-!
# The objective of FastMNMF

The updates of the basis, of the activations and of the diagonals lower the objective; that of the diagonalizer raises it by no more than a bound of the order of `eps ** 2`.
-/

namespace Verif.FastMnmf

open Matrix Verif.AuxIva
open scoped ComplexOrder

variable {N F T M K : ℕ}

/-- The sums of the parameters. -/
noncomputable def price (st : State N F T M K) : ℝ := ∑ n, ∑ f, ∑ k, st.W n f k + ∑ n, ∑ k, ∑ t, st.H n k t + ∑ n, ∑ f, ∑ m, st.G n f m

theorem objective_eq {e : ℝ} (he : 0 < e) (hN : 0 < N) {X : Fin T → Fin F → Fin M → ℂ} {st : State N F T M K} (h : Pos X st) :
    objective e X st = cost st.Q (powOf st.Q X) (yOf (lamOf e st.W st.H) st.G) + e * price st := by
  unfold objective price
  rw [nll_eq h.Q (yOf_pos hN (lamOf_pos he h.W h.H) h.G)]

/-- The model of the powers is linear in the basis, in the activations and in the diagonals. -/
theorem yOf_basis (e : ℝ) (W : Fin N → Fin F → Fin K → ℝ) (H : Fin N → Fin K → Fin T → ℝ) (G : Fin N → Fin F → Fin M → ℝ) (f : Fin F) (t : Fin T) (m : Fin M) :
    yOf (lamOf e W H) G f t m = e * ∑ n, G n f m + ∑ p : Fin N × Fin K, G p.1 f m * H p.1 p.2 t * W p.1 f p.2 := by
  unfold yOf lamOf
  rw [Fintype.sum_prod_type, Finset.mul_sum, ← Finset.sum_add_distrib]
  refine Finset.sum_congr rfl fun n _ => ?_
  rw [add_mul, Finset.sum_mul, add_comm]
  congr 1
  refine Finset.sum_congr rfl fun k _ => ?_
  ring

theorem yOf_activations (e : ℝ) (W : Fin N → Fin F → Fin K → ℝ) (H : Fin N → Fin K → Fin T → ℝ) (G : Fin N → Fin F → Fin M → ℝ) (f : Fin F) (t : Fin T) (m : Fin M) :
    yOf (lamOf e W H) G f t m = e * ∑ n, G n f m + ∑ p : Fin N × Fin K, G p.1 f m * W p.1 f p.2 * H p.1 p.2 t := by
  rw [yOf_basis]
  congr 1
  refine Finset.sum_congr rfl fun p _ => ?_
  ring

theorem swap {A B : Type} [Fintype A] [Fintype B] (u : A → ℝ) (v g : A → B → ℝ) : ∑ i : A × B, v i.1 i.2 * u i.1 * g i.1 i.2 = ∑ a, u a * ∑ b, v a b * g a b := by
  rw [Fintype.sum_prod_type]
  refine Finset.sum_congr rfl fun a _ => ?_
  rw [Finset.mul_sum]
  refine Finset.sum_congr rfl fun b _ => ?_
  ring

theorem basis_descent {e : ℝ} {W : Fin N → Fin F → Fin K → ℝ} {H : Fin N → Fin K → Fin T → ℝ} {G : Fin N → Fin F → Fin M → ℝ} {P Y Y' : Fin F → Fin T → Fin M → ℝ} {c : Fin F → Fin T → Fin M → ℝ}
    {W' : Fin N → Fin F → Fin K → ℝ} (hc : ∀ f t m, 0 ≤ c f t m) (hP : ∀ f t m, 0 ≤ P f t m) (hW : ∀ n f k, 0 ≤ W n f k) (hH : ∀ n k t, 0 ≤ H n k t) (hG : ∀ n f m, 0 ≤ G n f m)
    (hY : ∀ f t m, 0 < Y f t m) (hY' : ∀ f t m, 0 < Y' f t m) (hYd : ∀ f t m, Y f t m = c f t m + ∑ p : Fin N × Fin K, G p.1 f m * H p.1 p.2 t * W p.1 f p.2)
    (hYd' : ∀ f t m, Y' f t m = c f t m + ∑ p : Fin N × Fin K, G p.1 f m * H p.1 p.2 t * W' p.1 f p.2) (hd : ∀ n f k, 0 < denW e H (tmp2 G Y) n f k) (hs : W' = stepW e W H (tmp1 G P Y) (tmp2 G Y)) :
    ∑ f, ∑ t, ∑ m, misfit (P f t m) (Y' f t m) + e * ∑ n, ∑ f, ∑ k, W' n f k ≤ ∑ f, ∑ t, ∑ m, misfit (P f t m) (Y f t m) + e * ∑ n, ∑ f, ∑ k, W n f k := by
  have h1 : ∀ f, ∑ i : Fin T × Fin M, misfit (P f i.1 i.2) (Y' f i.1 i.2) + e * ∑ p : Fin N × Fin K, W' p.1 f p.2
      ≤ ∑ i : Fin T × Fin M, misfit (P f i.1 i.2) (Y f i.1 i.2) + e * ∑ p : Fin N × Fin K, W p.1 f p.2 := by
    intro f
    refine mm_named (a := fun (i : Fin T × Fin M) (p : Fin N × Fin K) => G p.1 f i.2 * H p.1 p.2 i.1) (c := fun i => c f i.1 i.2) (num := fun p => ∑ t, H p.1 p.2 t * tmp1 G P Y p.1 f t)
      (den := fun p => denW e H (tmp2 G Y) p.1 f p.2) (fun i p => mul_nonneg (hG _ _ _) (hH _ _ _)) (fun i => hc _ _ _) (fun i => hP _ _ _) (fun p => hW _ _ _) (fun i => hYd _ _ _)
      (fun i => hYd' _ _ _) (fun i => hY _ _ _) (fun i => hY' _ _ _) (fun p => ?_) (fun p => ?_) (fun p => hd _ _ _) (fun p => by rw [hs]; rfl)
    · exact (swap (fun t => H p.1 p.2 t) (fun _ m => G p.1 f m) fun t m => P f t m / Y f t m ^ 2).symm
    · unfold denW
      congr 1
      exact (swap (fun t => H p.1 p.2 t) (fun _ m => G p.1 f m) fun t m => 1 / Y f t m).symm
  have h2 : ∀ Z : Fin N → Fin F → Fin K → ℝ, ∑ n, ∑ f, ∑ k, Z n f k = ∑ f, ∑ p : Fin N × Fin K, Z p.1 f p.2 := by
    intro Z
    rw [Finset.sum_comm]
    refine Finset.sum_congr rfl fun f _ => ?_
    rw [Fintype.sum_prod_type]
  have h3 : ∀ Z : Fin F → Fin T → Fin M → ℝ, ∑ f, ∑ t, ∑ m, misfit (P f t m) (Z f t m) = ∑ f, ∑ i : Fin T × Fin M, misfit (P f i.1 i.2) (Z f i.1 i.2) := by
    intro Z
    refine Finset.sum_congr rfl fun f _ => ?_
    rw [Fintype.sum_prod_type]
  rw [h2, h2, h3, h3, Finset.mul_sum, Finset.mul_sum, ← Finset.sum_add_distrib, ← Finset.sum_add_distrib]
  exact Finset.sum_le_sum fun f _ => h1 f

theorem activations_descent {e : ℝ} {W : Fin N → Fin F → Fin K → ℝ} {H : Fin N → Fin K → Fin T → ℝ} {G : Fin N → Fin F → Fin M → ℝ} {P Y Y' : Fin F → Fin T → Fin M → ℝ}
    {c : Fin F → Fin T → Fin M → ℝ} {H' : Fin N → Fin K → Fin T → ℝ} (hc : ∀ f t m, 0 ≤ c f t m) (hP : ∀ f t m, 0 ≤ P f t m) (hW : ∀ n f k, 0 ≤ W n f k) (hH : ∀ n k t, 0 ≤ H n k t)
    (hG : ∀ n f m, 0 ≤ G n f m) (hY : ∀ f t m, 0 < Y f t m) (hY' : ∀ f t m, 0 < Y' f t m) (hYd : ∀ f t m, Y f t m = c f t m + ∑ p : Fin N × Fin K, G p.1 f m * W p.1 f p.2 * H p.1 p.2 t)
    (hYd' : ∀ f t m, Y' f t m = c f t m + ∑ p : Fin N × Fin K, G p.1 f m * W p.1 f p.2 * H' p.1 p.2 t) (hd : ∀ n k t, 0 < denH e W (tmp2 G Y) n k t) (hs : H' = stepH e W H (tmp1 G P Y) (tmp2 G Y)) :
    ∑ f, ∑ t, ∑ m, misfit (P f t m) (Y' f t m) + e * ∑ n, ∑ k, ∑ t, H' n k t ≤ ∑ f, ∑ t, ∑ m, misfit (P f t m) (Y f t m) + e * ∑ n, ∑ k, ∑ t, H n k t := by
  have h1 : ∀ t, ∑ i : Fin F × Fin M, misfit (P i.1 t i.2) (Y' i.1 t i.2) + e * ∑ p : Fin N × Fin K, H' p.1 p.2 t
      ≤ ∑ i : Fin F × Fin M, misfit (P i.1 t i.2) (Y i.1 t i.2) + e * ∑ p : Fin N × Fin K, H p.1 p.2 t := by
    intro t
    refine mm_named (a := fun (i : Fin F × Fin M) (p : Fin N × Fin K) => G p.1 i.1 i.2 * W p.1 i.1 p.2) (c := fun i => c i.1 t i.2) (num := fun p => ∑ f, W p.1 f p.2 * tmp1 G P Y p.1 f t)
      (den := fun p => denH e W (tmp2 G Y) p.1 p.2 t) (fun i p => mul_nonneg (hG _ _ _) (hW _ _ _)) (fun i => hc _ _ _) (fun i => hP _ _ _) (fun p => hH _ _ _) (fun i => hYd _ _ _)
      (fun i => hYd' _ _ _) (fun i => hY _ _ _) (fun i => hY' _ _ _) (fun p => ?_) (fun p => ?_) (fun p => hd _ _ _) (fun p => by rw [hs]; rfl)
    · exact (swap (fun f => W p.1 f p.2) (fun f m => G p.1 f m) fun f m => P f t m / Y f t m ^ 2).symm
    · unfold denH
      congr 1
      exact (swap (fun f => W p.1 f p.2) (fun f m => G p.1 f m) fun f m => 1 / Y f t m).symm
  have h2 : ∀ Z : Fin N → Fin K → Fin T → ℝ, ∑ n, ∑ k, ∑ t, Z n k t = ∑ t, ∑ p : Fin N × Fin K, Z p.1 p.2 t := by
    intro Z
    rw [Finset.sum_comm (s := (Finset.univ : Finset (Fin T))), Fintype.sum_prod_type]
  have h3 : ∀ Z : Fin F → Fin T → Fin M → ℝ, ∑ f, ∑ t, ∑ m, misfit (P f t m) (Z f t m) = ∑ t, ∑ i : Fin F × Fin M, misfit (P i.1 t i.2) (Z i.1 t i.2) := by
    intro Z
    rw [Finset.sum_comm]
    refine Finset.sum_congr rfl fun t _ => ?_
    rw [Fintype.sum_prod_type]
  rw [h2, h2, h3, h3, Finset.mul_sum, Finset.mul_sum, ← Finset.sum_add_distrib, ← Finset.sum_add_distrib]
  exact Finset.sum_le_sum fun t _ => h1 t

theorem diagonals_descent {e : ℝ} {lam : Fin N → Fin F → Fin T → ℝ} {G G' : Fin N → Fin F → Fin M → ℝ} {P Y Y' : Fin F → Fin T → Fin M → ℝ} (hP : ∀ f t m, 0 ≤ P f t m)
    (hl : ∀ n f t, 0 ≤ lam n f t) (hG : ∀ n f m, 0 ≤ G n f m) (hY : ∀ f t m, 0 < Y f t m) (hY' : ∀ f t m, 0 < Y' f t m) (hYd : Y = yOf lam G) (hYd' : Y' = yOf lam G')
    (hd : ∀ n f m, 0 < denG e lam Y n f m) (hs : G' = stepG e G lam P Y) :
    ∑ f, ∑ t, ∑ m, misfit (P f t m) (Y' f t m) + e * ∑ n, ∑ f, ∑ m, G' n f m ≤ ∑ f, ∑ t, ∑ m, misfit (P f t m) (Y f t m) + e * ∑ n, ∑ f, ∑ m, G n f m := by
  have h1 : ∀ f m, ∑ t, misfit (P f t m) (Y' f t m) + e * ∑ n, G' n f m ≤ ∑ t, misfit (P f t m) (Y f t m) + e * ∑ n, G n f m := by
    intro f m
    refine mm_named (a := fun (t : Fin T) (n : Fin N) => lam n f t) (c := fun _ => 0) (num := fun n => ∑ t, lam n f t * (P f t m / Y f t m ^ 2)) (den := fun n => denG e lam Y n f m)
      (fun t n => hl _ _ _) (fun t => le_rfl) (fun t => hP _ _ _) (fun n => hG _ _ _) (fun t => ?_) (fun t => ?_) (fun t => hY _ _ _) (fun t => hY' _ _ _) (fun n => rfl) (fun n => rfl)
      (fun n => hd _ _ _) (fun n => by rw [hs]; rfl)
    · rw [hYd, zero_add]
      rfl
    · rw [hYd', zero_add]
      rfl
  have h2 : ∀ Z : Fin N → Fin F → Fin M → ℝ, ∑ n, ∑ f, ∑ m, Z n f m = ∑ f, ∑ m, ∑ n, Z n f m := by
    intro Z
    rw [Finset.sum_comm]
    refine Finset.sum_congr rfl fun f _ => ?_
    rw [Finset.sum_comm]
  have h3 : ∀ Z : Fin F → Fin T → Fin M → ℝ, ∑ f, ∑ t, ∑ m, misfit (P f t m) (Z f t m) = ∑ f, ∑ m, ∑ t, misfit (P f t m) (Z f t m) := by
    intro Z
    refine Finset.sum_congr rfl fun f _ => ?_
    rw [Finset.sum_comm]
  rw [h2, h2, h3, h3, Finset.mul_sum, Finset.mul_sum, ← Finset.sum_add_distrib, ← Finset.sum_add_distrib]
  refine Finset.sum_le_sum fun f _ => ?_
  rw [Finset.mul_sum, Finset.mul_sum, ← Finset.sum_add_distrib, ← Finset.sum_add_distrib]
  exact Finset.sum_le_sum fun m _ => h1 f m

theorem cost_split (Q : Fin F → Matrix (Fin M) (Fin M) ℂ) (P Y : Fin F → Fin T → Fin M → ℝ) :
    cost Q P Y = ∑ f, ∑ t, ∑ m, misfit (P f t m) (Y f t m) - ∑ f, (T : ℝ) * (2 * Real.log ‖(Q f).det‖) := by
  unfold cost
  rw [Finset.sum_sub_distrib]

/-- **C108** The new basis does not raise the objective. -/
theorem C108_basis {e : ℝ} (he : 0 < e) (hN : 0 < N) (hM : 0 < M) {X : Fin T → Fin F → Fin M → ℂ} (hX : Rich X) {st : State N F T M K} (h : Pos X st) (hf : Fresh e X st) :
    ∃ st', basis e st = some st' ∧ Pos X (refresh e false st') ∧ Fresh e X (refresh e false st') ∧ objective e X (refresh e false st') ≤ objective e X st := by
  obtain ⟨h1, h2⟩ := basis_total he hM hX h
  have hr := refresh_pos he hN false h2
  refine ⟨_, h1, hr, ⟨rfl, h.P, rfl⟩, ?_⟩
  rw [objective_eq he hN hr, objective_eq he hN h, cost_split, cost_split]
  have hY0 : st.Y = yOf (lamOf e st.W st.H) st.G := by rw [hf.Y, hf.lam]
  have hG0 : ∀ n f m, 0 ≤ st.G n f m := fun n f m => (h.G n f m).le
  have h3 := basis_descent (e := e) (W := st.W) (H := st.H) (G := st.G) (P := powOf st.Q X) (Y := st.Y)
    (Y' := yOf (lamOf e (stepW e st.W st.H (tmp1 st.G st.P st.Y) (tmp2 st.G st.Y)) st.H) st.G) (c := fun f _ m => e * ∑ n, st.G n f m)
    (fun f _ m => mul_nonneg he.le (Finset.sum_nonneg fun n _ => hG0 n f m)) (powOf_nonneg _ _) (fun n f k => (h.W n f k).le) h.H hG0 h.Y hr.Y
    (fun f t m => by rw [hY0]; exact yOf_basis _ _ _ _ _ _ _) (fun f t m => yOf_basis _ _ _ _ _ _ _) (denW_pos he h.H (tmp2_nonneg h.G h.Y)) (by rw [h.P])
  rw [hY0] at h3 ⊢
  unfold refresh price
  rw [if_neg (by decide)]
  dsimp only
  linarith

/-- **C108** The new activations do not raise the objective. -/
theorem C108_activations {e : ℝ} (he : 0 < e) (hN : 0 < N) {X : Fin T → Fin F → Fin M → ℂ} {st : State N F T M K} (h : Pos X st) (hf : Fresh e X st) :
    ∃ st', activations e st = some st' ∧ Pos X st' ∧ Fresh e X st' ∧ objective e X st' ≤ objective e X st := by
  obtain ⟨st', h1, h2, h3, h4⟩ := activations_total he hN h
  refine ⟨st', h1, h2, h3, ?_⟩
  rw [objective_eq he hN h2, objective_eq he hN h, cost_split, cost_split]
  have hY0 : st.Y = yOf (lamOf e st.W st.H) st.G := by rw [hf.Y, hf.lam]
  have hG0 : ∀ n f m, 0 ≤ st.G n f m := fun n f m => (h.G n f m).le
  have hY' := h2.Y
  rw [h4] at hY'
  have h5 := activations_descent (e := e) (W := st.W) (H := st.H) (G := st.G) (P := powOf st.Q X) (Y := st.Y)
    (Y' := yOf (lamOf e st.W (stepH e st.W st.H (tmp1 st.G st.P st.Y) (tmp2 st.G st.Y))) st.G) (c := fun f _ m => e * ∑ n, st.G n f m)
    (fun f _ m => mul_nonneg he.le (Finset.sum_nonneg fun n _ => hG0 n f m)) (powOf_nonneg _ _) (fun n f k => (h.W n f k).le) h.H hG0 h.Y hY'
    (fun f t m => by rw [hY0]; exact yOf_activations _ _ _ _ _ _ _) (fun f t m => yOf_activations _ _ _ _ _ _ _) (denH_pos he h.W (tmp2_nonneg h.G h.Y)) (by rw [h.P])
  rw [h4]
  unfold price
  dsimp only
  rw [hY0] at h5 ⊢
  linarith

/-- **C108** The new diagonals do not raise the objective. -/
theorem C108_diagonals {e : ℝ} (he : 0 < e) (hN : 0 < N) {X : Fin T → Fin F → Fin M → ℂ} (hX : Rich X) {st : State N F T M K} (h : Pos X st) (hf : Fresh e X st) :
    ∃ st', diagonals e st = some st' ∧ Pos X st' ∧ Fresh e X st' ∧ objective e X st' ≤ objective e X st := by
  obtain ⟨st', h1, h2, h3, h4⟩ := diagonals_total he hN hX h hf
  refine ⟨st', h1, h2, h3, ?_⟩
  rw [objective_eq he hN h2, objective_eq he hN h, cost_split, cost_split, ← h3.lam, ← hf.lam, ← h3.Y, ← hf.Y]
  have hG0 : ∀ n f m, 0 ≤ st.G n f m := fun n f m => (h.G n f m).le
  have hY' := h2.Y
  rw [h4] at hY'
  have h5 := diagonals_descent (e := e) (P := powOf st.Q X) (powOf_nonneg _ _) (fun n f t => (h.lam n f t).le) hG0 h.Y hY' hf.Y rfl (denG_pos he h.lam h.Y) (by rw [h.P])
  rw [h4]
  unfold price
  dsimp only
  linarith

/-- How much of the weighted power of the frames a row that looks in the direction of a column of the mixing matrix must let through, as its inverse. -/
noncomputable def column (X : Fin T → Fin F → Fin M → ℂ) (st : State N F T M K) (m : Fin M) (f : Fin F) : ℝ :=
  (star ((st.Q f)⁻¹ *ᵥ Pi.single m 1) ⬝ᵥ (covOf X st.Y m f)⁻¹ *ᵥ ((st.Q f)⁻¹ *ᵥ Pi.single m 1)).re

theorem powOf_row {X : Fin T → Fin F → Fin M → ℂ} {Y : Fin F → Fin T → Fin M → ℝ} (hT : 0 < T) (Q : Fin F → Matrix (Fin M) (Fin M) ℂ) (f : Fin F) (m : Fin M) :
    ∑ t, powOf Q X f t m / Y f t m = T * pw (covOf X Y m f) (Q f m) := by
  unfold covOf
  rw [pw_weighted, mul_div_cancel₀]
  · rfl
  · exact_mod_cast hT.ne'

/-- **C108** A row of the diagonalizer can be replaced, the diagonalizer stays invertible, and the objective grows by at most `3 * eps ** 2` times the number of frames divided by the power that the
    frames have along the column of the mixing matrix. -/
theorem C108_row {e : ℝ} (he : 0 < e) (hN : 0 < N) (hM : 0 < M) {pinv : Matrix (Fin M) (Fin M) ℂ → Matrix (Fin M) (Fin M) ℂ} {X : Fin T → Fin F → Fin M → ℂ} (hX : Rich X)
    {st : State N F T M K} (h : Pos X st) (hf : Fresh e X st) (m : Fin M) :
    (∀ f, 0 < column X st m f) ∧ ∃ st', qRow pinv e X st m = some st' ∧ Pos X st' ∧ Fresh e X st' ∧ (∀ f i, i ≠ m → st'.Q f i = st.Q f i) ∧
      objective e X st' ≤ objective e X st + ∑ f, T * (3 * (e ^ 2 / column X st m f)) := by
  have hV := fun f => covOf_posDef hX h.Y hM m f
  have hu : ∀ f, IsUnit (st.Q f * covOf X st.Y m f).det := by
    intro f
    rw [det_mul]
    exact (h.Q f).mul ((isUnit_iff_isUnit_det _).mp (hV f).isUnit)
  have htmp : ∀ f, tmpOf pinv st.Q (covOf X st.Y m) m f = (st.Q f * covOf X st.Y m f)⁻¹ *ᵥ Pi.single m 1 := by
    intro f
    unfold tmpOf
    rw [if_pos hu]
  have hsol := fun f => solution (hV f) (h.Q f) m
  choose hx q hq hxq using hsol
  have hcol : ∀ f, column X st m f = q f := by
    intro f
    have h1 : covOf X st.Y m f *ᵥ ((st.Q f * covOf X st.Y m f)⁻¹ *ᵥ Pi.single m 1) = (st.Q f)⁻¹ *ᵥ Pi.single m (1 : ℂ) := by
      have h2 := congrArg (fun v => (st.Q f)⁻¹ *ᵥ v) (hx f)
      simpa only [mulVec_mulVec, ← Matrix.mul_assoc, nonsing_inv_mul _ (h.Q f), Matrix.one_mul] using h2
    have h3 : (covOf X st.Y m f)⁻¹ *ᵥ ((st.Q f)⁻¹ *ᵥ Pi.single m (1 : ℂ)) = (st.Q f * covOf X st.Y m f)⁻¹ *ᵥ Pi.single m 1 := by
      rw [← h1, mulVec_mulVec, nonsing_inv_mul _ ((isUnit_iff_isUnit_det _).mp (hV f).isUnit), one_mulVec]
    unfold column
    rw [h3, ← h1]
    have h4 := congrArg Complex.re (hxq f)
    rw [Complex.ofReal_re] at h4
    rw [← h4, star_mulVec, (hV f).isHermitian.eq, ← dotProduct_mulVec]
  refine ⟨fun f => by rw [hcol]; exact hq f, ?_⟩
  have hscale : ∀ f, scaleOf e (covOf X st.Y m f) (tmpOf pinv st.Q (covOf X st.Y m) m f) = ((Real.sqrt (q f) + e : ℝ) : ℂ) := by
    intro f
    rw [htmp]
    exact scaleOf_eq (hq f) (hxq f)
  have hrow := fun f => row_cost (hV f) (h.Q f) he.le m (hx f) (hq f) (hxq f)
  set Q' : Fin F → Matrix (Fin M) (Fin M) ℂ := fun f => (st.Q f).updateRow m fun c => star (((st.Q f * covOf X st.Y m f)⁻¹ *ᵥ Pi.single m 1) c / ((Real.sqrt (q f) + e : ℝ) : ℂ)) with hQ'
  have hstep : qRow pinv e X st m = some { st with Q := Q', P := powOf Q' X } := by
    unfold qRow
    have hne : ∀ f, scaleOf e (covOf X st.Y m f) (tmpOf pinv st.Q (covOf X st.Y m) m f) ≠ 0 := by
      intro f
      rw [hscale]
      have := Real.sqrt_nonneg (q f)
      exact_mod_cast (by positivity : (0 : ℝ) < Real.sqrt (q f) + e).ne'
    rw [check_true (fun f t => (h.Y f t m).ne'), check_true hne]
    simp only [hscale]
    simp only [htmp]
    rfl
  have hpos : Pos X { st with Q := Q', P := powOf Q' X } := ⟨fun f => (hrow f).1, h.G, h.W, h.H, h.loud, h.lam, h.Y, rfl⟩
  refine ⟨_, hstep, hpos, ⟨hf.lam, rfl, hf.Y⟩, ?_, ?_⟩
  · intro f i hi
    exact updateRow_ne hi
  rw [objective_eq he hN hpos, objective_eq he hN h]
  have hp : price { st with Q := Q', P := powOf Q' X } = price st := rfl
  rw [hp]
  dsimp only
  have hY0 : yOf (lamOf e st.W st.H) st.G = st.Y := by rw [hf.Y, hf.lam]
  rw [hY0]
  have hc : cost Q' (powOf Q' X) st.Y ≤ cost st.Q (powOf st.Q X) st.Y + ∑ f, T * (3 * (e ^ 2 / column X st m f)) := by
    unfold cost
    rw [← Finset.sum_add_distrib]
    refine Finset.sum_le_sum fun f _ => ?_
    have hT : 0 < T := by
      obtain ⟨t, -⟩ := hX.heard hM f
      exact t.pos
    have hdec : ∀ A : Fin F → Matrix (Fin M) (Fin M) ℂ, ∑ t, ∑ i, misfit (powOf A X f t i) (st.Y f t i) = (∑ i, ∑ t, Real.log (st.Y f t i)) + ∑ i, T * pw (covOf X st.Y i f) (A f i) := by
      intro A
      rw [Finset.sum_comm, ← Finset.sum_add_distrib]
      refine Finset.sum_congr rfl fun i _ => ?_
      rw [← powOf_row hT, ← Finset.sum_add_distrib]
      refine Finset.sum_congr rfl fun t _ => ?_
      unfold misfit
      ring
    rw [hdec, hdec, ← Finset.add_sum_erase (f := fun i => (T : ℝ) * pw (covOf X st.Y i f) (Q' f i)) _ (Finset.mem_univ m), ← Finset.add_sum_erase (f := fun i => (T : ℝ) * pw (covOf X st.Y i f) (st.Q f i)) _ (Finset.mem_univ m)]
    have hrest : ∑ i ∈ Finset.univ.erase m, (T : ℝ) * pw (covOf X st.Y i f) (Q' f i) = ∑ i ∈ Finset.univ.erase m, (T : ℝ) * pw (covOf X st.Y i f) (st.Q f i) := by
      refine Finset.sum_congr rfl fun i hi => ?_
      have : Q' f i = st.Q f i := updateRow_ne (Finset.ne_of_mem_erase hi)
      rw [this]
    rw [hrest, hcol]
    have h6 := (hrow f).2
    have h7 : Q' f m = fun c => star (((st.Q f * covOf X st.Y m f)⁻¹ *ᵥ Pi.single m 1) c / ((Real.sqrt (q f) + e : ℝ) : ℂ)) := updateRow_self
    rw [← h7] at h6
    have h8 : (st.Q f).updateRow m (Q' f m) = Q' f := by rw [h7]
    rw [h8] at h6
    have h9 := mul_le_mul_of_nonneg_left h6 (Nat.cast_nonneg (α := ℝ) T)
    linarith
  linarith

end Verif.FastMnmf
