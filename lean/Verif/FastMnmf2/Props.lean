import Verif.FastMnmf2.Model
import Verif.FastMnmf.Run

/-!
# Properties of FastMNMF2

**C109**: the images add up to the mixture, no update fails, the updates of basis, diagonals and diagonalizer lower the objective, and `accelerate` has no effect.
-/

namespace Verif.FastMnmf2

open Matrix Verif.AuxIva Verif.FastMnmf
open scoped ComplexOrder

variable {N F T M K : ℕ}

/-- The covariance matrix of the mixture in the objective: that of the sources and `e` at every channel of the diagonalizer. -/
noncomputable def totalCov (e : ℝ) (Q : Fin F → Matrix (Fin M) (Fin M) ℂ) (lam : Fin N → Fin F → Fin T → ℝ) (g : Fin N → Fin M → ℝ) (f : Fin F) (t : Fin T) : Matrix (Fin M) (Fin M) ℂ :=
  mixCov Q lam (wide g) f t + (e : ℂ) • ((Q f)⁻¹ * ((Q f)⁻¹)ᴴ)

/-- The negative log-likelihood in terms of the parameters. -/
noncomputable def objective2 (e : ℝ) (X : Fin T → Fin F → Fin M → ℂ) (st : State N F T M K) : ℝ := nll X (totalCov e st.Q (lamOf e st.W st.H) st.g)

/-- What holds of the parameters at any moment. -/
structure Pos (X : Fin T → Fin F → Fin M → ℂ) (st : State N F T M K) : Prop where
  Q : ∀ f, IsUnit (st.Q f).det
  g : ∀ n m, 0 < st.g n m
  W : ∀ n f k, 0 < st.W n f k
  H : ∀ n k t, 0 ≤ st.H n k t
  loud : ∀ n k t f, X t f ≠ 0 → 0 < st.H n k t
  lam : ∀ n f t, 0 < st.lam n f t
  Y : ∀ f t m, 0 < st.Y f t m
  P : st.P = powOf st.Q X

/-- The derived arrays are up to date; `e` is zero before the first epoch. -/
structure Fresh (e : ℝ) (X : Fin T → Fin F → Fin M → ℂ) (st : State N F T M K) : Prop where
  lam : st.lam = lamOf e st.W st.H
  P : st.P = powOf st.Q X
  Y : st.Y = yOf2 e st.lam st.g

theorem yOf2_wide (e : ℝ) (lam : Fin N → Fin F → Fin T → ℝ) (g : Fin N → Fin M → ℝ) (f : Fin F) (t : Fin T) (m : Fin M) : yOf2 e lam g f t m = yOf lam (wide g) f t m + e := rfl

theorem yOf2_pos {e : ℝ} (he : 0 ≤ e) {lam : Fin N → Fin F → Fin T → ℝ} {g : Fin N → Fin M → ℝ} (hN : 0 < N) (hl : ∀ n f t, 0 < lam n f t) (hg : ∀ n m, 0 < g n m) (f : Fin F) (t : Fin T) (m : Fin M) :
    0 < yOf2 e lam g f t m := by
  rw [yOf2_wide]
  exact add_pos_of_pos_of_nonneg (yOf_pos hN hl (fun n f m => hg n m) f t m) he

/-! ## The objective -/

/-- One more source that is constant and the same in all channels stands for `e`. -/
def extend (e : ℝ) (lam : Fin N → Fin F → Fin T → ℝ) : Fin (N + 1) → Fin F → Fin T → ℝ := Fin.cons (fun _ _ => e) lam

def extendG (g : Fin N → Fin M → ℝ) : Fin (N + 1) → Fin F → Fin M → ℝ := Fin.cons (fun _ _ => 1) (wide g)

theorem yOf_extend (e : ℝ) (lam : Fin N → Fin F → Fin T → ℝ) (g : Fin N → Fin M → ℝ) : yOf (extend e lam) (extendG g) = yOf2 e lam g := by
  funext f t m
  unfold yOf yOf2 extend extendG
  rw [Fin.sum_univ_succ]
  simp only [Fin.cons_zero, Fin.cons_succ, mul_one, wide]
  ring

theorem totalCov_eq (e : ℝ) (Q : Fin F → Matrix (Fin M) (Fin M) ℂ) (lam : Fin N → Fin F → Fin T → ℝ) (g : Fin N → Fin M → ℝ) : totalCov e Q lam g = mixCov Q (extend e lam) (extendG g) := by
  funext f t
  unfold totalCov
  conv_rhs => unfold mixCov
  rw [Fin.sum_univ_succ, add_comm]
  congr 1
  unfold imageCov extend extendG
  simp only [Fin.cons_zero, Complex.ofReal_one, diagonal_one, Matrix.mul_one]

theorem nll_total {e : ℝ} {X : Fin T → Fin F → Fin M → ℂ} {Q : Fin F → Matrix (Fin M) (Fin M) ℂ} {lam : Fin N → Fin F → Fin T → ℝ} {g : Fin N → Fin M → ℝ} (hQ : ∀ f, IsUnit (Q f).det)
    (hY : ∀ f t m, 0 < yOf2 e lam g f t m) : nll X (totalCov e Q lam g) = cost Q (powOf Q X) (yOf2 e lam g) := by
  rw [totalCov_eq, nll_eq hQ (by rw [yOf_extend]; exact hY), yOf_extend]

/-! ## The images -/

theorem imagesOf2_eq {pinv : Matrix (Fin M) (Fin M) ℂ → Matrix (Fin M) (Fin M) ℂ} {X : Fin T → Fin F → Fin M → ℂ} {st : State N F T M K} (hQ : ∀ f, IsUnit (st.Q f).det) (i : Fin M) (t : Fin T)
    (f : Fin F) (n : Fin N) :
    imagesOf2 X st i t f n = imagesOf (invOf pinv st.Q) X { Q := st.Q, G := wide st.g, W := st.W, H := st.H, lam := st.lam, P := st.P, Y := st.Y : FastMnmf.State N F T M K } i t f n := by
  unfold imagesOf2 imagesOf invOf
  simp only [if_pos hQ]
  rfl

/-- **C109** With an invertible diagonalizer the image of a source at a microphone is its Wiener estimate. -/
theorem C109_wiener {X : Fin T → Fin F → Fin M → ℂ} {st : State N F T M K} (hN : 0 < N) (h : Pos X st) (i : Fin M) (t : Fin T) (f : Fin F) (n : Fin N) :
    imagesOf2 X st i t f n = (imageCov st.Q st.lam (wide st.g) n f t *ᵥ ((mixCov st.Q st.lam (wide st.g) f t)⁻¹ *ᵥ X t f)) i := by
  rw [imagesOf2_eq (pinv := fun A => A) h.Q]
  exact C108_wiener (st := { Q := st.Q, G := wide st.g, W := st.W, H := st.H, lam := st.lam, P := st.P, Y := st.Y }) h.Q (yOf_pos hN h.lam fun n f m => h.g n m) i t f n

/-- **C109** The images of all sources add up to the mixture at every microphone. -/
theorem C109_sum {X : Fin T → Fin F → Fin M → ℂ} {st : State N F T M K} (hN : 0 < N) (h : Pos X st) (i : Fin M) (t : Fin T) (f : Fin F) : ∑ n, imagesOf2 X st i t f n = X t f i := by
  simp only [imagesOf2_eq (pinv := fun A => A) h.Q]
  exact C108_sum (st := { Q := st.Q, G := wide st.g, W := st.W, H := st.H, lam := st.lam, P := st.P, Y := st.Y }) h.Q (yOf_pos hN h.lam fun n f m => h.g n m) i t f

/-! ## The updates -/

theorem tmp2_pos (hM : 0 < M) {G : Fin N → Fin F → Fin M → ℝ} {Y : Fin F → Fin T → Fin M → ℝ} (hG : ∀ n f m, 0 < G n f m) (hY : ∀ f t m, 0 < Y f t m) (n : Fin N) (f : Fin F) (t : Fin T) :
    0 < tmp2 G Y n f t := by
  have : Nonempty (Fin M) := ⟨⟨0, hM⟩⟩
  exact Finset.sum_pos (fun m _ => mul_pos (hG n f m) (div_pos one_pos (hY f t m))) Finset.univ_nonempty

theorem denW_pos' (hM : 0 < M) {X : Fin T → Fin F → Fin M → ℂ} (hX : Rich X) {st : State N F T M K} (h : Pos X st) (n : Fin N) (f : Fin F) (k : Fin K) :
    0 < denW 0 st.H (tmp2 (wide st.g) st.Y) n f k := by
  unfold denW
  rw [add_zero]
  obtain ⟨t, ht⟩ := hX.heard hM f
  have h2 := tmp2_pos hM (fun n (f : Fin F) m => h.g n m) h.Y
  exact Finset.sum_pos' (fun t _ => mul_nonneg (h.H n k t) (h2 n f t).le) ⟨t, Finset.mem_univ t, mul_pos (h.loud n k t f ht) (h2 n f t)⟩

/-- The new basis. -/
noncomputable def newW (st : State N F T M K) : Fin N → Fin F → Fin K → ℝ := stepW 0 st.W st.H (tmp1 (wide st.g) st.P st.Y) (tmp2 (wide st.g) st.Y)

theorem basis_total (hM : 0 < M) {X : Fin T → Fin F → Fin M → ℂ} (hX : Rich X) {st : State N F T M K} (h : Pos X st) : basis st = some { st with W := newW st } ∧ Pos X { st with W := newW st } := by
  have hP0 : ∀ f t m, 0 ≤ st.P f t m := by
    rw [h.P]
    exact powOf_nonneg _ _
  have hd := denW_pos' hM hX h
  refine ⟨?_, ⟨h.Q, h.g, ?_, h.H, h.loud, h.lam, h.Y, h.P⟩⟩
  · unfold basis
    rw [check_true (show Fine st.Y from fun f t m => (h.Y f t m).ne'), check_true (fun n f k => (hd n f k).ne')]
    rfl
  · intro n f k
    refine mul_pos (h.W n f k) (Real.sqrt_pos.mpr (div_pos ?_ (hd n f k)))
    obtain ⟨t, ht⟩ := hX.heard hM f
    refine Finset.sum_pos' (fun t _ => mul_nonneg (h.H n k t) (tmp1_nonneg (fun n _ m => h.g n m) hP0 n f t))
      ⟨t, Finset.mem_univ t, mul_pos (h.loud n k t f ht) (tmp1_pos (fun n _ m => h.g n m) hP0 h.Y n ?_)⟩
    rw [h.P]
    exact some_row (h.Q f) ht

theorem yOf2_basis (e : ℝ) (W : Fin N → Fin F → Fin K → ℝ) (H : Fin N → Fin K → Fin T → ℝ) (g : Fin N → Fin M → ℝ) (f : Fin F) (t : Fin T) (m : Fin M) :
    yOf2 e (lamOf e W H) g f t m = (e * ∑ n, g n m + e) + ∑ p : Fin N × Fin K, wide (F := F) g p.1 f m * H p.1 p.2 t * W p.1 f p.2 := by
  rw [yOf2_wide, yOf_basis]
  simp only [wide]
  ring

theorem lamOf_nonneg {e : ℝ} (he : 0 ≤ e) {W : Fin N → Fin F → Fin K → ℝ} {H : Fin N → Fin K → Fin T → ℝ} (hW : ∀ n f k, 0 < W n f k) (hH : ∀ n k t, 0 ≤ H n k t) (n : Fin N) (f : Fin F) (t : Fin T) :
    0 ≤ lamOf e W H n f t := add_nonneg (Finset.sum_nonneg fun k _ => mul_nonneg (hW n f k).le (hH n k t)) he

/-- **C109** The new basis does not raise the objective. (For `e` equal to zero, as in the first epoch, the powers of the model must stay positive.) -/
theorem C109_basis {e : ℝ} (he : 0 ≤ e) (hM : 0 < M) {X : Fin T → Fin F → Fin M → ℂ} (hX : Rich X) {st : State N F T M K} (h : Pos X st) (hf : Fresh e X st)
    (hl : ∀ f t m, 0 < yOf2 e (lamOf e (newW st) st.H) st.g f t m) : ∃ st', basis st = some st' ∧ objective2 e X st' ≤ objective2 e X st := by
  obtain ⟨h1, h2⟩ := basis_total hM hX h
  refine ⟨_, h1, ?_⟩
  have hY0 : st.Y = yOf2 e (lamOf e st.W st.H) st.g := by rw [hf.Y, hf.lam]
  have hYp : ∀ f t m, 0 < yOf2 e (lamOf e st.W st.H) st.g f t m := by
    rw [← hY0]
    exact h.Y
  unfold objective2
  rw [nll_total h.Q hl, nll_total h.Q hYp, cost_split, cost_split]
  have hG0 : ∀ n m, 0 ≤ st.g n m := fun n m => (h.g n m).le
  have h3 := basis_descent (e := 0) (W := st.W) (H := st.H) (G := wide st.g) (P := powOf st.Q X) (Y := st.Y) (Y' := yOf2 e (lamOf e (newW st) st.H) st.g) (W' := newW st)
    (c := fun f _ m => e * ∑ n, st.g n m + e)
    (fun f _ m => add_nonneg (mul_nonneg he (Finset.sum_nonneg fun n _ => hG0 n m)) he) (powOf_nonneg _ _) (fun n f k => (h.W n f k).le) h.H (fun n _ m => hG0 n m) h.Y hl
    (fun f t m => by rw [hY0]; exact yOf2_basis _ _ _ _ _ _ _) (fun f t m => yOf2_basis _ _ _ _ _ _ _) (denW_pos' hM hX h) (by rw [← h.P]; rfl)
  rw [zero_mul, zero_mul, add_zero, add_zero, hY0] at h3
  linarith

theorem refresh_same (e : ℝ) (acc : Bool) (st : State N F T M K) : (refresh e acc st).2 = (tmp1 (wide st.g) st.P st.Y, tmp2 (wide st.g) st.Y) ∧ (refresh e acc st).1.W = st.W ∧
    (refresh e acc st).1.H = st.H ∧ (refresh e acc st).1.g = st.g ∧ (refresh e acc st).1.Q = st.Q ∧ (refresh e acc st).1.P = st.P := by
  unfold refresh
  cases acc <;> simp

/-- The new activations. -/
noncomputable def newH (st : State N F T M K) : Fin N → Fin K → Fin T → ℝ := stepH 0 st.W st.H (tmp1 (wide st.g) st.P st.Y) (tmp2 (wide st.g) st.Y)

theorem activations_same {e : ℝ} (acc : Bool) (st : State N F T M K) :
    activations e (refresh e acc st).1 (refresh e acc st).2.1 (refresh e acc st).2.2 = activations e st (tmp1 (wide st.g) st.P st.Y) (tmp2 (wide st.g) st.Y) := by
  unfold refresh
  cases acc <;> rfl

/-- **C109** Deviation: `accelerate` makes no difference whatever: what is recomputed without it is either recomputed before it has changed or overwritten before it is used. -/
theorem C109_accelerate_deviation {e : ℝ} {X : Fin T → Fin F → Fin M → ℂ} (st : State N F T M K) (i : ℕ) : epochs e true X st i = epochs e false X st i := by
  have h1 : ∀ (a : State N F T M K) i, epoch e true X a i = epoch e false X a i := by
    intro a i
    unfold epoch
    simp only [activations_same]
  induction i with
  | zero => rfl
  | succ i ih =>
    rw [epochs, epochs, ih]
    simp only [h1]

theorem activations_total {e : ℝ} (he : 0 < e) (hN : 0 < N) (hM : 0 < M) (hF : 0 < F) {X : Fin T → Fin F → Fin M → ℂ} {st : State N F T M K} (h : Pos X st) :
    ∃ st', activations e st (tmp1 (wide st.g) st.P st.Y) (tmp2 (wide st.g) st.Y) = some st' ∧ Pos X st' ∧ Fresh e X st' := by
  have : Nonempty (Fin F) := ⟨⟨0, hF⟩⟩
  have hP0 : ∀ f t m, 0 ≤ st.P f t m := by
    rw [h.P]
    exact powOf_nonneg _ _
  have h2 := tmp2_pos hM (fun n (f : Fin F) m => h.g n m) h.Y
  have hd : ∀ n k t, 0 < denH 0 st.W (tmp2 (wide st.g) st.Y) n k t := by
    intro n k t
    unfold denH
    rw [add_zero]
    exact Finset.sum_pos (fun f _ => mul_pos (h.W n f k) (h2 n f t)) Finset.univ_nonempty
  have hH : ∀ n k t, 0 ≤ newH st n k t := fun n k t => mul_nonneg (h.H n k t) (Real.sqrt_nonneg _)
  have hl := lamOf_pos he h.W hH
  refine ⟨{ st with H := newH st, lam := lamOf e st.W (newH st), Y := yOf2 e (lamOf e st.W (newH st)) st.g }, ?_, ⟨h.Q, h.g, h.W, hH, ?_, hl, yOf2_pos he.le hN hl h.g, h.P⟩, ⟨rfl, h.P, rfl⟩⟩
  · unfold activations
    rw [check_true (fun n k t => (hd n k t).ne')]
    rfl
  · intro n k t f ht
    refine mul_pos (h.loud n k t f ht) (Real.sqrt_pos.mpr (div_pos ?_ (hd n k t)))
    refine Finset.sum_pos' (fun f _ => mul_nonneg (h.W n f k).le (tmp1_nonneg (fun n _ m => h.g n m) hP0 n f t))
      ⟨f, Finset.mem_univ f, mul_pos (h.W n f k) (tmp1_pos (fun n _ m => h.g n m) hP0 h.Y n ?_)⟩
    rw [h.P]
    exact some_row (h.Q f) ht

theorem den_pos (hM : 0 < M) (hF : 0 < F) {X : Fin T → Fin F → Fin M → ℂ} (hX : Rich X) {st : State N F T M K} (h : Pos X st) (n : Fin N) (m : Fin M) : 0 < den st.lam st.Y n m := by
  obtain ⟨t, -⟩ := hX.heard hM ⟨0, hF⟩
  have h1 : Nonempty (Fin F) := ⟨⟨0, hF⟩⟩
  have h2 : Nonempty (Fin T) := ⟨t⟩
  exact Finset.sum_pos (fun f _ => Finset.sum_pos (fun t _ => mul_pos (h.lam n f t) (div_pos one_pos (h.Y f t m))) Finset.univ_nonempty) Finset.univ_nonempty

/-- **C109** The new diagonals do not raise the objective. -/
theorem C109_diagonals {e : ℝ} (he : 0 ≤ e) (hN : 0 < N) (hM : 0 < M) (hF : 0 < F) {X : Fin T → Fin F → Fin M → ℂ} (hX : Rich X) {st : State N F T M K} (h : Pos X st) (hf : Fresh e X st) :
    ∃ st', diagonals e st = some st' ∧ Pos X st' ∧ Fresh e X st' ∧ objective2 e X st' ≤ objective2 e X st := by
  have hP0 : ∀ f t m, 0 ≤ st.P f t m := by
    rw [h.P]
    exact powOf_nonneg _ _
  have hd := den_pos hM hF hX h
  have hg : ∀ n m, 0 < stepg st.g st.lam st.P st.Y n m := by
    intro n m
    refine mul_pos (h.g n m) (Real.sqrt_pos.mpr (div_pos ?_ (hd n m)))
    obtain ⟨t, ht⟩ := hX.row h.Q ⟨0, hF⟩ m
    rw [← h.P] at ht
    refine Finset.sum_pos' (fun f _ => Finset.sum_nonneg fun t _ => mul_nonneg (h.lam n f t).le (div_nonneg (hP0 f t m) (sq_nonneg _))) ⟨⟨0, hF⟩, Finset.mem_univ _, ?_⟩
    exact Finset.sum_pos' (fun t _ => mul_nonneg (h.lam n _ t).le (div_nonneg (hP0 _ t m) (sq_nonneg _))) ⟨t, Finset.mem_univ t, mul_pos (h.lam n _ t) (div_pos ht (pow_pos (h.Y _ t m) 2))⟩
  have hY' := yOf2_pos he hN h.lam hg
  refine ⟨{ st with g := stepg st.g st.lam st.P st.Y, Y := yOf2 e st.lam (stepg st.g st.lam st.P st.Y) }, ?_, ⟨h.Q, hg, h.W, h.H, h.loud, h.lam, hY', h.P⟩, ⟨hf.lam, h.P, rfl⟩, ?_⟩
  · unfold diagonals
    rw [check_true (show Fine st.Y from fun f t m => (h.Y f t m).ne'), check_true (fun n m => (hd n m).ne')]
    rfl
  · unfold objective2
    dsimp only
    rw [← hf.lam, nll_total h.Q hY', nll_total h.Q (by rw [← hf.Y]; exact h.Y), cost_split, cost_split, ← hf.Y]
    apply sub_le_sub_right
    have h1 : ∀ m, ∑ i : Fin F × Fin T, misfit (powOf st.Q X i.1 i.2 m) (yOf2 e st.lam (stepg st.g st.lam st.P st.Y) i.1 i.2 m) ≤ ∑ i : Fin F × Fin T, misfit (powOf st.Q X i.1 i.2 m) (st.Y i.1 i.2 m) := by
      intro m
      have h2 := mm_named (ι := Fin F × Fin T) (κ := Fin N) (a := fun i n => st.lam n i.1 i.2) (c := fun _ => e) (P := fun i => powOf st.Q X i.1 i.2 m) (Y := fun i => st.Y i.1 i.2 m)
        (Y' := fun i => yOf2 e st.lam (stepg st.g st.lam st.P st.Y) i.1 i.2 m) (x := fun n => st.g n m) (x' := fun n => stepg st.g st.lam st.P st.Y n m)
        (num := fun n => ∑ f, ∑ t, st.lam n f t * (st.P f t m / st.Y f t m ^ 2)) (den := fun n => den st.lam st.Y n m) (e := 0)
        (fun i n => (h.lam n i.1 i.2).le) (fun _ => he) (fun i => powOf_nonneg _ _ _ _ _) (fun n => (h.g n m).le) (fun i => by rw [hf.Y]; exact add_comm _ _) (fun i => add_comm _ _)
        (fun i => h.Y _ _ _) (fun i => hY' _ _ _) (fun n => by rw [h.P, Fintype.sum_prod_type]) (fun n => by rw [add_zero, Fintype.sum_prod_type]; rfl) (fun n => hd n m) (fun n => rfl)
      simpa using h2
    have h3 : ∀ Z : Fin F → Fin T → Fin M → ℝ, ∑ f, ∑ t, ∑ m, misfit (powOf st.Q X f t m) (Z f t m) = ∑ m, ∑ i : Fin F × Fin T, misfit (powOf st.Q X i.1 i.2 m) (Z i.1 i.2 m) := by
      intro Z
      rw [Finset.sum_comm (s := (Finset.univ : Finset (Fin M))), Fintype.sum_prod_type]
    rw [h3, h3]
    exact Finset.sum_le_sum fun m _ => h1 m

/-- **C109** A row of the diagonalizer can be replaced, the diagonalizer stays invertible, and the objective does not grow. -/
theorem C109_row {e : ℝ} (hM : 0 < M) {X : Fin T → Fin F → Fin M → ℂ} (hX : Rich X) {st : State N F T M K} (h : Pos X st) (hf : Fresh e X st) (m : Fin M) :
    ∃ st', qRow X st m = some st' ∧ Pos X st' ∧ Fresh e X st' ∧ (∀ f i, i ≠ m → st'.Q f i = st.Q f i) ∧ objective2 e X st' ≤ objective2 e X st := by
  have hV := fun f => covOf_posDef hX h.Y hM m f
  have hu : ∀ f, IsUnit (st.Q f * covOf X st.Y m f).det := by
    intro f
    rw [det_mul]
    exact (h.Q f).mul ((isUnit_iff_isUnit_det _).mp (hV f).isUnit)
  have hsol := fun f => solution (hV f) (h.Q f) m
  choose hx q hq hxq using hsol
  have hscale : ∀ f, scaleOf 0 (covOf X st.Y m f) (sol (st.Q f) (covOf X st.Y m f) m) = ((Real.sqrt (q f) + 0 : ℝ) : ℂ) := fun f => scaleOf_eq (hq f) (hxq f)
  have hrow := fun f => row_cost (hV f) (h.Q f) le_rfl m (hx f) (hq f) (hxq f)
  set Q' : Fin F → Matrix (Fin M) (Fin M) ℂ := fun f => (st.Q f).updateRow m fun c => star (((st.Q f * covOf X st.Y m f)⁻¹ *ᵥ Pi.single m 1) c / ((Real.sqrt (q f) + 0 : ℝ) : ℂ)) with hQ'
  have hstep : qRow X st m = some { st with Q := Q', P := powOf Q' X } := by
    unfold qRow
    have hne : ∀ f, scaleOf 0 (covOf X st.Y m f) (sol (st.Q f) (covOf X st.Y m f) m) ≠ 0 := by
      intro f
      rw [hscale, add_zero]
      exact_mod_cast (Real.sqrt_pos.mpr (hq f)).ne'
    rw [check_true (fun f t => (h.Y f t m).ne'), check_true hu, check_true hne]
    simp only [hscale]
    rfl
  have hQu : ∀ f, IsUnit (Q' f).det := fun f => (hrow f).1
  refine ⟨_, hstep, ⟨hQu, h.g, h.W, h.H, h.loud, h.lam, h.Y, rfl⟩, ⟨hf.lam, rfl, hf.Y⟩, fun f i hi => updateRow_ne hi, ?_⟩
  unfold objective2
  dsimp only
  have hYp : ∀ f t m, 0 < yOf2 e st.lam st.g f t m := by
    rw [← hf.Y]
    exact h.Y
  rw [← hf.lam, nll_total hQu hYp, nll_total h.Q hYp, ← hf.Y]
  unfold cost
  refine Finset.sum_le_sum fun f _ => ?_
  have hT : 0 < T := by
    obtain ⟨t, -⟩ := hX.heard hM f
    exact t.pos
  have hdec : ∀ A : Fin F → Matrix (Fin M) (Fin M) ℂ, ∑ t, ∑ i, misfit (powOf A X f t i) (st.Y f t i) = (∑ i, ∑ t, Real.log (st.Y f t i)) + ∑ i, T * pw (covOf X st.Y i f) (A f i) := by
    intro A
    rw [Finset.sum_comm, ← Finset.sum_add_distrib]
    refine Finset.sum_congr rfl fun i _ => ?_
    rw [← powOf_row hT, ← Finset.sum_add_distrib]
    refine Finset.sum_congr rfl fun t _ => ?_
    unfold misfit
    ring
  rw [hdec, hdec, ← Finset.add_sum_erase (f := fun i => (T : ℝ) * pw (covOf X st.Y i f) (Q' f i)) _ (Finset.mem_univ m),
    ← Finset.add_sum_erase (f := fun i => (T : ℝ) * pw (covOf X st.Y i f) (st.Q f i)) _ (Finset.mem_univ m)]
  have hrest : ∑ i ∈ Finset.univ.erase m, (T : ℝ) * pw (covOf X st.Y i f) (Q' f i) = ∑ i ∈ Finset.univ.erase m, (T : ℝ) * pw (covOf X st.Y i f) (st.Q f i) := by
    refine Finset.sum_congr rfl fun i hi => ?_
    have : Q' f i = st.Q f i := updateRow_ne (Finset.ne_of_mem_erase hi)
    rw [this]
  rw [hrest]
  have h6 := (hrow f).2
  have h7 : Q' f m = fun c => star (((st.Q f * covOf X st.Y m f)⁻¹ *ᵥ Pi.single m 1) c / ((Real.sqrt (q f) + 0 : ℝ) : ℂ)) := updateRow_self
  rw [← h7] at h6
  have h8 : (st.Q f).updateRow m (Q' f m) = Q' f := by rw [h7]
  rw [h8] at h6
  have h9 := mul_le_mul_of_nonneg_left h6 (Nat.cast_nonneg (α := ℝ) T)
  have h10 : 3 * ((0 : ℝ) ^ 2 / q f) = 0 := by simp
  rw [h10] at h9
  linarith

end Verif.FastMnmf2
