import Verif.FastMnmf2.Props

/-!
# A run of FastMNMF2
-/

namespace Verif.FastMnmf2

open Matrix Verif.AuxIva Verif.FastMnmf
open scoped ComplexOrder

variable {N F T M K : ℕ}

/-- **C109** The normalization always succeeds. Afterwards the entries of the diagonalizer have mean power one over a row, the diagonal of every source and the columns of every basis add up to one,
    and the covariance matrix of every image is what it was but for the share of `eps`, which is multiplied by the mean power of the old diagonalizer and divided by the old sum of the diagonal. -/
theorem C109_normalize {e : ℝ} (he : 0 < e) (hN : 0 < N) (hM : 0 < M) (hF : 0 < F) {X : Fin T → Fin F → Fin M → ℂ} {st : State N F T M K} (h : Pos X st) :
    ∃ st', normalize e X st = some st' ∧ Pos X st' ∧ Fresh e X st' ∧ (∀ f, ∑ i, ∑ j, ‖st'.Q f i j‖ ^ 2 = M) ∧ (∀ n, ∑ m, st'.g n m = 1) ∧ (∀ n k, ∑ f, st'.W n f k = 1) ∧
      ∀ n f t, imageCov st'.Q st'.lam (wide st'.g) n f t
        = imageCov st.Q (fun n f t => ∑ k, st.W n f k * st.H n k t + e * ((∑ i, ∑ j, ‖st.Q f i j‖ ^ 2) / M) / ∑ m, st.g n m) (wide st.g) n f t := by
  have hphi := fun f => phiOf_pos hM (h.Q f)
  have hsq := fun f => Real.sqrt_pos.mpr (hphi f)
  have hsqc : ∀ f, ((Real.sqrt (phiOf st.Q f) : ℝ) : ℂ) ≠ 0 := fun f => by exact_mod_cast (hsq f).ne'
  have hM1 : Nonempty (Fin M) := ⟨⟨0, hM⟩⟩
  have hF1 : Nonempty (Fin F) := ⟨⟨0, hF⟩⟩
  set Q' : Fin F → Matrix (Fin M) (Fin M) ℂ := fun f => .of fun i j => st.Q f i j / (Real.sqrt (phiOf st.Q f) : ℂ) with hQ'
  have hQe : ∀ f, Q' f = ((Real.sqrt (phiOf st.Q f) : ℝ) : ℂ)⁻¹ • st.Q f := fun f => scaled_eq _ _
  set W0 : Fin N → Fin F → Fin K → ℝ := fun n f k => st.W n f k / phiOf st.Q f with hW0
  have hmu : ∀ n, 0 < ∑ m, st.g n m := fun n => Finset.sum_pos (fun m _ => h.g n m) Finset.univ_nonempty
  set g2 : Fin N → Fin M → ℝ := fun n m => st.g n m / ∑ m, st.g n m with hg2
  have hg2p : ∀ n m, 0 < g2 n m := fun n m => div_pos (h.g n m) (hmu n)
  set W1 : Fin N → Fin F → Fin K → ℝ := fun n f k => W0 n f k * ∑ m, st.g n m with hW1
  have hW1p : ∀ n f k, 0 < W1 n f k := fun n f k => mul_pos (div_pos (h.W n f k) (hphi f)) (hmu n)
  have hnu : ∀ n k, 0 < ∑ f, W1 n f k := fun n k => Finset.sum_pos (fun f _ => hW1p n f k) Finset.univ_nonempty
  set W2 : Fin N → Fin F → Fin K → ℝ := fun n f k => W1 n f k / ∑ f, W1 n f k with hW2
  have hW2p : ∀ n f k, 0 < W2 n f k := fun n f k => div_pos (hW1p n f k) (hnu n k)
  set H2 : Fin N → Fin K → Fin T → ℝ := fun n k t => st.H n k t * ∑ f, W1 n f k with hH2
  have hH2p : ∀ n k t, 0 ≤ H2 n k t := fun n k t => mul_nonneg (h.H n k t) (hnu n k).le
  have hstep : normalize e X st = some { Q := Q', g := g2, W := W2, H := H2, lam := lamOf e W2 H2, P := powOf Q' X, Y := yOf2 e (lamOf e W2 H2) g2 } := by
    unfold normalize normQ
    rw [check_true (fun f => (hphi f).ne')]
    have h2 : normg { st with Q := Q', W := W0 } = some { st with Q := Q', g := g2, W := W1 } := by
      unfold normg
      rw [check_true (fun n => (hmu n).ne')]
      rfl
    have h3 : normW { st with Q := Q', g := g2, W := W1 } = some { st with Q := Q', g := g2, W := W2, H := H2 } := by
      unfold normW
      rw [check_true (fun n k => (hnu n k).ne')]
      rfl
    change (normg { st with Q := Q', W := W0 }).bind _ = _
    rw [h2]
    change (normW { st with Q := Q', g := g2, W := W1 }).bind _ = _
    rw [h3]
    rfl
  have hl := lamOf_pos he hW2p hH2p
  refine ⟨_, hstep, ⟨fun f => ?_, hg2p, hW2p, hH2p, fun n k t f ht => mul_pos (h.loud n k t f ht) (hnu n k), hl, yOf2_pos he.le hN hl hg2p, rfl⟩, ⟨rfl, rfl, rfl⟩, ?_, ?_, ?_, ?_⟩
  · change IsUnit (Q' f).det
    rw [hQe]
    exact scaled_unit (h.Q f) (hsqc f)
  · intro f
    have h1 : ∀ i j, ‖Q' f i j‖ ^ 2 = ‖st.Q f i j‖ ^ 2 / phiOf st.Q f := by
      intro i j
      have h2 : Q' f i j = st.Q f i j / (Real.sqrt (phiOf st.Q f) : ℂ) := rfl
      rw [h2, norm_div, Complex.norm_real, Real.norm_eq_abs, abs_of_pos (hsq f), div_pow, Real.sq_sqrt (hphi f).le]
    change ∑ i, ∑ j, ‖Q' f i j‖ ^ 2 = M
    simp only [h1, ← Finset.sum_div]
    have h3 := phiOf_eq st.Q f
    have h4 : (M : ℝ) ≠ 0 := by exact_mod_cast hM.ne'
    rw [div_eq_iff (hphi f).ne', h3]
    field_simp
  · intro n
    change ∑ m, st.g n m / ∑ m, st.g n m = 1
    rw [← Finset.sum_div, div_self (hmu n).ne']
  · intro n k
    change ∑ f, W1 n f k / ∑ f, W1 n f k = 1
    rw [← Finset.sum_div, div_self (hnu n k).ne']
  · intro n f t
    have h1 : (Q' f)⁻¹ = ((Real.sqrt (phiOf st.Q f) : ℝ) : ℂ) • (st.Q f)⁻¹ := by
      apply inv_eq_right_inv
      rw [hQe, Matrix.smul_mul, Matrix.mul_smul, smul_smul, inv_mul_cancel₀ (hsqc f), one_smul, mul_nonsing_inv _ (h.Q f)]
    have h2 : lamOf e W2 H2 n f t = (∑ k, st.W n f k * st.H n k t) / phiOf st.Q f * (∑ m, st.g n m) + e := by
      unfold lamOf
      congr 1
      rw [Finset.sum_div, Finset.sum_mul]
      refine Finset.sum_congr rfl fun k _ => ?_
      simp only [hW2, hH2]
      rw [div_mul_eq_mul_div, mul_comm (st.H n k t), ← mul_assoc, mul_right_comm, mul_div_assoc, div_self (hnu n k).ne', mul_one]
      simp only [hW1, hW0]
      ring
    have hs2 : ((Real.sqrt (phiOf st.Q f) : ℝ) : ℂ) * ((Real.sqrt (phiOf st.Q f) : ℝ) : ℂ) = (phiOf st.Q f : ℂ) := by rw [← Complex.ofReal_mul, Real.mul_self_sqrt (hphi f).le]
    have hpr := (hphi f).ne'
    have hmr := (hmu n).ne'
    have hpc : (phiOf st.Q f : ℂ) ≠ 0 := by exact_mod_cast hpr
    have hmc : ((∑ m, st.g n m : ℝ) : ℂ) ≠ 0 := by exact_mod_cast hmr
    have h4 : diagonal (fun m => (wide g2 n f m : ℂ)) = (((∑ m, st.g n m : ℝ) : ℂ))⁻¹ • diagonal (fun m => (wide st.g n f m : ℂ)) := by
      rw [← diagonal_smul]
      congr 1
      funext m
      simp only [wide, hg2, Pi.smul_apply, smul_eq_mul, Complex.ofReal_div]
      field_simp
    unfold imageCov
    change ((lamOf e W2 H2 n f t : ℝ) : ℂ) • ((Q' f)⁻¹ * diagonal (fun m => (wide g2 n f m : ℂ)) * ((Q' f)⁻¹)ᴴ) = _
    beta_reduce
    rw [h1, h4, h2, ← phiOf_eq, conjTranspose_smul, Complex.star_def, Complex.conj_ofReal]
    simp only [Matrix.smul_mul, Matrix.mul_smul, smul_smul]
    congr 1
    generalize (∑ m, st.g n m) = mu at hmc hmr ⊢
    generalize (∑ k, st.W n f k * st.H n k t) = s
    have h5 : ((s / phiOf st.Q f * mu + e : ℝ) : ℂ) * (phiOf st.Q f : ℂ) = ((s + e * phiOf st.Q f / mu : ℝ) : ℂ) * (mu : ℂ) := by
      rw [← Complex.ofReal_mul, ← Complex.ofReal_mul]
      congr 1
      field_simp
    have h6 : ((s / phiOf st.Q f * mu + e : ℝ) : ℂ) * (((Real.sqrt (phiOf st.Q f) : ℝ) : ℂ) * ((Real.sqrt (phiOf st.Q f) : ℝ) : ℂ)) * (mu : ℂ)⁻¹ = ((s + e * phiOf st.Q f / mu : ℝ) : ℂ) := by
      rw [hs2, h5, mul_assoc, mul_inv_cancel₀ hmc, mul_one]
    rw [← h6]
    ring

theorem rows_total {e : ℝ} (hM : 0 < M) {X : Fin T → Fin F → Fin M → ℂ} (hX : Rich X) (l : List (Fin M)) :
    ∀ {st : State N F T M K}, Pos X st → Fresh e X st → ∃ st', l.foldlM (qRow X) st = some st' ∧ Pos X st' ∧ Fresh e X st' ∧ objective2 e X st' ≤ objective2 e X st := by
  induction l with
  | nil => exact fun {st} h hf => ⟨st, rfl, h, hf, le_rfl⟩
  | cons m l ih =>
    intro st h hf
    obtain ⟨a, h1, h2, h3, -, h4⟩ := C109_row hM hX h hf m
    obtain ⟨b, h5, h6, h7, h8⟩ := ih h2 h3
    refine ⟨b, ?_, h6, h7, h8.trans h4⟩
    rw [List.foldlM_cons, h1]
    exact h5

/-- **C109** The updates of all rows of the diagonalizer together do not raise the objective. -/
theorem C109_diagonalizer {e : ℝ} (hM : 0 < M) {X : Fin T → Fin F → Fin M → ℂ} (hX : Rich X) {st : State N F T M K} (h : Pos X st) (hf : Fresh e X st) :
    ∃ st', (List.finRange M).foldlM (qRow X) st = some st' ∧ Pos X st' ∧ Fresh e X st' ∧ objective2 e X st' ≤ objective2 e X st := rows_total hM hX _ h hf

theorem epoch_total {e : ℝ} (he : 0 < e) (hN : 0 < N) (hM : 0 < M) (hF : 0 < F) (acc : Bool) {X : Fin T → Fin F → Fin M → ℂ} (hX : Rich X) {st : State N F T M K} (h : Pos X st) (i : ℕ) :
    ∃ st', epoch e acc X st i = some st' ∧ Pos X st' ∧ Fresh e X st' := by
  obtain ⟨h1, h2⟩ := basis_total hM hX h
  obtain ⟨b, h3, h4, h5⟩ := activations_total he hN hM hF h2
  obtain ⟨c, h6, h7, h8, -⟩ := C109_diagonals he.le hN hM hF hX h4 h5
  obtain ⟨d, h9, h10, h11, -⟩ := C109_diagonalizer hM hX h7 h8
  have h12 : ∃ st', normalizeAt e X i d = some st' ∧ Pos X st' ∧ Fresh e X st' := by
    unfold normalizeAt
    split
    · obtain ⟨z, h8, h9, h10, -⟩ := C109_normalize he hN hM hF h10
      exact ⟨z, h8, h9, h10⟩
    · exact ⟨d, rfl, h10, h11⟩
  obtain ⟨z, h13, h14, h15⟩ := h12
  refine ⟨z, ?_, h14, h15⟩
  unfold epoch
  rw [h1]
  simp only [activations_same]
  change (activations e { st with W := newW st } _ _).bind _ = _
  rw [h3]
  change (diagonals e b).bind _ = _
  rw [h6]
  change ((List.finRange M).foldlM (qRow X) c).bind _ = _
  rw [h9]
  exact h13

theorem epochs_total {e : ℝ} (he : 0 < e) (hN : 0 < N) (hM : 0 < M) (hF : 0 < F) (acc : Bool) {X : Fin T → Fin F → Fin M → ℂ} (hX : Rich X) {st : State N F T M K} (h : Pos X st) (i : ℕ) :
    ∃ st', epochs e acc X st i = some st' ∧ Pos X st' ∧ (0 < i → Fresh e X st') := by
  induction i with
  | zero => exact ⟨st, rfl, h, fun h => absurd h (lt_irrefl 0)⟩
  | succ i ih =>
    obtain ⟨a, h1, h2, -⟩ := ih
    obtain ⟨b, h4, h5, h6⟩ := epoch_total he hN hM hF acc hX h2 i
    refine ⟨b, ?_, h5, fun _ => h6⟩
    rw [epochs, h1]
    exact h4

theorem start_total {ge : ℝ} (hg : 0 < ge) (hN : 0 < N) (hK : 0 < K) {X : Fin T → Fin F → Fin M → ℂ} {W0 : Option (Fin F → Matrix (Fin M) (Fin M) ℂ)}
    (hW : ∀ W, W0 = some W → ∀ f, IsUnit (W f).det) {rW : Fin N → Fin F → Fin K → ℝ} {rH : Fin N → Fin K → Fin T → ℝ} (h1 : ∀ n f k, 0 < rW n f k) (h2 : ∀ n k t, 0 < rH n k t) :
    ∃ st, start ge X W0 rW rH = some st ∧ Pos X st ∧ Fresh 0 X st ∧
      ∀ f m j, st.Q f m j = (W0.getD fun _ => 1) f m j / (Real.sqrt (∑ j, ‖(W0.getD fun _ => 1) f m j‖ ^ 2) : ℂ) := by
  have hK1 : Nonempty (Fin K) := ⟨⟨0, hK⟩⟩
  have hQ : ∀ f, IsUnit ((W0.getD fun _ => 1) f).det := by
    intro f
    cases W0 with
    | none => simp
    | some W => exact hW W rfl f
  obtain ⟨Q, h3, h4, h5⟩ := unitRows_total hQ
  have hl : ∀ n f t, 0 < lamOf 0 rW rH n f t := by
    intro n f t
    unfold lamOf
    rw [add_zero]
    exact Finset.sum_pos (fun k _ => mul_pos (h1 n f k) (h2 n k t)) Finset.univ_nonempty
  have hgp : ∀ (n : Fin N) (m : Fin M), 0 < gInit2 ge n m := by
    intro n m
    unfold gInit2
    split
    · exact one_pos
    · exact hg
  refine ⟨derive 0 X { Q := Q, g := gInit2 ge, W := rW, H := rH, lam := fun _ _ _ => 0, P := fun _ _ _ => 0, Y := fun _ _ _ => 0 }, ?_,
    ⟨h4, hgp, h1, fun n k t => (h2 n k t).le, fun n k t _ _ => h2 n k t, hl, yOf2_pos le_rfl hN hl hgp, rfl⟩, ⟨rfl, rfl, rfl⟩, h5⟩
  unfold start
  rw [h3]
  rfl

theorem eps2_pos : 0 < eps2 := by
  unfold eps2
  norm_num

/-- **C109** Whenever the frames of every frequency span the space, the given diagonalizer is invertible and the draws are positive, every number of epochs ends without a division by zero and without a
    singular matrix, the images add up to the mixture at every microphone, are the Wiener estimates of a state with positive parameters, and do not depend on `accelerate`. -/
theorem C109_images (hN : 0 < N) (hM : 0 < M) (hF : 0 < F) (hK : 0 < K) (acc : Bool) {X : Fin T → Fin F → Fin M → ℂ} (hX : Rich X)
    {W0 : Option (Fin F → Matrix (Fin M) (Fin M) ℂ)} (hW : ∀ W, W0 = some W → ∀ f, IsUnit (W f).det) {rW : Fin N → Fin F → Fin K → ℝ} {rH : Fin N → Fin K → Fin T → ℝ}
    (h1 : ∀ n f k, 0 < rW n f k) (h2 : ∀ n k t, 0 < rH n k t) (iters : ℕ) :
    ∃ (z : Fin M → Fin T → Fin F → Fin N → ℂ) (st : State N F T M K), Pos X st ∧
      (∀ i t f n, z i t f n = (imageCov st.Q st.lam (wide st.g) n f t *ᵥ ((mixCov st.Q st.lam (wide st.g) f t)⁻¹ *ᵥ X t f)) i) ∧ (∀ i t f, ∑ n, z i t f n = X t f i) ∧
      fastmnmf2 acc .all X W0 rW rH iters = some (.ok (.all z), st.Q) ∧
      (∀ i : Fin M, fastmnmf2 acc (.int i) X W0 rW rH iters = some (.ok (.one (z i)), st.Q)) ∧
      (∀ i : Fin M, fastmnmf2 acc (.int ((i : ℤ) - M)) X W0 rW rH iters = some (.ok (.one (z i)), st.Q)) ∧
      (∀ i : ℤ, i < -M ∨ (M : ℤ) ≤ i → fastmnmf2 acc (.int i) X W0 rW rH iters = some (.error .indexError, st.Q)) ∧
      fastmnmf2 acc .other X W0 rW rH iters = some (.error .valueError, st.Q) ∧
      ∀ mic, fastmnmf2 (!acc) mic X W0 rW rH iters = fastmnmf2 acc mic X W0 rW rH iters := by
  obtain ⟨a, h3, h4, h5, -⟩ := start_total gEps_pos hN hK (X := X) hW h1 h2
  obtain ⟨b, h6, h7, h8⟩ := epochs_total eps2_pos hN hM hF acc hX h4 iters
  have hall : ∀ mic, fastmnmf2 acc mic X W0 rW rH iters = (separate X mic b).bind fun z => some (z, b.Q) := by
    intro mic
    unfold fastmnmf2
    rw [h3]
    change (epochs eps2 acc X a iters).bind _ = _
    rw [h6]
    rfl
  refine ⟨imagesOf2 X b, b, h7, fun i t f n => C109_wiener hN h7 i t f n, fun i t f => C109_sum hN h7 i t f, ?_, fun i => ?_, fun i => ?_, fun i hi => ?_, ?_, fun mic => ?_⟩
  · rw [hall]
    unfold separate
    rw [check_true h7.Q]
    rfl
  · rw [hall]
    have h9 : Py.normIdx M (i : ℤ) = some i.val := by
      unfold Py.normIdx
      rw [if_pos (by omega), if_pos (by omega)]
      rfl
    unfold separate
    rw [check_true h7.Q]
    simp only [h9, i.isLt, dif_pos]
    rfl
  · rw [hall]
    have h9 : Py.normIdx M ((i : ℤ) - M) = some i.val := by
      unfold Py.normIdx
      have := i.isLt
      rw [if_neg (by omega), if_pos (by omega)]
      simp
    unfold separate
    rw [check_true h7.Q]
    simp only [h9, i.isLt, dif_pos]
    rfl
  · rw [hall]
    have h9 : Py.normIdx M i = none := by
      unfold Py.normIdx
      split <;> rw [if_neg (by omega)]
    unfold separate
    rw [check_true h7.Q]
    simp only [h9]
    rfl
  · rw [hall]
    unfold separate
    rw [check_true h7.Q]
    rfl
  · unfold fastmnmf2
    cases acc
    · simp only [Bool.not_false, C109_accelerate_deviation]
    · simp only [Bool.not_true, C109_accelerate_deviation]

/-- **C109** The array that the caller gives as the first diagonalizer is overwritten, even without an epoch. -/
theorem C109_given_deviation (hN : 0 < N) (hK : 0 < K) (acc : Bool) {X : Fin T → Fin F → Fin M → ℂ} {W0 : Fin F → Matrix (Fin M) (Fin M) ℂ} (hW : ∀ f, IsUnit (W0 f).det)
    {rW : Fin N → Fin F → Fin K → ℝ} {rH : Fin N → Fin K → Fin T → ℝ} (h1 : ∀ n f k, 0 < rW n f k) (h2 : ∀ n k t, 0 < rH n k t) :
    ∃ r Q, fastmnmf2 acc .all X (some W0) rW rH 0 = some (r, Q) ∧ ∀ f m j, Q f m j = W0 f m j / (Real.sqrt (∑ j, ‖W0 f m j‖ ^ 2) : ℂ) := by
  obtain ⟨a, h3, h4, -, h5⟩ := start_total gEps_pos hN hK (X := X) (W0 := some W0) (fun W hW' => by cases hW'; exact hW) h1 h2
  refine ⟨.ok (.all (imagesOf2 X a)), a.Q, ?_, h5⟩
  unfold fastmnmf2
  rw [h3]
  change (separate X .all a).bind _ = _
  unfold separate
  rw [check_true h4.Q]
  rfl

/-! ## The hypotheses can be met -/

/-- Parameters before the first epoch for a tone. -/
noncomputable def first : State 1 1 1 1 1 where
  Q := fun _ => 1
  g := fun _ _ => 1
  W := fun _ _ _ => 2
  H := fun _ _ _ => 3
  lam := fun _ _ _ => 6
  P := fun _ _ _ => 1
  Y := fun _ _ _ => 6

theorem pos_first : Pos tone first := by
  refine ⟨fun f => by simp [first], fun _ _ => one_pos, fun _ _ _ => ?_, fun _ _ _ => ?_, fun _ _ _ _ _ => ?_, fun _ _ _ => ?_, fun _ _ _ => ?_, ?_⟩
  · norm_num [first]
  · norm_num [first]
  · norm_num [first]
  · norm_num [first]
  · norm_num [first]
  · funext f t m
    simp [first, powOf, tone, Subsingleton.elim m 0]

theorem fresh_first : Fresh 0 tone first := by
  refine ⟨?_, pos_first.P, ?_⟩
  · funext n f t
    norm_num [first, lamOf]
  · funext f t m
    norm_num [first, yOf2]

example : ∃ st', diagonals 0 first = some st' ∧ Pos tone st' ∧ Fresh 0 tone st' ∧ objective2 0 tone st' ≤ objective2 0 tone first :=
  C109_diagonals le_rfl one_pos one_pos one_pos rich_tone pos_first fresh_first

example : ∃ st', qRow tone first 0 = some st' ∧ Pos tone st' ∧ Fresh 0 tone st' ∧ (∀ f i, i ≠ 0 → st'.Q f i = first.Q f i) ∧ objective2 0 tone st' ≤ objective2 0 tone first :=
  C109_row one_pos rich_tone pos_first fresh_first 0

example : ∃ st', basis first = some st' ∧ objective2 0 tone st' ≤ objective2 0 tone first := by
  refine C109_basis le_rfl one_pos rich_tone pos_first fresh_first fun f t m => ?_
  refine yOf2_pos le_rfl one_pos (fun n f t => ?_) pos_first.g f t m
  have h := (basis_total one_pos rich_tone pos_first).2.W
  unfold lamOf
  rw [add_zero]
  exact Finset.sum_pos (fun k _ => mul_pos (h n f k) (by norm_num [first])) Finset.univ_nonempty

example : ∃ st', normalize 1 tone first = some st' ∧ ∀ n k, ∑ f, st'.W n f k = 1 := by
  obtain ⟨st', h, -, -, -, -, h3, -⟩ := C109_normalize one_pos one_pos one_pos one_pos pos_first
  exact ⟨st', h, h3⟩

example : ∃ (z : Fin 2 → Fin 2 → Fin 1 → Fin 3 → ℂ) (Q : Fin 1 → Matrix (Fin 2) (Fin 2) ℂ), (∀ i t f, ∑ n, z i t f n = click t f i) ∧
    fastmnmf2 (K := 4) true .all click none (fun _ _ _ => 1 / 2) (fun _ _ _ => 1 / 3) 30 = some (.ok (.all z), Q) := by
  obtain ⟨z, st, -, -, h1, h2, -⟩ := C109_images (N := 3) (K := 4) (W0 := none) (rW := fun _ _ _ => 1 / 2) (rH := fun _ _ _ => 1 / 3) (by norm_num) (by norm_num) (by norm_num) (by norm_num) true rich_click
    (fun W h => by cases h) (fun _ _ _ => by norm_num) (fun _ _ _ => by norm_num) 30
  exact ⟨z, st.Q, h1, h2⟩

/-- A given array with rows of length two is changed. -/
example : ∃ r Q, fastmnmf2 (N := 2) (K := 2) true .all click (some fun _ => diagonal fun _ => 2) (fun _ _ _ => 1 / 2) (fun _ _ _ => 1 / 3) 0 = some (r, Q) ∧ ∀ f, Q f ≠ diagonal fun _ => 2 := by
  obtain ⟨r, Q, h1, h2⟩ := C109_given_deviation (N := 2) (K := 2) (by norm_num) (by norm_num) true (X := click) (W0 := fun _ => diagonal fun _ => 2) (fun f => by simp [det_diagonal])
    (rW := fun _ _ _ => 1 / 2) (rH := fun _ _ _ => 1 / 3) (fun _ _ _ => by norm_num) (fun _ _ _ => by norm_num)
  refine ⟨r, Q, h1, fun f hf => ?_⟩
  have h3 := h2 f 0 0
  rw [hf] at h3
  simp at h3

end Verif.FastMnmf2
