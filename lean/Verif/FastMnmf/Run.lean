import Verif.FastMnmf.Descent

/-!
# A run of FastMNMF

The normalization, all epochs, the result, and where the code does something else than one would expect.
-/

namespace Verif.FastMnmf

open Matrix Verif.AuxIva
open scoped ComplexOrder

variable {N F T M K : ℕ}

/-! ## The normalization -/

theorem phiOf_eq (Q : Fin F → Matrix (Fin M) (Fin M) ℂ) (f : Fin F) : phiOf Q f = (∑ i, ∑ j, ‖Q f i j‖ ^ 2) / M := by
  unfold phiOf
  congr 1
  simp only [Complex.re_sum]
  refine Finset.sum_congr rfl fun i _ => Finset.sum_congr rfl fun j _ => ?_
  rw [Complex.star_def, Complex.mul_conj', ← Complex.ofReal_pow, Complex.ofReal_re]

theorem phiOf_pos (hM : 0 < M) {Q : Fin F → Matrix (Fin M) (Fin M) ℂ} {f : Fin F} (hQ : IsUnit (Q f).det) : 0 < phiOf Q f := by
  rw [phiOf_eq]
  refine div_pos ?_ (by exact_mod_cast hM)
  by_contra hc
  rw [not_lt] at hc
  have h0 := le_antisymm hc (Finset.sum_nonneg fun i _ => Finset.sum_nonneg fun j _ => sq_nonneg ‖Q f i j‖)
  rw [Finset.sum_eq_zero_iff_of_nonneg fun i _ => Finset.sum_nonneg fun j _ => sq_nonneg ‖Q f i j‖] at h0
  apply hQ.ne_zero
  refine det_eq_zero_of_row_eq_zero ⟨0, hM⟩ fun j => ?_
  have h1 := h0 ⟨0, hM⟩ (Finset.mem_univ _)
  rw [Finset.sum_eq_zero_iff_of_nonneg fun j _ => sq_nonneg _] at h1
  exact norm_eq_zero.mp (pow_eq_zero_iff two_ne_zero |>.mp (h1 j (Finset.mem_univ j)))

theorem scaled_eq (A : Matrix (Fin M) (Fin M) ℂ) (c : ℂ) : (.of fun i j => A i j / c : Matrix (Fin M) (Fin M) ℂ) = c⁻¹ • A := by
  ext i j
  simp [div_eq_inv_mul]

theorem scaled_unit {A : Matrix (Fin M) (Fin M) ℂ} (hA : IsUnit A.det) {c : ℂ} (hc : c ≠ 0) : IsUnit (c⁻¹ • A).det := by
  rw [det_smul]
  exact ((IsUnit.mk0 _ (inv_ne_zero hc)).pow _).mul hA

/-- **C108** The normalization always succeeds. Afterwards the entries of the diagonalizer have mean power one over a row, the diagonals of every source and the columns of every basis add up to one,
    and the covariance matrix of every image is what it was but for the share of `eps`, which is divided by the old sum of the diagonal. -/
theorem C108_normalize {e : ℝ} (he : 0 < e) (hN : 0 < N) (hM : 0 < M) (hF : 0 < F) {X : Fin T → Fin F → Fin M → ℂ} {st : State N F T M K} (h : Pos X st) :
    ∃ st', normalize e X st = some st' ∧ Pos X st' ∧ Fresh e X st' ∧ (∀ f, ∑ i, ∑ j, ‖st'.Q f i j‖ ^ 2 = M) ∧ (∀ n f, ∑ m, st'.G n f m = 1) ∧ (∀ n k, ∑ f, st'.W n f k = 1) ∧
      ∀ n f t, imageCov st'.Q st'.lam st'.G n f t
        = imageCov st.Q (fun n f t => ∑ k, st.W n f k * st.H n k t + e / ((∑ m, st.G n f m) / ((∑ i, ∑ j, ‖st.Q f i j‖ ^ 2) / M))) st.G n f t := by
  have hphi := fun f => phiOf_pos hM (h.Q f)
  have hsq := fun f => Real.sqrt_pos.mpr (hphi f)
  have hsqc : ∀ f, ((Real.sqrt (phiOf st.Q f) : ℝ) : ℂ) ≠ 0 := fun f => by exact_mod_cast (hsq f).ne'
  have hM1 : Nonempty (Fin M) := ⟨⟨0, hM⟩⟩
  have hF1 : Nonempty (Fin F) := ⟨⟨0, hF⟩⟩
  set Q' : Fin F → Matrix (Fin M) (Fin M) ℂ := fun f => .of fun i j => st.Q f i j / (Real.sqrt (phiOf st.Q f) : ℂ) with hQ'
  have hQe : ∀ f, Q' f = ((Real.sqrt (phiOf st.Q f) : ℝ) : ℂ)⁻¹ • st.Q f := fun f => scaled_eq _ _
  set G1 : Fin N → Fin F → Fin M → ℝ := fun n f m => st.G n f m / phiOf st.Q f with hG1
  have hG1p : ∀ n f m, 0 < G1 n f m := fun n f m => div_pos (h.G n f m) (hphi f)
  have hmu : ∀ n f, 0 < ∑ m, G1 n f m := fun n f => Finset.sum_pos (fun m _ => hG1p n f m) Finset.univ_nonempty
  set G2 : Fin N → Fin F → Fin M → ℝ := fun n f m => G1 n f m / ∑ m, G1 n f m with hG2
  have hG2p : ∀ n f m, 0 < G2 n f m := fun n f m => div_pos (hG1p n f m) (hmu n f)
  set W1 : Fin N → Fin F → Fin K → ℝ := fun n f k => st.W n f k * ∑ m, G1 n f m with hW1
  have hW1p : ∀ n f k, 0 < W1 n f k := fun n f k => mul_pos (h.W n f k) (hmu n f)
  have hnu : ∀ n k, 0 < ∑ f, W1 n f k := fun n k => Finset.sum_pos (fun f _ => hW1p n f k) Finset.univ_nonempty
  set W2 : Fin N → Fin F → Fin K → ℝ := fun n f k => W1 n f k / ∑ f, W1 n f k with hW2
  have hW2p : ∀ n f k, 0 < W2 n f k := fun n f k => div_pos (hW1p n f k) (hnu n k)
  set H2 : Fin N → Fin K → Fin T → ℝ := fun n k t => st.H n k t * ∑ f, W1 n f k with hH2
  have hH2p : ∀ n k t, 0 ≤ H2 n k t := fun n k t => mul_nonneg (h.H n k t) (hnu n k).le
  have hstep : normalize e X st = some { Q := Q', G := G2, W := W2, H := H2, lam := lamOf e W2 H2, P := powOf Q' X, Y := yOf (lamOf e W2 H2) G2 } := by
    unfold normalize normQ
    rw [check_true (fun f => (hphi f).ne')]
    have h2 : normG { st with Q := Q', G := G1 } = some { st with Q := Q', G := G2, W := W1 } := by
      unfold normG
      rw [check_true (fun n f => (hmu n f).ne')]
      rfl
    have h3 : normW { st with Q := Q', G := G2, W := W1 } = some { st with Q := Q', G := G2, W := W2, H := H2 } := by
      unfold normW
      rw [check_true (fun n k => (hnu n k).ne')]
      rfl
    change (normG { st with Q := Q', G := G1 }).bind _ = _
    rw [h2]
    change (normW { st with Q := Q', G := G2, W := W1 }).bind _ = _
    rw [h3]
    rfl
  have hl := lamOf_pos he hW2p hH2p
  refine ⟨_, hstep, ⟨fun f => ?_, hG2p, hW2p, hH2p, fun n k t f ht => mul_pos (h.loud n k t f ht) (hnu n k), hl, yOf_pos hN hl hG2p, rfl⟩, ⟨rfl, rfl, rfl⟩, ?_, ?_, ?_, ?_⟩
  · change IsUnit (Q' f).det
    rw [hQe]
    exact scaled_unit (h.Q f) (hsqc f)
  · intro f
    have h1 : ∀ i j, ‖Q' f i j‖ ^ 2 = ‖st.Q f i j‖ ^ 2 / phiOf st.Q f := by
      intro i j
      have h2 : Q' f i j = st.Q f i j / (Real.sqrt (phiOf st.Q f) : ℂ) := rfl
      rw [h2, norm_div, Complex.norm_real, Real.norm_eq_abs, abs_of_pos (hsq f), div_pow, Real.sq_sqrt (hphi f).le]
    change ∑ i, ∑ j, ‖Q' f i j‖ ^ 2 = M
    simp only [h1, ← Finset.sum_div]
    have h3 := phiOf_eq st.Q f
    have h4 : (M : ℝ) ≠ 0 := by exact_mod_cast hM.ne'
    rw [div_eq_iff (hphi f).ne', h3]
    field_simp
  · intro n f
    change ∑ m, G1 n f m / ∑ m, G1 n f m = 1
    rw [← Finset.sum_div, div_self (hmu n f).ne']
  · intro n k
    change ∑ f, W1 n f k / ∑ f, W1 n f k = 1
    rw [← Finset.sum_div, div_self (hnu n k).ne']
  · intro n f t
    have h1 : (Q' f)⁻¹ = ((Real.sqrt (phiOf st.Q f) : ℝ) : ℂ) • (st.Q f)⁻¹ := by
      apply inv_eq_right_inv
      rw [hQe, Matrix.smul_mul, Matrix.mul_smul, smul_smul, inv_mul_cancel₀ (hsqc f), one_smul, mul_nonsing_inv _ (h.Q f)]
    have h2 : lamOf e W2 H2 n f t = (∑ k, st.W n f k * st.H n k t) * (∑ m, G1 n f m) + e := by
      unfold lamOf
      congr 1
      rw [Finset.sum_mul]
      refine Finset.sum_congr rfl fun k _ => ?_
      simp only [hW2, hH2]
      rw [div_mul_eq_mul_div, mul_comm (st.H n k t), ← mul_assoc, mul_right_comm, mul_div_assoc, div_self (hnu n k).ne', mul_one]
      simp only [hW1]
      ring
    have h3 : (∑ m, G1 n f m) = (∑ m, st.G n f m) / ((∑ i, ∑ j, ‖st.Q f i j‖ ^ 2) / M) := by
      rw [← phiOf_eq]
      simp only [hG1, Finset.sum_div]
    have hs2 : ((Real.sqrt (phiOf st.Q f) : ℝ) : ℂ) * ((Real.sqrt (phiOf st.Q f) : ℝ) : ℂ) = (phiOf st.Q f : ℂ) := by rw [← Complex.ofReal_mul, Real.mul_self_sqrt (hphi f).le]
    have hpc : (phiOf st.Q f : ℂ) ≠ 0 := by exact_mod_cast (hphi f).ne'
    have hmc : ((∑ m, G1 n f m : ℝ) : ℂ) ≠ 0 := by exact_mod_cast (hmu n f).ne'
    have h4 : diagonal (fun m => (G2 n f m : ℂ)) = ((phiOf st.Q f : ℂ) * ((∑ m, G1 n f m : ℝ) : ℂ))⁻¹ • diagonal (fun m => (st.G n f m : ℂ)) := by
      rw [← diagonal_smul]
      congr 1
      funext m
      simp only [hG2, hG1, Pi.smul_apply, smul_eq_mul, Complex.ofReal_div]
      field_simp
    unfold imageCov
    change ((lamOf e W2 H2 n f t : ℝ) : ℂ) • ((Q' f)⁻¹ * diagonal (fun m => (G2 n f m : ℂ)) * ((Q' f)⁻¹)ᴴ) = _
    beta_reduce
    rw [h1, h4, h2, ← h3, conjTranspose_smul, Complex.star_def, Complex.conj_ofReal]
    simp only [Matrix.smul_mul, Matrix.mul_smul, smul_smul]
    congr 1
    have hmr := (hmu n f).ne'
    generalize (∑ m, G1 n f m) = mu at hmc hmr ⊢
    generalize (∑ k, st.W n f k * st.H n k t) = s
    have h5 : ((s * mu + e : ℝ) : ℂ) = ((s + e / mu : ℝ) : ℂ) * (mu : ℂ) := by
      rw [← Complex.ofReal_mul, add_mul, div_mul_cancel₀ _ hmr]
    rw [h5, mul_inv]
    generalize ((Real.sqrt (phiOf st.Q f) : ℝ) : ℂ) = r at hs2 ⊢
    rw [← hs2] at hpc ⊢
    have hr : r ≠ 0 := left_ne_zero_of_mul hpc
    field_simp

/-! ## The epochs -/

theorem sources_total {e : ℝ} (he : 0 < e) (hN : 0 < N) (hM : 0 < M) (acc : Bool) {X : Fin T → Fin F → Fin M → ℂ} (hX : Rich X) {st : State N F T M K} (h : Pos X st) :
    ∃ st', sources e acc st = some st' ∧ Pos X st' ∧ Fresh e X st' := by
  obtain ⟨h1, h2⟩ := basis_total he hM hX h
  obtain ⟨b, h3, h4, h5, -⟩ := activations_total he hN (refresh_pos he hN acc h2)
  obtain ⟨c, h6, h7, h8, -⟩ := diagonals_total he hN hX h4 h5
  refine ⟨c, ?_, h7, h8⟩
  unfold sources
  rw [h1]
  change (activations e _).bind _ = _
  rw [h3]
  exact h6

/-- **C108** Without `accelerate` the updates of basis, activations and diagonals together do not raise the objective. -/
theorem C108_sources {e : ℝ} (he : 0 < e) (hN : 0 < N) (hM : 0 < M) {X : Fin T → Fin F → Fin M → ℂ} (hX : Rich X) {st : State N F T M K} (h : Pos X st) (hf : Fresh e X st) :
    ∃ st', sources e false st = some st' ∧ Pos X st' ∧ Fresh e X st' ∧ objective e X st' ≤ objective e X st := by
  obtain ⟨a, h1, h2, h3, h4⟩ := C108_basis he hN hM hX h hf
  obtain ⟨b, h5, h6, h7, h8⟩ := C108_activations he hN h2 h3
  obtain ⟨c, h9, h10, h11, h12⟩ := C108_diagonals he hN hX h6 h7
  refine ⟨c, ?_, h10, h11, h12.trans (h8.trans h4)⟩
  unfold sources
  rw [h1]
  change (activations e _).bind _ = _
  rw [h5]
  exact h9

theorem rows_total {e : ℝ} (he : 0 < e) (hN : 0 < N) (hM : 0 < M) {pinv : Matrix (Fin M) (Fin M) ℂ → Matrix (Fin M) (Fin M) ℂ} {X : Fin T → Fin F → Fin M → ℂ} (hX : Rich X) (l : List (Fin M)) :
    ∀ {st : State N F T M K}, Pos X st → Fresh e X st → ∃ st', l.foldlM (qRow pinv e X) st = some st' ∧ Pos X st' ∧ Fresh e X st' := by
  induction l with
  | nil => exact fun {st} h hf => ⟨st, rfl, h, hf⟩
  | cons m l ih =>
    intro st h hf
    obtain ⟨-, a, h1, h2, h3, -⟩ := C108_row (pinv := pinv) he hN hM hX h hf m
    obtain ⟨b, h4, h5, h6⟩ := ih h2 h3
    refine ⟨b, ?_, h5, h6⟩
    rw [List.foldlM_cons, h1]
    exact h4

theorem epoch_total {e : ℝ} (he : 0 < e) (hN : 0 < N) (hM : 0 < M) (hF : 0 < F) {pinv : Matrix (Fin M) (Fin M) ℂ → Matrix (Fin M) (Fin M) ℂ} (acc : Bool) {X : Fin T → Fin F → Fin M → ℂ}
    (hX : Rich X) {st : State N F T M K} (h : Pos X st) (i : ℕ) : ∃ st', epoch pinv e acc X st i = some st' ∧ Pos X st' ∧ Fresh e X st' := by
  obtain ⟨a, h1, h2, h3⟩ := sources_total he hN hM acc hX h
  obtain ⟨b, h4, h5, h6⟩ := rows_total (pinv := pinv) he hN hM hX (List.finRange M) h2 h3
  have h7 : ∃ st', normalizeAt e X i b = some st' ∧ Pos X st' ∧ Fresh e X st' := by
    unfold normalizeAt
    split
    · obtain ⟨c, h8, h9, h10, -⟩ := C108_normalize he hN hM hF h5
      exact ⟨c, h8, h9, h10⟩
    · exact ⟨b, rfl, h5, h6⟩
  obtain ⟨c, h8, h9, h10⟩ := h7
  refine ⟨c, ?_, h9, h10⟩
  unfold epoch
  rw [h1]
  change (diagonalizer pinv e X a).bind _ = _
  unfold diagonalizer
  rw [h4]
  exact h8

theorem epochs_total {e : ℝ} (he : 0 < e) (hN : 0 < N) (hM : 0 < M) (hF : 0 < F) {pinv : Matrix (Fin M) (Fin M) ℂ → Matrix (Fin M) (Fin M) ℂ} (acc : Bool) {X : Fin T → Fin F → Fin M → ℂ}
    (hX : Rich X) {st : State N F T M K} (h : Pos X st) (hf : Fresh e X st) (i : ℕ) : ∃ st', epochs pinv e acc X st i = some st' ∧ Pos X st' ∧ Fresh e X st' := by
  induction i with
  | zero => exact ⟨st, rfl, h, hf⟩
  | succ i ih =>
    obtain ⟨a, h1, h2, -⟩ := ih
    obtain ⟨b, h4, h5, h6⟩ := epoch_total (pinv := pinv) he hN hM hF acc hX h2 i
    refine ⟨b, ?_, h5, h6⟩
    rw [epochs, h1]
    exact h4

theorem muOf_eq (Q : Matrix (Fin M) (Fin M) ℂ) (m : Fin M) : muOf Q m = ∑ j, ‖Q m j‖ ^ 2 := by
  unfold muOf
  rw [Complex.re_sum]
  refine Finset.sum_congr rfl fun j _ => ?_
  rw [Complex.star_def, Complex.mul_conj', ← Complex.ofReal_pow, Complex.ofReal_re]

theorem muOf_pos {Q : Matrix (Fin M) (Fin M) ℂ} (hQ : IsUnit Q.det) (m : Fin M) : 0 < muOf Q m := by
  rw [muOf_eq]
  by_contra hc
  rw [not_lt] at hc
  have h0 := le_antisymm hc (Finset.sum_nonneg fun j _ => sq_nonneg ‖Q m j‖)
  rw [Finset.sum_eq_zero_iff_of_nonneg fun j _ => sq_nonneg _] at h0
  exact hQ.ne_zero (det_eq_zero_of_row_eq_zero m fun j => norm_eq_zero.mp (pow_eq_zero_iff two_ne_zero |>.mp (h0 j (Finset.mem_univ j))))

theorem unitRows_total {Q : Fin F → Matrix (Fin M) (Fin M) ℂ} (hQ : ∀ f, IsUnit (Q f).det) :
    ∃ Q', unitRows Q = some Q' ∧ (∀ f, IsUnit (Q' f).det) ∧ ∀ f m j, Q' f m j = Q f m j / (Real.sqrt (∑ j, ‖Q f m j‖ ^ 2) : ℂ) := by
  have hmu := fun f m => muOf_pos (hQ f) m
  refine ⟨_, by unfold unitRows; rw [check_true (fun f m => (hmu f m).ne')]; rfl, fun f => ?_, fun f m j => ?_⟩
  · have h1 : (.of fun m j => Q f m j / (Real.sqrt (muOf (Q f) m) : ℂ) : Matrix (Fin M) (Fin M) ℂ) = diagonal (fun m => ((Real.sqrt (muOf (Q f) m) : ℝ) : ℂ)⁻¹) * Q f := by
      ext m j
      rw [diagonal_mul, of_apply, div_eq_inv_mul]
    rw [h1, det_mul, det_diagonal]
    refine IsUnit.mul (IsUnit.mk0 _ (Finset.prod_ne_zero_iff.mpr fun m _ => inv_ne_zero ?_)) (hQ f)
    exact_mod_cast (Real.sqrt_pos.mpr (hmu f m)).ne'
  · rw [← muOf_eq]
    rfl

theorem gInit_pos {ge : ℝ} (hg : 0 < ge) (n : Fin N) (f : Fin F) (m : Fin M) : 0 < gInit ge n f m := by
  unfold gInit
  split
  · exact one_pos
  · exact hg

theorem start_total {e ge : ℝ} (he : 0 < e) (hg : 0 < ge) (hN : 0 < N) {X : Fin T → Fin F → Fin M → ℂ} {W0 : Option (Fin F → Matrix (Fin M) (Fin M) ℂ)}
    (hW : ∀ W, W0 = some W → ∀ f, IsUnit (W f).det) {rW : Fin N → Fin F → Fin K → ℝ} {rH : Fin N → Fin K → Fin T → ℝ} (h1 : ∀ n f k, 0 < rW n f k) (h2 : ∀ n k t, 0 < rH n k t) :
    ∃ st, start e ge X W0 rW rH = some st ∧ Pos X st ∧ Fresh e X st ∧
      ∀ f m j, st.Q f m j = (W0.getD fun _ => 1) f m j / (Real.sqrt (∑ j, ‖(W0.getD fun _ => 1) f m j‖ ^ 2) : ℂ) := by
  have hQ : ∀ f, IsUnit ((W0.getD fun _ => 1) f).det := by
    intro f
    cases W0 with
    | none => simp
    | some W => exact hW W rfl f
  obtain ⟨Q, h3, h4, h5⟩ := unitRows_total hQ
  have hl := lamOf_pos he h1 fun n k t => (h2 n k t).le
  refine ⟨derive e X { Q := Q, G := gInit ge, W := rW, H := rH, lam := fun _ _ _ => 0, P := fun _ _ _ => 0, Y := fun _ _ _ => 0 }, ?_,
    ⟨h4, gInit_pos hg, h1, fun n k t => (h2 n k t).le, fun n k t _ _ => h2 n k t, hl, yOf_pos hN hl (gInit_pos hg), rfl⟩, ⟨rfl, rfl, rfl⟩, h5⟩
  unfold start
  rw [h3]
  rfl

theorem eps_pos : 0 < eps := by
  unfold eps
  norm_num

theorem gEps_pos : 0 < gEps := by
  unfold gEps
  norm_num

/-- **C108** Whenever the frames of every frequency span the space, the given diagonalizer is invertible and the draws are positive, every number of epochs ends without a division by zero and without a
    singular matrix, and the answer is that of `separate` for a state with an invertible diagonalizer, positive parameters and derived arrays that are up to date. -/
theorem C108_run {pinv : Matrix (Fin M) (Fin M) ℂ → Matrix (Fin M) (Fin M) ℂ} (hN : 0 < N) (hM : 0 < M) (hF : 0 < F) (acc : Bool) (mic : Mic) {X : Fin T → Fin F → Fin M → ℂ} (hX : Rich X)
    {W0 : Option (Fin F → Matrix (Fin M) (Fin M) ℂ)} (hW : ∀ W, W0 = some W → ∀ f, IsUnit (W f).det) {rW : Fin N → Fin F → Fin K → ℝ} {rH : Fin N → Fin K → Fin T → ℝ}
    (h1 : ∀ n f k, 0 < rW n f k) (h2 : ∀ n k t, 0 < rH n k t) (iters : ℕ) :
    ∃ st : State N F T M K, Pos X st ∧ Fresh eps X st ∧ fastmnmf pinv acc mic X W0 rW rH iters = some (separate pinv X mic st, st.Q) := by
  obtain ⟨a, h3, h4, h5, -⟩ := start_total eps_pos gEps_pos hN (X := X) hW h1 h2
  obtain ⟨b, h6, h7, h8⟩ := epochs_total (pinv := pinv) eps_pos hN hM hF acc hX h4 h5 iters
  refine ⟨b, h7, h8, ?_⟩
  unfold fastmnmf
  rw [h3]
  change (epochs pinv eps acc X a iters).bind _ = _
  rw [h6]
  rfl

/-- **C108** With `mic_index = 'all'` the images returned add up to the mixture at every microphone, and with an index of a microphone, also a negative one, those at that microphone do. -/
theorem C108_images {pinv : Matrix (Fin M) (Fin M) ℂ → Matrix (Fin M) (Fin M) ℂ} (hN : 0 < N) (hM : 0 < M) (hF : 0 < F) (acc : Bool) {X : Fin T → Fin F → Fin M → ℂ} (hX : Rich X)
    {W0 : Option (Fin F → Matrix (Fin M) (Fin M) ℂ)} (hW : ∀ W, W0 = some W → ∀ f, IsUnit (W f).det) {rW : Fin N → Fin F → Fin K → ℝ} {rH : Fin N → Fin K → Fin T → ℝ}
    (h1 : ∀ n f k, 0 < rW n f k) (h2 : ∀ n k t, 0 < rH n k t) (iters : ℕ) :
    ∃ (z : Fin M → Fin T → Fin F → Fin N → ℂ) (Q : Fin F → Matrix (Fin M) (Fin M) ℂ), (∀ i t f, ∑ n, z i t f n = X t f i) ∧ fastmnmf pinv acc .all X W0 rW rH iters = some (.ok (.all z), Q) ∧
      (∀ i : Fin M, fastmnmf pinv acc (.int i) X W0 rW rH iters = some (.ok (.one (z i)), Q)) ∧
      (∀ i : Fin M, fastmnmf pinv acc (.int ((i : ℤ) - M)) X W0 rW rH iters = some (.ok (.one (z i)), Q)) ∧
      (∀ i : ℤ, i < -M ∨ (M : ℤ) ≤ i → fastmnmf pinv acc (.int i) X W0 rW rH iters = some (.error .indexError, Q)) ∧
      fastmnmf pinv acc .other X W0 rW rH iters = some (.error .valueError, Q) := by
  obtain ⟨a, h3, h4, h5, -⟩ := start_total eps_pos gEps_pos hN (X := X) hW h1 h2
  obtain ⟨b, h6, h7, h8⟩ := epochs_total (pinv := pinv) eps_pos hN hM hF acc hX h4 h5 iters
  have hall : ∀ mic, fastmnmf pinv acc mic X W0 rW rH iters = some (separate pinv X mic b, b.Q) := by
    intro mic
    unfold fastmnmf
    rw [h3]
    change (epochs pinv eps acc X a iters).bind _ = _
    rw [h6]
    rfl
  refine ⟨imagesOf (invOf pinv b.Q) X b, b.Q, fun i t f => C108_sum h7.Q (by rw [← h8.Y]; exact h7.Y) i t f, hall _, fun i => ?_, fun i => ?_, fun i hi => ?_, hall _⟩
  · rw [hall]
    have h9 : Py.normIdx M (i : ℤ) = some i.val := by
      unfold Py.normIdx
      rw [if_pos (by omega), if_pos (by omega)]
      rfl
    unfold separate
    simp only [h9, i.isLt, dif_pos]
  · rw [hall]
    have h9 : Py.normIdx M ((i : ℤ) - M) = some i.val := by
      unfold Py.normIdx
      have := i.isLt
      rw [if_neg (by omega), if_pos (by omega)]
      simp
    unfold separate
    simp only [h9, i.isLt, dif_pos]
  · rw [hall]
    have h9 : Py.normIdx M i = none := by
      unfold Py.normIdx
      split <;> rw [if_neg (by omega)]
    unfold separate
    simp only [h9]

/-! ## Where the code does something else -/

/-- **C108** The array that the caller gives as the first diagonalizer is overwritten, even without an epoch: its rows are brought to length one. -/
theorem C108_given_deviation {pinv : Matrix (Fin M) (Fin M) ℂ → Matrix (Fin M) (Fin M) ℂ} (hN : 0 < N) (acc : Bool) (mic : Mic) {X : Fin T → Fin F → Fin M → ℂ}
    {W0 : Fin F → Matrix (Fin M) (Fin M) ℂ} (hW : ∀ f, IsUnit (W0 f).det) {rW : Fin N → Fin F → Fin K → ℝ} {rH : Fin N → Fin K → Fin T → ℝ}
    (h1 : ∀ n f k, 0 < rW n f k) (h2 : ∀ n k t, 0 < rH n k t) :
    ∃ r Q, fastmnmf pinv acc mic X (some W0) rW rH 0 = some (r, Q) ∧ ∀ f m j, Q f m j = W0 f m j / (Real.sqrt (∑ j, ‖W0 f m j‖ ^ 2) : ℂ) := by
  obtain ⟨a, h3, -, -, h5⟩ := start_total eps_pos gEps_pos hN (X := X) (W0 := some W0) (fun W hW' => by cases hW'; exact hW) h1 h2
  refine ⟨separate pinv X mic a, a.Q, ?_, h5⟩
  unfold fastmnmf
  rw [h3]
  rfl

/-- A frame of one microphone. -/
def tone : Fin 1 → Fin 1 → Fin 1 → ℂ := fun _ _ _ => 1

/-- Parameters that explain it perfectly. -/
noncomputable def perfect (e : ℝ) : State 1 1 1 1 1 where
  Q := fun _ => 1
  G := fun _ _ _ => 1
  W := fun _ _ _ => 1 - e
  H := fun _ _ _ => 1
  lam := fun _ _ _ => 1
  P := fun _ _ _ => 1
  Y := fun _ _ _ => 1

theorem rich_tone : Rich tone := by
  intro f v h
  have h1 := h 0
  simp only [tone, mul_one, Finset.univ_unique, Finset.sum_singleton] at h1
  funext i
  rw [Subsingleton.elim i default]
  exact h1

theorem pos_perfect {e : ℝ} (he : e < 1) : Pos tone (perfect e) := by
  refine ⟨fun f => by simp [perfect], fun _ _ _ => one_pos, fun _ _ _ => ?_, fun _ _ _ => zero_le_one, fun _ _ _ _ _ => one_pos, fun _ _ _ => one_pos, fun _ _ _ => one_pos, ?_⟩
  · simp only [perfect]
    linarith
  · funext f t m
    simp [perfect, powOf, tone, Subsingleton.elim m 0]

theorem fresh_perfect (e : ℝ) : Fresh e tone (perfect e) := by
  refine ⟨?_, ?_, ?_⟩
  · funext n f t
    simp [perfect, lamOf]
  · funext f t m
    simp [perfect, powOf, tone, Subsingleton.elim m 0]
  · funext f t m
    simp [perfect, yOf]

theorem cov_perfect (e : ℝ) : covOf tone (perfect e).Y 0 0 = 1 := by
  ext i j
  rw [Subsingleton.elim i 0, Subsingleton.elim j 0]
  simp [covOf, weighted, tone, perfect]

/-- **C108** Because of `eps` in the normalization of the row, the update of the diagonalizer raises the objective when there is nothing left to improve. -/
theorem C108_row_deviation {pinv : Matrix (Fin 1) (Fin 1) ℂ → Matrix (Fin 1) (Fin 1) ℂ} {e : ℝ} (he : 0 < e) (h1 : e < 1) :
    ∃ st', qRow pinv e tone (perfect e) 0 = some st' ∧ objective e tone (perfect e) < objective e tone st' := by
  have hpos := pos_perfect h1
  have hcov : covOf tone (perfect e).Y 0 = fun _ => 1 := by
    funext f
    rw [Subsingleton.elim f 0]
    exact cov_perfect e
  have htmp : ∀ f, tmpOf pinv (perfect e).Q (fun _ => 1) 0 f = Pi.single 0 1 := by
    intro f
    unfold tmpOf
    rw [if_pos (fun g => by simp [perfect])]
    have h0 : (perfect e).Q f = 1 := rfl
    rw [h0, Matrix.one_mul, inv_one, one_mulVec]
  have hscale : scaleOf e (1 : Matrix (Fin 1) (Fin 1) ℂ) (Pi.single 0 1) = ((1 + e : ℝ) : ℂ) := by
    simp [scaleOf]
  have hne : ((1 + e : ℝ) : ℂ) ≠ 0 := by exact_mod_cast (by linarith : (0 : ℝ) < 1 + e).ne'
  obtain ⟨-, st', h2, h3, h4, -, -⟩ := C108_row (pinv := pinv) he one_pos one_pos rich_tone hpos (fresh_perfect e) 0
  refine ⟨st', h2, ?_⟩
  unfold qRow at h2
  rw [hcov] at h2
  simp only [htmp, hscale] at h2
  rw [check_true (fun f t => by simp [perfect]), check_true (fun _ => hne)] at h2
  have h5 : st' = { perfect e with
      Q := fun f => ((perfect e).Q f).updateRow 0 fun c => star ((Pi.single 0 1 : Fin 1 → ℂ) c / ((1 + e : ℝ) : ℂ))
      P := powOf (fun f => ((perfect e).Q f).updateRow 0 fun c => star ((Pi.single 0 1 : Fin 1 → ℂ) c / ((1 + e : ℝ) : ℂ))) tone } := (Option.some.inj h2).symm
  rw [objective_eq he one_pos h3, objective_eq he one_pos hpos]
  have hlam : lamOf e (perfect e).W (perfect e).H = fun _ _ _ => 1 := (fresh_perfect e).lam.symm
  have hy : yOf (fun _ _ _ => 1) (perfect e).G = (fun _ _ _ => 1 : Fin 1 → Fin 1 → Fin 1 → ℝ) := (fresh_perfect e).Y.symm
  have hq : ∀ f, ((perfect e).Q f).updateRow 0 (fun c => star ((Pi.single 0 1 : Fin 1 → ℂ) c / ((1 + e : ℝ) : ℂ))) = .of fun _ _ => (((1 + e)⁻¹ : ℝ) : ℂ) := by
    intro f
    ext i j
    rw [Subsingleton.elim i 0, Subsingleton.elim j 0, updateRow_self]
    simp
  rw [h5]
  simp only [hq]
  have hprice : ∀ Q P, price { perfect e with Q := Q, P := P } = price (perfect e) := fun _ _ => rfl
  rw [hprice, hlam, hy]
  have hc0 : cost (perfect e).Q (powOf (perfect e).Q tone) (fun _ _ _ => 1) = 1 := by
    rw [← hpos.P]
    simp [cost, misfit, perfect]
  have hs : 0 < (1 + e)⁻¹ := by positivity
  have hs1 : (1 + e)⁻¹ ^ 2 ≠ 1 := by
    have : (1 + e)⁻¹ < 1 := inv_lt_one_of_one_lt₀ (by linarith)
    nlinarith
  have hc1 : cost (fun _ => .of fun _ _ => (((1 + e)⁻¹ : ℝ) : ℂ)) (powOf (fun _ => .of fun _ _ => (((1 + e)⁻¹ : ℝ) : ℂ)) tone) (fun _ _ _ => 1) = (1 + e)⁻¹ ^ 2 - 2 * Real.log (1 + e)⁻¹ := by
    have h6 : ‖(((1 + e)⁻¹ : ℝ) : ℂ)‖ = (1 + e)⁻¹ := by rw [Complex.norm_real, Real.norm_eq_abs, abs_of_pos hs]
    simp only [cost, misfit, powOf, tone, of_apply, Finset.univ_unique, Finset.sum_singleton, mul_one, div_one, Real.log_one, add_zero, Nat.cast_one, one_mul, det_unique, h6]
  rw [hc0, hc1]
  have h7 := Real.log_lt_sub_one_of_pos (pow_pos hs 2) hs1
  rw [Real.log_pow, Nat.cast_ofNat] at h7
  refine add_lt_add_of_lt_of_le ?_ le_rfl
  generalize (1 + e)⁻¹ = s at h7 ⊢
  linarith

/-! ## The hypotheses can be met -/

/-- Two microphones, two frames: each is heard alone. -/
def click : Fin 2 → Fin 1 → Fin 2 → ℂ := fun t _ j => if t = j then 1 else 0

theorem rich_click : Rich click := by
  intro f v h
  funext i
  have := h i
  simpa [click] using this

example {pinv : Matrix (Fin 2) (Fin 2) ℂ → Matrix (Fin 2) (Fin 2) ℂ} : ∃ st : State 3 1 2 2 4, Pos click st ∧ Fresh eps click st ∧
    fastmnmf (K := 4) pinv true .all click none (fun _ _ _ => 1 / 2) (fun _ _ _ => 1 / 3) 30 = some (separate pinv click .all st, st.Q) :=
  C108_run (by norm_num) (by norm_num) (by norm_num) true .all rich_click (fun W h => by cases h) (fun _ _ _ => by norm_num) (fun _ _ _ => by norm_num) 30

/-- A given array with rows of length two is changed. -/
example {pinv : Matrix (Fin 2) (Fin 2) ℂ → Matrix (Fin 2) (Fin 2) ℂ} : ∃ r Q, fastmnmf (N := 2) (K := 2) pinv true .all click (some fun _ => diagonal fun _ => 2) (fun _ _ _ => 1 / 2) (fun _ _ _ => 1 / 3) 0 = some (r, Q) ∧
    ∀ f, Q f ≠ diagonal fun _ => 2 := by
  obtain ⟨r, Q, h1, h2⟩ := C108_given_deviation (N := 2) (K := 2) (pinv := pinv) (by norm_num) true .all (X := click) (W0 := fun _ => diagonal fun _ => 2) (fun f => by simp [det_diagonal])
    (rW := fun _ _ _ => 1 / 2) (rH := fun _ _ _ => 1 / 3) (fun _ _ _ => by norm_num) (fun _ _ _ => by norm_num)
  refine ⟨r, Q, h1, fun f hf => ?_⟩
  have h3 := h2 f 0 0
  rw [hf] at h3
  simp at h3

example {e : ℝ} (he : 0 < e) (h1 : e < 1) : ∃ st', sources e false (perfect e) = some st' ∧ Pos tone st' ∧ Fresh e tone st' ∧ objective e tone st' ≤ objective e tone (perfect e) :=
  C108_sources he one_pos one_pos rich_tone (pos_perfect h1) (fresh_perfect e)

example {e : ℝ} (he : 0 < e) (h1 : e < 1) : ∃ st', basis e (perfect e) = some st' ∧ Pos tone (refresh e false st') ∧ Fresh e tone (refresh e false st') ∧
    objective e tone (refresh e false st') ≤ objective e tone (perfect e) :=
  C108_basis he one_pos one_pos rich_tone (pos_perfect h1) (fresh_perfect e)

example {e : ℝ} (he : 0 < e) (h1 : e < 1) : ∃ st', normalize e tone (perfect e) = some st' ∧ ∀ n f, ∑ m, st'.G n f m = 1 := by
  obtain ⟨st', h, -, -, -, h3, -⟩ := C108_normalize he one_pos one_pos one_pos (pos_perfect h1)
  exact ⟨st', h, h3⟩

example {e : ℝ} (he : 0 < e) (h1 : e < 1) : ∃ st', activations e (perfect e) = some st' ∧ Pos tone st' ∧ Fresh e tone st' ∧ objective e tone st' ≤ objective e tone (perfect e) :=
  C108_activations he one_pos (pos_perfect h1) (fresh_perfect e)

example {e : ℝ} (he : 0 < e) (h1 : e < 1) : ∃ st', diagonals e (perfect e) = some st' ∧ Pos tone st' ∧ Fresh e tone st' ∧ objective e tone st' ≤ objective e tone (perfect e) :=
  C108_diagonals he one_pos rich_tone (pos_perfect h1) (fresh_perfect e)

example {pinv : Matrix (Fin 1) (Fin 1) ℂ → Matrix (Fin 1) (Fin 1) ℂ} {e : ℝ} (he : 0 < e) (h1 : e < 1) : ∃ st', qRow pinv e tone (perfect e) 0 = some st' ∧ Pos tone st' := by
  obtain ⟨-, st', h2, h3, -⟩ := C108_row (pinv := pinv) he one_pos one_pos rich_tone (pos_perfect h1) (fresh_perfect e) 0
  exact ⟨st', h2, h3⟩

example {pinv : Matrix (Fin 1) (Fin 1) ℂ → Matrix (Fin 1) (Fin 1) ℂ} {e : ℝ} (h1 : e < 1) : ∑ n, imagesOf (invOf pinv (perfect e).Q) tone (perfect e) 0 0 0 n = 1 :=
  C108_sum (pos_perfect h1).Q (by rw [← (fresh_perfect e).Y]; exact (pos_perfect h1).Y) 0 0 0

end Verif.FastMnmf
