import Verif.FastMnmf.Props

/-!
# The updates of FastMNMF

No update fails, every update keeps the parameters positive, and the updates lower the objective.
-/

namespace Verif.FastMnmf

open Matrix Verif.AuxIva
open scoped ComplexOrder

variable {N F T M K : ℕ}

/-- What holds of the parameters at any moment. -/
structure Pos (X : Fin T → Fin F → Fin M → ℂ) (st : State N F T M K) : Prop where
  Q : ∀ f, IsUnit (st.Q f).det
  G : ∀ n f m, 0 < st.G n f m
  W : ∀ n f k, 0 < st.W n f k
  H : ∀ n k t, 0 ≤ st.H n k t
  loud : ∀ n k t f, X t f ≠ 0 → 0 < st.H n k t
  lam : ∀ n f t, 0 < st.lam n f t
  Y : ∀ f t m, 0 < st.Y f t m
  P : st.P = powOf st.Q X

/-- The derived arrays are up to date. -/
structure Fresh (e : ℝ) (X : Fin T → Fin F → Fin M → ℂ) (st : State N F T M K) : Prop where
  lam : st.lam = lamOf e st.W st.H
  P : st.P = powOf st.Q X
  Y : st.Y = yOf st.lam st.G

theorem lamOf_pos {e : ℝ} (he : 0 < e) {W : Fin N → Fin F → Fin K → ℝ} {H : Fin N → Fin K → Fin T → ℝ} (hW : ∀ n f k, 0 < W n f k) (hH : ∀ n k t, 0 ≤ H n k t) (n : Fin N) (f : Fin F) (t : Fin T) :
    0 < lamOf e W H n f t := add_pos_of_nonneg_of_pos (Finset.sum_nonneg fun k _ => mul_nonneg (hW n f k).le (hH n k t)) he

theorem powOf_nonneg (Q : Fin F → Matrix (Fin M) (Fin M) ℂ) (X : Fin T → Fin F → Fin M → ℂ) (f : Fin F) (t : Fin T) (m : Fin M) : 0 ≤ powOf Q X f t m := sq_nonneg _

theorem Rich.heard {X : Fin T → Fin F → Fin M → ℂ} (h : Rich X) (hM : 0 < M) (f : Fin F) : ∃ t, X t f ≠ 0 := by
  by_contra hc
  push Not at hc
  have h1 := h f (Pi.single ⟨0, hM⟩ 1) fun t => by simp [hc t]
  have h2 := congrFun h1 ⟨0, hM⟩
  simp at h2

theorem Rich.row {X : Fin T → Fin F → Fin M → ℂ} (h : Rich X) {Q : Fin F → Matrix (Fin M) (Fin M) ℂ} (hQ : ∀ f, IsUnit (Q f).det) (f : Fin F) (m : Fin M) : ∃ t, 0 < powOf Q X f t m := by
  by_contra hc
  push Not at hc
  have h1 : Q f m = 0 := by
    apply h f
    intro t
    have h2 := le_antisymm (hc t) (powOf_nonneg Q X f t m)
    unfold powOf at h2
    exact norm_eq_zero.mp (pow_eq_zero_iff two_ne_zero |>.mp h2)
  exact (hQ f).ne_zero (det_eq_zero_of_row_eq_zero m fun j => congrFun h1 j)

theorem some_row {X : Fin T → Fin F → Fin M → ℂ} {Q : Fin F → Matrix (Fin M) (Fin M) ℂ} {f : Fin F} (hQ : IsUnit (Q f).det) {t : Fin T} (h : X t f ≠ 0) : ∃ m, 0 < powOf Q X f t m := by
  by_contra hc
  push Not at hc
  apply h
  have h1 : Q f *ᵥ X t f = 0 := by
    funext m
    have h2 := le_antisymm (hc m) (powOf_nonneg Q X f t m)
    unfold powOf at h2
    exact norm_eq_zero.mp (pow_eq_zero_iff two_ne_zero |>.mp h2)
  have h2 := congrArg (fun v => (Q f)⁻¹ *ᵥ v) h1
  simpa [mulVec_mulVec, nonsing_inv_mul _ hQ] using h2

theorem tmp1_nonneg {G : Fin N → Fin F → Fin M → ℝ} {P Y : Fin F → Fin T → Fin M → ℝ} (hG : ∀ n f m, 0 < G n f m) (hP : ∀ f t m, 0 ≤ P f t m) (n : Fin N) (f : Fin F) (t : Fin T) :
    0 ≤ tmp1 G P Y n f t := Finset.sum_nonneg fun m _ => mul_nonneg (hG n f m).le (div_nonneg (hP f t m) (sq_nonneg _))

theorem tmp1_pos {G : Fin N → Fin F → Fin M → ℝ} {P Y : Fin F → Fin T → Fin M → ℝ} (hG : ∀ n f m, 0 < G n f m) (hP : ∀ f t m, 0 ≤ P f t m) (hY : ∀ f t m, 0 < Y f t m) (n : Fin N) {f : Fin F} {t : Fin T}
    (h : ∃ m, 0 < P f t m) : 0 < tmp1 G P Y n f t := by
  obtain ⟨m, hm⟩ := h
  exact Finset.sum_pos' (fun m _ => mul_nonneg (hG n f m).le (div_nonneg (hP f t m) (sq_nonneg _))) ⟨m, Finset.mem_univ m, mul_pos (hG n f m) (div_pos hm (pow_pos (hY f t m) 2))⟩

theorem tmp2_nonneg {G : Fin N → Fin F → Fin M → ℝ} {Y : Fin F → Fin T → Fin M → ℝ} (hG : ∀ n f m, 0 < G n f m) (hY : ∀ f t m, 0 < Y f t m) (n : Fin N) (f : Fin F) (t : Fin T) :
    0 ≤ tmp2 G Y n f t := Finset.sum_nonneg fun m _ => mul_nonneg (hG n f m).le (div_nonneg zero_le_one (hY f t m).le)

theorem denW_pos {e : ℝ} (he : 0 < e) {H : Fin N → Fin K → Fin T → ℝ} (hH : ∀ n k t, 0 ≤ H n k t) {t2 : Fin N → Fin F → Fin T → ℝ} (h2 : ∀ n f t, 0 ≤ t2 n f t) (n : Fin N) (f : Fin F) (k : Fin K) :
    0 < denW e H t2 n f k := add_pos_of_nonneg_of_pos (Finset.sum_nonneg fun t _ => mul_nonneg (hH n k t) (h2 n f t)) he

theorem denH_pos {e : ℝ} (he : 0 < e) {W : Fin N → Fin F → Fin K → ℝ} (hW : ∀ n f k, 0 < W n f k) {t2 : Fin N → Fin F → Fin T → ℝ} (h2 : ∀ n f t, 0 ≤ t2 n f t) (n : Fin N) (k : Fin K) (t : Fin T) :
    0 < denH e W t2 n k t := add_pos_of_nonneg_of_pos (Finset.sum_nonneg fun f _ => mul_nonneg (hW n f k).le (h2 n f t)) he

theorem denG_pos {e : ℝ} (he : 0 < e) {lam : Fin N → Fin F → Fin T → ℝ} (hl : ∀ n f t, 0 < lam n f t) {Y : Fin F → Fin T → Fin M → ℝ} (hY : ∀ f t m, 0 < Y f t m) (n : Fin N) (f : Fin F) (m : Fin M) :
    0 < denG e lam Y n f m := add_pos_of_nonneg_of_pos (Finset.sum_nonneg fun t _ => mul_nonneg (hl n f t).le (div_nonneg zero_le_one (hY f t m).le)) he

/-! ## No update fails -/

theorem basis_total {e : ℝ} (he : 0 < e) (hM : 0 < M) {X : Fin T → Fin F → Fin M → ℂ} (hX : Rich X) {st : State N F T M K} (h : Pos X st) :
    basis e st = some { st with W := stepW e st.W st.H (tmp1 st.G st.P st.Y) (tmp2 st.G st.Y) } ∧ Pos X { st with W := stepW e st.W st.H (tmp1 st.G st.P st.Y) (tmp2 st.G st.Y) } := by
  have hP0 : ∀ f t m, 0 ≤ st.P f t m := by
    rw [h.P]
    exact powOf_nonneg _ _
  have hd := denW_pos he h.H (tmp2_nonneg h.G h.Y)
  refine ⟨?_, ⟨h.Q, h.G, ?_, h.H, h.loud, h.lam, h.Y, h.P⟩⟩
  · unfold basis
    rw [check_true (show Fine st.Y from fun f t m => (h.Y f t m).ne'), check_true (fun n f k => (hd n f k).ne')]
    rfl
  · intro n f k
    refine mul_pos (h.W n f k) (Real.sqrt_pos.mpr (div_pos ?_ (hd n f k)))
    obtain ⟨t, ht⟩ := hX.heard hM f
    refine Finset.sum_pos' (fun t _ => mul_nonneg (h.H n k t) (tmp1_nonneg h.G hP0 n f t)) ⟨t, Finset.mem_univ t, mul_pos (h.loud n k t f ht) (tmp1_pos h.G hP0 h.Y n ?_)⟩
    rw [h.P]
    exact some_row (h.Q f) ht

theorem refresh_pos {e : ℝ} (he : 0 < e) (hN : 0 < N) (acc : Bool) {X : Fin T → Fin F → Fin M → ℂ} {st : State N F T M K} (h : Pos X st) : Pos X (refresh e acc st) := by
  unfold refresh
  split
  · exact h
  · have hl := lamOf_pos he h.W h.H
    exact ⟨h.Q, h.G, h.W, h.H, h.loud, hl, yOf_pos hN hl h.G, h.P⟩

theorem stepH_nonneg {X : Fin T → Fin F → Fin M → ℂ} {e : ℝ} {st : State N F T M K} (h : Pos X st) (n : Fin N) (k : Fin K) (t : Fin T) :
    0 ≤ stepH e st.W st.H (tmp1 st.G st.P st.Y) (tmp2 st.G st.Y) n k t := mul_nonneg (h.H n k t) (Real.sqrt_nonneg _)

theorem activations_total {e : ℝ} (he : 0 < e) (hN : 0 < N) {X : Fin T → Fin F → Fin M → ℂ} {st : State N F T M K} (h : Pos X st) :
    ∃ st', activations e st = some st' ∧ Pos X st' ∧ Fresh e X st' ∧ st' = { st with
      H := stepH e st.W st.H (tmp1 st.G st.P st.Y) (tmp2 st.G st.Y)
      lam := lamOf e st.W (stepH e st.W st.H (tmp1 st.G st.P st.Y) (tmp2 st.G st.Y))
      Y := yOf (lamOf e st.W (stepH e st.W st.H (tmp1 st.G st.P st.Y) (tmp2 st.G st.Y))) st.G } := by
  have hP0 : ∀ f t m, 0 ≤ st.P f t m := by
    rw [h.P]
    exact powOf_nonneg _ _
  have hd := denH_pos he h.W (tmp2_nonneg h.G h.Y)
  have hl := lamOf_pos he h.W (stepH_nonneg h (e := e))
  refine ⟨{ st with
      H := stepH e st.W st.H (tmp1 st.G st.P st.Y) (tmp2 st.G st.Y)
      lam := lamOf e st.W (stepH e st.W st.H (tmp1 st.G st.P st.Y) (tmp2 st.G st.Y))
      Y := yOf (lamOf e st.W (stepH e st.W st.H (tmp1 st.G st.P st.Y) (tmp2 st.G st.Y))) st.G }, ?_, ⟨h.Q, h.G, h.W, stepH_nonneg h, ?_, hl, yOf_pos hN hl h.G, h.P⟩, ⟨rfl, h.P, rfl⟩, rfl⟩
  · unfold activations
    rw [check_true (show Fine st.Y from fun f t m => (h.Y f t m).ne'), check_true (fun n k t => (hd n k t).ne')]
    rfl
  · intro n k t f ht
    refine mul_pos (h.loud n k t f ht) (Real.sqrt_pos.mpr (div_pos ?_ (hd n k t)))
    refine Finset.sum_pos' (fun f _ => mul_nonneg (h.W n f k).le (tmp1_nonneg h.G hP0 n f t)) ⟨f, Finset.mem_univ f, mul_pos (h.W n f k) (tmp1_pos h.G hP0 h.Y n ?_)⟩
    rw [h.P]
    exact some_row (h.Q f) ht

theorem diagonals_total {e : ℝ} (he : 0 < e) (hN : 0 < N) {X : Fin T → Fin F → Fin M → ℂ} (hX : Rich X) {st : State N F T M K} (h : Pos X st) (hf : Fresh e X st) :
    ∃ st', diagonals e st = some st' ∧ Pos X st' ∧ Fresh e X st' ∧ st' = { st with G := stepG e st.G st.lam st.P st.Y, Y := yOf st.lam (stepG e st.G st.lam st.P st.Y) } := by
  have hP0 : ∀ f t m, 0 ≤ st.P f t m := by
    rw [h.P]
    exact powOf_nonneg _ _
  have hd := denG_pos he h.lam h.Y
  have hG : ∀ n f m, 0 < stepG e st.G st.lam st.P st.Y n f m := by
    intro n f m
    refine mul_pos (h.G n f m) (Real.sqrt_pos.mpr (div_pos ?_ (hd n f m)))
    obtain ⟨t, ht⟩ := hX.row h.Q f m
    rw [← h.P] at ht
    exact Finset.sum_pos' (fun t _ => mul_nonneg (h.lam n f t).le (div_nonneg (hP0 f t m) (sq_nonneg _))) ⟨t, Finset.mem_univ t, mul_pos (h.lam n f t) (div_pos ht (pow_pos (h.Y f t m) 2))⟩
  refine ⟨{ st with G := stepG e st.G st.lam st.P st.Y, Y := yOf st.lam (stepG e st.G st.lam st.P st.Y) }, ?_, ⟨h.Q, hG, h.W, h.H, h.loud, h.lam, yOf_pos hN h.lam hG, h.P⟩, ⟨hf.lam, h.P, rfl⟩, rfl⟩
  unfold diagonals
  rw [check_true (show Fine st.Y from fun f t m => (h.Y f t m).ne'), check_true (fun n f m => (hd n f m).ne')]
  rfl

/-! ## One row of the diagonalizer -/

theorem covOf_posDef {X : Fin T → Fin F → Fin M → ℂ} (hX : Rich X) {Y : Fin F → Fin T → Fin M → ℝ} (hY : ∀ f t m, 0 < Y f t m) (hM : 0 < M) (m : Fin M) (f : Fin F) : (covOf X Y m f).PosDef := by
  have hT : 0 < T := by
    obtain ⟨t, -⟩ := hX.heard hM f
    exact t.pos
  apply PosDef.of_dotProduct_mulVec_pos (weighted_herm _ _)
  intro v hv
  have hs := weighted_psd (fun j t => X t f j) (r := fun t => Y f t m) fun t => hY f t m
  have h1 := quad_ofReal hs v
  have h2 := pw_conj (weighted (fun j t => X t f j) fun t => Y f t m) v
  rw [h1, h2, pw_weighted]
  have h3 : ∃ t, ∑ j, star v j * X t f j ≠ 0 := by
    by_contra hc
    push Not at hc
    exact hv (by simpa using hX f (star v) hc)
  obtain ⟨t, ht⟩ := h3
  have h4 : (0 : ℝ) < (∑ t, ‖∑ j, star v j * X t f j‖ ^ 2 / Y f t m) / T := by
    refine div_pos (Finset.sum_pos' (fun t _ => div_nonneg (sq_nonneg _) (hY f t m).le) ⟨t, Finset.mem_univ t, div_pos (pow_pos (norm_pos_iff.mpr ht) 2) (hY f t m)⟩) ?_
    exact_mod_cast hT
  exact_mod_cast h4

/-- The vector that the solver returns, and its power. -/
theorem solution {V A : Matrix (Fin M) (Fin M) ℂ} (hV : V.PosDef) (hA : IsUnit A.det) (m : Fin M) :
    A *ᵥ (V *ᵥ ((A * V)⁻¹ *ᵥ Pi.single m 1)) = Pi.single m 1 ∧ ∃ q : ℝ, 0 < q ∧ star ((A * V)⁻¹ *ᵥ Pi.single m 1) ⬝ᵥ V *ᵥ ((A * V)⁻¹ *ᵥ Pi.single m 1) = (q : ℂ) := by
  have hu : IsUnit (A * V).det := by
    rw [det_mul]
    exact hA.mul ((isUnit_iff_isUnit_det V).mp hV.isUnit)
  have h1 : A *ᵥ (V *ᵥ ((A * V)⁻¹ *ᵥ Pi.single m 1)) = Pi.single m (1 : ℂ) := by rw [mulVec_mulVec, mulVec_mulVec, mul_nonsing_inv _ hu, one_mulVec]
  refine ⟨h1, ?_⟩
  have hx : (A * V)⁻¹ *ᵥ Pi.single m (1 : ℂ) ≠ 0 := by
    intro h0
    rw [h0, mulVec_zero, mulVec_zero] at h1
    have := congrFun h1 m
    simp at this
  have h2 := hV.dotProduct_mulVec_pos hx
  exact ⟨_, (Complex.lt_def.mp h2).1, quad_ofReal hV.posSemidef _⟩

theorem scaleOf_eq {e q : ℝ} (hq : 0 < q) {V : Matrix (Fin M) (Fin M) ℂ} {x : Fin M → ℂ} (h : star x ⬝ᵥ V *ᵥ x = (q : ℂ)) : scaleOf e V x = ((Real.sqrt q + e : ℝ) : ℂ) := by
  unfold scaleOf
  rw [h, Complex.ofReal_add, Real.sqrt_eq_rpow, Complex.ofReal_cpow hq.le]
  norm_num

theorem small {s : ℝ} (h0 : 0 < s) (h1 : s ≤ 1) : s ^ 2 - 1 - 2 * Real.log s ≤ 3 * (1 - s) ^ 2 / s := by
  have h2 := Real.log_le_sub_one_of_pos (inv_pos.mpr h0)
  rw [Real.log_inv] at h2
  have h3 : s ^ 2 - 1 + 2 * (s⁻¹ - 1) ≤ 3 * (1 - s) ^ 2 / s := by
    rw [le_div_iff₀ h0]
    have : (s ^ 2 - 1 + 2 * (s⁻¹ - 1)) * s = (1 - s) ^ 2 * (s + 2) := by
      field_simp
      ring
    rw [this]
    nlinarith [mul_nonneg (sq_nonneg (1 - s)) (sub_nonneg.mpr h1)]
  linarith

/-- The row that the code puts in: what it costs in comparison with the old one. -/
theorem row_cost {V A : Matrix (Fin M) (Fin M) ℂ} (hV : V.PosDef) (hA : IsUnit A.det) {e q : ℝ} (he : 0 ≤ e) (m : Fin M) {x : Fin M → ℂ} (hx : A *ᵥ (V *ᵥ x) = Pi.single m 1) (hq : 0 < q)
    (hxq : star x ⬝ᵥ V *ᵥ x = (q : ℂ)) :
    IsUnit (A.updateRow m fun c => star (x c / ((Real.sqrt q + e : ℝ) : ℂ))).det ∧
      pw V (fun c => star (x c / ((Real.sqrt q + e : ℝ) : ℂ))) - 2 * Real.log ‖(A.updateRow m fun c => star (x c / ((Real.sqrt q + e : ℝ) : ℂ))).det‖
        ≤ pw V (A m) - 2 * Real.log ‖A.det‖ + 3 * (e ^ 2 / q) := by
  set v := Real.sqrt q with hv
  have hv0 : 0 < v := Real.sqrt_pos.mpr hq
  have hve : 0 < v + e := by linarith
  have hqv : q = v ^ 2 := (Real.sq_sqrt hq.le).symm
  have hvec : ((v + e : ℝ) : ℂ) ≠ 0 := by exact_mod_cast hve.ne'
  have hw : (fun c => star (x c / ((v + e : ℝ) : ℂ))) = ((v + e : ℝ) : ℂ)⁻¹ • star x := by
    funext c
    simp only [Pi.smul_apply, Pi.star_apply, smul_eq_mul, star_div₀, Complex.star_def, Complex.conj_ofReal]
    rw [div_eq_inv_mul]
  have hstar : star (((v + e : ℝ) : ℂ)⁻¹ • star x) = ((v + e : ℝ) : ℂ)⁻¹ • x := by
    rw [star_smul, star_star, ← Complex.ofReal_inv, Complex.star_def, Complex.conj_ofReal]
  rw [hw]
  have hwx : (((v + e : ℝ) : ℂ)⁻¹ • star x) ⬝ᵥ V *ᵥ x = ((q / (v + e) : ℝ) : ℂ) := by
    rw [smul_dotProduct, hxq, smul_eq_mul, Complex.ofReal_div]
    ring
  have hpw : pw V (((v + e : ℝ) : ℂ)⁻¹ • star x) = q / (v + e) ^ 2 := by
    unfold pw
    rw [hstar, mulVec_smul, dotProduct_smul, hwx, smul_eq_mul, ← Complex.ofReal_inv, ← Complex.ofReal_mul, Complex.ofReal_re]
    field_simp
  have hdet : (A.updateRow m (((v + e : ℝ) : ℂ)⁻¹ • star x)).det = A.det * ((q / (v + e) : ℝ) : ℂ) := by rw [det_row _ _ _ _ hx, hwx]
  have hqp : 0 < q / (v + e) := div_pos hq hve
  refine ⟨?_, ?_⟩
  · rw [hdet]
    refine hA.mul (IsUnit.mk0 _ ?_)
    exact_mod_cast hqp.ne'
  · have h1 : A m ⬝ᵥ V *ᵥ x = 1 := by
      have := congrFun hx m
      rw [Pi.single_eq_same] at this
      exact this
    have h2 := cauchy hV.posSemidef hq hxq (A m)
    rw [h1, norm_one, one_pow] at h2
    have hA0 : 0 < ‖A.det‖ := norm_pos_iff.mpr hA.ne_zero
    rw [hdet, hpw, norm_mul, Complex.norm_real, Real.norm_eq_abs, abs_of_pos hqp, Real.log_mul hA0.ne' hqp.ne']
    set p := pw V (A m)
    have hp : 0 < p := by
      by_contra hc
      rw [not_lt] at hc
      have := mul_nonpos_of_nonpos_of_nonneg hc hq.le
      linarith
    have h3 : -Real.log q ≤ p - 1 := by
      have h4 := Real.log_le_sub_one_of_pos hp
      have h5 := Real.log_nonneg h2
      rw [Real.log_mul hp.ne' hq.ne'] at h5
      linarith
    set s := v / (v + e) with hs
    have hs0 : 0 < s := div_pos hv0 hve
    have hs1 : s ≤ 1 := by
      rw [hs, div_le_one hve]
      linarith
    have h6 := small hs0 hs1
    have h7 : q / (v + e) ^ 2 = s ^ 2 := by rw [hs, div_pow, hqv]
    have h8 : Real.log (q / (v + e)) = Real.log s + Real.log q / 2 := by
      have : q / (v + e) = s * v := by
        rw [hs, hqv]
        ring
      rw [this, Real.log_mul hs0.ne' hv0.ne', hv, Real.log_sqrt hq.le]
    have h9 : 3 * (1 - s) ^ 2 / s ≤ 3 * (e ^ 2 / q) := by
      have : 3 * (1 - s) ^ 2 / s = 3 * (e ^ 2 / (v * (v + e))) := by
        rw [hs]
        field_simp
        ring
      rw [this]
      gcongr
      rw [hqv]
      nlinarith
    rw [h7, h8]
    linarith

end Verif.FastMnmf
