import Verif.FriRecon.Model
import Verif.FriOpt.Props
import Verif.Frida.Props

namespace Verif.FriRecon

open Matrix FriAlg FriOpt

variable {Q B K M : ℕ}

/-! ## Specification -/

/-- The Moore-Penrose pseudoinverse, which `linalg.lstsq(A, np.eye(L))[0]` is. -/
structure IsPinv {m n : Type*} [Fintype m] [Fintype n] (A : Matrix m n ℝ) (F : Matrix n m ℝ) : Prop where
  left : A * F * A = A
  right : F * A * F = F
  symmRange : (A * F)ᵀ = A * F
  symmDomain : (F * A)ᵀ = F * A

/-- `sp.optimize.nnls`: a vector without negative entries with the least residual. -/
def IsNnls {m n : Type*} [Fintype m] [Fintype n] (A : Matrix m n ℝ) (b : m → ℝ) (x : n → ℝ) : Prop :=
  (∀ i, 0 ≤ x i) ∧ ∀ y : n → ℝ, (∀ i, 0 ≤ y i) → ∑ r, (b r - (A *ᵥ x) r) ^ 2 ≤ ∑ r, (b r - (A *ᵥ y) r) ^ 2

/-- The half of the sequence of sources with the propagation directions `psi`. -/
def IsSeq (psi alpha : Fin K → ℝ) (b : Seq M → ℝ) : Prop := ∀ i, toC (hermD (M + 1) *ᵥ b) i = ∑ k, (alpha k : ℂ) * Complex.exp (-Complex.I * ((((i : ℕ) : ℝ) - M) * psi k : ℝ))

/-- Different directions. -/
def Different (psi : Fin K → ℝ) : Prop := Function.Injective fun k => Complex.exp (-Complex.I * (psi k : ℝ))

/-- The sum of the residuals of the subbands. -/
noncomputable def misfit (px py : Fin B → Fin Q → ℝ) (a : Fin B → Row Q → ℝ) (psi : Fin K → ℝ) (alpha : Fin B → Fin K → ℝ) : ℝ :=
  ∑ b, Real.sqrt (∑ r, (a b r - (ampRi (px b) (py b) psi *ᵥ alpha b) r) ^ 2)

/-- The amplitudes for given directions: what the solver gives for the normal equations. -/
noncomputable def solution (nnls : Matrix (Fin K) (Fin K) ℝ → (Fin K → ℝ) → Fin K → ℝ) (px py : Fin B → Fin Q → ℝ) (a : Fin B → Row Q → ℝ) (psi : Fin K → ℝ) (b : Fin B) : Fin K → ℝ :=
  nnls ((ampRi (px b) (py b) psi)ᵀ * ampRi (px b) (py b) psi) ((ampRi (px b) (py b) psi)ᵀ *ᵥ a b)

/-- Turn `l` is the first with the least misfit of the turns `0, …, j`. -/
structure First (nnls : Matrix (Fin K) (Fin K) ℝ → (Fin K → ℝ) → Fin K → ℝ) (px py : Fin B → Fin Q → ℝ) (a : Fin B → Row Q → ℝ) (psis : ℕ → Fin K → ℝ) (j l : ℕ) : Prop where
  le : l ≤ j
  least : ∀ l' ≤ j, misfit px py a (psis l) (solution nnls px py a (psis l)) ≤ misfit px py a (psis l') (solution nnls px py a (psis l'))
  first : ∀ l' < l, misfit px py a (psis l) (solution nnls px py a (psis l)) < misfit px py a (psis l') (solution nnls px py a (psis l'))

/-! ## Lemmas -/

theorem solve_det {n m : Type*} [Fintype n] [DecidableEq n] {A : Matrix n n ℝ} (h : A.det ≠ 0) (X : Matrix n m ℝ) : solve A X = some (A⁻¹ * X) := by
  unfold solve
  rw [if_neg h]

theorem injective_cancel {m n o : Type*} [Fintype m] [Fintype n] {A : Matrix m n ℝ} (hA : ∀ x, A *ᵥ x = 0 → x = 0) {X Y : Matrix n o ℝ} (h : A * X = A * Y) : X = Y := by
  ext i j
  have h1 : A *ᵥ (fun i => X i j - Y i j) = 0 := by
    funext r
    have h2 := congrFun (congrFun h r) j
    rw [Matrix.mul_apply, Matrix.mul_apply] at h2
    unfold Matrix.mulVec dotProduct
    simp only [mul_sub, Finset.sum_sub_distrib]
    rw [h2, sub_self]
    rfl
  have := congrFun (hA _ h1) i
  exact sub_eq_zero.mp this

/-- The update, for an injective matrix. -/
theorem update_alg {A : Matrix (Seq M) (Fin K) ℝ} {F : Matrix (Fin K) (Seq M) ℝ} (hF : IsPinv A F) (hA : ∀ x, A *ᵥ x = 0 → x = 0) : F * A = 1 ∧ (F * Fᵀ).det ≠ 0 ∧ Fᵀ * (F * Fᵀ)⁻¹ = A := by
  have h1 : F * A = 1 := by
    apply injective_cancel hA
    rw [← Matrix.mul_assoc, hF.left, Matrix.mul_one]
  have h2 : F * Fᵀ * (Aᵀ * A) = 1 := by
    have : Fᵀ * Aᵀ = A * F := by rw [← Matrix.transpose_mul, hF.symmRange]
    rw [Matrix.mul_assoc, ← Matrix.mul_assoc Fᵀ, this, ← Matrix.mul_assoc, ← Matrix.mul_assoc, h1, Matrix.one_mul, h1]
  have hdet : (F * Fᵀ).det ≠ 0 := by
    have := congrArg Matrix.det h2
    rw [Matrix.det_mul, Matrix.det_one] at this
    exact left_ne_zero_of_mul (this ▸ one_ne_zero)
  refine ⟨h1, hdet, ?_⟩
  have h3 : (F * Fᵀ)⁻¹ = Aᵀ * A := by
    rw [← Matrix.mul_one (F * Fᵀ)⁻¹, ← h2, ← Matrix.mul_assoc, Matrix.nonsing_inv_mul _ (isUnit_iff_ne_zero.mpr hdet), Matrix.one_mul]
  have h4 : Fᵀ * Aᵀ = A * F := by rw [← Matrix.transpose_mul, hF.symmRange]
  rw [h3, ← Matrix.mul_assoc, h4, hF.left]

/-- The first half of the expanded sequence. -/
theorem hermD_low (x : Seq M → ℝ) : (∀ i : Fin (M + 1), (toC (hermD (M + 1) *ᵥ x) ⟨i, by have := i.2; omega⟩).re = x (.inl i)) ∧
    ∀ i : Fin (M + 1 - 1), (toC (hermD (M + 1) *ᵥ x) ⟨i, by have := i.2; omega⟩).im = x (.inr i) := by
  unfold hermD
  rw [fromBlocks_mulVec]
  simp only [Matrix.zero_mulVec, add_zero, zero_add]
  constructor
  · intro i
    have hi := i.2
    simp only [toC, Sum.elim_inl]
    unfold Matrix.mulVec dotProduct herm1 mtx vstack eye
    rw [Finset.sum_eq_single i]
    · simp
      exact fun h => absurd h (by omega)
    · intro j _ hj
      have : (i : ℕ) ≠ j := fun e => hj (Fin.ext e.symm)
      simp [this]
      exact fun h => absurd h (by omega)
    · simp
  · intro i
    have hi := i.2
    simp only [toC, Sum.elim_inr]
    unfold Matrix.mulVec dotProduct herm2 mtx vstack eye
    rw [Finset.sum_eq_single i]
    · simp
    · intro j _ hj
      have : (i : ℕ) ≠ j := fun e => hj (Fin.ext e.symm)
      simp [this]
    · simp

theorem amp2freq_inl (psi : Fin K → ℝ) (i : Fin (M + 1)) (k : Fin K) : amp2freq M psi (.inl i) k = (Complex.exp (-Complex.I * ((((i : ℕ) : ℝ) - M) * psi k : ℝ))).re := rfl

theorem amp2freq_inr (psi : Fin K → ℝ) (i : Fin (M + 1 - 1)) (k : Fin K) : amp2freq M psi (.inr i) k = (Complex.exp (-Complex.I * ((((i : ℕ) : ℝ) - M) * psi k : ℝ))).im := rfl

/-- The sequences of sources are the range of the matrix. -/
theorem isSeq_iff (psi alpha : Fin K → ℝ) (b : Seq M → ℝ) : IsSeq psi alpha b ↔ b = amp2freq M psi *ᵥ alpha := by
  have hfwd : ∀ b : Seq M → ℝ, IsSeq psi alpha b → b = amp2freq M psi *ᵥ alpha := by
    intro b hb
    obtain ⟨h1, h2⟩ := hermD_low b
    funext r
    cases r with
    | inl i =>
      rw [← h1 i, hb, Complex.re_sum]
      unfold Matrix.mulVec dotProduct
      refine Finset.sum_congr rfl fun k _ => ?_
      rw [Complex.re_ofReal_mul, mul_comm]
      rfl
    | inr i =>
      rw [← h2 i, hb, Complex.im_sum]
      unfold Matrix.mulVec dotProduct
      refine Finset.sum_congr rfl fun k _ => ?_
      rw [Complex.im_ofReal_mul, mul_comm]
      rfl
  refine ⟨hfwd b, ?_⟩
  rintro rfl
  obtain ⟨b, hb⟩ := exists_seq M (fun k => psi k - Real.pi) alpha
  have hb' : IsSeq psi alpha b := by
    intro i
    rw [hb i]
    refine Finset.sum_congr rfl fun k _ => ?_
    rw [sub_add_cancel]
  rw [← hfwd b hb']
  exact hb'

theorem amp2freq_inj {psi : Fin K → ℝ} (hpsi : Different psi) (hK : K ≤ 2 * M + 1) (x : Fin K → ℝ) (hx : amp2freq M psi *ᵥ x = 0) : x = 0 := by
  have h := (isSeq_iff psi x (0 : Seq M → ℝ)).mpr hx.symm
  have hz : (fun k => (x k : ℂ) * Complex.exp (Complex.I * ((M : ℝ) * psi k : ℝ))) = 0 := by
    apply Matrix.eq_zero_of_forall_pow_sum_mul_pow_eq_zero hpsi
    intro i
    have := h ⟨i, by have := i.2; omega⟩
    rw [Matrix.mulVec_zero] at this
    have h0 : toC (0 : Fin (2 * (M + 1) - 1) ⊕ Fin (2 * (M + 1) - 1) → ℝ) ⟨i, by have := i.2; omega⟩ = 0 := rfl
    rw [h0] at this
    rw [this]
    refine Finset.sum_congr rfl fun k _ => ?_
    rw [mul_assoc, ← Complex.exp_nat_mul, ← Complex.exp_add]
    congr 2
    push_cast
    ring
  funext k
  have := congrFun hz k
  simpa [Complex.exp_ne_zero] using this

/-! ## Theorems -/

/-- `build_mtx_amp_ri`: the real and the imaginary parts of the visibilities of the sources. -/
theorem C121_matrix (px py : Fin Q → ℝ) (psi alpha : Fin K → ℝ) (i : Fin (Q * (Q - 1))) {p : Fin Q × Fin Q} (hp : (Frida.pairs Q)[(i : ℕ)]? = some p) :
    (⟨(ampRi px py psi *ᵥ alpha) (.inl i), (ampRi px py psi *ᵥ alpha) (.inr i)⟩ : ℂ) = ∑ k, (alpha k : ℂ) * Frida.response 1 px py (psi k) p := by
  have hrow : ∀ k, (Frida.buildMtxAmp psi px py).getD i 0 k = Frida.response 1 px py (psi k) p := by
    intro k
    rw [Frida.C118_amplitudes, List.getD_eq_getElem?_getD, List.getElem?_map, hp]
    rfl
  apply Complex.ext
  · rw [Complex.re_sum]
    change ∑ k, ampRi px py psi (.inl i) k * alpha k = _
    refine Finset.sum_congr rfl fun k _ => ?_
    rw [Complex.re_ofReal_mul, ← hrow k, mul_comm]
    rfl
  · rw [Complex.im_sum]
    change ∑ k, ampRi px py psi (.inr i) k * alpha k = _
    refine Finset.sum_congr rfl fun k _ => ?_
    rw [Complex.im_ofReal_mul, ← hrow k, mul_comm]
    rfl

/-- `mtx_updated_G_multiband_new`: the updated matrices map the sequences of sources at these directions exactly to their visibilities, and what is orthogonal to all of these sequences as
the given matrices do. -/
theorem C121_update {pinv : Matrix (Seq M) (Fin K) ℝ → Matrix (Fin K) (Seq M) ℝ} {psi : Fin K → ℝ} (hpinv : IsPinv (amp2freq M psi) (pinv (amp2freq M psi))) (hpsi : Different psi) (hK : K ≤ 2 * M + 1)
    (px py : Fin B → Fin Q → ℝ) (G0 : Fin B → Matrix (Row Q) (Seq M) ℝ) : ∃ G, updatedG pinv px py psi G0 = some G ∧ ∀ b,
      (∀ alpha s, IsSeq psi alpha s → G b *ᵥ s = ampRi (px b) (py b) psi *ᵥ alpha) ∧
      ∀ d, (∀ alpha s, IsSeq psi alpha s → d ⬝ᵥ s = 0) → G b *ᵥ d = G0 b *ᵥ d := by
  obtain ⟨h1, hdet, h2⟩ := update_alg hpinv (amp2freq_inj hpsi hK)
  have hG : updatedG pinv px py psi G0 = some fun b => ampRi (px b) (py b) psi * pinv (amp2freq M psi) + G0 b - G0 b * amp2freq M psi * pinv (amp2freq M psi) := by
    unfold updatedG
    simp only [solve_det hdet, Option.bind_eq_bind, Option.bind_some, Option.pure_def, Option.some.injEq]
    funext b
    rw [← Matrix.mul_assoc, Matrix.mul_assoc (G0 b), h2]
  refine ⟨_, hG, fun b => ⟨?_, ?_⟩⟩
  · intro alpha s hs
    rw [(isSeq_iff psi alpha s).mp hs, Matrix.sub_mulVec, Matrix.add_mulVec, Matrix.mulVec_mulVec, Matrix.mulVec_mulVec, Matrix.mulVec_mulVec, Matrix.mul_assoc, h1, Matrix.mul_one,
      Matrix.mul_assoc, h1, Matrix.mul_one, add_sub_cancel_right]
  · intro d hd
    have h3 : (amp2freq M psi)ᵀ *ᵥ d = 0 := by
      apply dotProduct_self_eq_zero.mp
      rw [Matrix.dotProduct_mulVec, Matrix.vecMul_transpose, dotProduct_comm]
      exact hd _ _ ((isSeq_iff psi _ _).mpr rfl)
    have h4 : pinv (amp2freq M psi) *ᵥ d = 0 := by
      have hP := hpinv
      rw [← hP.right, Matrix.mul_assoc, ← hP.symmRange, Matrix.transpose_mul, ← Matrix.mulVec_mulVec, ← Matrix.mulVec_mulVec, h3, Matrix.mulVec_zero, Matrix.mulVec_zero]
    rw [Matrix.sub_mulVec, Matrix.add_mulVec, ← Matrix.mulVec_mulVec, h4, ← Matrix.mulVec_mulVec _ (G0 b * amp2freq M psi), h4, Matrix.mulVec_zero, Matrix.mulVec_zero, zero_add, sub_zero]

/-- The azimuth that belongs to a propagation direction. -/
theorem toDoa_spec (psi : ℝ) : 0 ≤ Frida.toDoa psi ∧ Frida.toDoa psi < 2 * Real.pi ∧ ∃ j : ℤ, psi = Frida.toDoa psi + Real.pi + 2 * Real.pi * j := by
  have := Frida.C118_azimuth (psi - Real.pi) 0
  rw [Int.cast_zero, mul_zero, add_zero, sub_add_cancel] at this
  obtain ⟨h1, h2, j, hj⟩ := this
  refine ⟨h1, h2, -j, ?_⟩
  rw [hj]
  push_cast
  ring

theorem exp_turn (m j : ℤ) (x : ℝ) : Complex.exp (-Complex.I * ((m * (x + 2 * Real.pi * j) : ℝ) : ℂ)) = Complex.exp (-Complex.I * ((m * x : ℝ) : ℂ)) := by
  rw [Complex.exp_eq_exp_iff_exists_int]
  refine ⟨-(m * j), ?_⟩
  push_cast
  ring

/-- Directions that explain the measurements exactly are a fixed point: after the update with them, every result of the optimisation is the same azimuths again, with error zero. The original
matrices need not be exact. -/
theorem C121_fixed {pinv : Matrix (Seq M) (Fin K) ℝ → Matrix (Fin K) (Seq M) ℝ} {psi : Fin K → ℝ} (hpinv : IsPinv (amp2freq M psi) (pinv (amp2freq M psi))) (hpsi : Different psi) (hKM : K ≤ M)
    {px py : Fin B → Fin Q → ℝ} {G0 G : Fin B → Matrix (Row Q) (Seq M) ℝ} (hG : updatedG pinv px py psi G0 = some G) {a : Fin B → Row Q → ℝ} {alpha : Fin B → Fin K → ℝ}
    (ha : ∀ b, a b = ampRi (px b) (py b) psi *ᵥ alpha b) (hreg : ∀ b, Regular (⟨G b, a b⟩ : Band (Row Q) M))
    {maxIter : ℕ} {inits : List (Fil K → ℝ)} {f : Fin (K + 1) → ℂ} {e : ℝ} {bs : List (Fin (2 * (M + 1) - 1) → ℂ)}
    (h : run K (List.ofFn fun b => (⟨G b, a b⟩ : Band (Row Q) M)) maxIter inits = some (f, e, bs)) : e = 0 ∧ azimuths f = Finset.univ.val.map fun k => Frida.toDoa (psi k) := by
  obtain ⟨G', hG', hspec⟩ := C121_update hpinv hpsi (by omega) px py G0
  rw [hG] at hG'
  cases hG'
  classical
  have hsrc : ∀ x ∈ List.ofFn fun b => (⟨G b, a b⟩ : Band (Row Q) M), ∃ al s, Sources x (fun k => Frida.toDoa (psi k)) al s := by
    intro x hx
    obtain ⟨b, rfl⟩ := List.mem_ofFn.mp hx
    refine ⟨alpha b, amp2freq M psi *ᵥ alpha b, ?_, ?_⟩
    · rw [(hspec b).1 (alpha b) _ ((isSeq_iff psi _ _).mpr rfl)]
      exact ha b
    · intro i
      rw [(isSeq_iff psi (alpha b) _).mpr rfl i]
      refine Finset.sum_congr rfl fun k _ => ?_
      congr 1
      obtain ⟨_, _, j, hj⟩ := toDoa_spec (psi k)
      have := exp_turn ((i : ℕ) - (M : ℤ)) j (Frida.toDoa (psi k) + Real.pi)
      rw [← hj] at this
      push_cast at this ⊢
      exact this
  choose! al s hs using hsrc
  have hinj : Function.Injective fun k => Frida.toDoa (psi k) := by
    intro k l hkl
    apply hpsi
    simp only at hkl ⊢
    obtain ⟨_, _, j, hj⟩ := toDoa_spec (psi k)
    obtain ⟨_, _, j', hj'⟩ := toDoa_spec (psi l)
    have h1 := exp_turn 1 j (Frida.toDoa (psi k) + Real.pi)
    have h2 := exp_turn 1 j' (Frida.toDoa (psi l) + Real.pi)
    rw [← hj, Int.cast_one, one_mul, one_mul] at h1
    rw [← hj', Int.cast_one, one_mul, one_mul] at h2
    rw [h1, h2, hkl]
  have := C120_exact (fun x hx => by
    obtain ⟨b, rfl⟩ := List.mem_ofFn.mp hx
    exact hreg b) hKM hinj (fun k => ⟨(toDoa_spec (psi k)).1, (toDoa_spec (psi k)).2.1⟩) hs h
  exact ⟨this.1, this.2.1⟩

/-- The amplitudes are exact if the measurements are those of sources at these directions. -/
theorem C121_amplitudes {nnls : Matrix (Fin K) (Fin K) ℝ → (Fin K → ℝ) → Fin K → ℝ} {px py : Fin B → Fin Q → ℝ} {psi : Fin K → ℝ} {a : Fin B → Row Q → ℝ}
    (hnnls : ∀ b, IsNnls ((ampRi (px b) (py b) psi)ᵀ * ampRi (px b) (py b) psi) ((ampRi (px b) (py b) psi)ᵀ *ᵥ a b) (solution nnls px py a psi b))
    {alpha : Fin B → Fin K → ℝ} (ha : ∀ b, a b = ampRi (px b) (py b) psi *ᵥ alpha b) (hpos : ∀ b k, 0 ≤ alpha b k)
    (hP : ∀ b x, ampRi (px b) (py b) psi *ᵥ x = 0 → x = 0) : fit nnls px py a psi = ⟨0, psi, alpha⟩ := by
  have hal : ∀ b, nnls ((ampRi (px b) (py b) psi)ᵀ * ampRi (px b) (py b) psi) ((ampRi (px b) (py b) psi)ᵀ *ᵥ a b) = alpha b := by
    intro b
    set P := ampRi (px b) (py b) psi with hPdef
    have h3 := (hnnls b).2 (alpha b) (hpos b)
    unfold solution at h3
    rw [← hPdef] at h3
    set x := nnls (Pᵀ * P) (Pᵀ *ᵥ a b)
    have h4 : ∑ r, ((Pᵀ *ᵥ a b) r - ((Pᵀ * P) *ᵥ alpha b) r) ^ 2 = 0 := by
      apply Finset.sum_eq_zero
      intro r _
      rw [ha b, Matrix.mulVec_mulVec, sub_self]
      ring
    rw [h4] at h3
    have h5 : (Pᵀ * P) *ᵥ (alpha b - x) = 0 := by
      funext r
      have h6 := (Finset.sum_eq_zero_iff_of_nonneg fun r _ => sq_nonneg _).mp (le_antisymm h3 (Finset.sum_nonneg fun r _ => sq_nonneg _)) r (Finset.mem_univ r)
      have h7 := pow_eq_zero_iff (two_ne_zero) |>.mp h6
      rw [Matrix.mulVec_sub, Pi.sub_apply, Pi.zero_apply, ← Matrix.mulVec_mulVec, ← ha b]
      exact h7
    have h8 : P *ᵥ (alpha b - x) = 0 := by
      apply dotProduct_self_eq_zero.mp
      rw [Matrix.dotProduct_mulVec, ← Matrix.mulVec_transpose, Matrix.mulVec_mulVec, h5, zero_dotProduct]
    exact (sub_eq_zero.mp (hP b _ h8)).symm
  unfold fit
  simp only [hal, Result.mk.injEq, and_true]
  refine Finset.sum_eq_zero fun b _ => ?_
  rw [Finset.sum_eq_zero, Real.sqrt_zero]
  intro r _
  rw [ha b, sub_self]
  ring

/-- What holds after `i` turns: `psis j` was reconstructed from `Gs j`. -/
structure After (nnls : Matrix (Fin K) (Fin K) ℝ → (Fin K → ℝ) → Fin K → ℝ) (pinv : Matrix (Seq M) (Fin K) ℝ → Matrix (Fin K) (Seq M) ℝ)
    (recon : ℕ → (Fin B → Matrix (Row Q) (Seq M) ℝ) → Option (Fin K → ℝ)) (updateG : Bool) (px py : Fin B → Fin Q → ℝ) (a : Fin B → Row Q → ℝ)
    (psis : ℕ → Fin K → ℝ) (Gs : ℕ → Fin B → Matrix (Row Q) (Seq M) ℝ) (i : ℕ) (best : Option (Result B K)) : Prop where
  turns : ∀ j < i, recon j (Gs j) = some (psis j) ∧ ∃ l, First nnls px py a psis j l ∧ if updateG then updatedG pinv px py (psis l) (Gs j) = some (Gs (j + 1)) else Gs (j + 1) = Gs j
  none : i = 0 → best = none
  some : ∀ j, i = j + 1 → ∃ l, First nnls px py a psis j l ∧ best = some (fit nnls px py a (psis l))

theorem fit_err (nnls : Matrix (Fin K) (Fin K) ℝ → (Fin K → ℝ) → Fin K → ℝ) (px py : Fin B → Fin Q → ℝ) (a : Fin B → Row Q → ℝ) (psi : Fin K → ℝ) :
    (fit nnls px py a psi).err = misfit px py a psi (solution nnls px py a psi) := rfl

theorem first_congr {nnls : Matrix (Fin K) (Fin K) ℝ → (Fin K → ℝ) → Fin K → ℝ} {px py : Fin B → Fin Q → ℝ} {a : Fin B → Row Q → ℝ} {psis psis' : ℕ → Fin K → ℝ} {j l : ℕ}
    (h : ∀ l ≤ j, psis' l = psis l) (hf : First nnls px py a psis j l) : First nnls px py a psis' j l := by
  refine ⟨hf.le, fun l' hl' => ?_, fun l' hl' => ?_⟩
  · rw [h l hf.le, h l' hl']
    exact hf.least l' hl'
  · rw [h l hf.le, h l' (hl'.le.trans hf.le)]
    exact hf.first l' hl'

/-- The loop keeps the best of what was reconstructed. -/
theorem loop_spec (nnls : Matrix (Fin K) (Fin K) ℝ → (Fin K → ℝ) → Fin K → ℝ) (pinv : Matrix (Seq M) (Fin K) ℝ → Matrix (Fin K) (Seq M) ℝ)
    (recon : ℕ → (Fin B → Matrix (Row Q) (Seq M) ℝ) → Option (Fin K → ℝ)) (updateG : Bool) (px py : Fin B → Fin Q → ℝ) (a : Fin B → Row Q → ℝ) (n : ℕ) :
    ∀ (i : ℕ) (psis : ℕ → Fin K → ℝ) (Gs : ℕ → Fin B → Matrix (Row Q) (Seq M) ℝ) (best best' : Option (Result B K)), After nnls pinv recon updateG px py a psis Gs i best →
      loop nnls pinv recon updateG px py a n i (Gs i) best = some best' → ∃ psis' Gs', Gs' 0 = Gs 0 ∧ After nnls pinv recon updateG px py a psis' Gs' (i + n) best' := by
  induction n with
  | zero =>
    intro i psis Gs best best' hA h
    unfold loop at h
    cases h
    exact ⟨psis, Gs, rfl, hA⟩
  | succ n ih =>
    intro i psis Gs best best' hA h
    unfold loop at h
    obtain ⟨psi, hpsi, h⟩ := Option.bind_eq_some_iff.mp h
    obtain ⟨G', hG', h⟩ := Option.bind_eq_some_iff.mp h
    set psis' := Function.update psis i psi with hpsis
    set Gs' := Function.update Gs (i + 1) G' with hGs
    have e1 : ∀ l, l < i → psis' l = psis l := fun l hl => Function.update_of_ne (by omega) _ _
    have e2 : psis' i = psi := Function.update_self _ _ _
    have e3 : ∀ l, l ≤ i → Gs' l = Gs l := fun l hl => Function.update_of_ne (by omega) _ _
    have e4 : Gs' (i + 1) = G' := Function.update_self _ _ _
    have hbest : ∃ l, First nnls px py a psis' i l ∧ better best (fit nnls px py a psi) = fit nnls px py a (psis' l) := by
      cases i with
      | zero =>
        rw [hA.none rfl]
        refine ⟨0, ⟨le_rfl, fun l' hl' => ?_, fun l' hl' => absurd hl' (by omega)⟩, ?_⟩
        · rw [Nat.le_zero.mp hl']
        · rw [e2]
          rfl
      | succ j =>
        obtain ⟨l, hl, hb⟩ := hA.some j rfl
        have hl' : First nnls px py a psis' j l := first_congr (fun l hl => e1 l (by omega)) hl
        rw [hb]
        unfold better
        simp only
        rw [← e2, ← e1 l (by have := hl.le; omega)]
        by_cases hlt : (fit nnls px py a (psis' (j + 1))).err < (fit nnls px py a (psis' l)).err
        · rw [if_pos hlt]
          rw [fit_err, fit_err] at hlt
          refine ⟨j + 1, ⟨le_rfl, fun l' h1 => ?_, fun l' h1 => hlt.trans_le (hl'.least l' (by omega))⟩, rfl⟩
          rcases Nat.lt_or_ge l' (j + 1) with h2 | h2
          · exact hlt.le.trans (hl'.least l' (by omega))
          · rw [show l' = j + 1 by omega]
        · rw [if_neg hlt]
          rw [fit_err, fit_err, not_lt] at hlt
          refine ⟨l, ⟨hl.le.trans (by omega), fun l' h1 => ?_, hl'.first⟩, rfl⟩
          rcases Nat.lt_or_ge l' (j + 1) with h2 | h2
          · exact hl'.least l' (by omega)
          · rw [show l' = j + 1 by omega]
            exact hlt
    obtain ⟨l, hl, hb⟩ := hbest
    rw [hb] at hG' h
    have hA' : After nnls pinv recon updateG px py a psis' Gs' (i + 1) (some (fit nnls px py a (psis' l))) := by
      refine ⟨fun j hj => ?_, fun h0 => absurd h0 (by omega), fun j hj => ?_⟩
      · rcases Nat.lt_or_ge j i with h1 | h1
        · obtain ⟨h2, l', h3, h4⟩ := hA.turns j h1
          rw [e3 j h1.le, e1 j h1, e3 (j + 1) h1]
          refine ⟨h2, l', first_congr (fun l hl => e1 l (by omega)) h3, ?_⟩
          rw [e1 l' (by have := h3.le; omega)]
          exact h4
        · rw [show j = i by omega, e3 i le_rfl, e2, e4]
          refine ⟨hpsi, l, hl, ?_⟩
          unfold nextG at hG'
          cases updateG with
          | true => exact hG'
          | false => exact (Option.some.inj hG').symm
      · obtain rfl : i = j := by omega
        exact ⟨l, hl, rfl⟩
    rw [← e4] at h
    obtain ⟨psis2, Gs2, h1, h2⟩ := ih (i + 1) psis' Gs' _ best' hA' h
    refine ⟨psis2, Gs2, h1.trans (e3 0 (by omega)), ?_⟩
    rw [show i + (n + 1) = i + 1 + n by omega]
    exact h2

/-- `pt_src_recon_multiband`: the asserted sizes hold; turn `j` reconstructs `psis j` from the matrices `Gs j`, of which the first are the given ones and the next are updated with the best
directions so far (the update starts from the matrices of the turn before); the result is the first with the least error of all turns, with its amplitudes. -/
theorem C121_result {nnls : Matrix (Fin K) (Fin K) ℝ → (Fin K → ℝ) → Fin K → ℝ} {pinv : Matrix (Seq M) (Fin K) ℝ → Matrix (Fin K) (Seq M) ℝ}
    {recon : ℕ → (Fin B → Matrix (Row Q) (Seq M) ℝ) → Option (Fin K → ℝ)} {updateG : Bool} {gIter : Option ℕ} {n : ℕ} (hiter : (if updateG then gIter.getD 2 else 1) = n + 1)
    {px py : Fin B → Fin Q → ℝ} {a : Fin B → Row Q → ℝ}
    {G : Fin B → Matrix (Row Q) (Seq M) ℝ} {phi : Fin K → ℝ} {alpha : Option (Fin B → Fin K → ℝ)} (h : ptSrcRecon nnls pinv recon updateG gIter px py a G = some (phi, alpha)) :
    K ≤ M ∧ 2 * M + 1 ≤ Q * (Q - 1) ∧ ∃ (psis : ℕ → Fin K → ℝ) (Gs : ℕ → Fin B → Matrix (Row Q) (Seq M) ℝ), Gs 0 = G ∧
      (∀ j ≤ n, recon j (Gs j) = some (psis j) ∧
        ∃ l, First nnls px py a psis j l ∧ if updateG then updatedG pinv px py (psis l) (Gs j) = some (Gs (j + 1)) else Gs (j + 1) = Gs j) ∧
      ∃ l, First nnls px py a psis n l ∧ phi = (fun k => Frida.toDoa (psis l k)) ∧ alpha = some (solution nnls px py a (psis l)) := by
  unfold ptSrcRecon at h
  split at h
  · rename_i hsz
    refine ⟨hsz.1, hsz.2, ?_⟩
    obtain ⟨best, hl, h⟩ := Option.map_eq_some_iff.mp h
    rw [hiter] at hl
    obtain ⟨psis, Gs, h0, hA⟩ := loop_spec nnls pinv recon updateG px py a (n + 1) 0 (fun _ _ => 0) (fun _ => G) none best
      ⟨fun j hj => absurd hj (by omega), fun _ => rfl, fun j hj => absurd hj (by omega)⟩ hl
    rw [Nat.zero_add] at hA
    obtain ⟨l, hl, hb⟩ := hA.some n rfl
    rw [hb] at h
    obtain ⟨h5, h6⟩ := Prod.mk.injEq _ _ _ _ ▸ h
    exact ⟨psis, Gs, h0, fun j hj => hA.turns j (by omega), l, hl, h5.symm, h6.symm⟩
  · cases h

/-- If the directions of one turn explain the measurements exactly, with amplitudes that are not negative, then so do the returned ones. -/
theorem C121_exact {nnls : Matrix (Fin K) (Fin K) ℝ → (Fin K → ℝ) → Fin K → ℝ} {px py : Fin B → Fin Q → ℝ} {a : Fin B → Row Q → ℝ}
    {psis : ℕ → Fin K → ℝ} {n l j : ℕ}
    (hnnls : ∀ b, IsNnls ((ampRi (px b) (py b) (psis j))ᵀ * ampRi (px b) (py b) (psis j)) ((ampRi (px b) (py b) (psis j))ᵀ *ᵥ a b) (solution nnls px py a (psis j) b))
    (hl : First nnls px py a psis n l) (hj : j ≤ n) {alpha : Fin B → Fin K → ℝ} (ha : ∀ b, a b = ampRi (px b) (py b) (psis j) *ᵥ alpha b)
    (hpos : ∀ b k, 0 ≤ alpha b k) (hP : ∀ b x, ampRi (px b) (py b) (psis j) *ᵥ x = 0 → x = 0) :
    ∀ b, ampRi (px b) (py b) (psis l) *ᵥ solution nnls px py a (psis l) b = a b := by
  have h1 := hl.least j hj
  rw [← fit_err _ _ _ _ (psis j), C121_amplitudes hnnls ha hpos hP] at h1
  intro b
  have h2 := (Finset.sum_eq_zero_iff_of_nonneg fun b _ => Real.sqrt_nonneg _).mp (le_antisymm h1 (Finset.sum_nonneg fun b _ => Real.sqrt_nonneg _)) b (Finset.mem_univ b)
  have h3 := (Real.sqrt_eq_zero (Finset.sum_nonneg fun r _ => sq_nonneg _)).mp h2
  funext r
  have h4 := (Finset.sum_eq_zero_iff_of_nonneg fun r _ => sq_nonneg _).mp h3 r (Finset.mem_univ r)
  exact (sub_eq_zero.mp (pow_eq_zero_iff two_ne_zero |>.mp h4)).symm

/-- The row of a pair. -/
theorem row_eq (px py : Fin Q → ℝ) (psi : Fin K → ℝ) (i : Fin (Q * (Q - 1))) {p : Fin Q × Fin Q} (hp : (Frida.pairs Q)[(i : ℕ)]? = some p) (k : Fin K) :
    ampRi px py psi (.inl i) k = Real.cos ((px p.1 - px p.2) * Real.cos (psi k) + (py p.1 - py p.2) * Real.sin (psi k)) ∧
      ampRi px py psi (.inr i) k = -Real.sin ((px p.1 - px p.2) * Real.cos (psi k) + (py p.1 - py p.2) * Real.sin (psi k)) := by
  have h := C121_matrix px py psi (Pi.single k 1) i hp
  rw [Matrix.mulVec_single_one, Finset.sum_eq_single k] at h
  · rw [Pi.single_eq_same, Complex.ofReal_one, one_mul] at h
    unfold Frida.response at h
    rw [one_mul, show -Complex.I * (((px p.1 - px p.2) * Real.cos (psi k) + (py p.1 - py p.2) * Real.sin (psi k) : ℝ) : ℂ) =
      ((-((px p.1 - px p.2) * Real.cos (psi k) + (py p.1 - py p.2) * Real.sin (psi k)) : ℝ) : ℂ) * Complex.I by push_cast; ring] at h
    have h1 := congrArg Complex.re h
    have h2 := congrArg Complex.im h
    rw [Complex.exp_ofReal_mul_I_re, Real.cos_neg] at h1
    rw [Complex.exp_ofReal_mul_I_im, Real.sin_neg] at h2
    exact ⟨h1, h2⟩
  · intro l _ hl
    rw [Pi.single_eq_of_ne hl]
    simp
  · simp

/-- `nnls` gets the normal equations as its system and minimises the residual of these, hence with active constraints the amplitudes are not those of the least residual of the measurements. -/
theorem C121_nnls_deviation : ∃ (px py : Fin 2 → ℝ) (psi : Fin 2 → ℝ) (a : Row 2 → ℝ),
    IsNnls ((ampRi px py psi)ᵀ * ampRi px py psi) ((ampRi px py psi)ᵀ *ᵥ a) ![1 / 5, 0] ∧
    (∀ x, IsNnls ((ampRi px py psi)ᵀ * ampRi px py psi) ((ampRi px py psi)ᵀ *ᵥ a) x → x = ![1 / 5, 0]) ∧ IsNnls (ampRi px py psi) a ![1 / 2, 0] ∧ ¬ IsNnls (ampRi px py psi) a ![1 / 5, 0] := by
  set P := ampRi ![Real.pi / 3, 0] ![0, 0] ![0, Real.pi / 2] with hP
  have hp0 : (Frida.pairs 2)[0]? = some (0, 1) := by decide
  have hp1 : (Frida.pairs 2)[1]? = some (1, 0) := by decide
  have r0 := fun k => row_eq ![Real.pi / 3, 0] ![0, 0] ![0, Real.pi / 2] (0 : Fin 2) hp0 k
  have r1 := fun k => row_eq ![Real.pi / 3, 0] ![0, 0] ![0, Real.pi / 2] (1 : Fin 2) hp1 k
  have e00 := r0 0
  have e01 := r0 1
  have e10 := r1 0
  have e11 := r1 1
  rw [← hP] at e00 e01 e10 e11
  simp [Real.cos_pi_div_three, Real.sin_pi_div_three] at e00 e01 e10 e11
  have h3 : Real.sqrt 3 ^ 2 = 3 := Real.sq_sqrt (by norm_num)
  set a : Row 2 → ℝ := P *ᵥ ![1, -1] with ha
  have hPv : ∀ v : Fin 2 → ℝ, (P *ᵥ v) (.inl (0 : Fin 2)) = 1 / 2 * v 0 + v 1 ∧ (P *ᵥ v) (.inl (1 : Fin 2)) = 1 / 2 * v 0 + v 1 ∧
      (P *ᵥ v) (.inr (0 : Fin 2)) = -(Real.sqrt 3 / 2) * v 0 ∧ (P *ᵥ v) (.inr (1 : Fin 2)) = Real.sqrt 3 / 2 * v 0 := by
    intro v
    simp only [Matrix.mulVec, dotProduct, Fin.sum_univ_two, e00.1, e00.2, e01.1, e01.2, e10.1, e10.2, e11.1, e11.2]
    refine ⟨by ring, by ring, by ring, by ring⟩
  have hsum : ∀ f : Row 2 → ℝ, ∑ r, f r = f (.inl (0 : Fin 2)) + f (.inl (1 : Fin 2)) + (f (.inr (0 : Fin 2)) + f (.inr (1 : Fin 2))) := by
    intro f
    rw [Fintype.sum_sum_type]
    exact congrArg₂ _ (Fin.sum_univ_two fun i : Fin 2 => f (.inl i)) (Fin.sum_univ_two fun i : Fin 2 => f (.inr i))
  have hres : ∀ v : Fin 2 → ℝ, ∑ r, (a r - (P *ᵥ v) r) ^ 2 = 2 * ((1 - v 0) ^ 2 + (1 - v 0) * (-1 - v 1) + (-1 - v 1) ^ 2) := by
    intro v
    obtain ⟨h1, h2, h4, h5⟩ := hPv v
    obtain ⟨g1, g2, g4, g5⟩ := hPv ![1, -1]
    rw [hsum, ha, h1, h2, h4, h5, g1, g2, g4, g5]
    simp
    linear_combination (1 / 2 * (1 - v 0) ^ 2) * h3
  have hPt : ∀ w : Row 2 → ℝ, (Pᵀ *ᵥ w) 0 = 1 / 2 * (w (.inl (0 : Fin 2)) + w (.inl (1 : Fin 2))) + Real.sqrt 3 / 2 * (w (.inr (1 : Fin 2)) - w (.inr (0 : Fin 2))) ∧
      (Pᵀ *ᵥ w) 1 = w (.inl (0 : Fin 2)) + w (.inl (1 : Fin 2)) := by
    intro w
    simp only [Matrix.mulVec, dotProduct, hsum, Matrix.transpose_apply, e00.1, e00.2, e01.1, e01.2, e10.1, e10.2, e11.1, e11.2]
    exact ⟨by ring, by ring⟩
  have hres' : ∀ v : Fin 2 → ℝ, ∑ r, ((Pᵀ *ᵥ a) r - ((Pᵀ * P) *ᵥ v) r) ^ 2 = (2 * v 0 + v 1 - 1) ^ 2 + (v 0 + 2 * v 1 + 1) ^ 2 := by
    intro v
    have hd : ∀ r, (Pᵀ *ᵥ a) r - ((Pᵀ * P) *ᵥ v) r = (Pᵀ *ᵥ (a - P *ᵥ v)) r := by
      intro r
      rw [← Matrix.mulVec_mulVec, Matrix.mulVec_sub, Pi.sub_apply]
    obtain ⟨h1, h2, h4, h5⟩ := hPv v
    obtain ⟨g1, g2, g4, g5⟩ := hPv ![1, -1]
    rw [Fin.sum_univ_two, hd, hd, (hPt _).1, (hPt _).2]
    simp only [Pi.sub_apply, h1, h2, h4, h5, ha, g1, g2, g4, g5]
    simp
    have e : 2⁻¹ * (2⁻¹ + -1 - (2⁻¹ * v 0 + v 1) + (2⁻¹ + -1 - (2⁻¹ * v 0 + v 1))) + Real.sqrt 3 / 2 * (Real.sqrt 3 / 2 - Real.sqrt 3 / 2 * v 0 - (-(Real.sqrt 3 / 2) + Real.sqrt 3 / 2 * v 0)) = 1 - 2 * v 0 - v 1 := by
      linear_combination (1 / 2 * (1 - v 0)) * h3
    rw [e]
    ring
  refine ⟨![Real.pi / 3, 0], ![0, 0], ![0, Real.pi / 2], a, ⟨?_, ?_⟩, ?_, ⟨?_, ?_⟩, ?_⟩
  · intro i
    fin_cases i <;> simp
  · intro y hy
    rw [← hP, hres', hres']
    have h0 := hy 0
    have h1 := hy 1
    simp
    nlinarith [sq_nonneg (y 0 - 1 / 5), sq_nonneg (y 1), mul_nonneg h0 h1]
  · intro x hx
    have h1 := hx.2 ![1 / 5, 0] (by intro i; fin_cases i <;> simp)
    rw [← hP, hres', hres'] at h1
    have g0 := hx.1 0
    have g1 := hx.1 1
    simp at h1
    have k1 : x 1 = 0 := by nlinarith [sq_nonneg (x 0 - 1 / 5), sq_nonneg (x 1), mul_nonneg g0 g1]
    rw [k1] at h1
    have k0 : (x 0 - 1 / 5) ^ 2 ≤ 0 := by nlinarith
    have k2 : x 0 - 1 / 5 = 0 := pow_eq_zero_iff two_ne_zero |>.mp (le_antisymm k0 (sq_nonneg _))
    funext i
    fin_cases i
    · simpa [sub_eq_zero] using k2
    · simpa using k1
  · intro i
    fin_cases i <;> simp
  · intro y hy
    rw [← hP, hres, hres]
    have h0 := hy 0
    have h1 := hy 1
    simp
    nlinarith [sq_nonneg (2 * (1 - y 0) + (-1 - y 1)), sq_nonneg (y 1)]
  · intro h
    have h1 := h.2 ![1 / 2, 0] (by intro i; fin_cases i <;> simp)
    rw [← hP, hres, hres] at h1
    simp at h1
    norm_num at h1

/-! ## The hypotheses can be met -/

/-- The pseudoinverse of an injective matrix. -/
theorem isPinv_of_injective {m : Type*} [Fintype m] {A : Matrix m (Fin K) ℝ} (hA : ∀ x, A *ᵥ x = 0 → x = 0) : IsPinv A ((Aᵀ * A)⁻¹ * Aᵀ) := by
  have hdet : IsUnit (Aᵀ * A).det := by
    rw [isUnit_iff_ne_zero]
    intro h
    obtain ⟨v, hv, h0⟩ := Matrix.exists_mulVec_eq_zero_iff.mpr h
    apply hv
    apply hA
    apply dotProduct_self_eq_zero.mp
    rw [Matrix.dotProduct_mulVec, ← Matrix.mulVec_transpose, Matrix.mulVec_mulVec, h0, zero_dotProduct]
  have h1 : (Aᵀ * A)⁻¹ * Aᵀ * A = 1 := by rw [Matrix.mul_assoc, Matrix.nonsing_inv_mul _ hdet]
  refine ⟨?_, ?_, ?_, ?_⟩
  · rw [Matrix.mul_assoc, h1, Matrix.mul_one]
  · rw [h1, Matrix.one_mul]
  · rw [Matrix.transpose_mul, Matrix.transpose_mul, Matrix.transpose_transpose, Matrix.transpose_nonsing_inv, Matrix.transpose_mul, Matrix.transpose_transpose, Matrix.mul_assoc]
  · rw [h1, Matrix.transpose_one]

/-- One source and three microphones anywhere: after the update from suitable matrices the optimisation can only return the azimuth of the source. -/
example (px py : Fin 3 → ℝ) (psi alpha : ℝ) : ∃ (pinv : Matrix (Seq 1) (Fin 1) ℝ → Matrix (Fin 1) (Seq 1) ℝ) (G0 G : Fin 1 → Matrix (Row 3) (Seq 1) ℝ),
    updatedG pinv (fun _ => px) (fun _ => py) ![psi] G0 = some G ∧ G0 ≠ G ∧
    ∀ maxIter inits f e bs, run 1 (List.ofFn fun b : Fin 1 => (⟨G b, ampRi px py ![psi] *ᵥ ![alpha]⟩ : Band (Row 3) 1)) maxIter inits = some (f, e, bs) →
      e = 0 ∧ azimuths f = {Frida.toDoa psi} := by
  have hpsi : Different ![psi] := fun k l _ => Subsingleton.elim k l
  set A := amp2freq 1 ![psi]
  have hA := amp2freq_inj (M := 1) hpsi (by norm_num)
  set pinv : Matrix (Seq 1) (Fin 1) ℝ → Matrix (Fin 1) (Seq 1) ℝ := fun A => (Aᵀ * A)⁻¹ * Aᵀ
  have hpinv : IsPinv A (pinv A) := isPinv_of_injective hA
  -- the rows of a pair and of the reversed pair with opposite signs
  set H : Matrix (Row 3) (Seq 1) ℝ := .of fun r s =>
    match r, s with
    | .inl i, .inl j => if (i : ℕ) = 0 ∧ (j : ℕ) = 0 ∨ (i : ℕ) = 1 ∧ (j : ℕ) = 1 then 1 else if (i : ℕ) = 2 ∧ (j : ℕ) = 0 ∨ (i : ℕ) = 4 ∧ (j : ℕ) = 1 then -1 else 0
    | .inl i, .inr _ => if (i : ℕ) = 3 then 1 else if (i : ℕ) = 5 then -1 else 0
    | .inr _, _ => 0 with hH
  obtain ⟨G, hG, hspec⟩ := C121_update (pinv := pinv) hpinv hpsi (by norm_num) (fun _ : Fin 1 => px) (fun _ => py) fun _ => H
  have hHv : ∀ v : Seq 1 → ℝ, (H *ᵥ v) (.inl (0 : Fin 6)) = v (.inl (0 : Fin 2)) ∧ (H *ᵥ v) (.inl (2 : Fin 6)) = -v (.inl (0 : Fin 2)) ∧ (H *ᵥ v) (.inl (1 : Fin 6)) = v (.inl (1 : Fin 2)) ∧
      (H *ᵥ v) (.inl (4 : Fin 6)) = -v (.inl (1 : Fin 2)) ∧ (H *ᵥ v) (.inl (3 : Fin 6)) = v (.inr (0 : Fin 1)) ∧ (H *ᵥ v) (.inl (5 : Fin 6)) = -v (.inr (0 : Fin 1)) ∧ (∀ i, (H *ᵥ v) (.inr i) = 0) := by
    intro v
    have hsum : ∀ f : Seq 1 → ℝ, ∑ r, f r = f (.inl (0 : Fin 2)) + f (.inl (1 : Fin 2)) + f (.inr (0 : Fin 1)) := by
      intro f
      rw [Fintype.sum_sum_type]
      exact congrArg₂ _ (Fin.sum_univ_two fun i : Fin 2 => f (.inl i)) (Fin.sum_univ_one fun i : Fin 1 => f (.inr i))
    simp only [Matrix.mulVec, dotProduct, hsum]
    simp [hH]
  have hrow := fun (i : Fin 6) (p : Fin 3 × Fin 3) (hp : (Frida.pairs 3)[(i : ℕ)]? = some p) => row_eq px py ![psi] i hp 0
  have hdec : ∀ d : Seq 1 → ℝ, ∃ t : ℝ, G 0 *ᵥ d = ampRi px py ![psi] *ᵥ ![t] + H *ᵥ (d - A *ᵥ ![t]) := by
    intro d
    refine ⟨((pinv A) *ᵥ d) 0, ?_⟩
    have ht : ![((pinv A) *ᵥ d) 0] = (pinv A) *ᵥ d := by
      funext i
      fin_cases i
      rfl
    rw [ht, ← (hspec 0).1 ((pinv A) *ᵥ d) (A *ᵥ ((pinv A) *ᵥ d)) ((isSeq_iff _ _ _).mpr rfl), ← (hspec 0).2 (d - A *ᵥ ((pinv A) *ᵥ d)), ← Matrix.mulVec_add, add_sub_cancel]
    intro al s hs
    rw [(isSeq_iff _ _ _).mp hs, Matrix.dotProduct_mulVec, ← Matrix.mulVec_transpose, Matrix.mulVec_sub]
    have : Aᵀ *ᵥ (A *ᵥ ((pinv A) *ᵥ d)) = Aᵀ *ᵥ d := by
      have e1 : Aᵀ * (A * pinv A) = Aᵀ := by rw [← hpinv.symmRange, ← Matrix.transpose_mul, hpinv.left]
      rw [Matrix.mulVec_mulVec, Matrix.mulVec_mulVec, Matrix.mul_assoc, e1]
    rw [this, sub_self, zero_dotProduct]
  have c0 := hrow 0 (0, 1) (by decide)
  have c2 := hrow 2 (1, 0) (by decide)
  have c1 := hrow 1 (0, 2) (by decide)
  have c4 := hrow 4 (2, 0) (by decide)
  have c3 := hrow 3 (1, 2) (by decide)
  have c5 := hrow 5 (2, 1) (by decide)
  have hflip : ∀ (p q : Fin 3), Real.cos ((px p - px q) * Real.cos psi + (py p - py q) * Real.sin psi) = Real.cos ((px q - px p) * Real.cos psi + (py q - py p) * Real.sin psi) := by
    intro p q
    rw [← Real.cos_neg]
    congr 1
    ring
  have hPt : ∀ (t : ℝ) (r : Row 3), (ampRi px py ![psi] *ᵥ ![t]) r = ampRi px py ![psi] r 0 * t := by
    intro t r
    simp [Matrix.mulVec, dotProduct]
  have hreg : Regular (⟨G 0, ampRi px py ![psi] *ᵥ ![alpha]⟩ : Band (Row 3) 1) := by
    intro d hd
    obtain ⟨t, ht⟩ := hdec d
    rw [show G 0 *ᵥ d = 0 from hd] at ht
    set w := d - A *ᵥ ![t] with hw
    obtain ⟨h0, h2, h1, h4, h3, h5, h6⟩ := hHv w
    have k := fun r => congrFun ht r
    simp only [Pi.zero_apply, Pi.add_apply, hPt] at k
    have k0 := k (.inl (0 : Fin 6))
    have k1 := k (.inl (1 : Fin 6))
    have k2 := k (.inl (2 : Fin 6))
    have k3 := k (.inl (3 : Fin 6))
    have k4 := k (.inl (4 : Fin 6))
    have k5 := k (.inl (5 : Fin 6))
    have k6 := k (.inr (0 : Fin 6))
    rw [h0, c0.1] at k0
    rw [h1, c1.1] at k1
    rw [h2, c2.1] at k2
    rw [h3, c3.1] at k3
    rw [h4, c4.1] at k4
    rw [h5, c5.1] at k5
    rw [h6, c0.2] at k6
    simp only [Matrix.cons_val_zero] at k0 k1 k2 k3 k4 k5 k6
    rw [hflip 1 0] at k2
    rw [hflip 2 0] at k4
    rw [hflip 2 1] at k5
    have t0 : t = 0 := by
      have hcs := Real.sin_sq_add_cos_sq ((px 0 - px 1) * Real.cos psi + (py 0 - py 1) * Real.sin psi)
      have hc : Real.cos ((px 0 - px 1) * Real.cos psi + (py 0 - py 1) * Real.sin psi) * t = 0 := by linarith
      have hs : Real.sin ((px 0 - px 1) * Real.cos psi + (py 0 - py 1) * Real.sin psi) * t = 0 := by linarith
      calc t = (Real.sin ((px 0 - px 1) * Real.cos psi + (py 0 - py 1) * Real.sin psi) ^ 2 + Real.cos ((px 0 - px 1) * Real.cos psi + (py 0 - py 1) * Real.sin psi) ^ 2) * t := by rw [hcs, one_mul]
        _ = Real.sin ((px 0 - px 1) * Real.cos psi + (py 0 - py 1) * Real.sin psi) * (Real.sin ((px 0 - px 1) * Real.cos psi + (py 0 - py 1) * Real.sin psi) * t) +
            Real.cos ((px 0 - px 1) * Real.cos psi + (py 0 - py 1) * Real.sin psi) * (Real.cos ((px 0 - px 1) * Real.cos psi + (py 0 - py 1) * Real.sin psi) * t) := by ring
        _ = 0 := by rw [hc, hs, mul_zero, mul_zero, add_zero]
    have w0 : w = 0 := by
      funext r
      rcases r with i | i
      · change Fin 2 at i
        fin_cases i
        · change w (.inl (0 : Fin 2)) = 0
          linarith
        · change w (.inl (1 : Fin 2)) = 0
          linarith
      · change Fin 1 at i
        fin_cases i
        change w (.inr (0 : Fin 1)) = 0
        linarith
    rw [hw, t0, show (![(0 : ℝ)] : Fin 1 → ℝ) = 0 from by funext i; fin_cases i; rfl, Matrix.mulVec_zero, sub_zero] at w0
    exact w0
  refine ⟨pinv, fun _ => H, G, hG, ?_, ?_⟩
  · intro e
    have h1 := (hspec 0).1 ![1] _ ((isSeq_iff _ _ _).mpr rfl)
    rw [← e] at h1
    obtain ⟨h0, h2, _, _, _, _, h6⟩ := hHv (amp2freq 1 ![psi] *ᵥ ![1])
    have k := fun r => congrFun h1 r
    simp only [hPt] at k
    have k0 := k (.inl (0 : Fin 6))
    have k2 := k (.inl (2 : Fin 6))
    have k6 := k (.inr (0 : Fin 6))
    rw [h0, c0.1] at k0
    rw [h2, c2.1] at k2
    rw [h6, c0.2] at k6
    simp only [Matrix.cons_val_zero] at k0 k2 k6
    rw [hflip 1 0] at k2
    have hcs := Real.sin_sq_add_cos_sq ((px 0 - px 1) * Real.cos psi + (py 0 - py 1) * Real.sin psi)
    have hc : Real.cos ((px 0 - px 1) * Real.cos psi + (py 0 - py 1) * Real.sin psi) = 0 := by linarith
    have hs : Real.sin ((px 0 - px 1) * Real.cos psi + (py 0 - py 1) * Real.sin psi) = 0 := by linarith
    rw [hc, hs] at hcs
    norm_num at hcs
  · intro maxIter inits f e bs h
    have := C121_fixed (pinv := pinv) (psi := ![psi]) hpinv hpsi le_rfl hG (a := fun _ => ampRi px py ![psi] *ᵥ ![alpha]) (alpha := fun _ => ![alpha]) (fun _ => rfl)
      (fun b => by rw [Subsingleton.elim b 0]; exact hreg) h
    refine ⟨this.1, this.2.trans ?_⟩
    simp

/-- Two microphones and one source: the amplitude is exact. -/
example : ∃ (nnls : Matrix (Fin 1) (Fin 1) ℝ → (Fin 1 → ℝ) → Fin 1 → ℝ) (a : Fin 1 → Row 2 → ℝ), a ≠ 0 ∧ fit nnls (fun _ => ![1, 0]) (fun _ => ![0, 2]) a ![3] = ⟨0, ![3], fun _ => ![5]⟩ := by
  have hp0 : (Frida.pairs 2)[0]? = some (0, 1) := by decide
  have hr := row_eq (![1, 0] : Fin 2 → ℝ) ![0, 2] ![3] (0 : Fin 2) hp0 0
  have hinj : ∀ x : Fin 1 → ℝ, ampRi (![1, 0] : Fin 2 → ℝ) ![0, 2] ![3] *ᵥ x = 0 → x = 0 := by
    intro x hx
    have h1 := congrFun hx (.inl (0 : Fin 2))
    have h2 := congrFun hx (.inr (0 : Fin 2))
    simp only [Matrix.mulVec, dotProduct, Fin.sum_univ_one, hr.1, hr.2, Pi.zero_apply] at h1 h2
    funext i
    fin_cases i
    change x 0 = 0
    rcases mul_eq_zero.mp h1 with h1 | h1
    · rcases mul_eq_zero.mp h2 with h2 | h2
      · exfalso
        have hcs := Real.sin_sq_add_cos_sq (((![1, 0] : Fin 2 → ℝ) (0, 1).1 - (![1, 0] : Fin 2 → ℝ) (0, 1).2) * Real.cos (![3] 0) + ((![0, 2] : Fin 2 → ℝ) (0, 1).1 - (![0, 2] : Fin 2 → ℝ) (0, 1).2) * Real.sin (![3] 0))
        rw [h1, neg_eq_zero.mp h2] at hcs
        norm_num at hcs
      · exact h2
    · exact h1
  refine ⟨fun _ _ => ![5], fun _ => ampRi ![1, 0] ![0, 2] ![3] *ᵥ ![5], ?_, ?_⟩
  · intro e
    have := congrFun (hinj ![5] (congrFun e 0)) 0
    norm_num at this
  · refine C121_amplitudes (fun b => ⟨?_, ?_⟩) (fun _ => rfl) (fun _ k => ?_) (fun _ => hinj)
    · intro i
      fin_cases i
      norm_num [solution]
    · intro y _
      rw [Finset.sum_eq_zero]
      · exact Finset.sum_nonneg fun r _ => sq_nonneg _
      · intro r _
        simp only [solution]
        rw [Matrix.mulVec_mulVec, sub_self]
        norm_num
    · fin_cases k
      norm_num

/-- The turns of the default of two updates, with given reconstructions: there is a result. -/
example : ∃ (nnls : Matrix (Fin 1) (Fin 1) ℝ → (Fin 1 → ℝ) → Fin 1 → ℝ) (pinv : Matrix (Seq 1) (Fin 1) ℝ → Matrix (Fin 1) (Seq 1) ℝ)
    (recon : ℕ → (Fin 1 → Matrix (Row 3) (Seq 1) ℝ) → Option (Fin 1 → ℝ)) (G : Fin 1 → Matrix (Row 3) (Seq 1) ℝ) (phi : Fin 1 → ℝ) (alpha : Fin 1 → Fin 1 → ℝ),
    ptSrcRecon nnls pinv recon true none (fun _ => ![0, 1, 2]) (fun _ => ![0, 0, 1]) (fun _ => 1) G = some (phi, some alpha) := by
  have hpsi : ∀ x : ℝ, Different ![x] := fun x k l _ => Subsingleton.elim k l
  set pinv : Matrix (Seq 1) (Fin 1) ℝ → Matrix (Fin 1) (Seq 1) ℝ := fun A => (Aᵀ * A)⁻¹ * Aᵀ
  have hup := fun (x : ℝ) G0 => C121_update (pinv := pinv) (psi := ![x]) (isPinv_of_injective (amp2freq_inj (M := 1) (hpsi x) (by norm_num))) (hpsi x) (by norm_num) (fun _ : Fin 1 => (![0, 1, 2] : Fin 3 → ℝ))
    (fun _ => ![0, 0, 1]) G0
  have hv : ∀ v : Fin 1 → ℝ, v = ![v 0] := by
    intro v
    funext i
    fin_cases i
    rfl
  set nnls : Matrix (Fin 1) (Fin 1) ℝ → (Fin 1 → ℝ) → Fin 1 → ℝ := fun _ _ => 1
  set recon : ℕ → (Fin 1 → Matrix (Row 3) (Seq 1) ℝ) → Option (Fin 1 → ℝ) := fun i _ => some ![1 + i] with hrecon
  have hex : ∀ (n i : ℕ) G best, ∃ best', loop nnls pinv recon true (fun _ => ![0, 1, 2]) (fun _ => ![0, 0, 1]) (fun _ => 1) (n + 1) i G best = some (some best') := by
    intro n
    induction n with
    | zero =>
      intro i G best
      obtain ⟨G', hG', _⟩ := hup ((better best (fit nnls (fun _ => ![0, 1, 2]) (fun _ => ![0, 0, 1]) (fun _ => 1) ![1 + (i : ℝ)])).psi 0) G
      rw [← hv] at hG'
      refine ⟨better best (fit nnls (fun _ => ![0, 1, 2]) (fun _ => ![0, 0, 1]) (fun _ => 1) ![1 + (i : ℝ)]), ?_⟩
      unfold loop loop nextG
      simp only [hrecon, Option.bind_eq_bind, Option.bind_some, if_true, hG']
    | succ n ih =>
      intro i G best
      obtain ⟨G', hG', _⟩ := hup ((better best (fit nnls (fun _ => ![0, 1, 2]) (fun _ => ![0, 0, 1]) (fun _ => 1) ![1 + (i : ℝ)])).psi 0) G
      rw [← hv] at hG'
      obtain ⟨best', h⟩ := ih (i + 1) G' (some (better best (fit nnls (fun _ => ![0, 1, 2]) (fun _ => ![0, 0, 1]) (fun _ => 1) ![1 + (i : ℝ)])))
      refine ⟨best', ?_⟩
      rw [loop]
      unfold nextG
      simp only [hrecon, Option.bind_eq_bind, Option.bind_some, if_true, hG']
      exact h
  obtain ⟨best', h⟩ := hex 1 0 0 none
  refine ⟨nnls, pinv, recon, 0, fun k => Frida.toDoa (best'.psi k), best'.alpha, ?_⟩
  unfold ptSrcRecon
  rw [if_pos (by norm_num)]
  simp only [if_true, Option.getD_none]
  rw [h]
  rfl

end Verif.FriRecon
