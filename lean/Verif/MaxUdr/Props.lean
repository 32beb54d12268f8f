import Verif.MaxUdr.Model
import Verif.Beam.Props
import Mathlib.Analysis.Matrix.PosDef
import Mathlib.Analysis.Matrix.Spectrum
import Mathlib.Tactic.FieldSimp
import Mathlib.Tactic.Linarith
import Mathlib.Tactic.NoncommRing

/-!
# C131: the beamformers for the useful-to-detrimental ratio
-/

namespace Verif.MaxUdr

open Matrix Verif.Py

variable {M K K' n w : Nat}

/-! ## The ratio -/

/-- **C131** (ratio). `udr` is the sum over the images of the source of the power of their responses, over the power of the noise (and interference) at the output. -/
theorem C131_udr (good : Matrix (Fin M) (Fin K) ℂ) (R : Matrix (Fin M) (Fin M) ℂ) (x : Fin M → ℂ) (hreal : (star x ⬝ᵥ R *ᵥ x).im = 0) :
    udr good R x = (∑ k, ‖∑ m, star (x m) * good m k‖ ^ 2) / (star x ⬝ᵥ R *ᵥ x).re := by
  have hnum : star x ⬝ᵥ (good * goodᴴ) *ᵥ x = ((∑ k, ‖∑ m, star (x m) * good m k‖ ^ 2 : ℝ) : ℂ) := by
    rw [← mulVec_mulVec, dotProduct_mulVec]
    simp only [dotProduct]
    push_cast
    refine Finset.sum_congr rfl fun k _ => ?_
    have h1 : (star x ᵥ* good) k = ∑ m, star (x m) * good m k := rfl
    have h2 : (goodᴴ *ᵥ x) k = star (∑ m, star (x m) * good m k) := by
      simp only [mulVec, dotProduct, conjTranspose_apply, star_sum, star_mul, star_star]
    rw [h1, h2, ← Complex.ofReal_pow, ← Complex.normSq_eq_norm_sq]
    exact (Complex.mul_conj _)
  unfold udr
  rw [hnum]
  have hR : star x ⬝ᵥ R *ᵥ x = (((star x ⬝ᵥ R *ᵥ x).re : ℝ) : ℂ) := Complex.ext rfl (by simpa using hreal)
  rw [hR, ← Complex.ofReal_div, Complex.ofReal_re, Complex.ofReal_re]

/-- **C131** (ratio). The interference is the noise and the power of the sum of the interferer's images. -/
theorem C131_interference (bad : Matrix (Fin M) (Fin K') ℂ) (Rn : Matrix (Fin M) (Fin M) ℂ) (x : Fin M → ℂ) :
    star x ⬝ᵥ interference (some bad) (some Rn) *ᵥ x = star x ⬝ᵥ Rn *ᵥ x + ((‖∑ m, star (x m) * ∑ k, bad m k‖ ^ 2 : ℝ) : ℂ) := by
  simp only [interference, Option.getD_some, add_mulVec, dotProduct_add]
  congr 1
  have h1 : Beam.outer (Beam.sumcols bad) *ᵥ x = (star (∑ m, star (x m) * ∑ k, bad m k)) • Beam.sumcols bad := by
    funext i
    simp only [mulVec, dotProduct, Beam.outer, Matrix.of_apply, Pi.smul_apply, smul_eq_mul, star_sum, star_mul, star_star, Beam.sumcols]
    rw [Finset.sum_mul]
    refine Finset.sum_congr rfl fun j _ => ?_
    ring
  rw [h1, dotProduct_smul, smul_eq_mul]
  have h2 : star x ⬝ᵥ Beam.sumcols bad = ∑ m, star (x m) * ∑ k, bad m k := rfl
  rw [h2, ← Complex.normSq_eq_norm_sq, mul_comm]
  exact Complex.mul_conj _

/-! ## Weights -/

/-- A Cholesky factor. -/
def IsChol (R C : Matrix (Fin M) (Fin M) ℂ) : Prop := C * Cᴴ = R

/-- What `np.linalg.eig` promises: eigenvalues (all of them, in no particular order) and eigenvectors. -/
structure IsEig (S : Matrix (Fin M) (Fin M) ℂ) (l : Fin M → ℂ) (v : Matrix (Fin M) (Fin M) ℂ) : Prop where
  eigen : ∀ j, S *ᵥ (fun m => v m j) = l j • fun m => v m j
  ne_zero : ∀ j, (fun m => v m j) ≠ 0
  all : ∀ (mu : ℂ) (x : Fin M → ℂ), x ≠ 0 → S *ᵥ x = mu • x → ∃ j, l j = mu

open ComplexOrder in
theorem rayleigh (S : Matrix (Fin M) (Fin M) ℂ) (hS : S.IsHermitian) (b : ℝ) (hb : ∀ (mu : ℂ) (x : Fin M → ℂ), x ≠ 0 → S *ᵥ x = mu • x → mu.re ≤ b) (y : Fin M → ℂ) :
    (star y ⬝ᵥ S *ᵥ y).re ≤ b * (star y ⬝ᵥ y).re := by
  have hT : ((b : ℂ) • (1 : Matrix (Fin M) (Fin M) ℂ) - S).IsHermitian := by
    refine IsHermitian.sub ?_ hS
    rw [IsHermitian, conjTranspose_smul, conjTranspose_one]
    congr 1
    exact Complex.conj_ofReal b
  have hpsd : ((b : ℂ) • (1 : Matrix (Fin M) (Fin M) ℂ) - S).PosSemidef := by
    rw [hT.posSemidef_iff_eigenvalues_nonneg]
    intro j
    have he := hT.mulVec_eigenvectorBasis j
    have hne : (hT.eigenvectorBasis j).ofLp ≠ 0 := by
      intro h0
      have h1 := hT.eigenvectorBasis.orthonormal.1 j
      have : hT.eigenvectorBasis j = 0 := by
        ext i; exact congrFun h0 i
      rw [this] at h1
      simp at h1
    rw [sub_mulVec, smul_mulVec, one_mulVec] at he
    have h2 : S *ᵥ (hT.eigenvectorBasis j).ofLp = ((b - hT.eigenvalues j : ℝ) : ℂ) • (hT.eigenvectorBasis j).ofLp := by
      rw [Complex.ofReal_sub, sub_smul, ← sub_eq_iff_eq_add'.mpr (sub_eq_iff_eq_add.mp he)]
      funext i
      simp
    have := hb _ _ hne h2
    rw [Complex.ofReal_re] at this
    simp only [Pi.zero_apply]
    linarith
  have := hpsd.dotProduct_mulVec_nonneg y
  rw [sub_mulVec, smul_mulVec, one_mulVec, dotProduct_sub, dotProduct_smul, smul_eq_mul] at this
  have h3 := (Complex.le_def.mp this).1
  simp only [Complex.zero_re, Complex.sub_re, Complex.re_ofReal_mul] at h3
  linarith

/-- The matrix whose eigenvectors are computed. -/
noncomputable def whitened (good : Matrix (Fin M) (Fin K) ℂ) (C : Matrix (Fin M) (Fin M) ℂ) : Matrix (Fin M) (Fin M) ℂ := C⁻¹ * good * goodᴴ * (C⁻¹)ᴴ

theorem whitened_herm (good : Matrix (Fin M) (Fin K) ℂ) (C : Matrix (Fin M) (Fin M) ℂ) : (whitened good C).IsHermitian := by
  unfold whitened
  have : C⁻¹ * good * goodᴴ * (C⁻¹)ᴴ = (C⁻¹ * good) * (C⁻¹ * good)ᴴ := by rw [conjTranspose_mul, ← Matrix.mul_assoc]
  rw [this]
  exact isHermitian_mul_conjTranspose_self _

theorem self_real (y : Fin M → ℂ) : star y ⬝ᵥ y = ((∑ m, ‖y m‖ ^ 2 : ℝ) : ℂ) := by
  simp only [dotProduct, Pi.star_apply]
  push_cast
  refine Finset.sum_congr rfl fun m _ => ?_
  rw [← Complex.ofReal_pow, ← Complex.normSq_eq_norm_sq, mul_comm]
  exact Complex.mul_conj _

theorem self_pos (y : Fin M → ℂ) (hy : y ≠ 0) : 0 < ∑ m, ‖y m‖ ^ 2 := by
  obtain ⟨m, hm⟩ := Function.ne_iff.mp hy
  exact Finset.sum_pos' (fun _ _ => sq_nonneg _) ⟨m, Finset.mem_univ _, by have := norm_pos_iff.mpr hm; positivity⟩

theorem forms (good : Matrix (Fin M) (Fin K) ℂ) (R C : Matrix (Fin M) (Fin M) ℂ) (hC : IsChol R C) (hdet : IsUnit C.det) (u : Fin M → ℂ) :
    star u ⬝ᵥ R *ᵥ u = star (Cᴴ *ᵥ u) ⬝ᵥ (Cᴴ *ᵥ u) ∧ star u ⬝ᵥ (good * goodᴴ) *ᵥ u = star (Cᴴ *ᵥ u) ⬝ᵥ whitened good C *ᵥ (Cᴴ *ᵥ u) := by
  have h0 : star (Cᴴ *ᵥ u) = star u ᵥ* C := by rw [star_mulVec, conjTranspose_conjTranspose]
  have hi : (C⁻¹)ᴴ * Cᴴ = 1 := by rw [← conjTranspose_mul, mul_nonsing_inv _ hdet, conjTranspose_one]
  constructor
  · rw [← hC, h0, ← mulVec_mulVec, dotProduct_mulVec]
  · rw [h0, mulVec_mulVec, ← dotProduct_mulVec, mulVec_mulVec]
    congr 2
    unfold whitened
    calc good * goodᴴ = (C * C⁻¹) * good * goodᴴ * ((C⁻¹)ᴴ * Cᴴ) := by rw [hi, mul_nonsing_inv _ hdet, Matrix.one_mul, Matrix.mul_one]
      _ = C * (C⁻¹ * good * goodᴴ * (C⁻¹)ᴴ * Cᴴ) := by simp only [Matrix.mul_assoc]

open ComplexOrder in
theorem chol_det (R C : Matrix (Fin M) (Fin M) ℂ) (hC : IsChol R C) (hR : R.PosDef) : IsUnit C.det := by
  have := hR.det_pos.ne'
  rw [← hC, det_mul] at this
  exact (left_ne_zero_of_mul this).isUnit

open ComplexOrder in
/-- **C131** (weights). The weights have the ratio of the first eigenvalue returned. -/
theorem C131_weights_value (chol : Matrix (Fin (M + 1)) (Fin (M + 1)) ℂ → Matrix (Fin (M + 1)) (Fin (M + 1)) ℂ)
    (eig : Matrix (Fin (M + 1)) (Fin (M + 1)) ℂ → (Fin (M + 1) → ℂ) × Matrix (Fin (M + 1)) (Fin (M + 1)) ℂ)
    (good : Matrix (Fin (M + 1)) (Fin K) ℂ) (R : Matrix (Fin (M + 1)) (Fin (M + 1)) ℂ) (hK : K ≠ 1) (hR : R.PosDef) (hC : IsChol R (chol R))
    (hE : IsEig (whitened good (chol R)) (eig (whitened good (chol R))).1 (eig (whitened good (chol R))).2) :
    ∃ x, weights chol eig good R = .ok x ∧ x ≠ 0 ∧ udr good R x = ((eig (whitened good (chol R))).1 0).re := by
  have hdet := chol_det R (chol R) hC hR
  set C := chol R with hCdef
  set l := (eig (whitened good C)).1
  set v := (eig (whitened good C)).2 with hv
  have hdetH : IsUnit (Cᴴ).det := by rw [det_conjTranspose]; exact hdet.star
  refine ⟨(Cᴴ)⁻¹ *ᵥ fun m => v m 0, ?_, ?_, ?_⟩
  · unfold weights
    rw [if_neg hK, if_pos hR]
    rfl
  · intro h0
    have := congrArg (fun z => Cᴴ *ᵥ z) h0
    simp only [mulVec_mulVec, mul_nonsing_inv _ hdetH, one_mulVec, mulVec_zero] at this
    exact hE.ne_zero 0 this
  · obtain ⟨f1, f2⟩ := forms good R C hC hdet ((Cᴴ)⁻¹ *ᵥ fun m => v m 0)
    have hy : Cᴴ *ᵥ ((Cᴴ)⁻¹ *ᵥ fun m => v m 0) = fun m => v m 0 := by rw [mulVec_mulVec, mul_nonsing_inv _ hdetH, one_mulVec]
    rw [hy] at f1 f2
    unfold udr
    rw [f1, f2, hE.eigen 0, dotProduct_smul, smul_eq_mul, mul_div_assoc, div_self, mul_one]
    rw [self_real]
    exact_mod_cast (self_pos _ (hE.ne_zero 0)).ne'

open ComplexOrder in
/-- **C131** (weights). When that is the largest eigenvalue, no weights have a greater ratio. -/
theorem C131_weights_optimal (chol : Matrix (Fin (M + 1)) (Fin (M + 1)) ℂ → Matrix (Fin (M + 1)) (Fin (M + 1)) ℂ)
    (eig : Matrix (Fin (M + 1)) (Fin (M + 1)) ℂ → (Fin (M + 1) → ℂ) × Matrix (Fin (M + 1)) (Fin (M + 1)) ℂ)
    (good : Matrix (Fin (M + 1)) (Fin K) ℂ) (R : Matrix (Fin (M + 1)) (Fin (M + 1)) ℂ) (hK : K ≠ 1) (hR : R.PosDef) (hC : IsChol R (chol R))
    (hE : IsEig (whitened good (chol R)) (eig (whitened good (chol R))).1 (eig (whitened good (chol R))).2)
    (hmax : ∀ j, ((eig (whitened good (chol R))).1 j).re ≤ ((eig (whitened good (chol R))).1 0).re) :
    ∃ x, weights chol eig good R = .ok x ∧ ∀ u, u ≠ 0 → udr good R u ≤ udr good R x := by
  obtain ⟨x, h1, -, h2⟩ := C131_weights_value chol eig good R hK hR hC hE
  refine ⟨x, h1, fun u hu => ?_⟩
  rw [h2]
  have hdet := chol_det R (chol R) hC hR
  have hdetH : IsUnit ((chol R)ᴴ).det := by rw [det_conjTranspose]; exact hdet.star
  obtain ⟨f1, f2⟩ := forms good R (chol R) hC hdet u
  have hy : (chol R)ᴴ *ᵥ u ≠ 0 := by
    intro h0
    have := congrArg (fun z => ((chol R)ᴴ)⁻¹ *ᵥ z) h0
    simp only [mulVec_mulVec, nonsing_inv_mul _ hdetH, one_mulVec, mulVec_zero] at this
    exact hu this
  have hray := rayleigh (whitened good (chol R)) (whitened_herm good (chol R)) ((eig (whitened good (chol R))).1 0).re (fun mu z hz he => by
    obtain ⟨j, hj⟩ := hE.all mu z hz he
    exact hj ▸ hmax j) ((chol R)ᴴ *ᵥ u)
  unfold udr
  rw [f1, f2]
  rw [self_real] at hray ⊢
  rw [Complex.ofReal_re] at hray
  rw [Complex.div_ofReal_re]
  exact (div_le_iff₀ (self_pos _ hy)).mpr hray

open ComplexOrder in
/-- **C131** (deviation). `np.linalg.eig` does not sort: with eigenvalues in another order the weights are not the best. Two microphones, two images of gain 1 and 2 each seen by one of them, white noise: the ratio
is 1 where 4 is possible. -/
theorem C131_weights_deviation : ∃ (chol : Matrix (Fin 2) (Fin 2) ℂ → Matrix (Fin 2) (Fin 2) ℂ) (eig : Matrix (Fin 2) (Fin 2) ℂ → (Fin 2 → ℂ) × Matrix (Fin 2) (Fin 2) ℂ)
    (good R : Matrix (Fin 2) (Fin 2) ℂ) (x u : Fin 2 → ℂ), R.PosDef ∧ IsChol R (chol R) ∧ IsEig (whitened good (chol R)) (eig (whitened good (chol R))).1 (eig (whitened good (chol R))).2 ∧
      weights chol eig good R = .ok x ∧ u ≠ 0 ∧ udr good R x = 1 ∧ udr good R u = 4 := by
  have hW : whitened (!![1, 0; 0, 2] : Matrix (Fin 2) (Fin 2) ℂ) 1 = !![1, 0; 0, 4] := by
    unfold whitened
    rw [inv_one, conjTranspose_one, Matrix.one_mul, Matrix.mul_one]
    ext i j
    rw [Matrix.mul_apply, Fin.sum_univ_two]
    fin_cases i <;> fin_cases j <;> simp [conjTranspose_apply]
    norm_num
  have hP : (1 : Matrix (Fin 2) (Fin 2) ℂ).PosDef := PosDef.one
  have hChol : IsChol (1 : Matrix (Fin 2) (Fin 2) ℂ) 1 := by simp [IsChol]
  have hE : IsEig (!![1, 0; 0, 4] : Matrix (Fin 2) (Fin 2) ℂ) ![1, 4] 1 := by
    refine ⟨fun j => ?_, fun j h => ?_, fun mu x hx he => ?_⟩
    · funext i
      fin_cases i <;> fin_cases j <;> simp [mulVec, dotProduct, Fin.sum_univ_two]
    · have := congrFun h j
      simp at this
    · have e0 := congrFun he 0
      have e1 := congrFun he 1
      simp [mulVec, dotProduct, Fin.sum_univ_two] at e0 e1
      by_cases h0 : x 0 = 0
      · have h1 : x 1 ≠ 0 := fun h1 => hx (by funext i; fin_cases i <;> simp [h0, h1])
        refine ⟨1, ?_⟩
        simpa [h1] using e1
      · refine ⟨0, ?_⟩
        have : (1 - mu) * x 0 = 0 := by rw [sub_mul, one_mul, ← e0, sub_self]
        rcases mul_eq_zero.mp this with h | h
        · simpa using sub_eq_zero.mp h
        · exact absurd h h0
  obtain ⟨x, h1, -, h3⟩ := C131_weights_value (fun _ => 1) (fun _ => (![1, 4], 1)) (!![1, 0; 0, 2] : Matrix (Fin 2) (Fin 2) ℂ) 1 (by decide) hP hChol (by rw [hW]; exact hE)
  refine ⟨fun _ => 1, fun _ => (![1, 4], 1), !![1, 0; 0, 2], 1, x, ![0, 1], hP, hChol, by rw [hW]; exact hE, h1, ?_, ?_, ?_⟩
  · intro h
    have := congrFun h 1
    simp at this
  · rw [h3]; simp
  · unfold udr
    simp [mulVec, dotProduct, Fin.sum_univ_two, Matrix.mul_apply, conjTranspose_apply]
    norm_num

open ComplexOrder in
example : ∃ x, weights (fun _ => 1) (fun _ => (fun _ => 1, 1)) (1 : Matrix (Fin 2) (Fin 2) ℂ) 1 = .ok x ∧ ∀ u, u ≠ 0 → udr (1 : Matrix (Fin 2) (Fin 2) ℂ) 1 u ≤ udr (1 : Matrix (Fin 2) (Fin 2) ℂ) 1 x := by
  have hW : whitened (1 : Matrix (Fin 2) (Fin 2) ℂ) 1 = 1 := by simp [whitened]
  refine C131_weights_optimal (fun _ => 1) (fun _ => (fun _ => 1, 1)) _ _ (by decide) PosDef.one (by simp [IsChol]) ?_ (fun _ => le_rfl)
  rw [hW]
  refine ⟨fun j => by simp, fun j h => ?_, fun mu x hx he => ?_⟩
  · have := congrFun h j
    simp at this
  · obtain ⟨i, hi⟩ := Function.ne_iff.mp hx
    have := congrFun he i
    rw [one_mulVec, Pi.smul_apply, smul_eq_mul] at this
    exact ⟨0, (mul_right_cancel₀ hi (by rw [one_mul]; exact this))⟩

/-- **C131** (deviation). For a source with a single image the method always fails. -/
theorem C131_single_deviation (chol : Matrix (Fin (M + 1)) (Fin (M + 1)) ℂ → Matrix (Fin (M + 1)) (Fin (M + 1)) ℂ)
    (eig : Matrix (Fin (M + 1)) (Fin (M + 1)) ℂ → (Fin (M + 1) → ℂ) × Matrix (Fin (M + 1)) (Fin (M + 1)) ℂ) (good : Matrix (Fin (M + 1)) (Fin 1) ℂ) (R : Matrix (Fin (M + 1)) (Fin (M + 1)) ℂ) :
    weights chol eig good R = .error .attributeError := if_pos rfl

/-! ## Filters -/

/-- What `scipy.linalg.eigh(A, b=B)` promises for a positive definite `B`: vectors orthonormal for `B`, and the eigenvalues in ascending order. -/
structure IsEigh (A B : Matrix (Fin n) (Fin n) ℝ) (l : Fin n → ℝ) (V : Matrix (Fin n) (Fin n) ℝ) : Prop where
  ortho : Vᵀ * B * V = 1
  diag : Vᵀ * A * V = diagonal l
  sorted : Monotone l

/-- The energy of the filtered columns that satisfy `p`. -/
noncomputable def energy (H : Matrix (Fin n) (Fin w) ℝ) (g : Fin n → ℝ) (p : ℕ → Prop) [DecidablePred p] : ℝ := ∑ k : Fin w, if p k then (∑ i, g i * H i k) ^ 2 else 0

/-- The power of noise of the covariance `Rn` after the filters. -/
def noiseOut (Rn : Matrix (Fin n) (Fin n) ℝ) (g : Fin n → ℝ) : ℝ := ∑ i, ∑ j, g i * Rn i j * g j

theorem corr_energy (H : Matrix (Fin n) (Fin w) ℝ) (p : ℕ → Prop) [DecidablePred p] (g : Fin n → ℝ) : g ⬝ᵥ Beam.corr H (fun k => p k) *ᵥ g = energy H g p := by
  have := Beam.quad_real (Beam.corr H fun k => p k) g
  rw [star_trivial] at this
  rw [this, Beam.noisePower_corr, Finset.sum_filter]
  unfold energy Beam.tap
  refine Finset.sum_congr rfl fun k _ => ?_
  rw [Finset.sum_congr rfl fun i _ => mul_comm (H i k) (g i)]

theorem quad_noise (Rn : Matrix (Fin n) (Fin n) ℝ) (g : Fin n → ℝ) : g ⬝ᵥ Rn *ᵥ g = noiseOut Rn g := by
  have := Beam.quad_real Rn g
  rw [star_trivial] at this
  exact this

theorem eigh_bound (A B : Matrix (Fin (n + 1)) (Fin (n + 1)) ℝ) (l : Fin (n + 1) → ℝ) (V : Matrix (Fin (n + 1)) (Fin (n + 1)) ℝ) (h : IsEigh A B l V) (u : Fin (n + 1) → ℝ) :
    u ⬝ᵥ A *ᵥ u ≤ l (Fin.last n) * (u ⬝ᵥ B *ᵥ u) := by
  have hdet : IsUnit V.det := by
    have := congrArg det h.ortho
    rw [det_mul, det_one] at this
    exact IsUnit.of_mul_eq_one_right _ this
  have hu : u = V *ᵥ (V⁻¹ *ᵥ u) := by rw [mulVec_mulVec, mul_nonsing_inv _ hdet, one_mulVec]
  have hq : ∀ (Q : Matrix (Fin (n + 1)) (Fin (n + 1)) ℝ) (y : Fin (n + 1) → ℝ), (V *ᵥ y) ⬝ᵥ Q *ᵥ (V *ᵥ y) = y ⬝ᵥ (Vᵀ * Q * V) *ᵥ y := by
    intro Q y
    calc (V *ᵥ y) ⬝ᵥ Q *ᵥ (V *ᵥ y) = (y ᵥ* Vᵀ) ⬝ᵥ (Q * V) *ᵥ y := by rw [vecMul_transpose, mulVec_mulVec]
      _ = y ⬝ᵥ Vᵀ *ᵥ ((Q * V) *ᵥ y) := (dotProduct_mulVec _ _ _).symm
      _ = y ⬝ᵥ (Vᵀ * Q * V) *ᵥ y := by rw [mulVec_mulVec, Matrix.mul_assoc]
  rw [hu, hq, hq, h.ortho, h.diag]
  generalize V⁻¹ *ᵥ u = y
  rw [one_mulVec, dotProduct, dotProduct, Finset.mul_sum]
  refine Finset.sum_le_sum fun i _ => ?_
  rw [mulVec_diagonal]
  have h1 := h.sorted (Fin.le_last i)
  nlinarith [mul_self_nonneg (y i)]

theorem eigh_last (A B : Matrix (Fin (n + 1)) (Fin (n + 1)) ℝ) (l : Fin (n + 1) → ℝ) (V : Matrix (Fin (n + 1)) (Fin (n + 1)) ℝ) (h : IsEigh A B l V) :
    (fun i => V i (Fin.last n)) ⬝ᵥ A *ᵥ (fun i => V i (Fin.last n)) = l (Fin.last n) ∧ (fun i => V i (Fin.last n)) ⬝ᵥ B *ᵥ (fun i => V i (Fin.last n)) = 1 := by
  have hq : ∀ Q : Matrix (Fin (n + 1)) (Fin (n + 1)) ℝ, (fun i => V i (Fin.last n)) ⬝ᵥ Q *ᵥ (fun i => V i (Fin.last n)) = (Vᵀ * Q * V) (Fin.last n) (Fin.last n) := by
    intro Q
    rw [Matrix.mul_assoc]
    simp only [Matrix.mul_apply, dotProduct, mulVec, transpose_apply]
  rw [hq, hq, h.ortho, h.diag]
  simp

/-- What is counted as detrimental by the code: the part before the delay and, with an interferer, everything of the interferer and the late part. -/
noncomputable def counted (H : Matrix (Fin n) (Fin w) ℝ) (interferer : Bool) (Rn : Matrix (Fin n) (Fin n) ℝ) (kappa prec : ℕ) (g : Fin n → ℝ) : ℝ :=
  noiseOut Rn g + if interferer then energy H g (fun k => ¬ (kappa ≤ k ∧ k < min (w / 2) (kappa + prec))) else energy H g (fun k => k < kappa)

theorem detrimental_counted (H : Matrix (Fin n) (Fin w) ℝ) (interferer : Bool) (Rn : Matrix (Fin n) (Fin n) ℝ) (kappa prec : ℕ) (hk : kappa ≤ ownColumns interferer w) (g : Fin n → ℝ) :
    g ⬝ᵥ detrimental H interferer Rn kappa prec *ᵥ g = counted H interferer Rn kappa prec g := by
  cases interferer
  · have e : energy H g (fun k => ownColumns false w ≤ k) = 0 := by
      unfold energy
      exact Finset.sum_eq_zero fun k _ => if_neg (by have := k.isLt; have h0 : ownColumns false w = w := rfl; omega)
    simp only [detrimental, counted, Bool.false_eq_true, if_false, add_mulVec, dotProduct_add]
    rw [corr_energy H (fun k => k < kappa), corr_energy H (fun k => ownColumns false w ≤ k), quad_noise, e]
    ring
  · have hO : ownColumns true w = w / 2 := rfl
    have hU : usefulEnd true w kappa prec = min (w / 2) (kappa + prec) := rfl
    simp only [detrimental, counted, if_true, add_mulVec, dotProduct_add]
    rw [corr_energy H (fun k => k < kappa), corr_energy H (fun k => ownColumns true w ≤ k), quad_noise, corr_energy H (fun k => usefulEnd true w kappa prec ≤ k ∧ k < ownColumns true w)]
    have e : energy H g (fun k => ¬ (kappa ≤ k ∧ k < min (w / 2) (kappa + prec))) = energy H g (fun k => k < kappa) + energy H g (fun k => ownColumns true w ≤ k) + energy H g (fun k => usefulEnd true w kappa prec ≤ k ∧ k < ownColumns true w) := by
      unfold energy
      rw [← Finset.sum_add_distrib, ← Finset.sum_add_distrib]
      refine Finset.sum_congr rfl fun k _ => ?_
      generalize (∑ i, g i * H i k) ^ 2 = z
      by_cases h1 : (k : ℕ) < kappa
      · rw [if_pos (by omega), if_pos h1, if_neg (by omega), if_neg (by omega)]; ring
      · by_cases h2 : ownColumns true w ≤ (k : ℕ)
        · rw [if_pos (by omega), if_neg h1, if_pos h2, if_neg (by omega)]; ring
        · by_cases h3 : (k : ℕ) < min (w / 2) (kappa + prec)
          · rw [if_neg (by omega), if_neg h1, if_neg h2, if_neg (by omega)]; ring
          · rw [if_pos (by omega), if_neg h1, if_neg h2, if_pos (by omega)]; ring
    rw [e]
    ring

/-- **C131** (filters). The filters maximise the energy of the response from the delay to 30 ms after it over what is counted as detrimental (with an interferer: the noise, the whole response of the interferer, and
the rest of the source's response), and the ratio returned is that of the filters; it raises exactly when the denominator can vanish. -/
theorem C131_filters (eigh : Matrix (Fin (n + 1)) (Fin (n + 1)) ℝ → Matrix (Fin (n + 1)) (Fin (n + 1)) ℝ → (Fin (n + 1) → ℝ) × Matrix (Fin (n + 1)) (Fin (n + 1)) ℝ)
    (H : Matrix (Fin (n + 1)) (Fin w) ℝ) (interferer : Bool) (Rn : Option (Matrix (Fin (n + 1)) (Fin (n + 1)) ℝ)) (kappa prec : ℕ) (hk : kappa ≤ ownColumns interferer w)
    (hE : (detrimental H interferer (Rn.getD 0) kappa prec).PosDef → IsEigh (useful H interferer kappa prec) (detrimental H interferer (Rn.getD 0) kappa prec)
      (eigh (useful H interferer kappa prec) (detrimental H interferer (Rn.getD 0) kappa prec)).1 (eigh (useful H interferer kappa prec) (detrimental H interferer (Rn.getD 0) kappa prec)).2)
    (s : ℝ) (g : Fin (n + 1) → ℝ) (h : filters eigh H interferer Rn kappa prec = .ok (s, g)) :
    let good := fun u => energy H u (fun k => kappa ≤ k ∧ k < min (ownColumns interferer w) (kappa + prec))
    let bad := counted H interferer (Rn.getD 0) kappa prec
    (∀ u, u ≠ 0 → 0 < bad u) ∧ s = good g / bad g ∧ g ≠ 0 ∧ ∀ u, u ≠ 0 → good u / bad u ≤ good g / bad g := by
  intro good bad
  unfold filters at h
  simp only at h
  split_ifs at h with hP
  have hI := hE hP
  simp only [Except.ok.injEq, Prod.mk.injEq] at h
  obtain ⟨h1, h2⟩ := h
  have hgood : ∀ u, u ⬝ᵥ useful H interferer kappa prec *ᵥ u = good u := fun u => corr_energy H (fun k => kappa ≤ k ∧ k < min (ownColumns interferer w) (kappa + prec)) u
  have hbad : ∀ u, u ⬝ᵥ detrimental H interferer (Rn.getD 0) kappa prec *ᵥ u = bad u := detrimental_counted H interferer (Rn.getD 0) kappa prec hk
  have hpos : ∀ u, u ≠ 0 → 0 < bad u := by
    intro u hu
    have := hP.dotProduct_mulVec_pos hu
    rwa [star_trivial, hbad] at this
  obtain ⟨l1, l2⟩ := eigh_last _ _ _ _ hI
  rw [h2, h1, hgood] at l1
  rw [h2, hbad] at l2
  refine ⟨hpos, by rw [l1, l2, div_one], ?_, ?_⟩
  · intro h0
    rw [h0, ← hbad, zero_dotProduct] at l2
    exact zero_ne_one l2
  · intro u hu
    rw [l2, div_one, l1, div_le_iff₀ (hpos u hu)]
    have := eigh_bound _ _ _ _ hI u
    rwa [h1, hgood, hbad] at this

/-- **C131** (filters). They are refused exactly when some filters have no detrimental energy at all, for a symmetric noise covariance. -/
theorem C131_filters_refused (eigh : Matrix (Fin (n + 1)) (Fin (n + 1)) ℝ → Matrix (Fin (n + 1)) (Fin (n + 1)) ℝ → (Fin (n + 1) → ℝ) × Matrix (Fin (n + 1)) (Fin (n + 1)) ℝ)
    (H : Matrix (Fin (n + 1)) (Fin w) ℝ) (interferer : Bool) (Rn : Option (Matrix (Fin (n + 1)) (Fin (n + 1)) ℝ)) (hsym : (Rn.getD 0)ᵀ = Rn.getD 0) (kappa prec : ℕ) (hk : kappa ≤ ownColumns interferer w) :
    filters eigh H interferer Rn kappa prec = .error .valueError ↔ ∃ u, u ≠ 0 ∧ counted H interferer (Rn.getD 0) kappa prec u ≤ 0 := by
  have hc : ∀ p : Fin w → Prop, ∀ [DecidablePred p], (Beam.corr H p)ᵀ = Beam.corr H p := fun p _ => by
    ext i j; simp [Beam.corr, mul_comm]
  have hH : (detrimental H interferer (Rn.getD 0) kappa prec).IsHermitian := by
    rw [IsHermitian, conjTranspose_eq_transpose_of_trivial]
    unfold detrimental
    cases interferer
    · simp only [Bool.false_eq_true, if_false, transpose_add, hc, hsym]
    · simp only [if_true, transpose_add, hc, hsym]
  have hiff : (detrimental H interferer (Rn.getD 0) kappa prec).PosDef ↔ ∀ u, u ≠ 0 → 0 < counted H interferer (Rn.getD 0) kappa prec u := by
    constructor
    · intro hP u hu
      have := hP.dotProduct_mulVec_pos hu
      rwa [star_trivial, detrimental_counted H interferer _ kappa prec hk] at this
    · intro h
      refine PosDef.of_dotProduct_mulVec_pos hH fun u hu => ?_
      rw [star_trivial, detrimental_counted H interferer _ kappa prec hk]
      exact h u hu
  unfold filters
  simp only
  split_ifs with hP
  · simp only [false_iff]
    rintro ⟨u, hu, hle⟩
    exact absurd (hiff.mp hP u hu) (not_lt.mpr hle)
  · simp only [true_iff]
    by_contra hn
    push Not at hn
    exact hP (hiff.mpr hn)

/-- **C131** (deviation). Without an interferer, what arrives more than 30 ms after the delay is not counted as detrimental: changing it changes nothing of the matrices. -/
theorem C131_late_deviation (H H' : Matrix (Fin (n + 1)) (Fin w) ℝ) (Rn : Matrix (Fin (n + 1)) (Fin (n + 1)) ℝ) (kappa prec : ℕ) (hsame : ∀ i (k : Fin w), (k : ℕ) < kappa + prec → H i k = H' i k) :
    useful H false kappa prec = useful H' false kappa prec ∧ detrimental H false Rn kappa prec = detrimental H' false Rn kappa prec := by
  have hc : ∀ p : Fin w → Prop, ∀ [DecidablePred p], (∀ k : Fin w, p k → (k : ℕ) < kappa + prec) → Beam.corr H p = Beam.corr H' p := by
    intro p _ hp
    ext i j
    simp only [Beam.corr, of_apply]
    refine Finset.sum_congr rfl fun k hk => ?_
    have := hp k (Finset.mem_filter.mp hk).2
    rw [hsame i k this, hsame j k this]
  constructor
  · unfold useful
    refine hc _ fun k hk => ?_
    have := hk.2
    unfold usefulEnd at this
    omega
  · unfold detrimental
    simp only [Bool.false_eq_true, if_false]
    rw [hc (fun k => (k : ℕ) < kappa) fun k hk => by omega, hc (fun k => ownColumns false w ≤ (k : ℕ)) fun k hk => by
      have := k.isLt; have h0 : ownColumns false w = w := rfl; omega]

theorem one_posDef : (1 : Matrix (Fin n) (Fin n) ℝ).PosDef := by
  refine PosDef.of_dotProduct_mulVec_pos isHermitian_one fun x hx => ?_
  rw [star_trivial, one_mulVec]
  obtain ⟨i, hi⟩ := Function.ne_iff.mp hx
  exact Finset.sum_pos' (fun _ _ => mul_self_nonneg _) ⟨i, Finset.mem_univ _, mul_self_pos.mpr hi⟩

example : let H : Matrix (Fin 1) (Fin 4) ℝ := !![1, 2, 0, 0]
    detrimental H true 0 1 1 = 1 ∧ (detrimental H true 0 1 1).PosDef ∧ IsEigh (useful H true 1 1) (detrimental H true 0 1 1) (fun _ => 4) 1 := by
  intro H
  have hB : detrimental H true 0 1 1 = 1 := by
    ext i j
    fin_cases i
    fin_cases j
    simp [H, detrimental, Beam.corr, ownColumns, usefulEnd, Finset.sum_filter, Fin.sum_univ_four]
  have hA : useful H true 1 1 = diagonal fun _ => 4 := by
    ext i j
    fin_cases i
    fin_cases j
    simp [H, useful, Beam.corr, ownColumns, usefulEnd, Finset.sum_filter, Fin.sum_univ_four]
    norm_num
  refine ⟨hB, hB ▸ one_posDef, ?_, ?_, fun _ _ _ => le_rfl⟩
  · rw [hB]; simp
  · rw [hA]; simp

end Verif.MaxUdr
