import Verif.Beam.Model
import Mathlib.Algebra.BigOperators.Field
import Mathlib.Analysis.Matrix.Spectrum
import Mathlib.Tactic.Linarith
import Mathlib.Tactic.FieldSimp
import Mathlib.Tactic.LinearCombination

/-!
# C81: the design of beamformers
-/

namespace Verif.Beam

open Matrix Complex Verif.Py
open scoped ComplexOrder

variable {M K K' d n w : Nat}

/-! ## The least power under linear constraints -/

theorem dot_mulVec_conj {𝕜 ι κ : Type} [RCLike 𝕜] [Fintype ι] [Fintype κ] (A : Matrix ι κ 𝕜) (e : ι → 𝕜) (y : κ → 𝕜) : star e ⬝ᵥ A *ᵥ y = star (Aᴴ *ᵥ e) ⬝ᵥ y := by
  rw [Matrix.dotProduct_mulVec, Matrix.star_mulVec, Matrix.conjTranspose_conjTranspose]

/-- A vector `x` with `K x` among the combinations of the constraints has the least power of all that satisfy the constraints as it does. -/
theorem lcmv {𝕜 ι κ : Type} [RCLike 𝕜] [Fintype ι] [Fintype κ] {K : Matrix ι ι 𝕜} (hK : Kᴴ = K) (hp : ∀ v, 0 ≤ RCLike.re (star v ⬝ᵥ K *ᵥ v)) {A : Matrix ι κ 𝕜} {x v : ι → 𝕜}
    {y : κ → 𝕜} (hx : K *ᵥ x = A *ᵥ y) (hc : Aᴴ *ᵥ v = Aᴴ *ᵥ x) : RCLike.re (star x ⬝ᵥ K *ᵥ x) ≤ RCLike.re (star v ⬝ᵥ K *ᵥ v) := by
  obtain ⟨e, rfl⟩ : ∃ e, v = x + e := ⟨v - x, by simp⟩
  have he : Aᴴ *ᵥ e = 0 := by
    rw [Matrix.mulVec_add] at hc
    simpa using hc
  have h1 : star e ⬝ᵥ K *ᵥ x = 0 := by rw [hx, dot_mulVec_conj, he]; simp
  have h2 : star x ⬝ᵥ K *ᵥ e = 0 := by
    have h3 : star x ⬝ᵥ K *ᵥ e = star (star e ⬝ᵥ K *ᵥ x) := by
      rw [dot_mulVec_conj, hK]
      simp only [dotProduct, star_sum, star_mul', Pi.star_apply, star_star]
      exact Finset.sum_congr rfl fun i _ => mul_comm _ _
    rw [h3, h1, star_zero]
  rw [star_add, Matrix.mulVec_add, add_dotProduct, dotProduct_add, dotProduct_add, h1, h2]
  simp only [map_add, zero_add, add_zero]
  have := hp e
  linarith

/-! ## Weights -/

/-- The pseudo-inverse of an invertible matrix is its inverse. -/
theorem pinv_unit {pinv : {a b : Nat} → Matrix (Fin a) (Fin b) ℂ → Matrix (Fin b) (Fin a) ℂ} (hpinv : IsPinv pinv) {A : Matrix (Fin n) (Fin n) ℂ} (hA : IsUnit A) : A * pinv A = 1 ∧ pinv A * A = 1 := by
  have h := hpinv.left A
  have h1 : A * pinv A = 1 := by
    have hdet := (Matrix.isUnit_iff_isUnit_det A).mp hA
    have := congrArg (· * A⁻¹) h
    simpa [Matrix.mul_assoc, Matrix.mul_nonsing_inv A hdet] using this
  exact ⟨h1, mul_eq_one_comm.mp h1⟩

/-- Quadratic form of a positive definite matrix is a positive number. -/
theorem quad_pos {A : Matrix (Fin n) (Fin n) ℂ} (hA : A.PosDef) {v : Fin n → ℂ} (hv : v ≠ 0) : 0 < (star v ⬝ᵥ A *ᵥ v).re ∧ (star v ⬝ᵥ A *ᵥ v).im = 0 := by
  have h := hA.dotProduct_mulVec_pos hv
  rw [Complex.lt_def] at h
  exact ⟨h.1, h.2.symm⟩

theorem quad_nonneg {A : Matrix (Fin n) (Fin n) ℂ} (hA : A.PosDef) (v : Fin n → ℂ) : 0 ≤ (star v ⬝ᵥ A *ᵥ v).re := by
  by_cases hv : v = 0
  · simp [hv]
  · exact (quad_pos hA hv).1.le

/-- Response of weights to a vector (specification). -/
noncomputable def response (weights a : Fin M → ℂ) : ℂ := ∑ m, star (weights m) * a m

/-- Power at the output for the correlation matrix `N` of noise and interference (specification). -/
noncomputable def power (N : Matrix (Fin M) (Fin M) ℂ) (weights : Fin M → ℂ) : ℝ := (∑ i, ∑ j, star (weights i) * N i j * weights j).re

theorem power_eq (N : Matrix (Fin M) (Fin M) ℂ) (v : Fin M → ℂ) : power N v = (star v ⬝ᵥ N *ᵥ v).re := by
  unfold power
  congr 1
  simp only [dotProduct, mulVec, Finset.mul_sum, Pi.star_apply]
  exact Finset.sum_congr rfl fun i _ => Finset.sum_congr rfl fun j _ => by ring

theorem response_eq (v a : Fin M → ℂ) : response v a = star v ⬝ᵥ a := rfl

theorem response_star (v a : Fin M → ℂ) : star a ⬝ᵥ v = star (response v a) := by
  unfold response
  simp only [dotProduct, star_sum, star_mul', Pi.star_apply, star_star]
  exact Finset.sum_congr rfl fun i _ => mul_comm _ _

/-- Matrix with one column. -/
def col {α : Type} (a : Fin n → α) : Matrix (Fin n) (Fin 1) α := .of fun i _ => a i

theorem col_dual (a v : Fin n → ℂ) : (col a)ᴴ *ᵥ v = fun _ => star a ⬝ᵥ v := by
  funext k
  simp [col, mulVec, dotProduct, conjTranspose_apply]

theorem col_mul (a : Fin n → ℂ) (t : ℂ) : col a *ᵥ (fun _ => t) = t • a := by
  funext k
  simp [col, mulVec, dotProduct, mul_comm]

/-- The matrix of noise and interference with regularisation, as it should be (specification). -/
noncomputable def wanted (bad : Option (Matrix (Fin M) (Fin K') ℂ)) (Rn : Option (Matrix (Fin M) (Fin M) ℂ)) (rcond : ℝ) : Matrix (Fin M) (Fin M) ℂ := .of fun i j =>
  (match bad with | none => 0 | some A => (∑ k, A i k) * star (∑ k, A j k)) + (match Rn with | none => 0 | some R => R i j) + if i = j then (rcond : ℂ) else 0

/-- Either there is an interferer, or there is no regularisation. -/
def Sound (bad : Option (Matrix (Fin M) (Fin K') ℂ)) (rcond : ℝ) : Prop := bad ≠ none ∨ rcond = 0

theorem noise_eq {bad : Option (Matrix (Fin M) (Fin K') ℂ)} {rcond : ℝ} (h : Sound bad rcond) (Rn : Option (Matrix (Fin M) (Fin M) ℂ)) : noise bad Rn rcond = wanted bad Rn rcond := by
  ext i j
  unfold noise wanted
  cases bad with
  | none =>
    rcases h with h | h
    · exact absurd rfl h
    · subst h
      cases Rn <;> simp
  | some A =>
    cases Rn <;> simp [outer, sumcols, Matrix.one_apply]

/-- **C81** Weights with the greatest ratio: a response of one to the sum of all images of the source, and the least power of noise and interference among all weights with that response. -/
theorem C81_sinr {pinv : {a b : Nat} → Matrix (Fin a) (Fin b) ℂ → Matrix (Fin b) (Fin a) ℂ} (hpinv : IsPinv pinv) {good : Matrix (Fin M) (Fin K) ℂ} {bad : Option (Matrix (Fin M) (Fin K') ℂ)}
    {Rn : Option (Matrix (Fin M) (Fin M) ℂ)} {rcond : ℝ} (hs : Sound bad rcond) (hN : (wanted bad Rn rcond).PosDef) (hgood : (fun m => ∑ k, good m k) ≠ 0) :
    ∃ weights, maxSinr pinv good bad Rn rcond = some weights ∧ response weights (fun m => ∑ k, good m k) = 1 ∧
      ∀ v, response v (fun m => ∑ k, good m k) = 1 → power (wanted bad Rn rcond) weights ≤ power (wanted bad Rn rcond) v := by
  set a : Fin M → ℂ := fun m => ∑ k, good m k with ha
  have hsum : sumcols good = a := rfl
  set N := wanted bad Rn rcond with hNd
  obtain ⟨h1, h2⟩ := pinv_unit hpinv hN.isUnit
  have hinv : pinv N = N⁻¹ := by
    have := Matrix.inv_eq_right_inv h1
    exact this.symm
  have hpd : (pinv N).PosDef := by rw [hinv]; exact hN.inv
  obtain ⟨hp, him⟩ := quad_pos hpd hgood
  set den := star a ⬝ᵥ pinv N *ᵥ a with hden
  have hden0 : den ≠ 0 := fun h => by rw [h] at hp; simp at hp
  have hreal : star den = den := by
    apply Complex.ext
    · simp
    · simp [him]
  refine ⟨fun m => (pinv N *ᵥ a) m / den, ?_, ?_, ?_⟩
  · unfold maxSinr
    dsimp only
    rw [noise_eq hs, hsum, if_neg hden0]
  · have h3 : star a ⬝ᵥ (fun m => (pinv N *ᵥ a) m / den) = 1 := by
      have : (fun m => (pinv N *ᵥ a) m / den) = den⁻¹ • (pinv N *ᵥ a) := by funext m; simp [div_eq_inv_mul]
      rw [this, dotProduct_smul, smul_eq_mul, ← hden, inv_mul_cancel₀ hden0]
    rw [response_star] at h3
    have := congrArg star h3
    rwa [star_star, star_one] at this
  · intro v hv
    have hx : N *ᵥ (fun m => (pinv N *ᵥ a) m / den) = col a *ᵥ fun _ => den⁻¹ := by
      have : (fun m => (pinv N *ᵥ a) m / den) = den⁻¹ • (pinv N *ᵥ a) := by funext m; simp [div_eq_inv_mul]
      rw [this, mulVec_smul, mulVec_mulVec, h1, one_mulVec, col_mul]
    rw [power_eq, power_eq]
    refine lcmv (𝕜 := ℂ) hN.1 (fun v => quad_nonneg hN v) hx ?_
    rw [col_dual, col_dual]
    funext _
    rw [response_star, hv, star_one]
    have : (fun m => (pinv N *ᵥ a) m / den) = den⁻¹ • (pinv N *ᵥ a) := by funext m; simp [div_eq_inv_mul]
    rw [this, dotProduct_smul, smul_eq_mul, ← hden, inv_mul_cancel₀ hden0]

theorem snr_value {weights : Fin M → ℂ} {good : Matrix (Fin M) (Fin K) ℂ} {bad : Option (Matrix (Fin M) (Fin K') ℂ)} {Rn : Option (Matrix (Fin M) (Fin M) ℂ)} (hN : (wanted bad Rn 0).PosDef)
    (hv : weights ≠ 0) : snr weights good bad Rn = some (normSq (response weights fun m => ∑ k, good m k) / power (wanted bad Rn 0) weights) := by
  unfold snr
  dsimp only
  rw [noise_eq (Or.inr rfl)]
  obtain ⟨hp, him⟩ := quad_pos hN hv
  have hden : star weights ⬝ᵥ wanted bad Rn 0 *ᵥ weights = ((power (wanted bad Rn 0) weights : ℝ) : ℂ) := by
    rw [power_eq]
    apply Complex.ext
    · simp
    · simp [him]
  have hpos : 0 < power (wanted bad Rn 0) weights := by rw [power_eq]; exact hp
  rw [hden, if_neg (by exact_mod_cast hpos.ne')]
  congr 1
  have h1 : star (sumcols good) ⬝ᵥ weights = star (response weights fun m => ∑ k, good m k) := response_star _ _
  have h2 : star weights ⬝ᵥ sumcols good = response weights fun m => ∑ k, good m k := rfl
  rw [h1, h2]
  have h3 : ∀ z : ℂ, z * star z = ((normSq z : ℝ) : ℂ) := fun z => Complex.mul_conj z
  rw [h3, ← Complex.ofReal_div, Complex.ofReal_re]

/-- **C81** These weights have the greatest ratio of signal to noise and interference, as `snr` computes it, of all weights. -/
theorem C81_snr {pinv : {a b : Nat} → Matrix (Fin a) (Fin b) ℂ → Matrix (Fin b) (Fin a) ℂ} (hpinv : IsPinv pinv) {good : Matrix (Fin M) (Fin K) ℂ} {bad : Option (Matrix (Fin M) (Fin K') ℂ)}
    {Rn : Option (Matrix (Fin M) (Fin M) ℂ)} (hN : (wanted bad Rn 0).PosDef) (hgood : (fun m => ∑ k, good m k) ≠ 0) :
    ∃ weights s, maxSinr pinv good bad Rn 0 = some weights ∧ snr weights good bad Rn = some s ∧ ∀ v, v ≠ 0 → ∃ t, snr v good bad Rn = some t ∧ t ≤ s := by
  obtain ⟨weights, h1, h2, h3⟩ := C81_sinr hpinv (Or.inr rfl) hN hgood
  set a : Fin M → ℂ := fun m => ∑ k, good m k with ha
  have hw : weights ≠ 0 := by
    rintro rfl
    simp [response] at h2
  refine ⟨weights, _, h1, snr_value hN hw, fun v hv => ⟨_, snr_value hN hv, ?_⟩⟩
  have hpw : 0 < power (wanted bad Rn 0) weights := by rw [power_eq]; exact (quad_pos hN hw).1
  have hpv : 0 < power (wanted bad Rn 0) v := by rw [power_eq]; exact (quad_pos hN hv).1
  rw [← ha, h2]
  by_cases hr : response v a = 0
  · rw [hr]
    simp only [map_zero, map_one, zero_div, one_div]
    positivity
  · have h4 := h3 (fun m => star (response v a)⁻¹ * v m) (by
      change ∑ m, star (star (response v a)⁻¹ * v m) * a m = 1
      simp only [star_mul', star_star]
      rw [Finset.sum_congr rfl fun m _ => show (response v a)⁻¹ * star (v m) * a m = (response v a)⁻¹ * (star (v m) * a m) by ring, ← Finset.mul_sum]
      exact inv_mul_cancel₀ hr)
    have h5 : power (wanted bad Rn 0) (fun m => star (response v a)⁻¹ * v m) = power (wanted bad Rn 0) v / normSq (response v a) := by
      unfold power
      have : ∑ i, ∑ j, star (star (response v a)⁻¹ * v i) * wanted bad Rn 0 i j * (star (response v a)⁻¹ * v j) =
          ((normSq (response v a))⁻¹ : ℝ) * ∑ i, ∑ j, star (v i) * wanted bad Rn 0 i j * v j := by
        rw [Finset.mul_sum]
        apply Finset.sum_congr rfl
        intro i _
        rw [Finset.mul_sum]
        apply Finset.sum_congr rfl
        intro j _
        have h6 : (response v a)⁻¹ * star (response v a)⁻¹ = (((normSq (response v a))⁻¹ : ℝ) : ℂ) := by
          rw [← map_inv₀ normSq]
          exact Complex.mul_conj _
        rw [star_mul', star_star, ← h6]
        ring
      rw [this, Complex.re_ofReal_mul]
      ring
    have hn : 0 < normSq (response v a) := Complex.normSq_pos.mpr hr
    rw [h5, le_div_iff₀ hn] at h4
    rw [map_one, div_le_div_iff₀ hpv hpw]
    linarith

theorem sumcols_eq (A : Matrix (Fin M) (Fin K) ℂ) : sumcols A = A *ᵥ fun _ => 1 := by
  funext m
  simp [sumcols, mulVec, dotProduct]

/-- **C81** Forcing ones: a response of one to every image of the source, and the least power of noise and interference among all weights with these responses. -/
theorem C81_forcing {pinv : {a b : Nat} → Matrix (Fin a) (Fin b) ℂ → Matrix (Fin b) (Fin a) ℂ} (hpinv : IsPinv pinv) {good : Matrix (Fin M) (Fin K) ℂ} {bad : Option (Matrix (Fin M) (Fin K') ℂ)}
    {Rn : Option (Matrix (Fin M) (Fin M) ℂ)} (hN : (wanted bad Rn 0).PosDef) (hgood : ∀ y : Fin K → ℂ, (∀ m, ∑ k, good m k * y k = 0) → y = 0) :
    (∀ k, response (oneForcing pinv good bad Rn) (fun m => good m k) = 1) ∧
      ∀ v, (∀ k, response v (fun m => good m k) = 1) → power (wanted bad Rn 0) (oneForcing pinv good bad Rn) ≤ power (wanted bad Rn 0) v := by
  set N := wanted bad Rn 0 with hNd
  obtain ⟨h1, h2⟩ := pinv_unit hpinv hN.isUnit
  have hinv : pinv N = N⁻¹ := (Matrix.inv_eq_right_inv h1).symm
  have hpd : (pinv N).PosDef := by rw [hinv]; exact hN.inv
  have hinj : Function.Injective good.mulVec := by
    intro x y hxy
    have : x - y = 0 := by
      apply hgood
      intro m
      have := congrFun hxy m
      simp only [mulVec, dotProduct] at this
      simp only [Pi.sub_apply, mul_sub, Finset.sum_sub_distrib]
      rw [this, sub_self]
    exact sub_eq_zero.mp this
  have hD : (goodᴴ * pinv N * good).PosDef := hpd.conjTranspose_mul_mul_same hinj
  obtain ⟨h3, _⟩ := pinv_unit hpinv hD.isUnit
  set D := pinv (goodᴴ * pinv N * good) with hDd
  have hw : oneForcing pinv good bad Rn = (pinv N * good * D) *ᵥ fun _ => 1 := by
    unfold oneForcing
    dsimp only
    rw [noise_eq (Or.inr rfl), sumcols_eq]
  have hresp : ∀ v k, (goodᴴ *ᵥ v) k = star (response v fun m => good m k) := by
    intro v k
    rw [← response_star]
    simp [mulVec, dotProduct, conjTranspose_apply]
  have hone : goodᴴ *ᵥ oneForcing pinv good bad Rn = fun _ => 1 := by
    rw [hw, mulVec_mulVec, show goodᴴ * (pinv N * good * D) = (goodᴴ * pinv N * good) * D by simp only [Matrix.mul_assoc], h3, one_mulVec]
  refine ⟨fun k => ?_, fun v hv => ?_⟩
  · have := congrFun hone k
    rw [hresp] at this
    have := congrArg star this
    rwa [star_star, star_one] at this
  · rw [power_eq, power_eq]
    refine lcmv (𝕜 := ℂ) hN.1 (fun v => quad_nonneg hN v) (A := good) (y := D *ᵥ fun _ => 1) ?_ ?_
    · rw [hw, mulVec_mulVec, mulVec_mulVec, show N * (pinv N * good * D) = N * pinv N * (good * D) by simp only [Matrix.mul_assoc], h1, Matrix.one_mul]
    · rw [hone]
      funext k
      rw [hresp, hv k, star_one]

/-- **C81** Deviation: without an interferer and without noise the weights are a division by zero. -/
theorem C81_default_deviation {pinv : {a b : Nat} → Matrix (Fin a) (Fin b) ℂ → Matrix (Fin b) (Fin a) ℂ} (hpinv : IsPinv pinv) (good : Matrix (Fin M) (Fin K) ℂ) :
    maxSinr (K' := K') pinv good none none 0 = none := by
  have h0 : noise (M := M) (K' := K') none none 0 = 0 := by
    ext i j
    simp [noise]
  have hp : pinv (0 : Matrix (Fin M) (Fin M) ℂ) = 0 := by
    have := hpinv.right (0 : Matrix (Fin M) (Fin M) ℂ)
    simpa using this.symm
  unfold maxSinr
  dsimp only
  rw [h0, hp]
  simp

/-- **C81** Deviation: without an interferer the regularisation is added to all entries; with it alone all microphones get the same weight, wherever the source is. -/
theorem C81_rcond_deviation {pinv : {a b : Nat} → Matrix (Fin a) (Fin b) ℂ → Matrix (Fin b) (Fin a) ℂ} (hpinv : IsPinv pinv) {good : Matrix (Fin M) (Fin K) ℂ} {rcond : ℝ} {weights : Fin M → ℂ}
    (h : maxSinr (K' := K') pinv good none none rcond = some weights) (i j : Fin M) : weights i = weights j := by
  set A := noise (M := M) (K' := K') none none rcond with hA
  have hAij : ∀ i j, A i j = (rcond : ℂ) := by
    intro i j
    rw [hA]
    simp [noise]
  have hX : pinv A = Aᴴ * ((pinv A)ᴴ * pinv A) := by
    rw [← Matrix.mul_assoc, ← Matrix.conjTranspose_mul, hpinv.herm_right]
    exact (hpinv.right A).symm
  have hrow : ∀ a : Fin M → ℂ, (pinv A *ᵥ a) i = (pinv A *ᵥ a) j := by
    intro a
    rw [hX, ← mulVec_mulVec]
    simp only [mulVec, dotProduct, conjTranspose_apply, hAij]
  unfold maxSinr at h
  dsimp only at h
  split at h
  · exact nomatch h
  · rw [Option.some.injEq] at h
    rw [← h]
    dsimp only
    rw [← hA, hrow]

/-- **C81** Delay and sum: a response to the sum of the images that is a number not below zero; with one image and without attenuation it is one. -/
theorem C81_delay {good : Matrix (Fin M) (Fin K) ℂ} : response (delaySum good) (fun m => ∑ k, good m k) = (((∑ m, normSq (∑ k, good m k)) / (M * K) : ℝ) : ℂ) := by
  unfold response delaySum
  push_cast
  rw [Finset.sum_div]
  apply Finset.sum_congr rfl
  intro m _
  rw [star_mul', Complex.normSq_eq_conj_mul_self]
  have h1 : star (1 / (M : ℂ) / (K : ℂ)) = 1 / (M : ℂ) / (K : ℂ) := by simp
  rw [h1]
  simp only [Complex.star_def]
  rw [div_div, mul_assoc, one_div_mul_eq_div]

/-- **C81** Delay and sum with one point, in the far field or not, without attenuation: a response of one. -/
theorem C81_delay_one {c f : ℝ} {R : Fin M → Fin d → ℝ} {center : Fin d → ℝ} {X : Fin 1 → Fin d → ℝ} {ff : Bool} (hM : 1 ≤ M) {good : Matrix (Fin M) (Fin 1) ℂ}
    (h : steering c R center f X false ff = some good) : response (delaySum good) (fun m => good m 0) = 1 := by
  have h1 : ∀ m, normSq (good m 0) = 1 := by
    intro m
    unfold steering at h
    cases hD : flight ff R center X with
    | none => rw [hD] at h; exact nomatch h
    | some D =>
      rw [hD] at h
      simp only [Bool.false_eq_true, if_false, Option.some.injEq] at h
      rw [← h]
      simp only [of_apply]
      rw [show -I * ((2 * Real.pi * f * D m 0 / c : ℝ) : ℂ) = ((-(2 * Real.pi * f * D m 0 / c) : ℝ) : ℂ) * I by push_cast; ring, Complex.normSq_eq_norm_sq, Complex.norm_exp_ofReal_mul_I, one_pow]
  have h2 := C81_delay (good := good)
  simp only [Finset.univ_unique, Fin.default_eq_zero, Finset.sum_singleton] at h2
  rw [h2, Finset.sum_congr rfl fun m _ => h1 m]
  have : (M : ℝ) ≠ 0 := by exact_mod_cast (by omega : M ≠ 0)
  simp [this]

/-- **C81** Weights for a plane wave: a response of absolute value `M` to that wave, which is the greatest there is for waves of unit amplitude. -/
theorem C81_far (c f phi : ℝ) (R : Fin M → Fin 2 → ℝ) (center : Fin 2 → ℝ) :
    ‖response (farField c f phi R center) fun m => Complex.exp (I * ((2 * Real.pi * f * (Real.cos phi * R m 0 + Real.sin phi * R m 1) / c : ℝ) : ℂ))‖ = M ∧
      ∀ a : Fin M → ℂ, (∀ m, ‖a m‖ = 1) → ‖response (farField c f phi R center) a‖ ≤ M := by
  have hunit : ∀ t : ℝ, ‖Complex.exp (I * (t : ℂ))‖ = 1 := fun t => by rw [mul_comm, Complex.norm_exp_ofReal_mul_I]
  have hstar : ∀ t : ℝ, star (Complex.exp (I * (t : ℂ))) = Complex.exp (I * ((-t : ℝ) : ℂ)) := by
    intro t
    rw [Complex.star_def, ← Complex.exp_conj]
    congr 1
    simp
  constructor
  · unfold response farField
    dsimp only
    have h1 : ∀ m, star (Complex.exp (I * ((2 * Real.pi * f * ((Real.cos phi * (R m 0 - center 0) + Real.sin phi * (R m 1 - center 1)) -
        ⨆ j, (Real.cos phi * (R j 0 - center 0) + Real.sin phi * (R j 1 - center 1))) / c : ℝ) : ℂ))) *
        Complex.exp (I * ((2 * Real.pi * f * (Real.cos phi * R m 0 + Real.sin phi * R m 1) / c : ℝ) : ℂ)) =
        Complex.exp (I * ((2 * Real.pi * f * ((Real.cos phi * center 0 + Real.sin phi * center 1) + ⨆ j, (Real.cos phi * (R j 0 - center 0) + Real.sin phi * (R j 1 - center 1))) / c : ℝ) : ℂ)) := by
      intro m
      rw [hstar, ← Complex.exp_add]
      congr 1
      push_cast
      ring
    rw [Finset.sum_congr rfl fun m _ => h1 m]
    simp only [Finset.sum_const, Finset.card_univ, Fintype.card_fin, nsmul_eq_mul, norm_mul, hunit, mul_one]
    simp
  · intro a ha
    unfold response
    refine (norm_sum_le _ _).trans ?_
    have : ∀ m : Fin M, ‖star (farField c f phi R center m) * a m‖ = 1 := by
      intro m
      rw [norm_mul, norm_star, ha m, mul_one]
      exact hunit _
    rw [Finset.sum_congr rfl fun m _ => this m]
    simp

/-! ## Steering vectors in the far field -/

/-- **C81** Deviation: in the far field with attenuation, which is the default, the steering vectors always divide by zero. -/
theorem C81_attenuation_deviation {c f : ℝ} {R : Fin M → Fin d → ℝ} {center : Fin d → ℝ} {X : Fin K → Fin d → ℝ} (hM : 1 ≤ M) (hK : 1 ≤ K) : steering c R center f X true true = none := by
  unfold steering flight
  simp only [if_true]
  split
  · rfl
  · rename_i D hD
    split at hD
    · exact nomatch hD
    · rw [Option.some.injEq] at hD
      have : Nonempty (Fin M × Fin K) := ⟨(⟨0, hM⟩, ⟨0, hK⟩)⟩
      obtain ⟨q, hq⟩ := exists_eq_ciInf_of_finite (f := fun q : Fin M × Fin K => proj R X center q.1 q.2)
      rw [if_pos]
      refine ⟨q.1, q.2, ?_⟩
      rw [← hD]
      dsimp only
      rw [hq, sub_self]

/-- **C81** Far field, one point: the distances are the projections on the unit vector towards the point, up to a common offset that makes the least of them zero. -/
theorem C81_plane {R : Fin M → Fin d → ℝ} {center : Fin d → ℝ} {X : Fin 1 → Fin d → ℝ} (hM : 1 ≤ M) {D : Fin M → Fin 1 → ℝ} (h : flight true R center X = some D) :
    ∃ (u : Fin d → ℝ) (o : ℝ), ∑ i, u i ^ 2 = 1 ∧ (∃ t : ℝ, 0 < t ∧ ∀ i, X 0 i = center i + t * u i) ∧ (∀ m, D m 0 = o - ∑ i, R m i * u i) ∧ (∀ m, 0 ≤ D m 0) ∧ ∃ m, D m 0 = 0 := by
  unfold flight at h
  rw [if_pos rfl] at h
  split at h
  · exact nomatch h
  · rename_i h0
    rw [Option.some.injEq] at h
    have hnn : 0 ≤ frob X center := Real.sqrt_nonneg _
    have hpos : 0 < frob X center := lt_of_le_of_ne hnn (Ne.symm h0)
    have hsq : frob X center ^ 2 = ∑ i, (X 0 i - center i) ^ 2 := by
      unfold frob
      rw [Real.sq_sqrt (Finset.sum_nonneg fun _ _ => Finset.sum_nonneg fun _ _ => sq_nonneg _)]
      simp
    have : Nonempty (Fin M × Fin 1) := ⟨(⟨0, hM⟩, 0)⟩
    refine ⟨fun i => (X 0 i - center i) / frob X center, -⨅ q : Fin M × Fin 1, proj R X center q.1 q.2, ?_, ⟨frob X center, hpos, fun i => ?_⟩, fun m => ?_, fun m => ?_, ?_⟩
    · simp only [div_pow]
      rw [← Finset.sum_div, ← hsq, div_self (by positivity)]
    · field_simp
      ring
    · rw [← h]
      dsimp only
      unfold proj
      ring
    · rw [← h]
      dsimp only
      have := ciInf_le (Finite.bddBelow_range fun q : Fin M × Fin 1 => proj R X center q.1 q.2) (m, 0)
      linarith
    · obtain ⟨q, hq⟩ := exists_eq_ciInf_of_finite (f := fun q : Fin M × Fin 1 => proj R X center q.1 q.2)
      refine ⟨q.1, ?_⟩
      rw [← h]
      dsimp only
      rw [← hq, Fin.fin_one_eq_zero q.2, sub_self]

/-- **C81** Deviation: with several points the norm is that of all of them together, so that the vectors are no unit vectors: for the same point twice all distances are too short by the factor
of the square root of two. -/
theorem C81_several_deviation {R : Fin M → Fin d → ℝ} {center x : Fin d → ℝ} (hM : 1 ≤ M) (hx : x ≠ center) :
    ∃ D D' , flight true R center (fun _ : Fin 1 => x) = some D ∧ flight true R center (fun _ : Fin 2 => x) = some D' ∧ ∀ m k, D' m k = D m 0 / Real.sqrt 2 := by
  have hS : 0 < ∑ i, (x i - center i) ^ 2 := by
    obtain ⟨i, hi⟩ := Function.ne_iff.mp hx
    exact lt_of_lt_of_le (by have := sub_ne_zero.mpr hi; positivity) (Finset.single_le_sum (f := fun i => (x i - center i) ^ 2) (fun _ _ => sq_nonneg _) (Finset.mem_univ i))
  have h1 : frob (fun _ : Fin 1 => x) center = Real.sqrt (∑ i, (x i - center i) ^ 2) := by simp [frob]
  have h2 : frob (fun _ : Fin 2 => x) center = Real.sqrt 2 * Real.sqrt (∑ i, (x i - center i) ^ 2) := by
    unfold frob
    rw [Fin.sum_univ_two, ← two_mul, Real.sqrt_mul (by norm_num)]
  have hs1 : 0 < Real.sqrt (∑ i, (x i - center i) ^ 2) := Real.sqrt_pos.mpr hS
  have hs2 : 0 < Real.sqrt 2 := by positivity
  have hproj : ∀ (m : Fin M) (k : Fin 2), proj R (fun _ : Fin 2 => x) center m k = proj R (fun _ : Fin 1 => x) center m 0 / Real.sqrt 2 := by
    intro m k
    unfold proj
    rw [h1, h2, mul_div_assoc, Finset.sum_div]
    congr 1
    apply Finset.sum_congr rfl
    intro i _
    field_simp
  have : Nonempty (Fin M × Fin 1) := ⟨(⟨0, hM⟩, 0)⟩
  have : Nonempty (Fin M × Fin 2) := ⟨(⟨0, hM⟩, 0)⟩
  have hinf : (⨅ q : Fin M × Fin 2, proj R (fun _ : Fin 2 => x) center q.1 q.2) = (⨅ q : Fin M × Fin 1, proj R (fun _ : Fin 1 => x) center q.1 q.2) / Real.sqrt 2 := by
    apply le_antisymm
    · obtain ⟨q, hq⟩ := exists_eq_ciInf_of_finite (f := fun q : Fin M × Fin 1 => proj R (fun _ : Fin 1 => x) center q.1 q.2)
      rw [← hq]
      have := ciInf_le (Finite.bddBelow_range fun q : Fin M × Fin 2 => proj R (fun _ : Fin 2 => x) center q.1 q.2) (q.1, 0)
      rw [hproj] at this
      rw [Fin.fin_one_eq_zero q.2]
      exact this
    · apply le_ciInf
      intro q
      rw [hproj]
      apply div_le_div_of_nonneg_right _ hs2.le
      exact ciInf_le (Finite.bddBelow_range fun q : Fin M × Fin 1 => proj R (fun _ : Fin 1 => x) center q.1 q.2) (q.1, 0)
  refine ⟨_, _, by unfold flight; rw [if_pos rfl, if_neg (by rw [h1]; exact hs1.ne')], by unfold flight; rw [if_pos rfl, if_neg (by rw [h2]; exact (mul_pos hs2 hs1).ne')], fun m k => ?_⟩
  rw [hinf, hproj]
  ring

/-! ## Filters -/

/-- Response of filters to one column of the channel matrix (specification). -/
def tap (H : Matrix (Fin n) (Fin w) ℝ) (g : Fin n → ℝ) (k : Fin w) : ℝ := ∑ i, H i k * g i

/-- Power of noise (specification). -/
def noisePower (Rn : Matrix (Fin n) (Fin n) ℝ) (g : Fin n → ℝ) : ℝ := ∑ i, ∑ j, g i * Rn i j * g j

theorem quad_real (A : Matrix (Fin n) (Fin n) ℝ) (g : Fin n → ℝ) : star g ⬝ᵥ A *ᵥ g = noisePower A g := by
  unfold noisePower
  simp only [dotProduct, mulVec, Finset.mul_sum, Pi.star_apply, star_trivial]
  exact Finset.sum_congr rfl fun i _ => Finset.sum_congr rfl fun j _ => by ring

theorem noisePower_add (A B : Matrix (Fin n) (Fin n) ℝ) (g : Fin n → ℝ) : noisePower (A + B) g = noisePower A g + noisePower B g := by
  unfold noisePower
  simp only [Matrix.add_apply, mul_add, add_mul, Finset.sum_add_distrib]

theorem noisePower_corr (H : Matrix (Fin n) (Fin w) ℝ) (p : Fin w → Prop) [DecidablePred p] (g : Fin n → ℝ) : noisePower (corr H p) g = ∑ k with p k, tap H g k ^ 2 := by
  unfold noisePower corr tap
  simp only [of_apply, sq, Finset.sum_mul_sum]
  simp only [Finset.mul_sum, Finset.sum_mul]
  rw [Finset.sum_congr rfl fun i _ => Finset.sum_comm, Finset.sum_comm]
  apply Finset.sum_congr rfl
  intro k _
  apply Finset.sum_congr rfl
  intro i _
  apply Finset.sum_congr rfl
  intro j _
  ring

theorem posdef_real {A : Matrix (Fin n) (Fin n) ℝ} (hA : A.PosDef) (v : Fin n → ℝ) : 0 ≤ RCLike.re (star v ⬝ᵥ A *ᵥ v) := by
  by_cases hv : v = 0
  · simp [hv]
  · exact (hA.dotProduct_mulVec_pos hv).le

/-- **C81** Filters of minimum variance: one at the delay that is wanted, and the least power of the response of source and interferer and of the noise together, among all such filters. -/
theorem C81_mvdr {solve : {a b : Nat} → Matrix (Fin a) (Fin a) ℝ → Matrix (Fin a) (Fin b) ℝ → Matrix (Fin a) (Fin b) ℝ} (hsolve : Solves solve) {H : Matrix (Fin n) (Fin w) ℝ}
    {Rn : Matrix (Fin n) (Fin n) ℝ} {kappa : Nat} (hk : kappa < w) (hh : (fun i => H i ⟨kappa, hk⟩) ≠ 0) {g : Fin n → ℝ} (hg : mvdr solve H Rn kappa = .ok g) :
    tap H g ⟨kappa, hk⟩ = 1 ∧ ∀ v, tap H v ⟨kappa, hk⟩ = 1 → ∑ k, tap H g k ^ 2 + noisePower Rn g ≤ ∑ k, tap H v k ^ 2 + noisePower Rn v := by
  unfold mvdr at hg
  rw [dif_pos hk] at hg
  dsimp only at hg
  set h : Fin n → ℝ := fun i => H i ⟨kappa, hk⟩ with hhd
  set T := corr H (fun k => (k : Nat) < w / 2) + (corr H (fun k => w / 2 ≤ (k : Nat)) + Rn) with hT
  split at hg
  · rename_i hpd
    set x : Fin n → ℝ := fun i => solve T (.of fun i (_ : Fin 1) => h i) i 0 with hx
    have hTx : T *ᵥ x = h := by
      have h1 := hsolve T (.of fun i (_ : Fin 1) => h i) hpd
      funext i
      have h2 := congrFun (congrFun h1 i) 0
      rw [Matrix.mul_apply] at h2
      exact h2
    have hq : 0 < ∑ j, h j * x j := by
      have hx0 : x ≠ 0 := by
        intro h0
        rw [h0, mulVec_zero] at hTx
        exact hh hTx.symm
      have h1 := hpd.dotProduct_mulVec_pos hx0
      rw [hTx] at h1
      simpa [dotProduct, mul_comm] using h1
    rw [Except.ok.injEq] at hg
    set s := ∑ j, h j * x j with hs
    have hgx : g = s⁻¹ • x := by
      rw [← hg]
      funext i
      simp only [Pi.smul_apply, smul_eq_mul]
      rw [div_eq_inv_mul]
    have htap : ∀ v, tap H v ⟨kappa, hk⟩ = ∑ j, h j * v j := fun v => rfl
    have hone : tap H g ⟨kappa, hk⟩ = 1 := by
      rw [htap, hgx]
      simp only [Pi.smul_apply, smul_eq_mul]
      rw [Finset.sum_congr rfl fun j _ => show h j * (s⁻¹ * x j) = s⁻¹ * (h j * x j) by ring, ← Finset.mul_sum, ← hs, inv_mul_cancel₀ hq.ne']
    refine ⟨hone, fun v hv => ?_⟩
    have hpow : ∀ u, ∑ k, tap H u k ^ 2 + noisePower Rn u = RCLike.re (star u ⬝ᵥ T *ᵥ u) := by
      intro u
      rw [quad_real, hT, noisePower_add, noisePower_add, noisePower_corr, noisePower_corr, ← add_assoc]
      simp only [RCLike.re_to_real]
      congr 1
      rw [← Finset.sum_filter_add_sum_filter_not Finset.univ (fun k : Fin w => (k : Nat) < w / 2)]
      simp only [not_lt]
    rw [hpow, hpow]
    refine lcmv (𝕜 := ℝ) hpd.1 (posdef_real hpd) (A := .of fun i (_ : Fin 1) => h i) (y := fun _ => s⁻¹) ?_ ?_
    · rw [hgx, mulVec_smul, hTx]
      funext i
      simp [mulVec, dotProduct, mul_comm]
    · funext k
      have e : ∀ u : Fin n → ℝ, ((Matrix.of fun i (_ : Fin 1) => h i)ᴴ *ᵥ u) k = tap H u ⟨kappa, hk⟩ := by
        intro u
        rw [htap]
        simp [mulVec, dotProduct, conjTranspose_apply]
      rw [e, e, hv, hone]
  · exact nomatch hg

theorem filter_head {tau w : Nat} (ht : tau < w) : (List.finRange w).filter (fun k : Fin w => (k : Nat) ≤ tau) = (List.finRange (tau + 1)).map (Fin.castLE ht) := by
  have hinj : Function.Injective (List.map (Fin.val : Fin w → Nat)) := List.map_injective_iff.mpr Fin.val_injective
  apply hinj
  have h1 : ((List.finRange w).filter (fun k : Fin w => (k : Nat) ≤ tau)).map Fin.val = ((List.finRange w).map Fin.val).filter (fun k => k ≤ tau) := by
    rw [List.filter_map]
    rfl
  rw [h1, List.map_map, List.map_coe_finRange_eq_range]
  have h2 : (List.finRange (tau + 1)).map (Fin.val ∘ Fin.castLE ht) = List.range (tau + 1) := by
    rw [← List.map_coe_finRange_eq_range]
    rfl
  rw [h2]
  obtain ⟨r, rfl⟩ := Nat.exists_eq_add_of_lt ht
  rw [show tau + r + 1 = (tau + 1) + r by omega, List.range_add, List.filter_append, List.filter_eq_self.mpr (by simp), List.filter_eq_nil_iff.mpr (by simp; omega), List.append_nil]

theorem constrained_length {tau kappa w : Nat} (ht : tau < w) : tau < (constrained tau kappa w).length := by
  unfold constrained
  rw [filter_head ht]
  simp
  omega

theorem constrained_head {tau kappa w : Nat} (ht : tau < w) {k : Nat} (hk : k ≤ tau) (h : k < (constrained tau kappa w).length) : (constrained tau kappa w)[k] = ⟨k, by omega⟩ := by
  simp only [constrained, filter_head ht]
  rw [List.getElem_append_left (by simp; omega)]
  simp

theorem constrained_tail {tau kappa w : Nat} (ht : tau < w) {c : Fin w} (hc : tau + kappa ≤ (c : Nat)) : ∃ (k : Nat) (h : k < (constrained tau kappa w).length), tau < k ∧ (constrained tau kappa w)[k] = c := by
  have hm : c ∈ (List.finRange w).filter fun k : Fin w => tau + kappa ≤ (k : Nat) := by
    rw [List.mem_filter]
    exact ⟨List.mem_finRange c, by simpa using hc⟩
  obtain ⟨j, hj, he⟩ := List.mem_iff_getElem.mp hm
  have hl : ((List.finRange w).filter fun k : Fin w => (k : Nat) ≤ tau).length = tau + 1 := by
    rw [filter_head ht]
    simp
  refine ⟨tau + 1 + j, ?_, by omega, ?_⟩
  · unfold constrained
    rw [List.length_append, hl]
    omega
  · simp only [constrained]
    rw [List.getElem_append_right (by rw [hl]; omega)]
    simp only [hl]
    simpa using he

theorem constrained_mem {tau kappa w : Nat} {c : Fin w} (hc : c ∈ constrained tau kappa w) : (c : Nat) ≤ tau ∨ tau + kappa ≤ (c : Nat) := by
  unfold constrained at hc
  simpa using hc

/-- Noise and interference that the filters are made for (specification). -/
noncomputable def disturbance (H : Matrix (Fin n) (Fin w) ℝ) (interferer : Bool) (Rn : Matrix (Fin n) (Fin n) ℝ) (g : Fin n → ℝ) : ℝ :=
  noisePower Rn g + if interferer then ∑ k ∈ Finset.univ.filter (fun k : Fin w => w / 2 ≤ (k : Nat)), tap H g k ^ 2 else 0

/-- What the perceptual filters are to do (specification): nothing before the delay, one at the delay, free for a while, and nothing after that. -/
def Shaped (H : Matrix (Fin n) (Fin w) ℝ) (tau kappa : Nat) (g : Fin n → ℝ) : Prop :=
  ∀ k : Fin w, ((k : Nat) < tau → tap H g k = 0) ∧ ((k : Nat) = tau → tap H g k = 1) ∧ (tau + kappa ≤ (k : Nat) → tap H g k = 0)

/-- **C81** Perceptual filters: nothing before the delay, one at the delay, nothing once the time of relaxation is over, for the source and for the interferer, and among all such filters the least
power of noise and interference. -/
theorem C81_perceptual {solve : {a b : Nat} → Matrix (Fin a) (Fin a) ℝ → Matrix (Fin a) (Fin b) ℝ → Matrix (Fin a) (Fin b) ℝ} (hsolve : Solves solve) {H : Matrix (Fin n) (Fin w) ℝ}
    {interferer : Bool} {Rn : Option (Matrix (Fin n) (Fin n) ℝ)} {tau kappa : Nat} {g : Fin n → ℝ} (hg : (perceptual solve H interferer Rn tau kappa).1 = .ok g) :
    tau < w ∧ Shaped H tau kappa g ∧ ∀ v, Shaped H tau kappa v → disturbance H interferer (Rn.getD 0) g ≤ disturbance H interferer (Rn.getD 0) v := by
  unfold perceptual at hg
  dsimp only at hg
  set cols := constrained tau kappa w with hcols
  set Knq := if interferer then Rn.getD 0 + corr H (fun k => w / 2 ≤ (k : Nat)) else Rn.getD 0 with hK
  set A : Matrix (Fin n) (Fin cols.length) ℝ := .of fun i k => H i (cols.get k) with hA
  split at hg
  · exact nomatch hg
  rename_i hlen
  rw [not_le] at hlen
  have ht : tau < w := by
    by_contra hc
    rw [not_lt] at hc
    have h1 : cols.length ≤ w := by
      rw [hcols]
      unfold constrained
      rw [List.length_append, (List.filter_eq_nil_iff (p := fun k : Fin w => decide (tau + kappa ≤ (k : Nat)))).mpr (fun k _ => by have := k.isLt; simp; omega)]
      simpa using List.length_filter_le _ (List.finRange w)
    omega
  split at hg
  · rename_i hpd
    split at hg
    · rename_i hpd2
      set B := solve Knq A with hB
      set x := solve (Aᵀ * B) (.of fun k (_ : Fin 1) => if (k : Nat) = tau then 1 else 0) with hx
      have hKB : Knq * B = A := hsolve Knq A hpd
      have hDx := hsolve (Aᵀ * B) (.of fun k (_ : Fin 1) => if (k : Nat) = tau then (1 : ℝ) else 0) hpd2
      change (Aᵀ * B) * x = _ at hDx
      rw [Except.ok.injEq] at hg
      set y : Fin cols.length → ℝ := fun k => x k 0 with hy
      have hgB : g = B *ᵥ y := by
        rw [← hg]
        funext i
        rw [Matrix.mul_apply]
        rfl
      have htapA : ∀ (v : Fin n → ℝ) k, (Aᵀ *ᵥ v) k = tap H v (cols.get k) := fun v k => rfl
      have hAg : ∀ k, tap H g (cols.get k) = if (k : Nat) = tau then 1 else 0 := by
        intro k
        rw [← htapA, hgB, mulVec_mulVec]
        have h2 := congrFun (congrFun hDx k) 0
        rw [Matrix.mul_apply] at h2
        exact h2
      have hshape : Shaped H tau kappa g := by
        intro c
        have hhead : (c : Nat) ≤ tau → tap H g c = if (c : Nat) = tau then 1 else 0 := by
          intro hc
          have h1 := hAg ⟨c, by omega⟩
          have h2 : cols.get ⟨c, by omega⟩ = c := by
            have := constrained_head ht hc (kappa := kappa) (by rw [← hcols]; omega)
            simpa [← hcols] using this
          rw [h2] at h1
          exact h1
        refine ⟨fun hc => ?_, fun hc => ?_, fun hc => ?_⟩
        · rw [hhead hc.le, if_neg hc.ne]
        · rw [hhead hc.le, if_pos hc]
        · obtain ⟨k, hk, hlt, he⟩ := constrained_tail ht hc
          have h1 := hAg ⟨k, hk⟩
          have h2 : cols.get ⟨k, hk⟩ = c := by simpa [← hcols] using he
          rw [h2, if_neg hlt.ne'] at h1
          exact h1
      refine ⟨ht, hshape, fun v hv => ?_⟩
      have hdis : ∀ u, disturbance H interferer (Rn.getD 0) u = RCLike.re (star u ⬝ᵥ Knq *ᵥ u) := by
        intro u
        rw [quad_real, hK]
        unfold disturbance
        cases interferer
        · simp
        · simp [noisePower_add, noisePower_corr]
      rw [hdis, hdis]
      refine lcmv (𝕜 := ℝ) hpd.1 (posdef_real hpd) (A := A) (y := y) ?_ ?_
      · rw [hgB, mulVec_mulVec, hKB]
      · have ec : Aᴴ = Aᵀ := by
          ext i j
          simp [conjTranspose_apply]
        rw [ec]
        funext k
        rw [htapA, htapA]
        set c := cols.get k with hc
        obtain ⟨g1, g2, g3⟩ := hshape c
        obtain ⟨v1, v2, v3⟩ := hv c
        rcases constrained_mem (List.get_mem cols k) with h | h
        · rcases Nat.lt_or_eq_of_le h with h | h
          · rw [g1 h, v1 h]
          · rw [g2 h, v2 h]
        · rw [g3 h, v3 h]
    · exact nomatch hg
  · exact nomatch hg

/-- **C81** Deviation: the perceptual filters cannot be had with the default arguments. -/
theorem C81_perceptual_default_deviation {solve : {a b : Nat} → Matrix (Fin a) (Fin a) ℝ → Matrix (Fin a) (Fin b) ℝ → Matrix (Fin a) (Fin b) ℝ} {H : Matrix (Fin n) (Fin w) ℝ} {tau kappa : Nat}
    (hn : 1 ≤ n) : ∃ e, (perceptual solve H false none tau kappa).1 = .error e := by
  unfold perceptual
  dsimp only
  split
  · exact ⟨_, rfl⟩
  · rw [if_neg]
    · exact ⟨_, rfl⟩
    · intro h
      have h1 := h.dotProduct_mulVec_pos (x := fun _ => (1 : ℝ)) (by
        intro h0
        have := congrFun h0 ⟨0, hn⟩
        simp at this)
      simp at h1

/-- **C81** Deviation: with an interferer the covariance matrix of the caller is changed, so that a second call with it counts the interferer twice. -/
theorem C81_covariance_deviation {solve : {a b : Nat} → Matrix (Fin a) (Fin a) ℝ → Matrix (Fin a) (Fin b) ℝ → Matrix (Fin a) (Fin b) ℝ} {H : Matrix (Fin n) (Fin w) ℝ}
    {Rn : Matrix (Fin n) (Fin n) ℝ} {tau kappa : Nat} {g : Fin n → ℝ} (hg : (perceptual solve H true (some Rn) tau kappa).1 = .ok g) :
    ∃ Rn', (perceptual solve H true (some Rn) tau kappa).2 = some Rn' ∧ ∀ v, noisePower Rn' v = disturbance H true Rn v := by
  refine ⟨Rn + corr H fun k => w / 2 ≤ (k : Nat), ?_, fun v => by simp [disturbance, noisePower_add, noisePower_corr]⟩
  unfold perceptual at hg ⊢
  dsimp only at hg ⊢
  split at hg
  · exact nomatch hg
  · rename_i h
    rw [if_neg h]
    by_cases h1 : (if true = true then (some Rn).getD 0 + corr H (fun k => w / 2 ≤ (k : Nat)) else (some Rn).getD 0).PosDef
    · rw [if_pos h1, apply_ite Prod.snd]
      exact ite_self _
    · rw [if_neg h1]
      rfl

/-! ## The hypotheses can be met -/

/-- There is a pseudo-inverse. -/
theorem exists_pinv : ∃ pinv : {a b : Nat} → Matrix (Fin a) (Fin b) ℂ → Matrix (Fin b) (Fin a) ℂ, IsPinv pinv := by
  have key : ∀ {a b : Nat} (A : Matrix (Fin a) (Fin b) ℂ), ∃ P : Matrix (Fin b) (Fin a) ℂ, A * P * A = A ∧ P * A * P = P ∧ (A * P)ᴴ = A * P ∧ (P * A)ᴴ = P * A := by
    intro a b A
    have hH : (Aᴴ * A).IsHermitian := Matrix.isHermitian_conjTranspose_mul_self A
    set U : Matrix (Fin b) (Fin b) ℂ := (hH.eigenvectorUnitary : Matrix.unitaryGroup (Fin b) ℂ).1 with hU
    have hUU : Uᴴ * U = 1 := by
      have := Unitary.coe_star_mul_self hH.eigenvectorUnitary
      simpa [star_eq_conjTranspose] using this
    set e := hH.eigenvalues
    have hS : Aᴴ * A = U * diagonal (fun i => (e i : ℂ)) * Uᴴ := by
      have := hH.spectral_theorem
      rw [Unitary.conjStarAlgAut_apply] at this
      simpa [star_eq_conjTranspose, Function.comp_def] using this
    set G := U * diagonal (fun i => ((e i)⁻¹ : ℂ)) * Uᴴ with hG
    have hprod : ∀ d d' : Fin b → ℂ, U * diagonal d * Uᴴ * (U * diagonal d' * Uᴴ) = U * diagonal (fun i => d i * d' i) * Uᴴ := by
      intro d d'
      calc U * diagonal d * Uᴴ * (U * diagonal d' * Uᴴ) = U * diagonal d * (Uᴴ * U) * diagonal d' * Uᴴ := by simp only [Matrix.mul_assoc]
        _ = _ := by rw [hUU, Matrix.mul_one, Matrix.mul_assoc U, diagonal_mul_diagonal]
    have hherm : ∀ d : Fin b → ℝ, (U * diagonal (fun i => (d i : ℂ)) * Uᴴ)ᴴ = U * diagonal (fun i => (d i : ℂ)) * Uᴴ := by
      intro d
      rw [conjTranspose_mul, conjTranspose_mul, conjTranspose_conjTranspose, diagonal_conjTranspose, Matrix.mul_assoc]
      congr 3
      funext i
      simp
    have hGH : Gᴴ = G := by
      have := hherm fun i => (e i)⁻¹
      simpa [hG] using this
    have hGS : G * (Aᴴ * A) = U * diagonal (fun i => (((e i)⁻¹ * e i : ℝ) : ℂ)) * Uᴴ := by
      rw [hS, hG, hprod]
      simp
    have hGSG : G * (Aᴴ * A) * G = G := by
      rw [hGS, hG, hprod]
      congr 3
      funext i
      by_cases h : e i = 0
      · simp [h]
      · have : (e i : ℂ) ≠ 0 := by exact_mod_cast h
        push_cast
        rw [inv_mul_cancel₀ this, one_mul]
    have hSGS : Aᴴ * A * (G * (Aᴴ * A)) = Aᴴ * A := by
      rw [hGS]
      nth_rewrite 1 [hS]
      rw [hprod]
      conv_rhs => rw [hS]
      congr 3
      funext i
      by_cases h : e i = 0
      · simp [h]
      · have : (e i : ℂ) ≠ 0 := by exact_mod_cast h
        push_cast
        rw [inv_mul_cancel₀ this, mul_one]
    refine ⟨G * Aᴴ, ?_, ?_, ?_, ?_⟩
    · have h0 : Aᴴ * A * (G * (Aᴴ * A) - 1) = 0 := by rw [Matrix.mul_sub, hSGS, Matrix.mul_one, sub_self]
      have h1 := (Matrix.conjTranspose_mul_self_mul_eq_zero A _).mp h0
      rw [Matrix.mul_sub, Matrix.mul_one, sub_eq_zero] at h1
      simpa [Matrix.mul_assoc] using h1
    · calc G * Aᴴ * A * (G * Aᴴ) = G * (Aᴴ * A) * G * Aᴴ := by simp only [Matrix.mul_assoc]
        _ = _ := by rw [hGSG]
    · rw [conjTranspose_mul, conjTranspose_mul, conjTranspose_conjTranspose, hGH, Matrix.mul_assoc]
    · rw [Matrix.mul_assoc, hGS]
      exact hherm _
  choose P h1 h2 h3 h4 using @key
  exact ⟨fun {a b} A => P A, ⟨fun A => h1 A, fun A => h2 A, fun A => h3 A, fun A => h4 A⟩⟩

/-- There is a solution of linear systems. -/
theorem exists_solve : ∃ solve : {a b : Nat} → Matrix (Fin a) (Fin a) ℝ → Matrix (Fin a) (Fin b) ℝ → Matrix (Fin a) (Fin b) ℝ, Solves solve :=
  ⟨fun A B => A⁻¹ * B, fun A B hA => by
    rw [← Matrix.mul_assoc, Matrix.mul_nonsing_inv A ((Matrix.isUnit_iff_isUnit_det A).mp hA.isUnit), Matrix.one_mul]⟩

/-- Two microphones, one source that only the first one hears, an interferer that only the second one hears, and noise that is the same in both. -/
def heard : Matrix (Fin 2) (Fin 1) ℂ := .of fun i _ => if i = 0 then 1 else 0

def unheard : Matrix (Fin 2) (Fin 1) ℂ := .of fun i _ => if i = 0 then 0 else 1

example : Sound (some unheard) 0 ∧ (wanted (some unheard) (some 1) 0).PosDef ∧ (fun m => ∑ k, heard m k) ≠ 0 ∧ (∀ y : Fin 1 → ℂ, (∀ m, ∑ k, heard m k * y k = 0) → y = 0) := by
  refine ⟨?_, ?_, ?_, ?_⟩
  · exact Or.inl nofun
  · have h : wanted (some unheard) (some 1) 0 = diagonal (fun i => if i = 0 then (1 : ℂ) else 2) := by
      ext i j
      fin_cases i <;> fin_cases j <;> simp [wanted, unheard]; norm_num
    rw [h, Matrix.posDef_diagonal_iff]
    intro i
    fin_cases i <;> simp
  · intro h
    have := congrFun h 0
    simp [heard] at this
  · intro y hy
    have := hy 0
    funext k
    rw [Fin.fin_one_eq_zero k]
    simpa [heard] using this

theorem corr_psd (H : Matrix (Fin n) (Fin w) ℝ) (p : Fin w → Prop) [DecidablePred p] : (corr H p).PosSemidef := by
  apply Matrix.PosSemidef.of_dotProduct_mulVec_nonneg
  · ext i j
    simp [corr, conjTranspose_apply, mul_comm]
  · intro v
    rw [quad_real, noisePower_corr]
    exact Finset.sum_nonneg fun _ _ => sq_nonneg _

/-- Filters of two taps for one microphone, and a room with nothing but a direct path. -/
def channel : Matrix (Fin 2) (Fin 3) ℝ := .of fun i k => if (k : Nat) = i + 1 then 1 else 0

example (solve : {a b : Nat} → Matrix (Fin a) (Fin a) ℝ → Matrix (Fin a) (Fin b) ℝ → Matrix (Fin a) (Fin b) ℝ) : ∃ g, mvdr solve channel 1 1 = .ok g := by
  unfold mvdr
  rw [dif_pos (by norm_num)]
  dsimp only
  rw [if_pos]
  · exact ⟨_, rfl⟩
  · exact Matrix.PosDef.posSemidef_add (corr_psd _ _) (Matrix.PosDef.posSemidef_add (corr_psd _ _) Matrix.PosDef.one)

example (solve : {a b : Nat} → Matrix (Fin a) (Fin a) ℝ → Matrix (Fin a) (Fin b) ℝ → Matrix (Fin a) (Fin b) ℝ) (hsolve : Solves solve) : ∃ g, (perceptual solve (1 : Matrix (Fin 1) (Fin 1) ℝ) false (some 1) 0 1).1 = .ok g := by
  have hlen : (constrained 0 1 1).length = 1 := by decide
  have hA : ∀ A : Matrix (Fin 1) (Fin (constrained 0 1 1).length) ℝ, solve 1 A = A := fun A => by
    have := hsolve 1 A Matrix.PosDef.one
    rwa [Matrix.one_mul] at this
  unfold perceptual
  dsimp only
  rw [if_neg (by rw [hlen]; norm_num)]
  have h1 : (if false = true then (some (1 : Matrix (Fin 1) (Fin 1) ℝ)).getD 0 + corr (1 : Matrix (Fin 1) (Fin 1) ℝ) (fun k => 1 / 2 ≤ (k : Nat)) else (some (1 : Matrix (Fin 1) (Fin 1) ℝ)).getD 0) = 1 := by simp
  rw [h1, if_pos Matrix.PosDef.one, hA, if_pos]
  · exact ⟨_, rfl⟩
  · have h2 : ((of fun i k => (1 : Matrix (Fin 1) (Fin 1) ℝ) i ((constrained 0 1 1).get k))ᵀ * (of fun i k => (1 : Matrix (Fin 1) (Fin 1) ℝ) i ((constrained 0 1 1).get k)) : Matrix (Fin (constrained 0 1 1).length) (Fin (constrained 0 1 1).length) ℝ) = 1 := by
      ext i j
      have hi := i.isLt
      have hj := j.isLt
      have : i = j := Fin.ext (by omega)
      subst this
      simp [Matrix.mul_apply, Matrix.one_apply, Fin.fin_one_eq_zero]
    rw [h2]
    exact Matrix.PosDef.one

example : ∃ D, flight true (fun (m : Fin 2) (i : Fin 2) => (m : ℝ) + i) (fun _ => 0) (fun (_ : Fin 1) (_ : Fin 2) => 1) = some D := by
  unfold flight
  rw [if_pos rfl, if_neg]
  · exact ⟨_, rfl⟩
  · simp [frob]

end Verif.Beam
