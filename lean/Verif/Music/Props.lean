import Verif.Music.Model
import Verif.Srp.Props
import Mathlib.LinearAlgebra.Matrix.ToLin
import Mathlib.LinearAlgebra.Matrix.NonsingularInverse
import Mathlib.LinearAlgebra.Dimension.Constructions
import Mathlib.LinearAlgebra.FiniteDimensional.Lemmas
import Mathlib.Algebra.BigOperators.Field
import Mathlib.Tactic.Linarith
import Mathlib.Tactic.LinearCombination

/-!
# C80: the MUSIC spectrum
-/

namespace Verif.Music

open Finset Complex Verif.Srp
open scoped ComplexConjugate

variable {M : Nat}

/-- Coefficient of a vector along a column (specification). -/
noncomputable def coef (V : Fin M → Fin M → ℂ) (a : Fin M → ℂ) (i : Fin M) : ℂ := ∑ r, conj (V r i) * a r

/-- Orthonormal columns. -/
def Orth (V : Fin M → Fin M → ℂ) : Prop := ∀ i j, ∑ r, conj (V r i) * V r j = if i = j then 1 else 0

/-- Orthonormal columns are a basis: also the rows are orthonormal. -/
theorem Orth.rows {V : Fin M → Fin M → ℂ} (h : Orth V) (r c : Fin M) : ∑ i, V r i * conj (V c i) = if r = c then 1 else 0 := by
  have h1 : (Matrix.of fun i r => conj (V r i)) * (Matrix.of V) = (1 : Matrix (Fin M) (Fin M) ℂ) := by
    ext i j
    rw [Matrix.mul_apply, Matrix.one_apply]
    exact h i j
  have h3 : (Matrix.of V) * (Matrix.of fun i r => conj (V r i)) = (1 : Matrix (Fin M) (Fin M) ℂ) := mul_eq_one_comm.mp h1
  have h2 := congrFun (congrFun h3 r) c
  rw [Matrix.mul_apply, Matrix.one_apply] at h2
  exact h2

/-- Every vector is the sum of its parts along the columns. -/
theorem Orth.expand {V : Fin M → Fin M → ℂ} (h : Orth V) (a : Fin M → ℂ) (r : Fin M) : a r = ∑ i, V r i * coef V a i := by
  unfold coef
  simp only [Finset.mul_sum]
  rw [Finset.sum_comm]
  have : ∀ c, ∑ i, V r i * (conj (V c i) * a c) = (if r = c then 1 else 0) * a c := by
    intro c
    rw [← h.rows r c, Finset.sum_mul]
    exact Finset.sum_congr rfl fun i _ => by ring
  rw [Finset.sum_congr rfl fun c _ => this c]
  simp

/-- Equal coefficients, equal vectors. -/
theorem Orth.ext {V : Fin M → Fin M → ℂ} (h : Orth V) {a b : Fin M → ℂ} (hab : ∀ i, coef V a i = coef V b i) : a = b := by
  funext r
  rw [h.expand a r, h.expand b r]
  exact Finset.sum_congr rfl fun i _ => by rw [hab i]

/-- Parseval. -/
theorem Orth.parseval {V : Fin M → Fin M → ℂ} (h : Orth V) (a : Fin M → ℂ) : ∑ r, conj (a r) * a r = ∑ i, conj (coef V a i) * coef V a i := by
  have h1 : ∀ r, conj (a r) * a r = ∑ i, conj (a r) * V r i * coef V a i := by
    intro r
    rw [show conj (a r) * a r = conj (a r) * ∑ i, V r i * coef V a i by rw [← h.expand a r], Finset.mul_sum]
    exact Finset.sum_congr rfl fun i _ => by ring
  rw [Finset.sum_congr rfl fun r _ => h1 r, Finset.sum_comm]
  apply Finset.sum_congr rfl
  intro i _
  rw [← Finset.sum_mul]
  congr 1
  unfold coef
  rw [map_sum]
  exact Finset.sum_congr rfl fun r _ => by rw [map_mul, Complex.conj_conj, mul_comm]

theorem denom_sub (numSrc : Nat) (V : Fin M → Fin M → ℂ) (a : Fin M → ℂ) :
    denom numSrc V a = ∑ r, conj (a r) * a r - ∑ i ∈ signal M numSrc, conj (coef V a i) * coef V a i := by
  unfold denom cross
  have h1 : ∀ r, ∑ c, ((if r = c then 1 else 0) - ∑ i ∈ signal M numSrc, V r i * conj (V c i)) * a c = a r - ∑ i ∈ signal M numSrc, V r i * coef V a i := by
    intro r
    simp only [sub_mul, Finset.sum_sub_distrib]
    congr 1
    · simp
    · simp only [Finset.sum_mul]
      rw [Finset.sum_comm]
      apply Finset.sum_congr rfl
      intro i _
      unfold coef
      rw [Finset.mul_sum]
      exact Finset.sum_congr rfl fun c _ => by ring
  rw [Finset.sum_congr rfl fun r _ => by rw [h1 r, mul_sub], Finset.sum_sub_distrib]
  congr 1
  simp only [Finset.mul_sum]
  rw [Finset.sum_comm]
  apply Finset.sum_congr rfl
  intro i _
  have : conj (coef V a i) = ∑ r, conj (a r) * V r i := by
    unfold coef
    rw [map_sum]
    exact Finset.sum_congr rfl fun r _ => by rw [map_mul, Complex.conj_conj, mul_comm]
  rw [this, Finset.sum_mul]
  exact Finset.sum_congr rfl fun r _ => by ring

/-- The denominator is the power in the noise space. -/
theorem denom_noise {numSrc : Nat} {V : Fin M → Fin M → ℂ} (h : Orth V) (a : Fin M → ℂ) :
    denom numSrc V a = ((∑ i ∈ (signal M numSrc)ᶜ, normSq (coef V a i) : ℝ) : ℂ) := by
  rw [denom_sub, h.parseval, ← Finset.sum_add_sum_compl (signal M numSrc), add_sub_cancel_left]
  push_cast
  apply Finset.sum_congr rfl
  intro i _
  rw [Complex.normSq_eq_conj_mul_self]

theorem mem_compl_signal {numSrc : Nat} (hn : 1 ≤ numSrc) (i : Fin M) : i ∈ (signal M numSrc)ᶜ ↔ (i : Nat) + numSrc < M := by
  unfold signal
  simp only [mem_compl, mem_filter, mem_univ, true_and, not_or, not_le]
  constructor
  · exact fun h => h.2
  · exact fun h => ⟨by omega, h⟩

/-- Part of a vector in the noise space: what is left of it orthogonal to the eigenvectors of the `numSrc` greatest eigenvalues (specification). -/
noncomputable def noisePower (numSrc : Nat) (V : Fin M → Fin M → ℂ) (a : Fin M → ℂ) : ℝ := ∑ i ∈ Finset.univ.filter (fun i : Fin M => (i : Nat) + numSrc < M), normSq (coef V a i)

theorem denom_eq {numSrc : Nat} (hn : 1 ≤ numSrc) {V : Fin M → Fin M → ℂ} (h : Orth V) (a : Fin M → ℂ) : denom numSrc V a = (noisePower numSrc V a : ℂ) := by
  rw [denom_noise h]
  unfold noisePower
  congr 2
  ext i
  rw [mem_compl_signal hn]
  simp

theorem noisePower_nonneg (numSrc : Nat) (V : Fin M → Fin M → ℂ) (a : Fin M → ℂ) : 0 ≤ noisePower numSrc V a :=
  Finset.sum_nonneg fun _ _ => normSq_nonneg _

theorem noisePower_le {numSrc : Nat} {V : Fin M → Fin M → ℂ} (h : Orth V) (a : Fin M → ℂ) : noisePower numSrc V a ≤ ∑ r, normSq (a r) := by
  have h1 : (∑ r, normSq (a r)) = ∑ i, normSq (coef V a i) := by
    have := h.parseval a
    simp only [← Complex.normSq_eq_conj_mul_self] at this
    exact_mod_cast this
  rw [h1]
  exact Finset.sum_le_univ_sum_of_nonneg fun _ => normSq_nonneg _

/-- **C80** The value of a bin is one over the power of the steering vector in the noise space; it is infinite exactly if there is none. -/
theorem C80_value {numSrc : Nat} (hn : 1 ≤ numSrc) {C : Fin M → Fin M → ℂ} {w : Fin M → ℝ} {V : Fin M → Fin M → ℂ} (h : IsEigh C w V) (a : Fin M → ℂ) :
    value numSrc V a = if noisePower numSrc V a = 0 then none else some (1 / noisePower numSrc V a) := by
  unfold value
  rw [denom_eq hn h.orth, Complex.norm_real, Real.norm_of_nonneg (noisePower_nonneg _ _ _)]

/-- **C80** No value is below one over the number of microphones. -/
theorem C80_lower {p : Finder} {numSrc : Nat} (hn : 1 ≤ numSrc) {C : Fin p.M → Fin p.M → ℂ} {w : Fin p.M → ℝ} {V : Fin p.M → Fin p.M → ℂ} (h : IsEigh C w V) (k n : Nat) {v : ℝ}
    (hv : value numSrc V (vec p k n) = some v) : 1 / (p.M : ℝ) ≤ v := by
  rw [C80_value hn h] at hv
  split at hv
  · exact nomatch hv
  · rename_i h0
    rw [Option.some.injEq] at hv
    have hpos : 0 < noisePower numSrc V (vec p k n) := lt_of_le_of_ne (noisePower_nonneg _ _ _) (Ne.symm h0)
    rw [← hv]
    apply one_div_le_one_div_of_le hpos
    refine (noisePower_le h.orth _).trans ?_
    have : ∀ r : Fin p.M, normSq (vec p k n r) = 1 := fun r => steer_norm p k r n
    rw [Finset.sum_congr rfl fun r _ => this r]
    simp

/-! ## The signal space -/

/-- Linear combination of the columns of `A`. -/
noncomputable def comb {K : Nat} (A : Fin M → Fin K → ℂ) (y : Fin K → ℂ) : Fin M → ℂ := fun r => ∑ q, A r q * y q

/-- The matrix is that of `K` waves with steering vectors `A`, sources with correlations `R`, and noise of the power `sigma` that is not correlated. -/
def WaveMatrix {K : Nat} (C : Fin M → Fin M → ℂ) (A : Fin M → Fin K → ℂ) (R : Fin K → Fin K → ℂ) (sigma : ℝ) : Prop :=
  ∀ r c, C r c = (∑ q, ∑ t, A r q * R q t * conj (A c t)) + if r = c then (sigma : ℂ) else 0

/-- No source is a combination of the others. -/
def Definite {K : Nat} (R : Fin K → Fin K → ℂ) : Prop := ∀ y : Fin K → ℂ, y ≠ 0 → 0 < (∑ q, ∑ t, conj (y q) * R q t * y t).re

/-- The coefficients `A^H v`. -/
noncomputable def dual {K : Nat} (A : Fin M → Fin K → ℂ) (v : Fin M → ℂ) : Fin K → ℂ := fun q => ∑ r, conj (A r q) * v r

theorem comb_inner {K : Nat} (A : Fin M → Fin K → ℂ) (v : Fin M → ℂ) (y : Fin K → ℂ) : ∑ r, conj (v r) * comb A y r = ∑ q, conj (dual A v q) * y q := by
  unfold comb dual
  simp only [Finset.mul_sum]
  rw [Finset.sum_comm]
  apply Finset.sum_congr rfl
  intro q _
  rw [map_sum, Finset.sum_mul]
  exact Finset.sum_congr rfl fun r _ => by rw [map_mul, Complex.conj_conj]; ring

/-- The matrix applied to a vector. -/
theorem wave_apply {K : Nat} {C : Fin M → Fin M → ℂ} {A : Fin M → Fin K → ℂ} {R : Fin K → Fin K → ℂ} {sigma : ℝ} (hC : WaveMatrix C A R sigma) (v : Fin M → ℂ) (r : Fin M) :
    ∑ c, C r c * v c = comb A (fun q => ∑ t, R q t * dual A v t) r + sigma * v r := by
  have h1 : ∀ c, C r c * v c = (∑ q, ∑ t, A r q * R q t * (conj (A c t) * v c)) + if r = c then (sigma : ℂ) * v c else 0 := by
    intro c
    rw [hC r c, add_mul, Finset.sum_mul]
    congr 1
    · apply Finset.sum_congr rfl
      intro q _
      rw [Finset.sum_mul]
      exact Finset.sum_congr rfl fun t _ => by ring
    · split <;> simp
  rw [Finset.sum_congr rfl fun c _ => h1 c, Finset.sum_add_distrib]
  congr 1
  · unfold comb dual
    rw [Finset.sum_comm]
    apply Finset.sum_congr rfl
    intro q _
    rw [Finset.sum_comm, Finset.mul_sum]
    apply Finset.sum_congr rfl
    intro t _
    rw [Finset.mul_sum, Finset.mul_sum]
    exact Finset.sum_congr rfl fun c _ => by ring
  · simp

theorem self_inner {V : Fin M → Fin M → ℂ} (h : Orth V) (i : Fin M) : ∑ r, conj (V r i) * V r i = 1 := by
  rw [h i i, if_pos rfl]

/-- The eigenvalue in terms of the sources. -/
theorem eigen_quad {K : Nat} {C : Fin M → Fin M → ℂ} {A : Fin M → Fin K → ℂ} {R : Fin K → Fin K → ℂ} {sigma : ℝ} (hC : WaveMatrix C A R sigma) {w : Fin M → ℝ} {V : Fin M → Fin M → ℂ}
    (h : IsEigh C w V) (i : Fin M) : ((w i - sigma : ℝ) : ℂ) = ∑ q, ∑ t, conj (dual A (fun r => V r i) q) * R q t * dual A (fun r => V r i) t := by
  have h1 : ∑ r, conj (V r i) * ∑ c, C r c * V c i = (w i : ℂ) := by
    simp only [h.eigen]
    rw [Finset.sum_congr rfl fun r _ => show conj (V r i) * ((w i : ℂ) * V r i) = (w i : ℂ) * (conj (V r i) * V r i) by ring, ← Finset.mul_sum, self_inner h.orth, mul_one]
  have h2 : ∀ r, ∑ c, C r c * V c i = comb A (fun q => ∑ t, R q t * dual A (fun r => V r i) t) r + sigma * V r i := fun r => wave_apply hC (fun r => V r i) r
  simp only [h2, mul_add, Finset.sum_add_distrib] at h1
  rw [comb_inner A (fun r => V r i), Finset.sum_congr rfl fun r _ => show conj (V r i) * ((sigma : ℂ) * V r i) = (sigma : ℂ) * (conj (V r i) * V r i) by ring, ← Finset.mul_sum,
    self_inner h.orth, mul_one] at h1
  push_cast
  rw [← h1, add_sub_cancel_right]
  apply Finset.sum_congr rfl
  intro q _
  rw [Finset.mul_sum]
  exact Finset.sum_congr rfl fun t _ => by ring

theorem orth_independent {V : Fin M → Fin M → ℂ} (h : Orth V) : LinearIndependent ℂ (fun i r => V r i) := by
  rw [Fintype.linearIndependent_iff]
  intro g hg j
  have h1 : coef V (∑ i, g i • fun r => V r i) j = g j := by
    unfold coef
    simp only [Finset.sum_apply, Pi.smul_apply, smul_eq_mul, Finset.mul_sum]
    rw [Finset.sum_comm]
    rw [Finset.sum_congr rfl fun i _ => show ∑ r, conj (V r j) * (g i * V r i) = g i * (if j = i then 1 else 0) by
      rw [← h j i, Finset.mul_sum]; exact Finset.sum_congr rfl fun r _ => by ring]
    simp
  rw [hg] at h1
  rw [← h1]
  simp [coef]

/-- The linear map of the columns of `A`. -/
noncomputable def combMap {K : Nat} (A : Fin M → Fin K → ℂ) : (Fin K → ℂ) →ₗ[ℂ] (Fin M → ℂ) where
  toFun := comb A
  map_add' x y := by funext r; simp only [comb, Pi.add_apply, mul_add, Finset.sum_add_distrib]
  map_smul' c y := by
    funext r
    simp only [comb, Pi.smul_apply, smul_eq_mul, RingHom.id_apply, Finset.mul_sum]
    exact Finset.sum_congr rfl fun q _ => by ring

/-- The smallest eigenvalues are those of the noise. -/
theorem eigen_noise {K : Nat} {C : Fin M → Fin M → ℂ} {A : Fin M → Fin K → ℂ} {R : Fin K → Fin K → ℂ} {sigma : ℝ} (hC : WaveMatrix C A R sigma) (hR : Definite R) {w : Fin M → ℝ}
    {V : Fin M → Fin M → ℂ} (h : IsEigh C w V) {i : Fin M} (hi : (i : Nat) + K < M) : w i = sigma := by
  have hnn : ∀ j, 0 ≤ w j - sigma := by
    intro j
    have h1 := congrArg Complex.re (eigen_quad hC h j)
    rw [Complex.ofReal_re] at h1
    rw [h1]
    by_cases hz : dual A (fun r => V r j) = 0
    · simp [hz]
    · exact (hR _ hz).le
  by_contra hne
  have hpos : 0 < w i - sigma := lt_of_le_of_ne (hnn i) fun h => hne (by linarith)
  let y : {j : Fin M // i ≤ j} → Fin K → ℂ := fun j => ((w j - sigma : ℝ) : ℂ)⁻¹ • fun q => ∑ t, R q t * dual A (fun r => V r j) t
  have hy : ∀ j : {j : Fin M // i ≤ j}, combMap A (y j) = fun r => V r j := by
    intro j
    have hj : 0 < w j - sigma := by have := h.ascending j.2; linarith
    have hj' : ((w j - sigma : ℝ) : ℂ) ≠ 0 := by exact_mod_cast hj.ne'
    rw [map_smul]
    funext r
    have h1 := wave_apply hC (fun r => V r j) r
    rw [h.eigen] at h1
    change ((w j - sigma : ℝ) : ℂ)⁻¹ * comb A (fun q => ∑ t, R q t * dual A (fun r => V r j) t) r = V r j
    rw [inv_mul_eq_iff_eq_mul₀ hj']
    push_cast
    linear_combination -h1
  have hli : LinearIndependent ℂ (combMap A ∘ y) := by
    have := (orth_independent h.orth).comp (Subtype.val : {j : Fin M // i ≤ j} → Fin M) Subtype.val_injective
    convert this using 1
    funext j
    exact hy j
  have hcard := (LinearIndependent.of_comp _ hli).fintype_card_le_finrank
  rw [Module.finrank_fin_fun, Fintype.card_subtype] at hcard
  have hc : (Finset.univ.filter fun j : Fin M => i ≤ j).card = M - i := by
    have : (Finset.univ.filter fun j : Fin M => i ≤ j) = Finset.Ici i := by ext j; simp
    rw [this, Fin.card_Ici]
  omega

/-- The eigenvectors of the noise are orthogonal to the steering vectors of the sources. -/
theorem dual_noise {K : Nat} {C : Fin M → Fin M → ℂ} {A : Fin M → Fin K → ℂ} {R : Fin K → Fin K → ℂ} {sigma : ℝ} (hC : WaveMatrix C A R sigma) (hR : Definite R) {w : Fin M → ℝ}
    {V : Fin M → Fin M → ℂ} (h : IsEigh C w V) {i : Fin M} (hi : (i : Nat) + K < M) : dual A (fun r => V r i) = 0 := by
  by_contra hne
  have h1 := congrArg Complex.re (eigen_quad hC h i)
  rw [eigen_noise hC hR h hi, sub_self, Complex.ofReal_re] at h1
  exact absurd h1 (hR _ hne).ne

theorem coef_comb {K : Nat} (A : Fin M → Fin K → ℂ) (V : Fin M → Fin M → ℂ) (y : Fin K → ℂ) (i : Fin M) : coef V (comb A y) i = ∑ q, conj (dual A (fun r => V r i) q) * y q :=
  comb_inner A (fun r => V r i) y

/-- **C80** `K` waves that are linearly independent, from sources of which none is a combination of the others, with noise of any power: the value of a bin is infinite exactly for those
vectors that are combinations of the steering vectors of the waves. -/
theorem C80_subspace {K : Nat} (hK : 1 ≤ K) {C : Fin M → Fin M → ℂ} {A : Fin M → Fin K → ℂ} {R : Fin K → Fin K → ℂ} {sigma : ℝ} (hC : WaveMatrix C A R sigma) (hR : Definite R)
    (hA : ∀ y : Fin K → ℂ, (fun r => ∑ q, A r q * y q) = 0 → y = 0) {w : Fin M → ℝ} {V : Fin M → Fin M → ℂ} (h : IsEigh C w V) (a : Fin M → ℂ) :
    value K V a = none ↔ ∃ y : Fin K → ℂ, a = fun r => ∑ q, A r q * y q := by
  rw [C80_value hK h]
  have hnone : (if noisePower K V a = 0 then none else some (1 / noisePower K V a)) = none ↔ noisePower K V a = 0 := by
    split <;> simp_all
  rw [hnone]
  have hzero : noisePower K V a = 0 ↔ ∀ i : Fin M, (i : Nat) + K < M → coef V a i = 0 := by
    unfold noisePower
    rw [Finset.sum_eq_zero_iff_of_nonneg fun _ _ => normSq_nonneg _]
    simp only [mem_filter, mem_univ, true_and, Complex.normSq_eq_zero]
  rw [hzero]
  have hnoise : ∀ (y : Fin K → ℂ) (i : Fin M), (i : Nat) + K < M → coef V (comb A y) i = 0 := by
    intro y i hi
    rw [coef_comb, dual_noise hC hR h hi]
    simp
  have hKM : K ≤ M := by
    have hinj : Function.Injective (combMap A) := by
      rw [injective_iff_map_eq_zero]
      exact fun y hy => hA y hy
    have := LinearMap.finrank_le_finrank_of_injective hinj
    rwa [Module.finrank_fin_fun, Module.finrank_fin_fun] at this
  constructor
  · intro ha
    let T : (Fin K → ℂ) →ₗ[ℂ] ({i : Fin M // M ≤ (i : Nat) + K} → ℂ) :=
      { toFun := fun y i => coef V (comb A y) i
        map_add' := fun x y => by
          funext i
          simp only [coef_comb, Pi.add_apply, mul_add, Finset.sum_add_distrib]
        map_smul' := fun c y => by
          funext i
          simp only [coef_comb, Pi.smul_apply, smul_eq_mul, RingHom.id_apply, Finset.mul_sum]
          exact Finset.sum_congr rfl fun q _ => by ring }
    have hTinj : Function.Injective T := by
      rw [injective_iff_map_eq_zero]
      intro y hy
      apply hA y
      apply h.orth |> fun ho => Orth.ext (V := V) ho
      intro i
      have h0 : coef V 0 i = 0 := by simp [coef]
      rw [h0]
      rcases Nat.lt_or_ge ((i : Nat) + K) M with hi | hi
      · exact hnoise y i hi
      · exact congrFun hy ⟨i, hi⟩
    have hcard : Module.finrank ℂ (Fin K → ℂ) = Module.finrank ℂ ({i : Fin M // M ≤ (i : Nat) + K} → ℂ) := by
      rw [Module.finrank_fin_fun, Module.finrank_fintype_fun_eq_card, Fintype.card_subtype]
      have h1 : (Finset.univ.filter fun i : Fin M => M ≤ (i : Nat) + K) = (Finset.univ.filter fun i : Fin M => M - K ≤ (i : Nat)) := by
        ext i
        simp only [mem_filter, mem_univ, true_and]
        omega
      have hpos : M - K < M := by omega
      have h2 : (Finset.univ.filter fun i : Fin M => M - K ≤ (i : Nat)) = Finset.Ici (⟨M - K, hpos⟩ : Fin M) := by
        ext i
        simp [Fin.le_def]
      rw [h1, h2, Fin.card_Ici]
      simp only
      omega
    obtain ⟨y, hy⟩ := (LinearMap.injective_iff_surjective_of_finrank_eq_finrank hcard).mp hTinj fun i => coef V a i
    refine ⟨y, Orth.ext h.orth fun i => ?_⟩
    rcases Nat.lt_or_ge ((i : Nat) + K) M with hi | hi
    · rw [ha i hi]
      exact (hnoise y i hi).symm
    · exact (congrFun hy ⟨i, hi⟩).symm
  · rintro ⟨y, rfl⟩ i hi
    exact hnoise y i hi

/-! ## From signals to the spectrum -/

/-- **C80** The loop and the products of arrays give the same correlation matrix. -/
theorem C80_loop (p : Finder) (X : Nat → Nat → Nat → ℂ) (k : Nat) (i j : Fin p.M) : covLoop p X k i j = cov p X k i j := by
  unfold covLoop cov
  congr 1
  have : ∀ (l : List Nat) (c : ℂ), l.foldl (fun c s => c + X i k s * conj (X j k s)) c = c + (l.map fun s => X i k s * conj (X j k s)).sum := by
    intro l
    induction l with
    | nil => intro c; simp
    | cons a l ih => intro c; simp only [List.foldl_cons, List.map_cons, List.sum_cons, ih]; ring
  rw [this, zero_add]
  rfl

/-- No source is a combination of the others, in the snapshots that are used. -/
def Distinct {K : Nat} (b : Fin K → Nat → ℂ) (S : Nat) : Prop := ∀ y : Fin K → ℂ, y ≠ 0 → ∃ s, s < S ∧ ∑ q, y q * b q s ≠ 0

theorem quad_square {K : Nat} (b : Fin K → Nat → ℂ) (S : Nat) (y : Fin K → ℂ) :
    ∑ q, ∑ t, conj (y q) * ((∑ s ∈ range S, b q s * conj (b t s)) / S) * y t = (((∑ s ∈ range S, normSq (∑ q, conj (y q) * b q s)) / S : ℝ) : ℂ) := by
  push_cast
  have h1 : ∀ s, (normSq (∑ q, conj (y q) * b q s) : ℂ) = ∑ q, ∑ t, conj (y q) * b q s * (y t * conj (b t s)) := by
    intro s
    rw [← Complex.mul_conj, map_sum, Finset.sum_mul_sum]
    apply Finset.sum_congr rfl
    intro q _
    apply Finset.sum_congr rfl
    intro t _
    rw [map_mul, Complex.conj_conj]
  rw [Finset.sum_congr rfl fun s _ => h1 s, Finset.sum_comm (s := range S), Finset.sum_div]
  apply Finset.sum_congr rfl
  intro q _
  rw [Finset.sum_comm (s := range S), Finset.sum_div]
  apply Finset.sum_congr rfl
  intro t _
  rw [Finset.sum_div, Finset.sum_div, Finset.mul_sum, Finset.sum_mul]
  exact Finset.sum_congr rfl fun s _ => by ring

theorem definite_of_distinct {K : Nat} {b : Fin K → Nat → ℂ} {S : Nat} (hb : Distinct b S) : Definite fun q t => (∑ s ∈ range S, b q s * conj (b t s)) / (S : ℂ) := by
  intro y hy
  rw [quad_square, Complex.ofReal_re]
  have hy' : (fun q => conj (y q)) ≠ 0 := by
    intro h
    apply hy
    funext q
    have := congrFun h q
    simpa using this
  obtain ⟨s, hs, hne⟩ := hb _ hy'
  have hS : (0 : ℝ) < S := by
    have : 0 < S := by omega
    exact_mod_cast this
  apply div_pos _ hS
  refine lt_of_lt_of_le (Complex.normSq_pos.mpr hne) ?_
  exact Finset.single_le_sum (f := fun s => normSq (∑ q, conj (y q) * b q s)) (fun _ _ => normSq_nonneg _) (mem_range.mpr hs)

/-- Signals of `K` plane waves from points of the grid. -/
def Waves (p : Finder) {K : Nat} (src : Fin K → Nat) (b : Nat → Fin K → Nat → ℂ) (X : Nat → Nat → Nat → ℂ) : Prop :=
  ∀ i, i < p.M → ∀ k ∈ p.bins, ∀ s, s < p.numSnap → X i k s = ∑ q, p.steer k i (src q) * b k q s

theorem cov_waves {p : Finder} {K : Nat} {src : Fin K → Nat} {b : Nat → Fin K → Nat → ℂ} {X : Nat → Nat → Nat → ℂ} (hX : Waves p src b X) {k : Nat} (hk : k ∈ p.bins) :
    WaveMatrix (cov p X k) (fun r q => vec p k (src q) r) (fun q t => (∑ s ∈ range p.numSnap, b k q s * conj (b k t s)) / (p.numSnap : ℂ)) 0 := by
  intro r c
  simp only [Complex.ofReal_zero, ite_self, add_zero]
  unfold cov
  have h1 : ∀ s ∈ range p.numSnap, X r k s * conj (X c k s) = ∑ q, ∑ t, p.steer k r (src q) * b k q s * (conj (p.steer k c (src t)) * conj (b k t s)) := by
    intro s hs
    rw [hX r r.2 k hk s (mem_range.mp hs), hX c c.2 k hk s (mem_range.mp hs), map_sum, Finset.sum_mul_sum]
    apply Finset.sum_congr rfl
    intro q _
    apply Finset.sum_congr rfl
    intro t _
    rw [map_mul]
  rw [Finset.sum_congr rfl h1, Finset.sum_comm, Finset.sum_div]
  apply Finset.sum_congr rfl
  intro q _
  rw [Finset.sum_comm, Finset.sum_div]
  apply Finset.sum_congr rfl
  intro t _
  rw [Finset.sum_div, Finset.sum_div, Finset.mul_sum, Finset.sum_mul]
  apply Finset.sum_congr rfl
  intro s _
  unfold vec
  ring

theorem mapM_id_none (l : List (Option ℝ)) : l.mapM id = none ↔ none ∈ l := by
  induction l with
  | nil => simp
  | cons a l ih =>
    cases a with
    | none => simp [List.mapM_cons]
    | some x =>
      cases hl : l.mapM id with
      | none => simp [List.mapM_cons, hl, ih.mp hl]
      | some v =>
        have : none ∉ l := fun h => by rw [ih.mpr h] at hl; exact nomatch hl
        simp [List.mapM_cons, hl, this]

theorem mean_none {l : List (Option ℝ)} (h : l ≠ []) : mean l = none ↔ none ∈ l := by
  unfold mean
  rw [if_neg h, Option.map_eq_none_iff, mapM_id_none]

/-- **C80** `K` plane waves from points of the grid without noise, the steering vectors and the sources linearly independent in every bin: the spectrum is infinite at a point exactly if in some
bin its steering vector is a combination of those of the waves; in particular it is infinite at the points of the waves. -/
theorem C80_peaks {p : Finder} (hb : p.bins ≠ []) {K : Nat} (hK : 1 ≤ K) {src : Fin K → Nat} {b : Nat → Fin K → Nat → ℂ} {X : Nat → Nat → Nat → ℂ} (hX : Waves p src b X)
    (hsrc : ∀ k ∈ p.bins, Distinct (b k) p.numSnap) (hA : ∀ k ∈ p.bins, ∀ y : Fin K → ℂ, (∀ i, i < p.M → ∑ q, p.steer k i (src q) * y q = 0) → y = 0)
    {w : Nat → Fin p.M → ℝ} {V : Nat → Fin p.M → Fin p.M → ℂ} (h : ∀ k ∈ p.bins, IsEigh (cov p X k) (w k) (V k)) :
    (∀ n, spectrum p K V n = none ↔ ∃ k ∈ p.bins, ∃ y : Fin K → ℂ, ∀ i, i < p.M → p.steer k i n = ∑ q, p.steer k i (src q) * y q) ∧ ∀ q, spectrum p K V (src q) = none := by
  have main : ∀ n, spectrum p K V n = none ↔ ∃ k ∈ p.bins, ∃ y : Fin K → ℂ, ∀ i, i < p.M → p.steer k i n = ∑ q, p.steer k i (src q) * y q := by
    intro n
    unfold spectrum
    rw [mean_none (by simpa using hb), List.mem_map]
    apply exists_congr
    intro k
    apply and_congr_right
    intro hk
    rw [C80_subspace hK (cov_waves hX hk) (definite_of_distinct (hsrc k hk)) _ (h k hk)]
    · apply exists_congr
      intro y
      constructor
      · intro hv i hi
        exact congrFun hv ⟨i, hi⟩
      · intro hv
        funext i
        exact hv i i.2
    · intro y hy
      exact hA k hk y fun i hi => congrFun hy ⟨i, hi⟩
  refine ⟨main, fun q => (main _).mpr ?_⟩
  obtain ⟨k, hk⟩ := List.exists_mem_of_ne_nil _ hb
  exact ⟨k, hk, fun t => if t = q then 1 else 0, fun i _ => by simp⟩

/-- **C80** Deviation: with as many sources as microphones or more, the whole spectrum is infinite. -/
theorem C80_many_deviation {p : Finder} {numSrc : Nat} (hn : p.M ≤ numSrc) (hM : 1 ≤ p.M) {C : Nat → Fin p.M → Fin p.M → ℂ} {w : Nat → Fin p.M → ℝ}
    {V : Nat → Fin p.M → Fin p.M → ℂ} (h : ∀ k ∈ p.bins, IsEigh (C k) (w k) (V k)) (n : Nat) : spectrum p numSrc V n = none := by
  unfold spectrum
  by_cases hb : p.bins = []
  · simp [hb, mean]
  · rw [mean_none (by simpa using hb), List.mem_map]
    obtain ⟨k, hk⟩ := List.exists_mem_of_ne_nil _ hb
    refine ⟨k, hk, ?_⟩
    rw [C80_value (by omega) (h k hk), if_pos]
    unfold noisePower
    rw [Finset.sum_eq_zero]
    intro i hi
    have := (mem_filter.mp hi).2
    omega

/-! ## Normalisation of the bins -/

theorem foldl_max_spec (l : List ℝ) (m : ℝ) : m ≤ l.foldl max m ∧ (∀ x ∈ l, x ≤ l.foldl max m) ∧ (l.foldl max m = m ∨ l.foldl max m ∈ l) := by
  induction l generalizing m with
  | nil => simp
  | cons a l ih =>
    obtain ⟨h1, h2, h3⟩ := ih (max m a)
    simp only [List.foldl_cons]
    refine ⟨(le_max_left _ _).trans h1, fun x hx => ?_, ?_⟩
    · rw [List.mem_cons] at hx
      rcases hx with rfl | hx
      · exact (le_max_right _ _).trans h1
      · exact h2 x hx
    · rcases h3 with h3 | h3
      · rw [h3]
        rcases max_choice m a with h | h
        · rw [h]; exact Or.inl rfl
        · rw [h]; exact Or.inr List.mem_cons_self
      · exact Or.inr (List.mem_cons_of_mem _ h3)

theorem mapM_some {f : Nat → Option ℝ} {g : Nat → ℝ} {l : List Nat} (h : ∀ n ∈ l, f n = some (g n)) : l.mapM f = some (l.map g) := by
  induction l with
  | nil => rfl
  | cons a l ih =>
    rw [List.mapM_cons, h a List.mem_cons_self, ih fun n hn => h n (List.mem_cons_of_mem _ hn)]
    rfl

/-- **C80** Normalised bins: if no value on the grid is infinite, every bin is divided by its greatest value on the grid, so that its values are at most one, one is reached, and the order of the
points is kept; the spectrum is the mean over the bins, and at most one. -/
theorem C80_normalised {p : Finder} (hb : p.bins ≠ []) {numSrc nPoints : Nat} (hn : 1 ≤ numSrc) (hN : 1 ≤ nPoints) {C : Nat → Fin p.M → Fin p.M → ℂ} {w : Nat → Fin p.M → ℝ}
    {V : Nat → Fin p.M → Fin p.M → ℂ} (h : ∀ k ∈ p.bins, IsEigh (C k) (w k) (V k)) {P : Nat → Nat → ℝ} (hP : ∀ k ∈ p.bins, ∀ n, n < nPoints → value numSrc (V k) (vec p k n) = some (P k n)) :
    ∃ T : Nat → ℝ, (∀ k ∈ p.bins, 0 < T k ∧ (∀ n, n < nPoints → P k n ≤ T k) ∧ ∃ n, n < nPoints ∧ P k n = T k) ∧
      ∀ n, n < nPoints → ∃ v, normSpectrum p numSrc nPoints V n = some v ∧ v = (p.bins.map fun k => P k n / T k).sum / p.bins.length ∧ 0 < v ∧ v ≤ 1 := by
  have hpos : ∀ k ∈ p.bins, ∀ n, n < nPoints → 0 < P k n := by
    intro k hk n hn'
    have hv := hP k hk n hn'
    rw [C80_value hn (h k hk)] at hv
    split at hv
    · exact nomatch hv
    · rename_i h0
      rw [Option.some.injEq] at hv
      rw [← hv]
      exact one_div_pos.mpr (lt_of_le_of_ne (noisePower_nonneg _ _ _) (Ne.symm h0))
  let T : Nat → ℝ := fun k => ((List.range nPoints).map (P k)).foldl max 0
  have htop : ∀ k ∈ p.bins, top p numSrc nPoints V k = some (T k) := by
    intro k hk
    unfold top
    rw [mapM_some fun n hn' => hP k hk n (List.mem_range.mp hn')]
    rfl
  have hT : ∀ k ∈ p.bins, 0 < T k ∧ (∀ n, n < nPoints → P k n ≤ T k) ∧ ∃ n, n < nPoints ∧ P k n = T k := by
    intro k hk
    obtain ⟨_, h2, h3⟩ := foldl_max_spec ((List.range nPoints).map (P k)) 0
    have hle : ∀ n, n < nPoints → P k n ≤ T k := fun n hn' => h2 _ (List.mem_map_of_mem (List.mem_range.mpr hn'))
    have hT0 : 0 < T k := lt_of_lt_of_le (hpos k hk 0 hN) (hle 0 hN)
    refine ⟨hT0, hle, ?_⟩
    rcases h3 with h3 | h3
    · exact absurd h3 hT0.ne'
    · obtain ⟨n, hn', he⟩ := List.mem_map.mp h3
      exact ⟨n, List.mem_range.mp hn', he⟩
  refine ⟨T, hT, fun n hn' => ?_⟩
  have hlen : (0 : ℝ) < p.bins.length := by exact_mod_cast List.length_pos_iff.mpr hb
  have hval : normSpectrum p numSrc nPoints V n = some ((p.bins.map fun k => P k n / T k).sum / p.bins.length) := by
    unfold normSpectrum mean
    rw [if_neg (by simpa using hb), List.mapM_map]
    rw [mapM_some (f := id ∘ fun k => normalised p numSrc nPoints V k n) (g := fun k => P k n / T k)]
    · simp
    · intro k hk
      simp only [Function.comp, id]
      unfold normalised
      rw [hP k hk n hn', htop k hk]
  refine ⟨_, hval, rfl, ?_, ?_⟩
  · apply div_pos _ hlen
    obtain ⟨k0, hk0⟩ := List.exists_mem_of_ne_nil _ hb
    have : (p.bins.map fun _ => (0 : ℝ)).sum < (p.bins.map fun k => P k n / T k).sum :=
      List.sum_lt_sum _ _ (fun k hk => (div_pos (hpos k hk n hn') (hT k hk).1).le) ⟨k0, hk0, div_pos (hpos k0 hk0 n hn') (hT k0 hk0).1⟩
    simpa using this
  · rw [div_le_one hlen]
    refine (list_sum_le _ _ (fun _ => 1) fun k hk => ?_).trans ?_
    · rw [div_le_one (hT k hk).1]
      exact (hT k hk).2.1 n hn'
    · rw [list_sum_const, one_mul]

/-! ## The hypotheses can be met -/

/-- One wave at a pair of microphones. -/
noncomputable def one : Nat → Nat → Nat → ℂ := fun i k _ => pair.steer k i 1

/-- The eigenvectors of the correlation matrix of one wave. -/
noncomputable def oneV (k : Nat) : Fin pair.M → Fin pair.M → ℂ := fun r i =>
  (if (i : Nat) = 0 ∧ (r : Nat) = 1 then -1 else 1) * pair.steer k r 1 / (Real.sqrt 2 : ℝ)

theorem one_eigh (k : Nat) : IsEigh (cov pair one k) (fun i => if (i : Nat) = 0 then 0 else 2) (oneV k) := by
  have hs : ∀ i, conj (pair.steer k i 1) * pair.steer k i 1 = 1 := fun i => by rw [← Complex.normSq_eq_conj_mul_self, steer_norm]; simp
  have h2 : ((Real.sqrt 2 : ℝ) : ℂ) * (Real.sqrt 2 : ℝ) = 2 := by
    rw [← Complex.ofReal_mul, Real.mul_self_sqrt (by norm_num)]; simp
  have h0 : ((Real.sqrt 2 : ℝ) : ℂ) ≠ 0 := by
    intro h; rw [h] at h2; norm_num at h2
  have e0 := hs 0
  have e1 := hs 1
  have hsum : ∀ f : Fin pair.M → ℂ, ∑ r, f r = f (0 : Fin 2) + f (1 : Fin 2) := fun f => Fin.sum_univ_two f
  have hV : ∀ r i : Fin 2, oneV k r i = (if (i : Nat) = 0 ∧ (r : Nat) = 1 then -1 else 1) * pair.steer k r 1 / (Real.sqrt 2 : ℝ) := fun _ _ => rfl
  have hC : ∀ r c : Fin 2, cov pair one k r c = pair.steer k r 1 * conj (pair.steer k c 1) := by
    intro r c
    have hS : pair.numSnap = 1 := rfl
    unfold cov
    rw [hS]
    simp [one]
  have hdiv : ∀ x y : ℂ, conj (x / ((Real.sqrt 2 : ℝ) : ℂ)) * (y / (Real.sqrt 2 : ℝ)) = conj x * y / 2 := by
    intro x y
    rw [map_div₀, Complex.conj_ofReal, div_mul_div_comm, h2]
  refine ⟨?_, ?_, ?_⟩
  · have hall : ∀ i j : Fin 2, ∑ r : Fin pair.M, conj (oneV k r i) * oneV k r j = if i = j then 1 else 0 := by
      intro i j
      rw [hsum, hV, hV, hV, hV, hdiv, hdiv]
      fin_cases i <;> fin_cases j <;> simp [e0, e1] <;> norm_num
    intro i j
    rw [hall i j]
    rfl
  · change ∀ r i : Fin 2, _
    intro r i
    rw [hsum, hC, hC, hV, hV, hV]
    fin_cases i
    · simp
      field_simp
      linear_combination (pair.steer k r 1) * (e0 - e1)
    · simp
      field_simp
      linear_combination (pair.steer k r 1) * (e0 + e1)
  · change Monotone (fun i : Fin 2 => if (i : Nat) = 0 then (0 : ℝ) else 2)
    intro i j hij
    fin_cases i <;> fin_cases j <;> simp at hij ⊢

/-- One wave: the spectrum is infinite at the point of the wave, and finite at a point of the grid with another phase. -/
example : spectrum pair 1 oneV 1 = none ∧ (spectrum pair 1 oneV 2 = none ↔ ∃ y : Fin 1 → ℂ, ∀ i, i < 2 → pair.steer 16 i 2 = ∑ q, pair.steer 16 i 1 * y q) := by
  have hX : Waves pair (K := 1) (fun _ => 1) (fun _ _ _ => 1) one := by
    intro i _ k _ s _
    simp [one]
  have h := C80_peaks (p := pair) (by simp [pair]) (le_refl 1) hX
    (by
      intro k _ y hy
      refine ⟨0, by simp [pair], ?_⟩
      simp only [Finset.univ_unique, Fin.default_eq_zero, mul_one, Finset.sum_singleton]
      intro h0
      apply hy
      funext q
      rw [Fin.fin_one_eq_zero q]
      exact h0)
    (by
      intro k _ y hy
      have h0 := hy 0 (by simp [pair])
      have hs := steer_norm pair k 0 1
      simp only [Finset.univ_unique, Fin.default_eq_zero, Finset.sum_singleton, mul_eq_zero] at h0
      rcases h0 with h0 | h0
      · rw [h0] at hs; simp at hs
      · funext q
        rw [Fin.fin_one_eq_zero q]
        exact h0)
    (fun k _ => one_eigh k)
  refine ⟨h.2 0, ?_⟩
  rw [h.1]
  simp [pair]

/-- Microphones with noise of different power that is not correlated: finite values. -/
example : ∃ T : Nat → ℝ, (∀ k ∈ pair.bins, 0 < T k ∧ (∀ n, n < 4 → (1 : ℝ) ≤ T k) ∧ ∃ n, n < 4 ∧ (1 : ℝ) = T k) ∧
    ∀ n, n < 4 → ∃ v, normSpectrum pair 1 4 (fun _ r i => if r = i then 1 else 0) n = some v ∧ v = (pair.bins.map fun k => 1 / T k).sum / pair.bins.length ∧ 0 < v ∧ v ≤ 1 := by
  have he : IsEigh (M := pair.M) (fun r c => if r = c then (((r : Nat) : ℝ) : ℂ) else 0) (fun i => ((i : Nat) : ℝ)) (fun r i => if r = i then 1 else 0) := by
    refine ⟨?_, ?_, ?_⟩
    · intro i j; simp [eq_comm]
    · intro r i
      by_cases h : r = i
      · subst h; simp
      · simp [h]
    · intro i j h
      exact Nat.cast_le.mpr h
  apply C80_normalised (P := fun _ _ => 1) (by simp [pair]) (le_refl 1) (by norm_num) (fun _ _ => he)
  intro k _ n _
  rw [C80_value (le_refl 1) he]
  have h1 : noisePower 1 (fun r i : Fin pair.M => if r = i then 1 else 0) (vec pair k n) = 1 := by
    unfold noisePower coef
    have : Finset.univ.filter (fun i : Fin pair.M => (i : Nat) + 1 < pair.M) = {⟨0, by simp [pair]⟩} := by
      ext i
      have hM : pair.M = 2 := rfl
      simp only [mem_filter, mem_univ, true_and, mem_singleton, Fin.ext_iff]
      omega
    rw [this, Finset.sum_singleton]
    simp [vec, steer_norm]
  rw [h1]
  simp

end Verif.Music
