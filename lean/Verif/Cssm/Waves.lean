import Verif.Cssm.Props
import Verif.Sweep.Measure
import Mathlib.Data.Fin.Rev

/-!
# C106: the spectrum of WAVES
-/

namespace Verif.Cssm

open Finset Complex Verif.Srp Verif.Py Verif.Music
open scoped ComplexConjugate

/-- Quadratic form. -/
noncomputable def quad {K : Nat} (R : Fin K → Fin K → ℂ) (y : Fin K → ℂ) : ℂ := ∑ q, ∑ t, conj (y q) * R q t * y t

/-- Correlations have no negative powers. -/
def Semi {K : Nat} (R : Fin K → Fin K → ℂ) : Prop := ∀ y, 0 ≤ (quad R y).re

section one

variable {M K : Nat} {C : Fin M → Fin M → ℂ} {A : Fin M → Fin K → ℂ} {R : Fin K → Fin K → ℂ} {sigma : ℝ} {w : Fin M → ℝ} {V : Fin M → Fin M → ℂ}

theorem eigen_ge (hC : WaveMatrix C A R sigma) (hR : Semi R) (h : IsEigh C w V) (j : Fin M) : 0 ≤ w j - sigma := by
  have h1 := congrArg Complex.re (eigen_quad hC h j)
  rw [Complex.ofReal_re] at h1
  rw [h1]
  exact hR _

theorem eigen_comb (hC : WaveMatrix C A R sigma) (h : IsEigh C w V) {j : Fin M} (hj : w j ≠ sigma) : ∃ y : Fin K → ℂ, ∀ r, V r j = ∑ q, A r q * y q := by
  have hj' : ((w j - sigma : ℝ) : ℂ) ≠ 0 := by exact_mod_cast sub_ne_zero.mpr hj
  refine ⟨((w j - sigma : ℝ) : ℂ)⁻¹ • fun q => ∑ t, R q t * dual A (fun r => V r j) t, fun r => ?_⟩
  have h1 := wave_apply hC (fun r => V r j) r
  rw [h.eigen] at h1
  have h2 := congrFun (map_smul (combMap A) ((w j - sigma : ℝ) : ℂ)⁻¹ fun q => ∑ t, R q t * dual A (fun r => V r j) t) r
  change (∑ q, A r q * (((w j - sigma : ℝ) : ℂ)⁻¹ • fun q => ∑ t, R q t * dual A (fun r => V r j) t) q) = ((w j - sigma : ℝ) : ℂ)⁻¹ * comb A (fun q => ∑ t, R q t * dual A (fun r => V r j) t) r at h2
  rw [h2, eq_comm, inv_mul_eq_iff_eq_mul₀ hj']
  push_cast
  linear_combination -h1

/-- Also if some sources are coherent, all but the `K` greatest eigenvalues are those of the noise. -/
theorem eigen_rest (hC : WaveMatrix C A R sigma) (hR : Semi R) (h : IsEigh C w V) {i : Fin M} (hi : (i : Nat) + K < M) : w i = sigma := by
  by_contra hne
  have hpos : 0 < w i - sigma := lt_of_le_of_ne (eigen_ge hC hR h i) fun h => hne (by linarith)
  have hex : ∀ j : {j : Fin M // i ≤ j}, ∃ y : Fin K → ℂ, ∀ r, V r j = ∑ q, A r q * y q := by
    intro j
    apply eigen_comb hC h
    have := h.ascending j.2
    intro hj
    linarith
  choose y hy using hex
  have hli : LinearIndependent ℂ (combMap A ∘ y) := by
    have := (orth_independent h.orth).comp (Subtype.val : {j : Fin M // i ≤ j} → Fin M) Subtype.val_injective
    convert this using 1
    funext j
    exact funext fun r => (hy j r).symm
  have hcard := (LinearIndependent.of_comp _ hli).fintype_card_le_finrank
  rw [Module.finrank_fin_fun, Fintype.card_subtype] at hcard
  have hc : (Finset.univ.filter fun j : Fin M => i ≤ j).card = M - i := by
    have : (Finset.univ.filter fun j : Fin M => i ≤ j) = Finset.Ici i := by ext j; simp
    rw [this, Fin.card_Ici]
  omega

theorem eigh_apply (h : IsEigh C w V) (u : Fin M → ℂ) (r : Fin M) : ∑ c, C r c * u c = ∑ i, V r i * (w i * coef V u i) := by
  rw [sum_congr rfl fun c _ => show C r c * u c = ∑ i, C r c * V c i * coef V u i by
    conv_lhs => rw [Orth.expand h.orth u c]
    rw [Finset.mul_sum]
    exact sum_congr rfl fun i _ => by ring]
  rw [Finset.sum_comm]
  apply sum_congr rfl
  intro i _
  rw [← Finset.sum_mul, h.eigen]
  ring

theorem quad_eigh (hC : WaveMatrix C A R sigma) (h : IsEigh C w V) (u : Fin M → ℂ) : quad R (dual A u) = ∑ i, ((w i - sigma : ℝ) : ℂ) * (conj (coef V u i) * coef V u i) := by
  have h1 : quad R (dual A u) = ∑ r, conj (u r) * comb A (fun q => ∑ t, R q t * dual A u t) r := by
    rw [comb_inner]
    unfold quad
    apply sum_congr rfl
    intro q _
    rw [Finset.mul_sum]
    exact sum_congr rfl fun t _ => by ring
  have h2 : ∀ r, comb A (fun q => ∑ t, R q t * dual A u t) r = ∑ i, V r i * (((w i - sigma : ℝ) : ℂ) * coef V u i) := by
    intro r
    have e1 := wave_apply hC u r
    rw [eigh_apply h u r] at e1
    have e2 := Orth.expand h.orth u r
    have e3 : ∑ i, V r i * (((w i - sigma : ℝ) : ℂ) * coef V u i) = (∑ i, V r i * (w i * coef V u i)) - sigma * ∑ i, V r i * coef V u i := by
      rw [Finset.mul_sum, ← Finset.sum_sub_distrib]
      exact sum_congr rfl fun i _ => by push_cast; ring
    rw [e3, ← e2, e1]
    ring
  rw [h1]
  simp only [h2, Finset.mul_sum]
  rw [Finset.sum_comm]
  apply sum_congr rfl
  intro i _
  rw [sum_congr rfl fun r _ => show conj (u r) * (V r i * (((w i - sigma : ℝ) : ℂ) * coef V u i)) = ((w i - sigma : ℝ) : ℂ) * coef V u i * (conj (u r) * V r i) by ring, ← Finset.mul_sum]
  have : ∑ r, conj (u r) * V r i = conj (coef V u i) := by
    unfold coef
    rw [map_sum]
    exact sum_congr rfl fun r _ => by rw [map_mul, Complex.conj_conj, mul_comm]
  rw [this]
  ring

/-- The adjoint of independent columns reaches every vector. -/
theorem dual_surj (hA : ∀ y : Fin K → ℂ, (fun r => ∑ q, A r q * y q) = 0 → y = 0) (z : Fin K → ℂ) : ∃ u : Fin M → ℂ, dual A u = z := by
  let L : (Fin K → ℂ) →ₗ[ℂ] (Fin K → ℂ) :=
    { toFun := fun y => dual A (comb A y)
      map_add' := fun x y => by
        funext q
        have : comb A (x + y) = comb A x + comb A y := (combMap A).map_add x y
        simp only [this, dual, Pi.add_apply, mul_add, Finset.sum_add_distrib]
      map_smul' := fun c y => by
        funext q
        have : comb A (c • y) = c • comb A y := (combMap A).map_smul c y
        simp only [this, dual, Pi.smul_apply, smul_eq_mul, RingHom.id_apply, Finset.mul_sum]
        exact sum_congr rfl fun r _ => by ring }
  have hinj : Function.Injective L := by
    rw [injective_iff_map_eq_zero]
    intro y hy
    apply hA
    have h1 := comb_inner A (comb A y) y
    have h0 : ∀ q, dual A (comb A y) q = 0 := fun q => congrFun hy q
    simp only [h0, map_zero, zero_mul, Finset.sum_const_zero] at h1
    have h2 : ((∑ r, normSq (comb A y r) : ℝ) : ℂ) = 0 := by
      rw [← h1]
      push_cast
      exact sum_congr rfl fun r _ => by rw [← Complex.mul_conj, mul_comm]
    have h3 : ∑ r, normSq (comb A y r) = 0 := by exact_mod_cast h2
    rw [Finset.sum_eq_zero_iff_of_nonneg fun _ _ => normSq_nonneg _] at h3
    funext r
    exact normSq_eq_zero.mp (h3 r (mem_univ r))
  obtain ⟨y, hy⟩ := LinearMap.surjective_of_injective hinj z
  exact ⟨comb A y, hy⟩

end one

/-! ## One block -/

theorem block_ok {p : Finder} {K : Nat} (hKM : K < p.M) {src : Fin K → Nat} {C : Fin p.M → Fin p.M → ℂ} {R : Fin K → Fin K → ℂ} {sigma : ℝ} (hs : 0 ≤ sigma) {k f0 : Nat}
    (hC : WaveMatrix C (fun r q => vec p k (src q) r) R sigma) (hR : Semi R) {eigh : (Fin p.M → Fin p.M → ℂ) → (Fin p.M → ℝ) × (Fin p.M → Fin p.M → ℂ)}
    (he : IsEigh C (eigh C).1 (eigh C).2) {l : List Nat} {T : Matrix (Fin p.M) (Fin p.M) ℂ} (hf : focus p k f0 l = .ok T)
    (hT : ∀ r q, ∑ c, T r c * vec p k (src q) c = vec p f0 (src q) r) :
    ∃ B : Fin p.M → Fin K → ℂ, block p K eigh C k f0 l = .ok B ∧ (∀ s, ∃ y : Fin K → ℂ, ∀ r, B r s = ∑ q, vec p f0 (src q) r * y q) ∧
      ∀ u : Fin p.M → ℂ, (∀ s, ∑ r, conj (u r) * B r s = 0) → quad R (dual (fun r q => vec p f0 (src q) r) u) = 0 := by
  set w := (eigh C).1 with hw
  set V := (eigh C).2 with hV
  have hwn : w ⟨p.M - K - 1, by omega⟩ = sigma := eigen_rest hC hR he (by simp only; omega)
  let P : Fin p.M → ℝ := fun i => (w i - sigma) / Real.sqrt (w i * sigma + 1)
  have hP : ∀ i, P i = 0 → w i = sigma := by
    intro i hi
    have h1 := eigen_ge hC hR he i
    have h2 : 0 < Real.sqrt (w i * sigma + 1) := by
      apply Real.sqrt_pos.mpr
      have : 0 ≤ w i * sigma := mul_nonneg (by linarith) hs
      linarith
    rcases div_eq_zero_iff.mp hi with h | h
    · linarith
    · exact absurd h h2.ne'
  refine ⟨fun r s => ∑ c, T r c * (V c ⟨p.M - K + s, by omega⟩ * ((P ⟨p.M - K + s, by omega⟩ : ℝ) : ℂ)), ?_, ?_, ?_⟩
  · unfold block
    simp only [hf, bind, Except.bind]
    rw [dif_pos hKM]
    simp only [← hw, ← hV, hwn]
    rfl
  · intro s
    set i : Fin p.M := ⟨p.M - K + s, by omega⟩
    by_cases h0 : w i = sigma
    · refine ⟨0, fun r => ?_⟩
      have : P i = 0 := by
        change (w i - sigma) / _ = 0
        rw [h0, sub_self, zero_div]
      change ∑ c, T r c * (V c i * ((P i : ℝ) : ℂ)) = _
      rw [this]
      simp
    · obtain ⟨y, hy⟩ := eigen_comb hC he h0
      refine ⟨fun q => y q * (P i : ℂ), fun r => ?_⟩
      change ∑ c, T r c * (V c i * ((P i : ℝ) : ℂ)) = _
      rw [sum_congr rfl fun c _ => show T r c * (V c i * ((P i : ℝ) : ℂ)) = ∑ q, T r c * vec p k (src q) c * (y q * (P i : ℂ)) by
        rw [hy c, Finset.sum_mul, Finset.mul_sum]
        exact sum_congr rfl fun q _ => by ring]
      rw [Finset.sum_comm]
      apply sum_congr rfl
      intro q _
      rw [← hT r q, Finset.sum_mul]
  · intro u hu
    let u' : Fin p.M → ℂ := fun c => ∑ r, conj (T r c) * u r
    have hd : dual (fun r q => vec p f0 (src q) r) u = dual (fun r q => vec p k (src q) r) u' := by
      funext q
      unfold dual
      simp only [u', Finset.mul_sum]
      rw [Finset.sum_comm]
      apply sum_congr rfl
      intro r _
      rw [← hT r q, map_sum, Finset.sum_mul]
      exact sum_congr rfl fun c _ => by rw [map_mul]; ring
    rw [hd, quad_eigh hC he]
    apply Finset.sum_eq_zero
    intro i _
    by_cases hi : (i : Nat) + K < p.M
    · rw [eigen_rest hC hR he hi]
      simp
    · have hii : i = ⟨p.M - K + (⟨i - (p.M - K), by omega⟩ : Fin K), by simp only; omega⟩ := by
        apply Fin.ext
        simp only
        omega
      have h1 := hu ⟨i - (p.M - K), by omega⟩
      beta_reduce at h1
      rw [← hii] at h1
      have h2 : ∑ r, conj (u r) * ∑ c, T r c * (V c i * ((P i : ℝ) : ℂ)) = ((P i : ℝ) : ℂ) * conj (coef V u' i) := by
        unfold coef
        simp only [u', Finset.mul_sum, map_sum]
        rw [Finset.sum_comm]
        apply sum_congr rfl
        intro c _
        apply sum_congr rfl
        intro r _
        rw [map_mul, map_mul, Complex.conj_conj, Complex.conj_conj]
        ring
      rw [h2] at h1
      rcases mul_eq_zero.mp h1 with h | h
      · rw [hP i (by exact_mod_cast h)]
        simp
      · rw [h]
        simp

/-! ## The matrix -/

/-- What the routine for the singular values promises of the left vectors: they are orthonormal, and eigenvectors of `Z Z^H` for the squares of the singular values, which decrease. -/
structure IsLeft {M : Nat} {ι : Type} [Fintype ι] (Z : Fin M → ι → ℂ) (U : Fin M → Fin M → ℂ) : Prop where
  orth : Orth U
  eigen : ∃ s : Fin M → ℝ, (∀ i, 0 ≤ s i) ∧ Antitone s ∧ ∀ r i, ∑ c, (∑ q, Z r q * conj (Z c q)) * U c i = ((s i ^ 2 : ℝ) : ℂ) * U r i

theorem sum_rev {M : Nat} (f : Fin M → ℂ) : ∑ i : Fin M, f i.rev = ∑ i, f i := Fintype.sum_equiv Fin.revPerm _ _ fun _ => rfl

theorem spectrumOf_rev {M K : Nat} (hK : 1 ≤ K) (U : Fin M → Fin M → ℂ) (a : Fin M → ℂ) :
    spectrumOf (Finset.univ.filter fun i : Fin M => K ≤ (i : Nat)) U a = spectrumOf (noise M K) (fun r i => U r i.rev) a := by
  have e : denomOf (Finset.univ.filter fun i : Fin M => K ≤ (i : Nat)) U a = denomOf (noise M K) (fun r i => U r i.rev) a := by
    unfold denomOf
    refine sum_congr rfl fun r _ => congrArg _ (sum_congr rfl fun c _ => congrArg (· * a c) ?_)
    unfold noise
    rw [Finset.sum_filter, Finset.sum_filter, ← sum_rev]
    apply sum_congr rfl
    intro i _
    have : K ≤ ((i.rev : Fin M) : Nat) ↔ K ≠ 0 ∧ (i : Nat) + K < M := by
      rw [Fin.val_rev]
      omega
    by_cases h : K ≠ 0 ∧ (i : Nat) + K < M
    · rw [if_pos (this.mpr h), if_pos h]
    · rw [if_neg (fun hh => h (this.mp hh)), if_neg h]
  unfold spectrumOf
  rw [e]

theorem IsLeft.eigh {M : Nat} {ι : Type} [Fintype ι] {Z : Fin M → ι → ℂ} {U : Fin M → Fin M → ℂ} (h : IsLeft Z U) :
    ∃ w, IsEigh (fun r c => ∑ q, Z r q * conj (Z c q)) w fun r i => U r i.rev := by
  obtain ⟨s, h0, ha, he⟩ := h.eigen
  refine ⟨fun i => s i.rev ^ 2, ?_, ?_, ?_⟩
  · intro i j
    rw [h.orth i.rev j.rev]
    simp only [Fin.rev_inj]
  · intro r i
    exact he r i.rev
  · intro i j hij
    have := ha (Fin.rev_le_rev.mpr hij)
    exact pow_le_pow_left₀ (h0 _) this 2

theorem total_quad (p : Finder) {K : Nat} (R : Nat → Fin K → Fin K → ℂ) (y : Fin K → ℂ) : (∑ q, ∑ t, conj (y q) * total p R q t * y t) = ∑ j ∈ range p.bins.length, quad (R (p.bins.getD j 0)) y := by
  unfold quad total
  rw [Finset.sum_comm (s := range _)]
  apply sum_congr rfl
  intro q _
  rw [Finset.sum_comm (s := range _)]
  apply sum_congr rfl
  intro t _
  rw [Finset.mul_sum, Finset.sum_mul]

/-- Left singular vectors of a matrix whose columns are combinations of independent vectors, and orthogonal only to what those are orthogonal to. -/
theorem left_shows {M K : Nat} (hK : 1 ≤ K) {ι : Type} [Fintype ι] {Z : Fin M → ι → ℂ} {U : Fin M → Fin M → ℂ} (h : IsLeft Z U) {A : Fin M → Fin K → ℂ}
    (hA : ∀ y : Fin K → ℂ, (fun r => ∑ q, A r q * y q) = 0 → y = 0) (hZ : ∀ s, ∃ y : Fin K → ℂ, ∀ r, Z r s = ∑ q, A r q * y q)
    (hfull : ∀ u : Fin M → ℂ, (∀ s, ∑ r, conj (u r) * Z r s = 0) → dual A u = 0) (a : Fin M → ℂ) :
    spectrumOf (Finset.univ.filter fun i : Fin M => K ≤ (i : Nat)) U a = none ↔ ∃ y : Fin K → ℂ, a = fun r => ∑ q, A r q * y q := by
  choose Y hY using hZ
  obtain ⟨w, hw⟩ := h.eigh
  have hwave : WaveMatrix (fun r c => ∑ s, Z r s * conj (Z c s)) A (fun q t => ∑ s, Y s q * conj (Y s t)) 0 := by
    intro r c
    simp only [Complex.ofReal_zero, ite_self, add_zero]
    simp only [Finset.mul_sum, Finset.sum_mul]
    rw [sum_congr rfl fun q _ => Finset.sum_comm, Finset.sum_comm]
    apply sum_congr rfl
    intro s _
    rw [hY s r, hY s c, map_sum, Finset.sum_mul_sum]
    exact sum_congr rfl fun q _ => sum_congr rfl fun t _ => by rw [map_mul]; ring
  have hdef : Definite fun q t => ∑ s, Y s q * conj (Y s t) := by
    intro y hy
    have e : (∑ q, ∑ t, conj (y q) * (∑ s, Y s q * conj (Y s t)) * y t) = ((∑ s, normSq (∑ q, conj (y q) * Y s q) : ℝ) : ℂ) := by
      push_cast
      simp only [Finset.mul_sum, Finset.sum_mul]
      rw [sum_congr rfl fun q _ => Finset.sum_comm, Finset.sum_comm]
      apply sum_congr rfl
      intro s _
      rw [← Complex.mul_conj, map_sum, Finset.sum_mul_sum]
      exact sum_congr rfl fun q _ => sum_congr rfl fun t _ => by rw [map_mul, Complex.conj_conj]; ring
    rw [e, Complex.ofReal_re]
    by_contra hle
    have h0 : ∑ s, normSq (∑ q, conj (y q) * Y s q) = 0 := le_antisymm (not_lt.mp hle) (Finset.sum_nonneg fun _ _ => normSq_nonneg _)
    rw [Finset.sum_eq_zero_iff_of_nonneg fun _ _ => normSq_nonneg _] at h0
    obtain ⟨u, hu⟩ := dual_surj hA y
    apply hy
    rw [← hu]
    apply hfull
    intro s
    have h1 := comb_inner A u (Y s)
    rw [hu, normSq_eq_zero.mp (h0 s (mem_univ s))] at h1
    rw [← h1]
    exact sum_congr rfl fun r _ => by rw [hY s r]; rfl
  rw [spectrumOf_rev hK, spectrumOf_eq hK hw.orth]
  exact C80_subspace hK hwave hdef hA hw a

theorem wavesStep_shows {p : Finder} {K : Nat} (hK : 1 ≤ K) (hKM : K < p.M) {src : Fin K → Nat} {X : Nat → Nat → Nat → ℂ} {R : Nat → Fin K → Fin K → ℂ} {sigma : Nat → ℝ}
    (hs : ∀ k ∈ p.bins, 0 ≤ sigma k) (hC : ∀ k ∈ p.bins, WaveMatrix (cov p X k) (fun r q => vec p k (src q) r) (R k) (sigma k)) (hsemi : ∀ k ∈ p.bins, Semi (R k))
    (hR : Definite (total p R)) {f0 : Nat} (hA : ∀ y : Fin K → ℂ, (∀ i, i < p.M → ∑ q, p.steer f0 i (src q) * y q = 0) → y = 0)
    {eigh : (Fin p.M → Fin p.M → ℂ) → (Fin p.M → ℝ) × (Fin p.M → Fin p.M → ℂ)} (he : EighSpec eigh)
    {svd : (N : Nat) → (Fin p.M → Fin N × Fin K → ℂ) → Fin p.M → Fin p.M → ℂ} (hsvd : ∀ N Z, IsLeft Z (svd N Z)) {bands : List (Nat × List Nat)} (hb : Ready p src bands) :
    ∃ B, blocks p K eigh (fun j => covLoop p X (p.bins.getD j 0)) f0 bands = .ok B ∧
      Shows p src f0 fun n => spectrumOf (Finset.univ.filter fun i : Fin p.M => K ≤ (i : Nat)) (svd B.length fun r q => B[q.1] r q.2) (vec p f0 n) := by
  obtain ⟨T, hT⟩ := hb.focus f0
  have hmem : ∀ j, j < bands.length → p.bins.getD j 0 ∈ p.bins := by
    intro j hj
    rw [List.getD_eq_getElem _ _ (by rw [← hb.len]; exact hj)]
    exact List.getElem_mem _
  have key : ∀ j, ∃ B : Fin p.M → Fin K → ℂ, j < bands.length →
      block p K eigh (covLoop p X (p.bins.getD j 0)) (bands.getD j (0, [])).1 f0 (bands.getD j (0, [])).2 = .ok B ∧ (∀ s, ∃ y : Fin K → ℂ, ∀ r, B r s = ∑ q, vec p f0 (src q) r * y q) ∧
      ∀ u : Fin p.M → ℂ, (∀ s, ∑ r, conj (u r) * B r s = 0) → quad (R (p.bins.getD j 0)) (dual (fun r q => vec p f0 (src q) r) u) = 0 := by
    intro j
    by_cases hj : j < bands.length
    · have hk : (bands.getD j (0, [])).1 = p.bins.getD j 0 := by rw [getD_map_fst, hb.bins]
      have hC' : WaveMatrix (covLoop p X (p.bins.getD j 0)) (fun r q => vec p (p.bins.getD j 0) (src q) r) (R (p.bins.getD j 0)) (sigma (p.bins.getD j 0)) := by
        intro r c
        rw [C80_loop]
        exact hC _ (hmem j hj) r c
      have h1 := (hT j hj).1
      rw [hk] at h1 ⊢
      obtain ⟨B, e, hB⟩ := block_ok hKM (hs _ (hmem j hj)) hC' (hsemi _ (hmem j hj)) (he _ (cov_herm p X _)) h1 (hT j hj).2
      exact ⟨B, fun _ => ⟨e, hB⟩⟩
    · exact ⟨0, fun h => absurd h hj⟩
  choose B hB using key
  refine ⟨(List.range bands.length).map B, ?_, ?_⟩
  · unfold blocks
    exact Sweep.mapM_ok _ fun j hj => (hB j (List.mem_range.mp hj)).1
  · intro n
    beta_reduce
    have hlen : ((List.range bands.length).map B).length = bands.length := by simp
    rw [left_shows hK (hsvd _ _) (A := fun r q => vec p f0 (src q) r) (fun y hy => hA y fun i hi => congrFun hy ⟨i, hi⟩)]
    · exact shows_iff
    · rintro ⟨j, s⟩
      obtain ⟨y, hy⟩ := (hB j (by have := j.2; omega)).2.1 s
      refine ⟨y, fun r => ?_⟩
      simp only [Fin.getElem_fin, List.getElem_map, List.getElem_range]
      exact hy r
    · intro u hu
      by_contra hne
      have hpos := hR _ hne
      rw [total_quad] at hpos
      rw [Finset.sum_eq_zero] at hpos
      · simp at hpos
      · intro j hj
        rw [mem_range, ← hb.len] at hj
        apply (hB j hj).2.2
        intro s
        have := hu (⟨j, by rw [hlen]; exact hj⟩, s)
        simp only [Fin.getElem_fin, List.getElem_map, List.getElem_range] at this
        exact this

theorem wavesLoop_shows {p : Finder} {K : Nat} (hK : 1 ≤ K) (hKM : K < p.M) {src : Fin K → Nat} {X : Nat → Nat → Nat → ℂ} {R : Nat → Fin K → Fin K → ℂ} {sigma : Nat → ℝ}
    (hs : ∀ k ∈ p.bins, 0 ≤ sigma k) (hC : ∀ k ∈ p.bins, WaveMatrix (cov p X k) (fun r q => vec p k (src q) r) (R k) (sigma k)) (hsemi : ∀ k ∈ p.bins, Semi (R k))
    (hR : Definite (total p R)) {f0 : Nat} (hA : ∀ y : Fin K → ℂ, (∀ i, i < p.M → ∑ q, p.steer f0 i (src q) * y q = 0) → y = 0)
    {eigh : (Fin p.M → Fin p.M → ℂ) → (Fin p.M → ℝ) × (Fin p.M → Fin p.M → ℂ)} (he : EighSpec eigh)
    {svd : (N : Nat) → (Fin p.M → Fin N × Fin K → ℂ) → Fin p.M → Fin p.M → ℂ} (hsvd : ∀ N Z, IsLeft Z (svd N Z)) {find : (Nat → Option ℝ) → List Nat}
    (hf : ∀ vals, Shows p src f0 vals → Useful p src (find vals)) (iter : Nat) : ∀ (bands : List (Nat × List Nat)) (v : Nat → Option ℝ), Ready p src bands →
    ∃ vals, wavesLoop p K find eigh svd (fun j => covLoop p X (p.bins.getD j 0)) f0 (iter + 1) bands v = .ok vals ∧ Shows p src f0 vals := by
  induction iter with
  | zero =>
    intro bands v hb
    obtain ⟨B, e, h⟩ := wavesStep_shows hK hKM hs hC hsemi hR hA he hsvd hb
    refine ⟨_, ?_, h⟩
    unfold wavesLoop
    rw [e]
    rfl
  | succ iter ih =>
    intro bands v hb
    obtain ⟨B, e, h⟩ := wavesStep_shows hK hKM hs hC hsemi hR hA he hsvd hb
    obtain ⟨vals, e2, h2⟩ := ih _ (fun n => spectrumOf (Finset.univ.filter fun i : Fin p.M => K ≤ (i : Nat)) (svd B.length fun r q => B[q.1] r q.2) (vec p f0 n)) (hb.refresh (hf _ h))
    refine ⟨vals, ?_, h2⟩
    unfold wavesLoop
    rw [e]
    exact e2

/-- **C106** WAVES, also with noise of any power in each band that is not correlated between the microphones. The sources may be coherent in each band if they are not in all bands together. Under the same
conditions on the search for peaks as for CSSM, and with fewer sources than microphones, the values are infinite exactly at the points whose steering vector at the reference is a combination of those of the sources. -/
theorem C106_waves {p : Finder} (hp : p.bins ≠ []) {K : Nat} (hK : 1 ≤ K) (hKM : K < p.M) {src : Fin K → Nat} {X : Nat → Nat → Nat → ℂ} {R : Nat → Fin K → Fin K → ℂ} {sigma : Nat → ℝ}
    (hs : ∀ k ∈ p.bins, 0 ≤ sigma k) (hC : ∀ k ∈ p.bins, WaveMatrix (cov p X k) (fun r q => vec p k (src q) r) (R k) (sigma k)) (hsemi : ∀ k ∈ p.bins, Semi (R k)) (hR : Definite (total p R))
    (hA : ∀ k ∈ p.bins, ∀ y : Fin K → ℂ, (∀ i, i < p.M → ∑ q, p.steer k i (src q) * y q = 0) → y = 0)
    {eigh : (Fin p.M → Fin p.M → ℂ) → (Fin p.M → ℝ) × (Fin p.M → Fin p.M → ℂ)} (he : EighSpec eigh)
    {svd : (N : Nat) → (Fin p.M → Fin N × Fin K → ℂ) → Fin p.M → Fin p.M → ℂ} (hsvd : ∀ N Z, IsLeft Z (svd N Z)) {find : (Nat → Option ℝ) → List Nat}
    (hstart : ∀ k ∈ p.bins, Useful p src (find (power p X k))) (hf : ∀ k ∈ p.bins, ∀ vals, Shows p src k vals → Useful p src (find vals)) {iter : Nat} (hi : 1 ≤ iter) :
    ∃ f0 ∈ p.bins, (∀ k ∈ p.bins, loudness p X k ≤ loudness p X f0) ∧ ∃ vals, waves p K iter find eigh svd X = .ok vals ∧ Shows p src f0 vals := by
  have hmem : ∀ j, j < p.bins.length → p.bins.getD j 0 ∈ p.bins := fun j hj => by
    rw [List.getD_eq_getElem _ _ hj]
    exact List.getElem_mem _
  have hready : Ready p src (kept p K find fun j => covLoop p X (p.bins.getD j 0)) := by
    apply kept_ready
    intro j hj
    rw [scan_power]
    exact hstart _ (hmem j hj)
  obtain ⟨j, hj, eref, hmax, -⟩ := (C106_reference p X p.bins).2 hp
  refine ⟨p.bins.getD j 0, hmem j hj, ?_, ?_⟩
  · intro k hk
    obtain ⟨i, hi, rfl⟩ := List.getElem_of_mem hk
    rw [← List.getD_eq_getElem p.bins 0 hi]
    exact hmax i hi
  · obtain ⟨m, rfl⟩ := Nat.exists_eq_add_of_le' hi
    obtain ⟨vals, e, hs⟩ := wavesLoop_shows hK hKM hs hC hsemi hR (hA _ (hmem j hj)) he hsvd (hf _ (hmem j hj)) m _
      (scan p (covLoop p X (p.bins.getD (p.bins.length - 1) 0)) (p.bins.getD (p.bins.length - 1) 0)) hready
    refine ⟨vals, ?_, hs⟩
    unfold waves
    simp only
    rw [hready.bins, eref]
    exact e

end Verif.Cssm
