import Verif.Tops.Model
import Verif.Cssm.More

/-!
# C107: TOPS
-/

namespace Verif.Tops

open Finset Complex Verif.Srp Verif.Py Verif.Music Verif.Cssm
open scoped ComplexConjugate

/-- What the routine for the singular values promises of the last one, for a matrix with not more rows than columns: the least gain of the adjoint. -/
structure IsLeast {K : Nat} {ι : Type} [Fintype ι] (D : Fin K → ι → ℂ) (s : ℝ) : Prop where
  nonneg : 0 ≤ s
  le : ∀ u : Fin K → ℂ, s ^ 2 * ∑ r, normSq (u r) ≤ ∑ c, normSq (∑ r, conj (u r) * D r c)
  attained : ∃ u : Fin K → ℂ, u ≠ 0 ∧ s ^ 2 * ∑ r, normSq (u r) = ∑ c, normSq (∑ r, conj (u r) * D r c)

theorem IsLeast.zero_iff {K : Nat} {ι : Type} [Fintype ι] {D : Fin K → ι → ℂ} {s : ℝ} (h : IsLeast D s) : s = 0 ↔ ∃ u : Fin K → ℂ, u ≠ 0 ∧ ∀ c, ∑ r, conj (u r) * D r c = 0 := by
  constructor
  · rintro rfl
    obtain ⟨u, hu, e⟩ := h.attained
    refine ⟨u, hu, fun c => ?_⟩
    have e' : ∑ c, normSq (∑ r, conj (u r) * D r c) = 0 := by rw [← e]; ring
    rw [Finset.sum_eq_zero_iff_of_nonneg fun _ _ => normSq_nonneg _] at e'
    exact normSq_eq_zero.mp (e' c (mem_univ c))
  · rintro ⟨u, hu, e⟩
    have h1 := h.le u
    simp only [e, map_zero, Finset.sum_const_zero] at h1
    have h2 : 0 < ∑ r, normSq (u r) := by
      obtain ⟨r, hr⟩ := Function.ne_iff.mp hu
      exact Finset.sum_pos' (fun _ _ => normSq_nonneg _) ⟨r, mem_univ r, normSq_pos.mpr hr⟩
    have h3 : s ^ 2 ≤ 0 := by
      by_contra hlt
      push Not at hlt
      have := mul_pos hlt h2
      linarith
    exact pow_eq_zero_iff (two_ne_zero) |>.mp (le_antisymm h3 (sq_nonneg s))

/-! ## The subspaces -/

/-- The vector is a combination of the steering vectors of the sources at a bin (specification). -/
def Spanned (p : Finder) {K : Nat} (src : Fin K → Nat) (k : Nat) (v : Nat → ℂ) : Prop := ∃ y : Fin K → ℂ, ∀ m, m < p.M → v m = ∑ q, p.steer k m (src q) * y q

/-- Orthogonal to the noise means spanned by the sources. -/
theorem noise_iff {p : Finder} {K : Nat} (hK : 1 ≤ K) {src : Fin K → Nat} {k : Nat} {C : Fin p.M → Fin p.M → ℂ} {R : Fin K → Fin K → ℂ} {sigma : ℝ}
    (hC : WaveMatrix C (fun r q => vec p k (src q) r) R sigma) (hR : Definite R) (hA : ∀ y : Fin K → ℂ, (∀ i, i < p.M → ∑ q, p.steer k i (src q) * y q = 0) → y = 0)
    {w : Fin p.M → ℝ} {V : Fin p.M → Fin p.M → ℂ} (h : IsEigh C w V) (v : Nat → ℂ) :
    (∀ i : Fin p.M, (i : Nat) + K < p.M → ∑ m : Fin p.M, conj (V m i) * v m = 0) ↔ Spanned p src k v := by
  have h1 := C80_subspace hK hC hR (fun y hy => hA y fun i hi => congrFun hy ⟨i, hi⟩) h (fun m => v m)
  rw [← spectrumOf_eq hK h.orth] at h1
  have h2 : spectrumOf (noise p.M K) V (fun m : Fin p.M => v m) = none ↔ ∀ i : Fin p.M, (i : Nat) + K < p.M → coef V (fun m : Fin p.M => v m) i = 0 := by
    have h3 : ‖denomOf (noise p.M K) V (fun m : Fin p.M => v m)‖ = 0 ↔ ∀ i : Fin p.M, (i : Nat) + K < p.M → coef V (fun m : Fin p.M => v m) i = 0 := by
      rw [denomOf_eq, norm_eq_zero, Complex.ofReal_eq_zero, Finset.sum_eq_zero_iff_of_nonneg fun _ _ => normSq_nonneg _]
      simp only [noise, mem_filter, mem_univ, true_and, normSq_eq_zero]
      exact ⟨fun h i hi => h i ⟨by omega, hi⟩, fun h i hi => h i hi.2⟩
    rw [← h3]
    unfold spectrumOf
    split <;> simp_all
  rw [h2] at h1
  refine h1.trans (exists_congr fun y => ⟨fun e m hm => congrFun e ⟨m, hm⟩, fun e => funext fun m => e m m.2⟩)

/-- The signal space is spanned by the sources. -/
theorem signal_iff {p : Finder} {K : Nat} (hK : 1 ≤ K) (hKM : K < p.M) {src : Fin K → Nat} {k : Nat} {C : Fin p.M → Fin p.M → ℂ} {R : Fin K → Fin K → ℂ} {sigma : ℝ}
    (hC : WaveMatrix C (fun r q => vec p k (src q) r) R sigma) (hR : Definite R) (hA : ∀ y : Fin K → ℂ, (∀ i, i < p.M → ∑ q, p.steer k i (src q) * y q = 0) → y = 0)
    {w : Fin p.M → ℝ} {V : Fin p.M → Fin p.M → ℂ} (h : IsEigh C w V) (v : Nat → ℂ) :
    (∃ u : Fin K → ℂ, ∀ m : Fin p.M, v m = ∑ r : Fin K, V m ⟨p.M - K + r, by omega⟩ * u r) ↔ Spanned p src k v := by
  rw [← noise_iff hK hC hR hA h]
  constructor
  · rintro ⟨u, hu⟩ i hi
    simp only [hu, Finset.mul_sum]
    rw [Finset.sum_comm]
    apply Finset.sum_eq_zero
    intro r _
    rw [sum_congr rfl fun m _ => show conj (V m i) * (V m ⟨p.M - K + r, by omega⟩ * u r) = conj (V m i) * V m ⟨p.M - K + r, by omega⟩ * u r by ring, ← Finset.sum_mul, h.orth, if_neg, zero_mul]
    intro he
    have := congrArg Fin.val he
    simp only at this
    omega
  · intro hn
    refine ⟨fun r => coef V (fun m => v m) ⟨p.M - K + r, by omega⟩, fun m => ?_⟩
    have h1 := Orth.expand h.orth (fun m : Fin p.M => v m) m
    rw [h1, ← Finset.sum_subset (Finset.subset_univ (Finset.univ.filter fun i : Fin p.M => p.M ≤ (i : Nat) + K))]
    · symm
      apply Finset.sum_bij (fun (r : Fin K) _ => (⟨p.M - K + r, by omega⟩ : Fin p.M))
      · intro r _
        simp only [mem_filter, mem_univ, true_and]
        omega
      · intro a _ b _ hab
        have := congrArg Fin.val hab
        simp only at this
        apply Fin.ext
        omega
      · intro i hi
        simp only [mem_filter, mem_univ, true_and] at hi
        exact ⟨⟨i - (p.M - K), by omega⟩, mem_univ _, Fin.ext (by simp only; omega)⟩
      · intro r _
        rfl
    · intro i _ hi
      simp only [mem_filter, mem_univ, true_and, not_le] at hi
      have : coef V (fun m : Fin p.M => v m) i = 0 := hn i hi
      rw [this, mul_zero]

/-! ## The test -/

/-- The number of the band with the greatest sum of magnitudes. -/
structure IsReference (p : Finder) (X : Nat → Nat → Nat → ℂ) (j : Nat) : Prop where
  lt : j < p.bins.length
  greatest : ∀ i, i < p.bins.length → loudness p X (p.bins.getD i 0) ≤ loudness p X (p.bins.getD j 0)
  first : ∀ i, i < j → loudness p X (p.bins.getD i 0) < loudness p X (p.bins.getD j 0)

theorem argmax_reference {p : Finder} (hp : p.bins ≠ []) (X : Nat → Nat → Nat → ℂ) : ∃ j, Sync.argmax (p.bins.map fun k => some (amplitude p X k)) = .ok j ∧ IsReference p X j := by
  have hpos := List.length_pos_iff.mpr hp
  obtain ⟨j, e, hj, hmax, hfirst⟩ := Sync.argmax_spec (p.bins.map fun k => some (amplitude p X k)) (fun i => loudness p X (p.bins.getD i 0)) (by rw [List.length_map]; exact hpos) (by
    intro i hi
    rw [List.length_map] at hi
    rw [List.getD_eq_getElem _ _ (by simpa using hi), List.getElem_map, List.getD_eq_getElem _ _ hi, amplitude_eq])
  rw [List.length_map] at hj hmax
  exact ⟨j, e, hj, hmax, hfirst⟩

/-- There is only one. -/
theorem IsReference.unique {p : Finder} {X : Nat → Nat → Nat → ℂ} {i j : Nat} (hi : IsReference p X i) (hj : IsReference p X j) : i = j := by
  rcases Nat.lt_trichotomy i j with h | h | h
  · have := hj.first i h
    have := hi.greatest j hj.lt
    linarith
  · exact h
  · have := hi.first j h
    have := hj.greatest i hi.lt
    linarith

/-- **C107** With one band there is an exception, as with as many sources as microphones. -/
theorem C107_error (p : Finder) (numSrc : Nat) (eigh : (Fin p.M → Fin p.M → ℂ) → (Fin p.M → ℝ) × (Fin p.M → Fin p.M → ℂ)) (least : (N : Nat) → (Fin numSrc → Fin N × Fin (p.M - numSrc) → ℂ) → ℝ)
    (X : Nat → Nat → Nat → ℂ) : (∃ e, tops p numSrc eigh least X = .error e) ↔ p.bins.length < 2 ∨ p.M ≤ numSrc := by
  unfold tops
  by_cases h1 : p.bins.length < 2
  · rw [if_pos h1]
    exact ⟨fun _ => .inl h1, fun _ => ⟨_, rfl⟩⟩
  · rw [if_neg h1]
    obtain ⟨j, e, -⟩ := argmax_reference (p := p) (by intro h0; rw [h0] at h1; simp at h1) X
    simp only [e, bind, Except.bind]
    by_cases h2 : numSrc < p.M
    · rw [dif_pos h2]
      constructor
      · rintro ⟨e, he⟩
        cases he
      · intro h
        omega
    · rw [dif_neg h2]
      refine ⟨fun _ => .inr (by omega), fun _ => ?_⟩
      split
      · exact ⟨_, rfl⟩
      · exact ⟨_, rfl⟩

theorem tops_ok {p : Finder} (hF : 2 ≤ p.bins.length) {numSrc : Nat} (hM : numSrc < p.M) {eigh : (Fin p.M → Fin p.M → ℂ) → (Fin p.M → ℝ) × (Fin p.M → Fin p.M → ℂ)}
    {least : (N : Nat) → (Fin numSrc → Fin N × Fin (p.M - numSrc) → ℂ) → ℝ} {X : Nat → Nat → Nat → ℂ} {j0 : Nat} (hj : IsReference p X j0) :
    tops p numSrc eigh least X = .ok fun n =>
      if least (p.bins.length - 1) (fun r q => entry p numSrc (p.bins.getD j0 0) (eigh (cov p X (p.bins.getD j0 0))).2 (eigh (cov p X (p.bins.getD q.1 0))).2 q.1 n hM r q.2) = 0 then none
      else some (1 / least (p.bins.length - 1) (fun r q => entry p numSrc (p.bins.getD j0 0) (eigh (cov p X (p.bins.getD j0 0))).2 (eigh (cov p X (p.bins.getD q.1 0))).2 q.1 n hM r q.2)) := by
  have hcov : ∀ k, covLoop p X k = cov p X k := fun k => funext fun i => funext fun j => C80_loop p X k i j
  unfold tops
  rw [if_neg (by omega)]
  obtain ⟨j, e, hj'⟩ := argmax_reference (p := p) (by intro h0; rw [h0] at hF; simp at hF) X
  have : j = j0 := hj'.unique hj
  subst this
  simp only [e, bind, Except.bind, hcov]
  rw [dif_pos hM]

/-- **C107** What TOPS tests. Every band has the correlation matrix of `K` waves from points of the grid whose correlations are definite, with noise of any power. The value at a point is infinite exactly if there
is a vector other than zero in the span of the sources at the reference whose transform is, for each band but the last, in the span of the sources there; the transform of the band with number `j` takes the
steering vectors from the reference to bin `j` of the transform (not to the bin of the band). -/
theorem C107_test {p : Finder} (hF : 2 ≤ p.bins.length) {K : Nat} (hK : 1 ≤ K) (hKM : K < p.M) (hwide : K ≤ (p.bins.length - 1) * (p.M - K)) {src : Fin K → Nat} {X : Nat → Nat → Nat → ℂ}
    {R : Nat → Fin K → Fin K → ℂ} {sigma : Nat → ℝ} (hC : ∀ k ∈ p.bins, WaveMatrix (cov p X k) (fun r q => vec p k (src q) r) (R k) (sigma k)) (hR : ∀ k ∈ p.bins, Definite (R k))
    (hA : ∀ k ∈ p.bins, ∀ y : Fin K → ℂ, (∀ i, i < p.M → ∑ q, p.steer k i (src q) * y q = 0) → y = 0)
    {eigh : (Fin p.M → Fin p.M → ℂ) → (Fin p.M → ℝ) × (Fin p.M → Fin p.M → ℂ)} (he : EighSpec eigh) {least : (N : Nat) → (Fin K → Fin N × Fin (p.M - K) → ℂ) → ℝ}
    (hl : ∀ N, K ≤ N * (p.M - K) → ∀ D, IsLeast D (least N D)) {j0 : Nat} (hj : IsReference p X j0) :
    ∃ vals, tops p K eigh least X = .ok vals ∧ ∀ n, vals n = none ↔
      ∃ v : Nat → ℂ, (∃ m, m < p.M ∧ v m ≠ 0) ∧ Spanned p src (p.bins.getD j0 0) v ∧
        ∀ j, j < p.bins.length - 1 → Spanned p src (p.bins.getD j 0) fun m => p.steer j m n * conj (p.steer (p.bins.getD j0 0) m n) * v m := by
  have hmem : ∀ j, j < p.bins.length → p.bins.getD j 0 ∈ p.bins := fun j hj => by
    rw [List.getD_eq_getElem _ _ hj]
    exact List.getElem_mem _
  have herm : ∀ k, IsEigh (cov p X k) (eigh (cov p X k)).1 (eigh (cov p X k)).2 := fun k => he _ fun i j => by rw [← C80_loop, ← C80_loop]; exact cov_herm p X k i j
  set f0 := p.bins.getD j0 0 with hf0
  have hf0m : f0 ∈ p.bins := hmem j0 hj.lt
  refine ⟨_, tops_ok hF hKM hj, fun n => ?_⟩
  rw [← hf0]
  set V0 := (eigh (cov p X f0)).2 with hV0
  set s := least (p.bins.length - 1) (fun r q => entry p K f0 V0 (eigh (cov p X (p.bins.getD q.1 0))).2 q.1 n hKM r q.2) with hs
  have hnone : (if s = 0 then none else some (1 / s)) = none ↔ s = 0 := by split <;> simp_all
  rw [hnone, (hl _ hwide _).zero_iff]
  have hphi : ∀ j m, phi p f0 j m n = p.steer j m n * conj (p.steer f0 m n) := by
    intro j m
    unfold phi Finder.steer
    rw [← Complex.exp_conj, ← Complex.exp_add]
    congr 1
    rw [map_mul, Complex.conj_I, Complex.conj_ofReal]
    push_cast
    ring
  have hcol : ∀ (u : Fin K → ℂ) (v : Nat → ℂ), (∀ m : Fin p.M, v m = ∑ r : Fin K, V0 m ⟨p.M - K + r, by omega⟩ * u r) →
      ((∀ c : Fin (p.bins.length - 1) × Fin (p.M - K), ∑ r, conj (u r) * entry p K f0 V0 (eigh (cov p X (p.bins.getD c.1 0))).2 c.1 n hKM r c.2 = 0) ↔
        ∀ j, j < p.bins.length - 1 → Spanned p src (p.bins.getD j 0) fun m => p.steer j m n * conj (p.steer f0 m n) * v m) := by
    intro u v huv
    have key : ∀ (j : Nat) (Vk : Fin p.M → Fin p.M → ℂ) (c : Fin (p.M - K)), conj (∑ r, conj (u r) * entry p K f0 V0 Vk j n hKM r c) =
        ∑ m : Fin p.M, conj (Vk m ⟨c, by omega⟩) * (p.steer j m n * conj (p.steer f0 m n) * v m) := by
      intro j Vk c
      unfold entry
      simp only [map_sum, map_mul, Complex.conj_conj, Finset.mul_sum]
      rw [Finset.sum_comm]
      apply sum_congr rfl
      intro m _
      rw [huv m, ← hphi, Finset.mul_sum, Finset.mul_sum]
      exact sum_congr rfl fun r _ => by ring
    constructor
    · intro h j hjl
      rw [← noise_iff hK (hC _ (hmem j (by omega))) (hR _ (hmem j (by omega))) (hA _ (hmem j (by omega))) (herm _)]
      intro i hi
      have h1 := h (⟨j, hjl⟩, ⟨i, by omega⟩)
      have h2 := key j (eigh (cov p X (p.bins.getD j 0))).2 ⟨i, by omega⟩
      rw [h1, map_zero] at h2
      exact h2.symm
    · rintro h ⟨⟨j, hjl⟩, c⟩
      have h1 := (noise_iff hK (hC _ (hmem j (by omega))) (hR _ (hmem j (by omega))) (hA _ (hmem j (by omega))) (herm _) _).mpr (h j hjl) ⟨c, by omega⟩ (by simp only; omega)
      rw [← key] at h1
      rwa [map_eq_zero] at h1
  constructor
  · rintro ⟨u, hu, h⟩
    let v : Nat → ℂ := fun m => if hm : m < p.M then ∑ r : Fin K, V0 ⟨m, hm⟩ ⟨p.M - K + r, by omega⟩ * u r else 0
    have hv : ∀ m : Fin p.M, v m = ∑ r : Fin K, V0 m ⟨p.M - K + r, by omega⟩ * u r := fun m => dif_pos m.2
    refine ⟨v, ?_, (signal_iff hK hKM (hC _ hf0m) (hR _ hf0m) (hA _ hf0m) (herm _) v).mp ⟨u, hv⟩, (hcol u v hv).mp h⟩
    by_contra hz
    push Not at hz
    apply hu
    funext t
    have h1 : ∑ m : Fin p.M, conj (V0 m ⟨p.M - K + t, by omega⟩) * v m = u t := by
      simp only [hv, Finset.mul_sum]
      rw [Finset.sum_comm, Finset.sum_eq_single t]
      · rw [sum_congr rfl fun m _ => show conj (V0 m ⟨p.M - K + t, by omega⟩) * (V0 m ⟨p.M - K + t, by omega⟩ * u t) = conj (V0 m ⟨p.M - K + t, by omega⟩) * V0 m ⟨p.M - K + t, by omega⟩ * u t by ring,
          ← Finset.sum_mul, (herm f0).orth, if_pos rfl, one_mul]
      · intro r _ hrt
        rw [sum_congr rfl fun m _ => show conj (V0 m ⟨p.M - K + t, by omega⟩) * (V0 m ⟨p.M - K + r, by omega⟩ * u r) = conj (V0 m ⟨p.M - K + t, by omega⟩) * V0 m ⟨p.M - K + r, by omega⟩ * u r by ring,
          ← Finset.sum_mul, (herm f0).orth, if_neg, zero_mul]
        intro e
        have := congrArg Fin.val e
        simp only at this
        exact hrt (Fin.ext (by omega))
      · intro h
        exact absurd (mem_univ t) h
    rw [← h1]
    exact Finset.sum_eq_zero fun m _ => by rw [hz m m.2, mul_zero]
  · rintro ⟨v, ⟨m, hm, hne⟩, hspan, h⟩
    obtain ⟨u, hu⟩ := (signal_iff hK hKM (hC _ hf0m) (hR _ hf0m) (hA _ hf0m) (herm _) v).mpr hspan
    refine ⟨u, ?_, (hcol u v hu).mpr h⟩
    rintro rfl
    apply hne
    rw [hu ⟨m, hm⟩]
    simp

/-- **C107** If the bands are the first bins of the transform (without gap from bin 0, except perhaps the last), the value is infinite at every source. -/
theorem C107_sources {p : Finder} (hF : 2 ≤ p.bins.length) {K : Nat} (hK : 1 ≤ K) (hKM : K < p.M) (hwide : K ≤ (p.bins.length - 1) * (p.M - K)) {src : Fin K → Nat} {X : Nat → Nat → Nat → ℂ}
    {R : Nat → Fin K → Fin K → ℂ} {sigma : Nat → ℝ} (hC : ∀ k ∈ p.bins, WaveMatrix (cov p X k) (fun r q => vec p k (src q) r) (R k) (sigma k)) (hR : ∀ k ∈ p.bins, Definite (R k))
    (hA : ∀ k ∈ p.bins, ∀ y : Fin K → ℂ, (∀ i, i < p.M → ∑ q, p.steer k i (src q) * y q = 0) → y = 0)
    {eigh : (Fin p.M → Fin p.M → ℂ) → (Fin p.M → ℝ) × (Fin p.M → Fin p.M → ℂ)} (he : EighSpec eigh) {least : (N : Nat) → (Fin K → Fin N × Fin (p.M - K) → ℂ) → ℝ}
    (hl : ∀ N, K ≤ N * (p.M - K) → ∀ D, IsLeast D (least N D)) (hbins : ∀ j, j < p.bins.length - 1 → p.bins.getD j 0 = j) :
    ∃ vals, tops p K eigh least X = .ok vals ∧ ∀ q, vals (src q) = none := by
  obtain ⟨j0, -, hj⟩ := argmax_reference (p := p) (by intro h0; rw [h0] at hF; simp at hF) X
  obtain ⟨vals, e, h⟩ := C107_test hF hK hKM hwide hC hR hA he hl hj
  refine ⟨vals, e, fun q => (h _).mpr ⟨fun m => p.steer (p.bins.getD j0 0) m (src q), ⟨0, by omega, ?_⟩, ?_, ?_⟩⟩
  · exact Complex.exp_ne_zero _
  · exact ⟨fun t => if t = q then 1 else 0, fun m _ => by simp⟩
  · intro j hjl
    refine ⟨fun t => if t = q then 1 else 0, fun m _ => ?_⟩
    have h1 : conj (p.steer (p.bins.getD j0 0) m (src q)) * p.steer (p.bins.getD j0 0) m (src q) = 1 := by
      rw [← Complex.normSq_eq_conj_mul_self, steer_norm]
      simp
    rw [hbins j hjl]
    beta_reduce
    rw [mul_assoc, h1]
    simp

/-- **C107** Deviation: one source and two bands of which the first is the louder. The table is entered at 0, not at the bin of the band, so the value is infinite exactly at the points
from which a wave arrives with the same phase at all microphones in the first band, wherever the source is. -/
theorem C107_index_deviation {p : Finder} {k0 k1 : Nat} (hp : p.bins = [k0, k1]) (hM : 2 ≤ p.M) {src : Nat} {X : Nat → Nat → Nat → ℂ} {R : Nat → Fin 1 → Fin 1 → ℂ} {sigma : Nat → ℝ}
    (hC : ∀ k ∈ p.bins, WaveMatrix (cov p X k) (fun r _ => vec p k src r) (R k) (sigma k)) (hR : ∀ k ∈ p.bins, Definite (R k)) (hloud : loudness p X k1 ≤ loudness p X k0)
    {eigh : (Fin p.M → Fin p.M → ℂ) → (Fin p.M → ℝ) × (Fin p.M → Fin p.M → ℂ)} (he : EighSpec eigh) {least : (N : Nat) → (Fin 1 → Fin N × Fin (p.M - 1) → ℂ) → ℝ}
    (hl : ∀ N, 1 ≤ N * (p.M - 1) → ∀ D, IsLeast D (least N D)) :
    ∃ vals, tops p 1 eigh least X = .ok vals ∧ ∀ n, vals n = none ↔ ∀ m, m < p.M → p.steer k0 m n = p.steer k0 0 n := by
  have hF : p.bins.length = 2 := by rw [hp]; rfl
  have hj : IsReference p X 0 := by
    refine ⟨by omega, ?_, fun i hi => absurd hi (by omega)⟩
    intro i hi
    rw [hF] at hi
    rw [hp]
    interval_cases i
    · exact le_rfl
    · exact hloud
  have hone : ∀ k m n, conj (p.steer k m n) * p.steer k m n = 1 := by
    intro k m n
    rw [← Complex.normSq_eq_conj_mul_self, steer_norm]
    simp
  have hA : ∀ k ∈ p.bins, ∀ y : Fin 1 → ℂ, (∀ i, i < p.M → ∑ q, p.steer k i ((fun _ => src) q) * y q = 0) → y = 0 := by
    intro k _ y hy
    have h0 := hy 0 (by omega)
    simp only [Finset.univ_unique, Fin.default_eq_zero, Finset.sum_singleton] at h0
    funext q
    rw [Fin.fin_one_eq_zero q]
    exact (mul_eq_zero.mp h0).resolve_left (Complex.exp_ne_zero _)
  obtain ⟨vals, e, h⟩ := C107_test (K := 1) (src := fun _ => src) (by omega) le_rfl (by omega) (by rw [hF]; omega) hC hR hA he hl hj
  refine ⟨vals, e, fun n => ?_⟩
  rw [h n]
  have hzero : ∀ m, p.steer 0 m n = 1 := by
    intro m
    simp [Finder.steer, Finder.omega]
  have hg : p.bins.getD 0 0 = k0 := by rw [hp]; rfl
  rw [hg]
  constructor
  · rintro ⟨v, ⟨m1, hm1, hv⟩, ⟨y, hy⟩, h0⟩ m hm
    obtain ⟨z, hz⟩ := h0 0 (by omega)
    rw [hg] at hz
    simp only [Finset.univ_unique, Fin.default_eq_zero, Finset.sum_singleton, hzero, one_mul] at hy hz
    have hy0 : y 0 ≠ 0 := by
      intro h0
      apply hv
      rw [hy m1 hm1, h0, mul_zero]
    have hc : ∀ m, m < p.M → conj (p.steer k0 m n) * y 0 = z 0 := by
      intro m hm
      have h1 := hz m hm
      rw [hy m hm] at h1
      have h2 : p.steer k0 m src * (conj (p.steer k0 m n) * y 0 - z 0) = 0 := by linear_combination h1
      exact sub_eq_zero.mp ((mul_eq_zero.mp h2).resolve_left (Complex.exp_ne_zero _))
    have h3 := (hc m hm).trans (hc 0 (by omega)).symm
    have h4 := mul_right_cancel₀ hy0 h3
    exact (starRingEnd ℂ).injective h4
  · intro hall
    refine ⟨fun m => p.steer k0 m src, ⟨0, by omega, Complex.exp_ne_zero _⟩, ⟨fun _ => 1, fun m _ => by simp⟩, ?_⟩
    intro j hjl
    have : j = 0 := by omega
    subst this
    refine ⟨fun _ => conj (p.steer k0 0 n), fun m hm => ?_⟩
    rw [hg]
    beta_reduce
    rw [hzero, hall m hm]
    simp only [Finset.univ_unique, Finset.sum_singleton]
    ring

/-- **C107** Deviation: the band that is left out is the last, not the reference. Two recordings with the same reference, not the last band, and that agree in all bands but the last, have the same values. -/
theorem C107_last_deviation {p : Finder} (hF : 2 ≤ p.bins.length) {numSrc : Nat} (eigh : (Fin p.M → Fin p.M → ℂ) → (Fin p.M → ℝ) × (Fin p.M → Fin p.M → ℂ))
    (least : (N : Nat) → (Fin numSrc → Fin N × Fin (p.M - numSrc) → ℂ) → ℝ) {X X' : Nat → Nat → Nat → ℂ} {j0 : Nat} (hj : IsReference p X j0) (hj' : IsReference p X' j0)
    (hlast : j0 < p.bins.length - 1) (h : ∀ j, j < p.bins.length - 1 → ∀ m s, X m (p.bins.getD j 0) s = X' m (p.bins.getD j 0) s) : tops p numSrc eigh least X = tops p numSrc eigh least X' := by
  by_cases hM : numSrc < p.M
  · have hc : ∀ j, j < p.bins.length - 1 → cov p X (p.bins.getD j 0) = cov p X' (p.bins.getD j 0) := by
      intro j hjl
      funext r c
      unfold cov
      simp only [h j hjl]
    rw [tops_ok hF hM hj, tops_ok hF hM hj']
    congr 1
    funext n
    have : ∀ q : Fin (p.bins.length - 1), cov p X (p.bins.getD q 0) = cov p X' (p.bins.getD q 0) := fun q => hc q q.2
    simp only [hc j0 hlast, this]
  · have hF' : ¬ p.bins.length < 2 := by omega
    unfold tops
    simp only [if_neg hF']
    obtain ⟨j, e, hj1⟩ := argmax_reference (p := p) (by intro h0; rw [h0] at hF; simp at hF) X
    obtain ⟨i, e', hi1⟩ := argmax_reference (p := p) (by intro h0; rw [h0] at hF; simp at hF) X'
    simp only [e, e', bind, Except.bind]
    rw [dif_neg hM, dif_neg hM]

/-! ## The hypotheses can be met -/

/-- The least singular value exists. -/
theorem exists_least {K : Nat} (hK : 1 ≤ K) {ι : Type} [Fintype ι] (D : Fin K → ι → ℂ) : ∃ s, IsLeast D s := by
  obtain ⟨U, hU⟩ := exists_left D
  obtain ⟨w, hw⟩ := hU.eigh
  set V : Fin K → Fin K → ℂ := fun r i => U r i.rev with hV
  have hquad : ∀ u : Fin K → ℂ, ((∑ c, normSq (∑ r, conj (u r) * D r c) : ℝ) : ℂ) = ((∑ i, w i * normSq (coef V u i) : ℝ) : ℂ) := by
    intro u
    have h1 : ((∑ c, normSq (∑ r, conj (u r) * D r c) : ℝ) : ℂ) = ∑ r, conj (u r) * ∑ c, (∑ q, D r q * conj (D c q)) * u c := by
      push_cast
      rw [sum_congr rfl fun q _ => show ((normSq (∑ r, conj (u r) * D r q) : ℝ) : ℂ) = ∑ r, ∑ c, conj (u r) * (D r q * conj (D c q) * u c) by
        rw [← Complex.mul_conj, map_sum, Finset.sum_mul_sum]
        exact sum_congr rfl fun r _ => sum_congr rfl fun c _ => by rw [map_mul, Complex.conj_conj]; ring]
      rw [Finset.sum_comm]
      apply sum_congr rfl
      intro r _
      rw [Finset.sum_comm, Finset.mul_sum]
      apply sum_congr rfl
      intro c _
      rw [Finset.sum_mul, Finset.mul_sum]
    rw [h1]
    simp only [eigh_apply hw, Finset.mul_sum]
    rw [Finset.sum_comm]
    push_cast
    apply sum_congr rfl
    intro i _
    have h2 : ∑ r, conj (u r) * V r i = conj (coef V u i) := by
      unfold coef
      rw [map_sum]
      exact sum_congr rfl fun r _ => by rw [map_mul, Complex.conj_conj, mul_comm]
    rw [sum_congr rfl fun r _ => show conj (u r) * (V r i * (w i * coef V u i)) = (w i * coef V u i) * (conj (u r) * V r i) by ring, ← Finset.mul_sum, h2, ← Complex.mul_conj]
    ring
  have hquad' : ∀ u : Fin K → ℂ, ∑ c, normSq (∑ r, conj (u r) * D r c) = ∑ i, w i * normSq (coef V u i) := fun u => by exact_mod_cast hquad u
  have hpars : ∀ u : Fin K → ℂ, ∑ r, normSq (u r) = ∑ i, normSq (coef V u i) := by
    intro u
    have := Orth.parseval hw.orth u
    have h1 : ∀ z : ℂ, conj z * z = ((normSq z : ℝ) : ℂ) := fun z => (Complex.normSq_eq_conj_mul_self).symm
    simp only [h1] at this
    exact_mod_cast this
  let i0 : Fin K := ⟨0, hK⟩
  let u0 : Fin K → ℂ := fun r => V r i0
  have hc0 : ∀ i, coef V u0 i = if i = i0 then 1 else 0 := fun i => hw.orth i i0
  have hw0 : 0 ≤ w i0 := by
    have h1 := hquad' u0
    simp only [hc0] at h1
    have h2 : ∑ i, w i * normSq (if i = i0 then (1 : ℂ) else 0) = w i0 := by
      rw [Finset.sum_eq_single i0]
      · simp
      · intro i _ hi
        simp [hi]
      · intro h
        exact absurd (mem_univ _) h
    rw [h2] at h1
    rw [← h1]
    exact Finset.sum_nonneg fun _ _ => normSq_nonneg _
  refine ⟨Real.sqrt (w i0), Real.sqrt_nonneg _, ?_, u0, ?_, ?_⟩
  · intro u
    rw [Real.sq_sqrt hw0, hquad', hpars, Finset.mul_sum]
    apply Finset.sum_le_sum
    intro i _
    exact mul_le_mul_of_nonneg_right (hw.ascending (Fin.le_def.mpr (Nat.zero_le _))) (normSq_nonneg _)
  · intro h
    have h1 := hc0 i0
    rw [h, if_pos rfl] at h1
    simp [coef] at h1
  · rw [Real.sq_sqrt hw0, hquad', hpars, Finset.mul_sum]
    apply sum_congr rfl
    intro i _
    rw [hc0]
    by_cases h : i = i0
    · rw [h]
    · simp [h]

theorem exists_leasts (K L : Nat) (hK : 1 ≤ K) : ∃ least : (N : Nat) → (Fin K → Fin N × Fin L → ℂ) → ℝ, ∀ N, K ≤ N * L → ∀ D, IsLeast D (least N D) := by
  choose f hf using fun (N : Nat) (D : Fin K → Fin N × Fin L → ℂ) => exists_least hK D
  exact ⟨f, fun N _ D => hf N D⟩

/-- One wave from the second direction. -/
theorem line_cov (p : Finder) (hS : p.numSnap = 1) (k : Nat) : WaveMatrix (cov p (fun i k _ => p.steer k i 1) k) (fun r (_ : Fin 1) => vec p k 1 r) (fun _ _ => 1) 0 := by
  intro r c
  simp [cov, hS, vec]

theorem one_definite : Definite (fun (_ _ : Fin 1) => (1 : ℂ)) := by
  intro y hy
  have h0 : y 0 ≠ 0 := by
    intro h
    apply hy
    funext q
    rw [Fin.fin_one_eq_zero q]
    exact h
  simp only [Finset.univ_unique, Fin.default_eq_zero, Finset.sum_singleton, mul_one, ← Complex.normSq_eq_conj_mul_self, Complex.ofReal_re]
  exact normSq_pos.mpr h0

theorem line_independent {p : Finder} (hM : 1 ≤ p.M) (k : Nat) (y : Fin 1 → ℂ) (hy : ∀ i, i < p.M → ∑ q : Fin 1, p.steer k i ((fun _ => 1) q) * y q = 0) : y = 0 := by
  have h0 := hy 0 (by omega)
  simp only [Finset.univ_unique, Fin.default_eq_zero, Finset.sum_singleton] at h0
  funext q
  rw [Fin.fin_one_eq_zero q]
  exact (mul_eq_zero.mp h0).resolve_left (Complex.exp_ne_zero _)

/-- Bands that start at bin 0: the value at the source is infinite. -/
example : ∃ (eigh : (Fin 3 → Fin 3 → ℂ) → (Fin 3 → ℝ) × (Fin 3 → Fin 3 → ℂ)) (least : (N : Nat) → (Fin 1 → Fin N × Fin 2 → ℂ) → ℝ) (vals : Nat → Option ℝ),
    tops { trio with bins := [0, 1, 2] } 1 eigh least (fun i k _ => trio.steer k i 1) = .ok vals ∧ vals 1 = none := by
  obtain ⟨eigh, he⟩ := exists_eigh 3
  obtain ⟨least, hl⟩ := exists_leasts 1 2 le_rfl
  obtain ⟨vals, e, h⟩ := C107_sources (p := { trio with bins := [0, 1, 2] }) (by simp) (K := 1) le_rfl (by simp [trio]) (by simp [trio]) (src := fun _ => 1) (X := fun i k _ => trio.steer k i 1)
    (R := fun _ _ _ => 1) (sigma := fun _ => 0) (fun k _ => line_cov { trio with bins := [0, 1, 2] } rfl k) (fun _ _ => one_definite)
    (fun k _ y hy => line_independent (p := { trio with bins := [0, 1, 2] }) (by simp [trio]) k y hy) he hl (by
      intro j hj
      simp only [List.length_cons, List.length_nil] at hj
      have : j < 2 := by omega
      interval_cases j <;> rfl)
  exact ⟨eigh, least, vals, e, h 0⟩

/-- Bands that start at bin 1: the value is infinite at the direction across the line of microphones, and finite at the source. -/
example : ∃ (eigh : (Fin 3 → Fin 3 → ℂ) → (Fin 3 → ℝ) × (Fin 3 → Fin 3 → ℂ)) (least : (N : Nat) → (Fin 1 → Fin N × Fin 2 → ℂ) → ℝ) (vals : Nat → Option ℝ),
    tops trio 1 eigh least (fun i k _ => trio.steer k i 1) = .ok vals ∧ vals 0 = none ∧ vals 1 ≠ none := by
  obtain ⟨eigh, he⟩ := exists_eigh 3
  obtain ⟨least, hl⟩ := exists_leasts 1 2 le_rfl
  obtain ⟨vals, e, h⟩ := C107_index_deviation (p := trio) (k0 := 1) (k1 := 2) rfl (by simp [trio]) (src := 1) (X := fun i k _ => trio.steer k i 1)
    (R := fun _ _ _ => 1) (sigma := fun _ => 0) (fun k _ => line_cov trio rfl k) (fun _ _ => one_definite) (by
      have hn : ∀ k i, ‖trio.steer k i 1‖ = 1 := by
        intro k i
        have h := steer_norm trio k i 1
        rw [Complex.normSq_eq_norm_sq] at h
        nlinarith [norm_nonneg (trio.steer k i 1)]
      unfold loudness
      simp only [hn, le_refl]) he hl
  refine ⟨eigh, least, vals, e, (h 0).mpr fun m _ => by rw [trio_zero, trio_zero], fun h1 => ?_⟩
  have := (h 1).mp h1 1 (by simp [trio])
  rw [trio_first] at this
  exact trio_second (by simp [trio]) this

/-- What is in the second of two bands does not matter if the first is louder. -/
example (eigh : (Fin 3 → Fin 3 → ℂ) → (Fin 3 → ℝ) × (Fin 3 → Fin 3 → ℂ)) (least : (N : Nat) → (Fin 1 → Fin N × Fin 2 → ℂ) → ℝ) (z : Nat → ℂ) (hz : ∀ i, ‖z i‖ < 1) :
    tops trio 1 eigh least (fun i k _ => if k = 1 then 1 else z i) = tops trio 1 eigh least (fun _ k _ => if k = 1 then 1 else 0) := by
  have href : ∀ z : Nat → ℂ, (∀ i, ‖z i‖ < 1) → IsReference trio (fun i k _ => if k = 1 then 1 else z i) 0 := by
    intro z hz
    refine ⟨by simp [trio], ?_, fun i hi => absurd hi (by omega)⟩
    intro i hi
    have hi : i < 2 := hi
    have hb : trio.bins = [1, 2] := rfl
    rw [hb]
    interval_cases i
    · exact le_rfl
    · unfold loudness
      apply Finset.sum_le_sum
      intro m _
      apply Finset.sum_le_sum
      intro _ _
      have := (hz m).le
      simpa using this
  apply C107_last_deviation (p := trio) (by simp [trio]) eigh least (j0 := 0) (href z hz) (href (fun _ => 0) (by simp)) (by simp [trio])
  intro j hj m s
  have hj : j < 1 := hj
  interval_cases j
  rfl

end Verif.Tops
