import Verif.Cssm.Waves
import Mathlib.Analysis.Matrix.Spectrum
import Mathlib.Data.Fin.Tuple.Sort
import Mathlib.Analysis.SpecialFunctions.Complex.Log
import Mathlib.Tactic.FinCases

/-!
# C106: signals, bands that are left out, and examples
-/

namespace Verif.Cssm

open Finset Complex Verif.Srp Verif.Py Verif.Music
open scoped ComplexConjugate

/-! ## The routines exist -/

/-- Hermitian matrices have orthonormal eigenvectors in increasing order. -/
theorem exists_eigh (M : Nat) : ∃ eigh : (Fin M → Fin M → ℂ) → (Fin M → ℝ) × (Fin M → Fin M → ℂ), EighSpec eigh := by
  have key : ∀ C : Fin M → Fin M → ℂ, ∃ r : (Fin M → ℝ) × (Fin M → Fin M → ℂ), (∀ i j, C i j = conj (C j i)) → IsEigh C r.1 r.2 := by
    intro C
    by_cases hs : ∀ i j, C i j = conj (C j i)
    · have hH : (Matrix.of C : Matrix (Fin M) (Fin M) ℂ).IsHermitian := by
        ext i j
        exact (hs i j).symm
      let τ := Tuple.sort hH.eigenvalues
      refine ⟨(fun i => hH.eigenvalues (τ i), fun r i => hH.eigenvectorBasis (τ i) r), fun _ => ⟨?_, ?_, ?_⟩⟩
      · intro i j
        have h1 := orthonormal_iff_ite.mp hH.eigenvectorBasis.orthonormal (τ i) (τ j)
        rw [PiLp.inner_apply] at h1
        have h2 : (τ i = τ j) ↔ i = j := τ.injective.eq_iff
        simp only [h2] at h1
        rw [← h1]
        exact sum_congr rfl fun r _ => by
          simp only [RCLike.inner_apply]
          ring
      · intro r i
        have := congrFun (hH.mulVec_eigenvectorBasis (τ i)) r
        simpa [Matrix.mulVec, dotProduct] using this
      · exact Tuple.monotone_sort hH.eigenvalues
    · exact ⟨0, fun h => absurd h hs⟩
  choose f hf using key
  exact ⟨f, hf⟩

/-- Every matrix has left singular vectors. -/
theorem exists_left {M : Nat} {ι : Type} [Fintype ι] (Z : Fin M → ι → ℂ) : ∃ U, IsLeft Z U := by
  obtain ⟨eigh, he⟩ := exists_eigh M
  have h := he (fun r c => ∑ q, Z r q * conj (Z c q)) (by
    intro i j
    rw [map_sum]
    exact sum_congr rfl fun q _ => by rw [map_mul, Complex.conj_conj, mul_comm])
  set C : Fin M → Fin M → ℂ := fun r c => ∑ q, Z r q * conj (Z c q) with hC
  have hnn : ∀ i, 0 ≤ (eigh C).1 i := by
    intro i
    have h1 : ∑ r, conj ((eigh C).2 r i) * ∑ c, C r c * (eigh C).2 c i = ((eigh C).1 i : ℂ) := by
      simp only [h.eigen]
      rw [sum_congr rfl fun r _ => show conj ((eigh C).2 r i) * (((eigh C).1 i : ℂ) * (eigh C).2 r i) = ((eigh C).1 i : ℂ) * (conj ((eigh C).2 r i) * (eigh C).2 r i) by ring, ← Finset.mul_sum,
        self_inner h.orth, mul_one]
    have h2 : ∑ r, conj ((eigh C).2 r i) * ∑ c, C r c * (eigh C).2 c i = ((∑ q, normSq (∑ r, conj ((eigh C).2 r i) * Z r q) : ℝ) : ℂ) := by
      push_cast
      rw [sum_congr rfl fun q _ => show ((normSq (∑ r, conj ((eigh C).2 r i) * Z r q) : ℝ) : ℂ) = ∑ r, ∑ c, conj ((eigh C).2 r i) * (Z r q * conj (Z c q) * (eigh C).2 c i) by
        rw [← Complex.mul_conj, map_sum, Finset.sum_mul_sum]
        exact sum_congr rfl fun r _ => sum_congr rfl fun c _ => by rw [map_mul, Complex.conj_conj]; ring]
      rw [Finset.sum_comm]
      apply sum_congr rfl
      intro r _
      rw [Finset.sum_comm, Finset.mul_sum]
      apply sum_congr rfl
      intro c _
      rw [hC]
      simp only
      rw [Finset.sum_mul, Finset.mul_sum]
    rw [h1] at h2
    have h3 : (eigh C).1 i = ∑ q, normSq (∑ r, conj ((eigh C).2 r i) * Z r q) := by exact_mod_cast h2
    rw [h3]
    exact Finset.sum_nonneg fun _ _ => normSq_nonneg _
  refine ⟨fun r i => (eigh C).2 r i.rev, ?_, fun i => Real.sqrt ((eigh C).1 i.rev), fun _ => Real.sqrt_nonneg _, ?_, ?_⟩
  · intro i j
    rw [h.orth i.rev j.rev]
    simp only [Fin.rev_inj]
  · intro i j hij
    exact Real.sqrt_le_sqrt (h.ascending (Fin.rev_le_rev.mpr hij))
  · intro r i
    rw [Real.sq_sqrt (hnn _)]
    exact h.eigen r i.rev

theorem exists_svd (M K : Nat) : ∃ svd : (N : Nat) → (Fin M → Fin N × Fin K → ℂ) → Fin M → Fin M → ℂ, ∀ N Z, IsLeft Z (svd N Z) := by
  choose f hf using fun (N : Nat) (Z : Fin M → Fin N × Fin K → ℂ) => exists_left Z
  exact ⟨f, hf⟩

/-! ## From signals -/

/-- No source is a combination of the others in all bands at once. -/
def Together (p : Finder) {K : Nat} (b : Nat → Fin K → Nat → ℂ) : Prop := ∀ y : Fin K → ℂ, y ≠ 0 → ∃ k ∈ p.bins, ∃ s, s < p.numSnap ∧ ∑ q, y q * b k q s ≠ 0

theorem signals_semi (p : Finder) {K : Nat} (b : Nat → Fin K → Nat → ℂ) (k : Nat) : Semi fun q t => (∑ s ∈ range p.numSnap, b k q s * conj (b k t s)) / (p.numSnap : ℂ) := by
  intro y
  unfold quad
  rw [quad_square, Complex.ofReal_re]
  exact div_nonneg (Finset.sum_nonneg fun _ _ => normSq_nonneg _) (Nat.cast_nonneg _)

theorem signals_definite {p : Finder} {K : Nat} {b : Nat → Fin K → Nat → ℂ} (h : Together p b) :
    Definite (total p fun k q t => (∑ s ∈ range p.numSnap, b k q s * conj (b k t s)) / (p.numSnap : ℂ)) := by
  intro y hy
  rw [total_quad, Complex.re_sum]
  have hy' : (fun q => conj (y q)) ≠ 0 := by
    intro h
    apply hy
    funext q
    have := congrFun h q
    simpa using this
  obtain ⟨k, hk, s, hs, hne⟩ := h _ hy'
  obtain ⟨j, hj, rfl⟩ := List.getElem_of_mem hk
  apply Finset.sum_pos' fun j _ => signals_semi p b _ y
  refine ⟨j, mem_range.mpr hj, ?_⟩
  rw [List.getD_eq_getElem _ _ hj]
  unfold quad
  rw [quad_square, Complex.ofReal_re]
  apply div_pos _ (by exact_mod_cast (by omega : 0 < p.numSnap))
  refine lt_of_lt_of_le (Complex.normSq_pos.mpr hne) ?_
  exact Finset.single_le_sum (f := fun s => normSq (∑ q, conj (y q) * b p.bins[j] q s)) (fun _ _ => normSq_nonneg _) (mem_range.mpr hs)

/-- **C106** Both methods for signals that are sums of plane waves, such that no source is a combination of the others in all bands at once: after one or more iterations the values are infinite at the sources,
and besides only at points whose steering vector at the reference is a combination of theirs. -/
theorem C106_signals {p : Finder} (hp : p.bins ≠ []) {K : Nat} (hK : 1 ≤ K) (hKM : K < p.M) {src : Fin K → Nat} {b : Nat → Fin K → Nat → ℂ} {X : Nat → Nat → Nat → ℂ} (hX : Music.Waves p src b X)
    (hb : Together p b) (hA : ∀ k ∈ p.bins, ∀ y : Fin K → ℂ, (∀ i, i < p.M → ∑ q, p.steer k i (src q) * y q = 0) → y = 0)
    {eigh : (Fin p.M → Fin p.M → ℂ) → (Fin p.M → ℝ) × (Fin p.M → Fin p.M → ℂ)} (he : EighSpec eigh)
    {svd : (N : Nat) → (Fin p.M → Fin N × Fin K → ℂ) → Fin p.M → Fin p.M → ℂ} (hsvd : ∀ N Z, IsLeft Z (svd N Z)) {find : (Nat → Option ℝ) → List Nat}
    (hstart : ∀ k ∈ p.bins, Useful p src (find (power p X k))) (hf : ∀ k ∈ p.bins, ∀ vals, Shows p src k vals → Useful p src (find vals)) {iter : Nat} (hi : 1 ≤ iter) :
    (∃ f0 ∈ p.bins, ∃ vals, cssm p K iter find eigh X = .ok vals ∧ Shows p src f0 vals ∧ ∀ q, vals (src q) = none) ∧
    ∃ f0 ∈ p.bins, ∃ vals, waves p K iter find eigh svd X = .ok vals ∧ Shows p src f0 vals ∧ ∀ q, vals (src q) = none := by
  constructor
  · obtain ⟨f0, h0, -, vals, e, h⟩ := C106_cssm hp hK (fun k hk => cov_waves hX hk) (signals_definite hb) hA he hstart hf hi
    exact ⟨f0, h0, vals, e, h, h.source⟩
  · obtain ⟨f0, h0, -, vals, e, h⟩ := C106_waves hp hK hKM (sigma := fun _ => 0) (fun _ _ => le_rfl) (fun k hk => cov_waves hX hk) (fun k _ => signals_semi p b k) (signals_definite hb) hA he hsvd
      hstart hf hi
    exact ⟨f0, h0, vals, e, h, h.source⟩

/-! ## Bands that are left out -/

/-- **C106** If no band has enough peaks, both methods raise an exception; if iterations are not asked for, the values are those of a delay and sum beamformer at the last band, whatever the others. -/
theorem C106_start (p : Finder) (numSrc : Nat) (find : (Nat → Option ℝ) → List Nat) (eigh : (Fin p.M → Fin p.M → ℂ) → (Fin p.M → ℝ) × (Fin p.M → Fin p.M → ℂ))
    (svd : (N : Nat) → (Fin p.M → Fin N × Fin numSrc → ℂ) → Fin p.M → Fin p.M → ℂ) (X : Nat → Nat → Nat → ℂ) :
    ((∀ k ∈ p.bins, (find (power p X k)).length < numSrc) → ∀ iter, cssm p numSrc iter find eigh X = .error .valueError ∧ waves p numSrc iter find eigh svd X = .error .valueError) ∧
    ((∃ k ∈ p.bins, numSrc ≤ (find (power p X k)).length) → ∃ last, p.bins.getLast? = some last ∧ cssm p numSrc 0 find eigh X = .ok (power p X last) ∧
      waves p numSrc 0 find eigh svd X = .ok (power p X last)) := by
  have hmem : ∀ j, j < p.bins.length → p.bins.getD j 0 ∈ p.bins := fun j hj => by
    rw [List.getD_eq_getElem _ _ hj]
    exact List.getElem_mem _
  constructor
  · intro h iter
    have hk : kept p numSrc find (fun j => covLoop p X (p.bins.getD j 0)) = [] := by
      unfold kept
      rw [List.filterMap_eq_nil_iff]
      intro j hj
      simp only [scan_power]
      rw [if_pos (h _ (hmem j (List.mem_range.mp hj)))]
    constructor
    · unfold cssm
      simp only [hk]
      rfl
    · unfold waves
      simp only [hk]
      rfl
  · rintro ⟨k, hk, hlen⟩
    have hne : p.bins ≠ [] := List.ne_nil_of_mem hk
    have hlast : p.bins.getLast? = some (p.bins.getD (p.bins.length - 1) 0) := by
      have hpos := List.length_pos_iff.mpr hne
      rw [List.getLast?_eq_getElem?, List.getD_eq_getElem _ _ (by omega), List.getElem?_eq_getElem (by omega)]
    have hkept : (kept p numSrc find fun j => covLoop p X (p.bins.getD j 0)).map Prod.fst ≠ [] := by
      obtain ⟨j, hj, rfl⟩ := List.getElem_of_mem hk
      intro h0
      rw [List.map_eq_nil_iff] at h0
      unfold kept at h0
      rw [List.filterMap_eq_nil_iff] at h0
      have := h0 j (List.mem_range.mpr hj)
      simp only [scan_power, List.getD_eq_getElem _ _ hj] at this
      rw [if_neg (by omega)] at this
      cases this
    obtain ⟨j, -, e, -⟩ := (C106_reference p X _).2 hkept
    refine ⟨_, hlast, ?_, ?_⟩
    · unfold cssm
      simp only [e, scan_power]
      rfl
    · unfold waves
      simp only [e, scan_power]
      rfl

theorem focus_self {p : Finder} {k : Nat} {l : List Nat} (h : Apart p k l) : focus p k k l = .ok 1 := by
  have hd := (bordered_det h.1).mpr h
  have h1 := h.1
  unfold focus
  rw [if_neg (by omega), if_neg hd, Matrix.mul_nonsing_inv _ (isUnit_iff_ne_zero.mpr hd)]

/-- **C106** Deviation: two bands, of which the first is left out for lack of peaks. The matrices are not renumbered, so CSSM takes the correlation matrix of the band that was left out, with the steering vectors of
the other one; the correlation matrix of the band that was kept does not enter the result. -/
theorem C106_left_out_deviation {p : Finder} {k0 k1 : Nat} (hp : p.bins = [k0, k1]) {numSrc : Nat} {find : (Nat → Option ℝ) → List Nat}
    {eigh : (Fin p.M → Fin p.M → ℂ) → (Fin p.M → ℝ) × (Fin p.M → Fin p.M → ℂ)} {X : Nat → Nat → Nat → ℂ} (h0 : (find (power p X k0)).length < numSrc)
    (h1 : numSrc ≤ (find (power p X k1)).length) (ha : Apart p k1 (find (power p X k1))) :
    cssm p numSrc 1 find eigh X = .ok fun n => spectrumOf (noise p.M numSrc) (eigh (cov p X k0)).2 (vec p k1 n) := by
  have hcov : ∀ k, covLoop p X k = cov p X k := fun k => funext fun i => funext fun j => C80_loop p X k i j
  have hk : kept p numSrc find (fun j => covLoop p X (p.bins.getD j 0)) = [(k1, find (power p X k1))] := by
    unfold kept
    rw [hp]
    have h1' : ¬ (find (power p X k1)).length < numSrc := by omega
    simp [List.range_succ, scan_power, h0, h1']
  have href : reference p X [k1] = .ok k1 := by
    obtain ⟨j, hj, e, -⟩ := (C106_reference p X [k1]).2 (by simp)
    have : j = 0 := by simpa using hj
    subst this
    exact e
  unfold cssm
  simp only [hk, List.map_cons, List.map_nil, href, bind, Except.bind]
  unfold cssmLoop
  have hsum : coherentSum p (fun j => covLoop p X (p.bins.getD j 0)) k1 [(k1, find (power p X k1))] = .ok (cov p X k0) := by
    rw [coherentSum_ok (T := fun _ => 1)]
    · congr 1
      funext r c
      rw [hp]
      simp only [List.length_cons, List.length_nil, zero_add, Finset.range_one, Finset.sum_singleton, List.getD_cons_zero, hcov]
      unfold congr
      simp [Matrix.one_apply]
    · intro j hj
      have : j = 0 := by simpa using hj
      subst this
      exact focus_self ha
  rw [hsum]
  rfl

/-- **C106** WAVES needs a microphone more than sources: otherwise there is no eigenvalue of the noise, and it raises an exception in the first iteration. -/
theorem C106_waves_many {p : Finder} {numSrc : Nat} (hM : p.M ≤ numSrc) {find : (Nat → Option ℝ) → List Nat} {eigh : (Fin p.M → Fin p.M → ℂ) → (Fin p.M → ℝ) × (Fin p.M → Fin p.M → ℂ)}
    {svd : (N : Nat) → (Fin p.M → Fin N × Fin numSrc → ℂ) → Fin p.M → Fin p.M → ℂ} {X : Nat → Nat → Nat → ℂ} {iter : Nat} (hi : 1 ≤ iter) : ∃ e, waves p numSrc iter find eigh svd X = .error e := by
  obtain ⟨m, rfl⟩ := Nat.exists_eq_add_of_le' hi
  by_cases hk : (kept p numSrc find fun j => covLoop p X (p.bins.getD j 0)) = []
  · refine ⟨.valueError, ?_⟩
    unfold waves
    simp only [hk]
    rfl
  · obtain ⟨j, -, e, -⟩ := (C106_reference p X ((kept p numSrc find fun j => covLoop p X (p.bins.getD j 0)).map Prod.fst)).2 (by simpa using hk)
    unfold waves
    simp only [e, bind, Except.bind]
    unfold wavesLoop
    have hb : ∀ (bands : List (Nat × List Nat)) (f0 : Nat), bands ≠ [] → ∃ e, blocks p numSrc eigh (fun j => covLoop p X (p.bins.getD j 0)) f0 bands = .error e := by
      intro bands f0 hne
      obtain ⟨n, hn⟩ := Nat.exists_eq_succ_of_ne_zero (List.length_pos_iff.mpr hne).ne'
      unfold blocks
      rw [hn, List.range_succ_eq_map, List.mapM_cons]
      have : ∃ e, block p numSrc eigh (covLoop p X (p.bins.getD 0 0)) (bands.getD 0 (0, [])).1 f0 (bands.getD 0 (0, [])).2 = .error e := by
        unfold block
        cases hf : focus p (bands.getD 0 (0, [])).1 f0 (bands.getD 0 (0, [])).2 with
        | error e => exact ⟨e, rfl⟩
        | ok T =>
          refine ⟨.indexError, ?_⟩
          simp only [bind, Except.bind]
          rw [dif_neg (by omega)]
      obtain ⟨e, he⟩ := this
      rw [he]
      exact ⟨e, rfl⟩
    obtain ⟨e', he'⟩ := hb _ (((kept p numSrc find fun j => covLoop p X (p.bins.getD j 0)).map Prod.fst).getD j 0) hk
    rw [he']
    exact ⟨e', rfl⟩

/-! ## The hypotheses can be met -/

/-- Three microphones on a line, two bands, two directions. -/
noncomputable def trio : Finder :=
  { M := 3, mic := fun i => (i, 0, 0), dir := fun n => if n = 1 then (1, 0, 0) else (0, 1, 0), fs := 16, nfft := 16, c := 8, bins := [1, 2], numSnap := 1 }

theorem trio_zero (k i : Nat) : trio.steer k i 0 = 1 := by
  simp [Finder.steer, Finder.tau, trio]

theorem trio_first (k : Nat) : trio.steer k 0 1 = 1 := by
  simp [Finder.steer, Finder.tau, trio]

theorem trio_second {k : Nat} (hk : k ∈ trio.bins) : trio.steer k 1 1 ≠ 1 := by
  have hk' : k = 1 ∨ k = 2 := by simpa [trio] using hk
  intro h
  unfold Finder.steer at h
  rw [Complex.exp_eq_one_iff] at h
  obtain ⟨n, hn⟩ := h
  have e : ((trio.omega k * trio.tau 1 1 : ℝ) : ℂ) = ((n * (2 * Real.pi) : ℝ) : ℂ) := by
    have hI : I ≠ 0 := Complex.I_ne_zero
    apply mul_left_cancel₀ hI
    rw [hn]
    push_cast
    ring
  have e' : trio.omega k * trio.tau 1 1 = n * (2 * Real.pi) := by exact_mod_cast e
  simp only [Finder.omega, Finder.tau, trio, if_true] at e'
  have hpi := Real.pi_pos.ne'
  have e2 : (k : ℝ) = 8 * n := by
    have : 2 * Real.pi * (k : ℝ) = 2 * Real.pi * (8 * n) := by
      push_cast at e'
      linarith
    exact mul_left_cancel₀ (by positivity) this
  have e3 : (k : ℤ) = 8 * n := by exact_mod_cast e2
  omega

/-- The first source sounds alike in both bands, the second changes its sign: in each band they are coherent. -/
noncomputable def trioB : Nat → Fin 2 → Nat → ℂ := fun k q _ => if k = 2 ∧ q = 1 then -1 else 1

theorem trio_apart {k : Nat} (hk : k ∈ trio.bins) {y : Fin 2 → ℂ} (h0 : y 0 + y 1 = 0) (h1 : y 0 + trio.steer k 1 1 * y 1 = 0) : y = 0 := by
  have h2 : (trio.steer k 1 1 - 1) * y 1 = 0 := by linear_combination h1 - h0
  have h3 : y 1 = 0 := (mul_eq_zero.mp h2).resolve_left (sub_ne_zero.mpr (trio_second hk))
  rw [h3, add_zero] at h0
  funext q
  fin_cases q
  · exact h0
  · exact h3

theorem trio_useful : Useful trio (K := 2) (fun q => (q : Nat)) [0, 1] := by
  refine ⟨?_, le_rfl, ?_⟩
  · intro q
    fin_cases q <;> simp
  · intro k hk
    refine ⟨by simp [trio], ?_⟩
    change ∀ y : Fin 2 → ℂ, _ → y = 0
    intro y hy
    have h0 := hy 0 (by simp)
    have h1 := hy 1 (by simp)
    change ∑ q : Fin 2, _ = (0 : ℂ) at h0 h1
    rw [Fin.sum_univ_two] at h0 h1
    simp only [Fin.val_zero, Fin.val_one, List.getD_cons_zero, List.getD_cons_succ, trio_zero, trio_first, one_mul] at h0 h1
    exact trio_apart hk h0 h1

/-- Two sources that are coherent in each band, by one snapshot: with a search that gives both points of the grid, CSSM and WAVES are infinite at both. -/
example : ∃ (eigh : (Fin trio.M → Fin trio.M → ℂ) → (Fin trio.M → ℝ) × (Fin trio.M → Fin trio.M → ℂ)) (svd : (N : Nat) → (Fin trio.M → Fin N × Fin 2 → ℂ) → Fin trio.M → Fin trio.M → ℂ) (v v' : Nat → Option ℝ),
    cssm trio 2 3 (fun _ => [0, 1]) eigh (fun i k s => ∑ q : Fin 2, trio.steer k i q * trioB k q s) = .ok v ∧ v 0 = none ∧ v 1 = none ∧
    waves trio 2 3 (fun _ => [0, 1]) eigh svd (fun i k s => ∑ q : Fin 2, trio.steer k i q * trioB k q s) = .ok v' ∧ v' 0 = none ∧ v' 1 = none := by
  obtain ⟨eigh, he⟩ := exists_eigh trio.M
  obtain ⟨svd, hsvd⟩ := exists_svd trio.M 2
  obtain ⟨⟨f0, -, v, e, -, h⟩, f1, -, v', e', -, h'⟩ := C106_signals (p := trio) (by simp [trio]) (K := 2) (by omega) (by simp [trio]) (src := fun q => (q : Nat)) (b := trioB)
    (X := fun i k s => ∑ q : Fin 2, trio.steer k i q * trioB k q s) (fun i _ k _ s _ => rfl)
    (by
      intro y hy
      by_contra hno
      push Not at hno
      apply hy
      have h1 := hno 1 (by simp [trio]) 0 (by simp [trio])
      have h2 := hno 2 (by simp [trio]) 0 (by simp [trio])
      rw [Fin.sum_univ_two] at h1 h2
      simp [trioB] at h1 h2
      funext q
      fin_cases q
      · change y 0 = 0
        linear_combination (h1 + h2) / 2
      · change y 1 = 0
        linear_combination (h1 - h2) / 2)
    (by
      intro k hk y hy
      have h0 := hy 0 (by simp [trio])
      have h1 := hy 1 (by simp [trio])
      rw [Fin.sum_univ_two] at h0 h1
      simp only [Fin.val_zero, Fin.val_one, trio_zero, trio_first, one_mul] at h0 h1
      exact trio_apart hk h0 h1)
    he hsvd (find := fun _ => [0, 1]) (fun _ _ => trio_useful) (fun _ _ _ _ => trio_useful) (iter := 3) (by omega)
  exact ⟨eigh, svd, v, v', e, h 0, h 1, e', h' 0, h' 1⟩

open Classical in
/-- The first band is silent, without peaks; the second has two: the values come from the matrix of the silent band. -/
example : ∃ find : (Nat → Option ℝ) → List Nat, ∀ eigh : (Fin trio.M → Fin trio.M → ℂ) → (Fin trio.M → ℝ) × (Fin trio.M → Fin trio.M → ℂ),
    cssm trio 2 1 find eigh (fun _ k _ => if k = 1 then 0 else 1) = .ok fun n => spectrumOf (noise trio.M 2) (eigh fun _ _ => 0).2 (vec trio 2 n) := by
  have h0 : cov trio (fun _ k _ => if k = 1 then 0 else 1) 1 = fun _ _ => 0 := by
    funext r c
    simp [cov]
  have hs0 : power trio (fun _ k _ => if k = 1 then 0 else 1) 1 0 = some 0 := by
    simp [power]
  have hs1 : ¬ power trio (fun _ k _ => if k = 1 then 0 else 1) 2 0 = some 0 := by
    have hM : trio.M = 3 := rfl
    have hS : trio.numSnap = 1 := rfl
    simp [power, trio_zero, hM, hS]
  refine ⟨fun v => if v 0 = some 0 then [] else [0, 1], fun eigh => ?_⟩
  rw [C106_left_out_deviation (p := trio) (k0 := 1) (k1 := 2) rfl, h0]
  · rw [if_pos hs0]
    simp
  · rw [if_neg hs1]
    simp
  · rw [if_neg hs1]
    exact trio_useful.apart 2 (by simp [trio])

end Verif.Cssm
