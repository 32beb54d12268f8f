import Verif.Cssm.Model
import Verif.Music.Props
import Verif.Sync.Lemmas
import Mathlib.LinearAlgebra.Matrix.ToLinearEquiv
import Mathlib.LinearAlgebra.Matrix.ConjTranspose
import Mathlib.Data.List.GetD

/-!
# C106: focusing, and the spectrum of CSSM
-/

namespace Verif.Cssm

open Finset Complex Verif.Srp Verif.Py Verif.Music
open scoped ComplexConjugate

/-! ## The spectrum -/

theorem denomOf_eq {M : Nat} (S : Finset (Fin M)) (V : Fin M → Fin M → ℂ) (a : Fin M → ℂ) : denomOf S V a = ((∑ i ∈ S, normSq (coef V a i) : ℝ) : ℂ) := by
  have h1 : ∀ i, ((normSq (coef V a i) : ℝ) : ℂ) = ∑ r, ∑ c, conj (a r) * (V r i * conj (V c i) * a c) := by
    intro i
    rw [← Complex.mul_conj, mul_comm]
    unfold coef
    rw [map_sum, Finset.sum_mul_sum]
    exact sum_congr rfl fun r _ => sum_congr rfl fun c _ => by
      rw [map_mul, Complex.conj_conj]
      ring
  unfold denomOf
  push_cast
  rw [sum_congr rfl fun i (_ : i ∈ S) => h1 i, Finset.sum_comm]
  apply sum_congr rfl
  intro r _
  rw [Finset.mul_sum, Finset.sum_comm]
  apply sum_congr rfl
  intro c _
  rw [Finset.sum_mul, Finset.mul_sum]

/-- With the columns of the noise this is the value of MUSIC. -/
theorem spectrumOf_eq {M K : Nat} (hK : 1 ≤ K) {V : Fin M → Fin M → ℂ} (h : Orth V) (a : Fin M → ℂ) : spectrumOf (noise M K) V a = value K V a := by
  have e : denomOf (noise M K) V a = denom K V a := by
    rw [denomOf_eq, denom_eq hK h]
    unfold noisePower noise
    congr 2
    ext i
    simp only [mem_filter, mem_univ, true_and]
    omega
  unfold spectrumOf value
  rw [e]

/-! ## The focusing matrix -/

/-- The first microphones, as many as there are points, tell the points apart in a band: no combination of the steering vectors vanishes on them. -/
def Apart (p : Finder) (k : Nat) (l : List Nat) : Prop :=
  l.length ≤ p.M ∧ ∀ y : Fin l.length → ℂ, (∀ i, i < l.length → ∑ q : Fin l.length, p.steer k i (l.getD q 0) * y q = 0) → y = 0

theorem bordered_mul {p : Finder} {k : Nat} {l : List Nat} (hl : l.length ≤ p.M) (v : Fin p.M → ℂ) (i : Fin p.M) :
    ∑ c, bordered p k l i c * v c = (∑ q : Fin l.length, p.steer k i (l.getD q 0) * v ⟨q, by omega⟩) + if l.length ≤ (i : Nat) then v i else 0 := by
  have h1 : ∀ c : Fin p.M, bordered p k l i c * v c
      = (if (c : Nat) < l.length then p.steer k i (l.getD c 0) * v c else 0) + if i = c then (if l.length ≤ (i : Nat) then v i else 0) else 0 := by
    intro c
    unfold bordered
    by_cases hc : (c : Nat) < l.length
    · rw [if_pos hc, if_pos hc]
      by_cases hi : i = c
      · subst hi
        rw [if_pos rfl, if_neg (by omega), add_zero]
      · rw [if_neg hi, add_zero]
    · rw [if_neg hc, if_neg hc]
      by_cases hi : i = c
      · subst hi
        rw [if_pos rfl, if_pos rfl, if_pos (by omega)]
        ring
      · rw [if_neg hi, if_neg hi]
        ring
  rw [sum_congr rfl fun c _ => h1 c, sum_add_distrib, Finset.sum_ite_eq univ i, if_pos (mem_univ i), ← Finset.sum_filter]
  congr 1
  symm
  apply Finset.sum_bij (fun (q : Fin l.length) _ => (⟨q, by omega⟩ : Fin p.M))
  · intro q _
    simp
  · intro a _ b _ h
    simpa [Fin.ext_iff] using h
  · intro c hc
    simp only [mem_filter, mem_univ, true_and] at hc
    exact ⟨⟨c, hc⟩, mem_univ _, rfl⟩
  · intro q _
    rfl

theorem bordered_det {p : Finder} {k : Nat} {l : List Nat} (hl : l.length ≤ p.M) : (bordered p k l).det ≠ 0 ↔ Apart p k l := by
  rw [← not_iff_not, not_not, ← Matrix.exists_mulVec_eq_zero_iff]
  constructor
  · rintro ⟨v, hv, h⟩ ⟨_, ha⟩
    apply hv
    have hrow : ∀ i, ∑ c, bordered p k l i c * v c = 0 := fun i => congrFun h i
    have h0 := ha (fun q => v ⟨q, by omega⟩) fun i hi => by
      have := hrow ⟨i, by omega⟩
      rw [bordered_mul hl, if_neg (by simp only; omega), add_zero] at this
      exact this
    have h0' : ∀ q : Fin l.length, v ⟨q, by omega⟩ = 0 := fun q => congrFun h0 q
    funext i
    by_cases hi : (i : Nat) < l.length
    · exact h0' ⟨i, hi⟩
    · have := hrow i
      rw [bordered_mul hl, if_pos (by omega)] at this
      simpa [h0'] using this
  · intro hna
    have : ∃ y : Fin l.length → ℂ, (∀ i, i < l.length → ∑ q : Fin l.length, p.steer k i (l.getD q 0) * y q = 0) ∧ y ≠ 0 := by
      by_contra hno
      push Not at hno
      exact hna ⟨hl, hno⟩
    obtain ⟨y, hy, hy0⟩ := this
    let v : Fin p.M → ℂ := fun c => if h : (c : Nat) < l.length then y ⟨c, h⟩ else -∑ q : Fin l.length, p.steer k c (l.getD q 0) * y q
    have hvq : ∀ q : Fin l.length, v ⟨q, by omega⟩ = y q := fun q => by
      change (if h : (q : Nat) < l.length then y ⟨q, h⟩ else _) = _
      rw [dif_pos q.2]
    refine ⟨v, fun hv => hy0 ?_, ?_⟩
    · funext q
      rw [← hvq q, hv]
      rfl
    · funext i
      change ∑ c, bordered p k l i c * v c = 0
      rw [bordered_mul hl]
      simp only [hvq]
      by_cases hi : (i : Nat) < l.length
      · rw [if_neg (by omega), add_zero]
        exact hy i hi
      · rw [if_pos (by omega)]
        have : v i = -∑ q : Fin l.length, p.steer k i (l.getD q 0) * y q := by
          change (if h : (i : Nat) < l.length then y ⟨i, h⟩ else _) = _
          rw [dif_neg hi]
        rw [this]
        ring

/-- **C106** The focusing matrix of a band exists exactly if there are not more points than microphones and the first microphones tell the points apart. Then it takes the steering vector of every point at
this band to the steering vector of the point at the reference. -/
theorem C106_focus (p : Finder) (k f0 : Nat) (l : List Nat) :
    ((∃ T, focus p k f0 l = .ok T) ↔ Apart p k l) ∧
    ∀ T, focus p k f0 l = .ok T → ∀ n ∈ l, ∀ r : Fin p.M, ∑ c : Fin p.M, T r c * p.steer k c n = p.steer f0 r n := by
  constructor
  · unfold focus
    by_cases h1 : p.M < l.length
    · rw [if_pos h1]
      constructor
      · rintro ⟨T, hT⟩
        cases hT
      · intro h
        have := h.1
        omega
    · rw [if_neg h1]
      by_cases h2 : (bordered p k l).det = 0
      · rw [if_pos h2]
        constructor
        · rintro ⟨T, hT⟩
          cases hT
        · intro h
          exact absurd h2 ((bordered_det (by omega)).mpr h)
      · rw [if_neg h2]
        exact ⟨fun _ => (bordered_det (by omega)).mp h2, fun _ => ⟨_, rfl⟩⟩
  · intro T hT n hn r
    unfold focus at hT
    by_cases h1 : p.M < l.length
    · rw [if_pos h1] at hT
      cases hT
    rw [if_neg h1] at hT
    by_cases h2 : (bordered p k l).det = 0
    · rw [if_pos h2] at hT
      cases hT
    rw [if_neg h2] at hT
    injection hT with hT
    obtain ⟨q, hq, e⟩ := List.getElem_of_mem hn
    have hM : T * bordered p k l = bordered p f0 l := by
      rw [← hT, Matrix.mul_assoc, Matrix.nonsing_inv_mul _ (isUnit_iff_ne_zero.mpr h2), Matrix.mul_one]
    have h3 := congrFun (congrFun hM r) ⟨q, by omega⟩
    rw [Matrix.mul_apply] at h3
    unfold bordered at h3
    simp only [if_pos hq, List.getD_eq_getElem l 0 hq, e] at h3
    exact h3

/-- **C106** With more points than microphones the size of an array is negative, otherwise the matrix is singular. -/
theorem C106_focus_error (p : Finder) (k f0 : Nat) (l : List Nat) (e : Err) (h : focus p k f0 l = .error e) : (p.M < l.length ∧ e = .valueError) ∨ (l.length ≤ p.M ∧ ¬ Apart p k l ∧ e = .runtimeError) := by
  unfold focus at h
  by_cases h1 : p.M < l.length
  · rw [if_pos h1] at h
    injection h with h
    exact .inl ⟨h1, h.symm⟩
  · rw [if_neg h1] at h
    by_cases h2 : (bordered p k l).det = 0
    · rw [if_pos h2] at h
      injection h with h
      exact .inr ⟨by omega, fun ha => (bordered_det (by omega)).mpr ha h2, h.symm⟩
    · rw [if_neg h2] at h
      cases h

/-! ## The coherent sum -/

theorem congr_wave {M K : Nat} {T : Matrix (Fin M) (Fin M) ℂ} {C : Fin M → Fin M → ℂ} {A A0 : Fin M → Fin K → ℂ} {R : Fin K → Fin K → ℂ} (hC : WaveMatrix C A R 0)
    (hT : ∀ r q, ∑ c, T r c * A c q = A0 r q) (r c : Fin M) : congr T C r c = ∑ q, ∑ t, A0 r q * R q t * conj (A0 c t) := by
  have h1 : ∀ (A : Fin M → Fin K → ℂ) (r c : Fin M), (Matrix.of A * Matrix.of R * (Matrix.of A).conjTranspose) r c = ∑ q, ∑ t, A r q * R q t * conj (A c t) := by
    intro A r c
    rw [Matrix.mul_apply, Finset.sum_comm]
    apply sum_congr rfl
    intro t _
    rw [Matrix.mul_apply, Finset.sum_mul]
    rfl
  have h2 : congr T C r c = (T * Matrix.of C * T.conjTranspose) r c := by
    unfold congr
    rw [Matrix.mul_apply, Finset.sum_comm]
    apply sum_congr rfl
    intro t _
    rw [Matrix.mul_apply, Finset.sum_mul]
    rfl
  have h3 : Matrix.of C = Matrix.of A * Matrix.of R * (Matrix.of A).conjTranspose := by
    ext r c
    rw [h1]
    simpa using hC r c
  have h4 : T * Matrix.of A = Matrix.of A0 := by
    ext r q
    rw [Matrix.mul_apply]
    exact hT r q
  rw [h2, h3, ← h1, ← h4, Matrix.conjTranspose_mul]
  simp only [Matrix.mul_assoc]

theorem coherentSum_ok {p : Finder} {C : Nat → Fin p.M → Fin p.M → ℂ} {f0 : Nat} {bands : List (Nat × List Nat)} {T : Nat → Matrix (Fin p.M) (Fin p.M) ℂ}
    (h : ∀ j, j < bands.length → focus p (bands.getD j (0, [])).1 f0 (bands.getD j (0, [])).2 = .ok (T j)) :
    coherentSum p C f0 bands = .ok fun r c => ∑ j ∈ range bands.length, congr (T j) (C j) r c := by
  unfold coherentSum
  have key : ∀ n, n ≤ bands.length → (List.range n).foldlM (fun (R : Fin p.M → Fin p.M → ℂ) j => do
      let b := bands.getD j (0, [])
      let T ← focus p b.1 f0 b.2
      (Except.ok fun r c => R r c + congr T (C j) r c : Except Err (Fin p.M → Fin p.M → ℂ))) (fun _ _ => 0) = .ok fun r c => ∑ j ∈ range n, congr (T j) (C j) r c := by
    intro n
    induction n with
    | zero => intro _; rfl
    | succ n ih =>
      intro hn
      rw [List.range_succ, List.foldlM_append, ih (by omega)]
      simp only [bind, Except.bind, List.foldlM_cons, List.foldlM_nil, h n (by omega)]
      change Except.ok _ = Except.ok _
      congr 1
      funext r c
      rw [Finset.sum_range_succ]
  exact key _ le_rfl

/-! ## The bands -/

theorem getD_map_fst (bands : List (Nat × List Nat)) (j : Nat) : (bands.getD j (0, [])).1 = (bands.map Prod.fst).getD j 0 := by
  by_cases hj : j < bands.length
  · rw [List.getD_eq_getElem _ _ hj, List.getD_eq_getElem _ _ (by simpa using hj), List.getElem_map]
  · rw [List.getD_eq_default _ _ (by omega), List.getD_eq_default _ _ (by rw [List.length_map]; omega)]

/-- What the points of a band have to be for the focusing: the sources are among them, and the first microphones tell them apart in all bands. -/
structure Useful (p : Finder) {K : Nat} (src : Fin K → Nat) (l : List Nat) : Prop where
  sources : ∀ q, src q ∈ l
  enough : K ≤ l.length
  apart : ∀ k ∈ p.bins, Apart p k l

/-- The bands of the loop: all bins, in order, with points that are of use. -/
structure Ready (p : Finder) {K : Nat} (src : Fin K → Nat) (bands : List (Nat × List Nat)) : Prop where
  bins : bands.map Prod.fst = p.bins
  useful : ∀ b ∈ bands, Useful p src b.2

theorem Ready.len {p : Finder} {K : Nat} {src : Fin K → Nat} {bands : List (Nat × List Nat)} (h : Ready p src bands) : bands.length = p.bins.length := by
  rw [← h.bins, List.length_map]

theorem Ready.refresh {p : Finder} {K : Nat} {src : Fin K → Nat} {bands : List (Nat × List Nat)} (h : Ready p src bands) {idx : List Nat} (hi : Useful p src idx) :
    Ready p src (refresh bands idx) := by
  constructor
  · rw [← h.bins]
    unfold Cssm.refresh
    rw [List.map_map]
    rfl
  · intro b hb
    unfold Cssm.refresh at hb
    obtain ⟨b', -, rfl⟩ := List.mem_map.mp hb
    exact hi

theorem Ready.focus {p : Finder} {K : Nat} {src : Fin K → Nat} {bands : List (Nat × List Nat)} (h : Ready p src bands) (f0 : Nat) :
    ∃ T : Nat → Matrix (Fin p.M) (Fin p.M) ℂ, ∀ j, j < bands.length → Cssm.focus p (bands.getD j (0, [])).1 f0 (bands.getD j (0, [])).2 = .ok (T j) ∧
      ∀ r q, ∑ c, T j r c * vec p (p.bins.getD j 0) (src q) c = vec p f0 (src q) r := by
  have key : ∀ j, ∃ T : Matrix (Fin p.M) (Fin p.M) ℂ, j < bands.length → Cssm.focus p (bands.getD j (0, [])).1 f0 (bands.getD j (0, [])).2 = .ok T ∧
      ∀ r q, ∑ c, T r c * vec p (p.bins.getD j 0) (src q) c = vec p f0 (src q) r := by
    intro j
    by_cases hj : j < bands.length
    · have hu := h.useful _ (List.getElem_mem hj)
      rw [← List.getD_eq_getElem bands (0, []) hj] at hu
      have hk : (bands.getD j (0, [])).1 = p.bins.getD j 0 := by rw [getD_map_fst, h.bins]
      have hmem : p.bins.getD j 0 ∈ p.bins := by
        rw [List.getD_eq_getElem _ _ (by rw [← h.len]; exact hj)]
        exact List.getElem_mem _
      obtain ⟨hex, hT⟩ := C106_focus p (bands.getD j (0, [])).1 f0 (bands.getD j (0, [])).2
      obtain ⟨T, e⟩ := hex.mpr (by rw [hk]; exact hu.apart _ hmem)
      refine ⟨T, fun _ => ⟨e, fun r q => ?_⟩⟩
      have := hT T e (src q) (hu.sources q) r
      rw [hk] at this
      exact this
    · exact ⟨0, fun h => absurd h hj⟩
  choose T hT using key
  exact ⟨T, hT⟩

/-- If every band has enough peaks, none is left out. -/
theorem kept_all {p : Finder} {K : Nat} {find : (Nat → Option ℝ) → List Nat} {C : Nat → Fin p.M → Fin p.M → ℂ}
    (h : ∀ j, j < p.bins.length → K ≤ (find (scan p (C j) (p.bins.getD j 0))).length) :
    kept p K find C = (List.range p.bins.length).map fun (j : Nat) => (p.bins.getD j 0, find (scan p (C j) (p.bins.getD j 0))) := by
  unfold kept
  rw [← List.filterMap_eq_map]
  apply List.filterMap_congr
  intro j hj
  have := h j (List.mem_range.mp hj)
  simp only [if_neg (Nat.not_lt.mpr this), Function.comp_apply]

theorem map_range_getD (l : List Nat) : (List.range l.length).map (fun (j : Nat) => l.getD j 0) = l := by
  apply List.ext_getElem
  · simp
  · intro i h1 h2
    simp only [List.getElem_map, List.getElem_range]
    exact List.getD_eq_getElem _ _ h2

theorem kept_ready {p : Finder} {K : Nat} {src : Fin K → Nat} {find : (Nat → Option ℝ) → List Nat} {C : Nat → Fin p.M → Fin p.M → ℂ}
    (h : ∀ j, j < p.bins.length → Useful p src (find (scan p (C j) (p.bins.getD j 0)))) : Ready p src (kept p K find C) := by
  rw [kept_all fun j hj => (h j hj).enough]
  constructor
  · rw [List.map_map]
    exact map_range_getD p.bins
  · intro b hb
    obtain ⟨j, hj, rfl⟩ := List.mem_map.mp hb
    exact h j (List.mem_range.mp hj)

/-- Sum of the magnitudes of all samples of a band (specification). -/
noncomputable def loudness (p : Finder) (X : Nat → Nat → Nat → ℂ) (k : Nat) : ℝ := ∑ i ∈ range p.M, ∑ s ∈ range p.numSnap, ‖X i k s‖

theorem amplitude_eq (p : Finder) (X : Nat → Nat → Nat → ℂ) (k : Nat) : amplitude p X k = loudness p X k := by
  unfold amplitude loudness
  exact Finset.sum_comm

/-- **C106** The reference is the first of the bands with the greatest amplitude; without a band there is an exception. -/
theorem C106_reference (p : Finder) (X : Nat → Nat → Nat → ℂ) (bins : List Nat) :
    (bins = [] → reference p X bins = .error .valueError) ∧
    (bins ≠ [] → ∃ j, j < bins.length ∧ reference p X bins = .ok (bins.getD j 0) ∧
      (∀ i, i < bins.length → loudness p X (bins.getD i 0) ≤ loudness p X (bins.getD j 0)) ∧
      ∀ i, i < j → loudness p X (bins.getD i 0) < loudness p X (bins.getD j 0)) := by
  simp only [← amplitude_eq]
  constructor
  · rintro rfl
    rfl
  · intro hne
    have hpos := List.length_pos_iff.mpr hne
    obtain ⟨j, e, hj, hmax, hfirst⟩ := Sync.argmax_spec (bins.map fun k => some (amplitude p X k)) (fun i => amplitude p X (bins.getD i 0)) (by rw [List.length_map]; exact hpos) (by
      intro i hi
      rw [List.length_map] at hi
      rw [List.getD_eq_getElem _ _ (by simpa using hi), List.getElem_map, List.getD_eq_getElem _ _ hi])
    rw [List.length_map] at hj hmax
    refine ⟨j, hj, ?_, hmax, hfirst⟩
    unfold reference
    rw [e]
    rfl

/-! ## The spectrum of CSSM -/

/-- The values are infinite exactly at the points whose steering vector at the bin is a combination of those of the sources. -/
def Shows (p : Finder) {K : Nat} (src : Fin K → Nat) (f0 : Nat) (vals : Nat → Option ℝ) : Prop :=
  ∀ n, vals n = none ↔ ∃ y : Fin K → ℂ, ∀ i, i < p.M → p.steer f0 i n = ∑ q, p.steer f0 i (src q) * y q

theorem shows_iff {p : Finder} {K : Nat} {src : Fin K → Nat} {f0 n : Nat} : (∃ y : Fin K → ℂ, vec p f0 n = fun r => ∑ q, vec p f0 (src q) r * y q) ↔
    ∃ y : Fin K → ℂ, ∀ i, i < p.M → p.steer f0 i n = ∑ q, p.steer f0 i (src q) * y q :=
  exists_congr fun _ => ⟨fun h i hi => congrFun h ⟨i, hi⟩, fun h => funext fun r => h r r.2⟩

/-- The sources are seen at all: also the values at the sources are infinite. -/
theorem Shows.source {p : Finder} {K : Nat} {src : Fin K → Nat} {f0 : Nat} {vals : Nat → Option ℝ} (h : Shows p src f0 vals) (q : Fin K) : vals (src q) = none :=
  (h _).mpr ⟨fun t => if t = q then 1 else 0, fun i _ => by simp⟩

/-- What the routine for the eigenvectors promises, for hermitian matrices. -/
def EighSpec {M : Nat} (eigh : (Fin M → Fin M → ℂ) → (Fin M → ℝ) × (Fin M → Fin M → ℂ)) : Prop :=
  ∀ C : Fin M → Fin M → ℂ, (∀ i j, C i j = conj (C j i)) → IsEigh C (eigh C).1 (eigh C).2

/-- The covariances of all bands together. -/
noncomputable def total (p : Finder) {K : Nat} (R : Nat → Fin K → Fin K → ℂ) : Fin K → Fin K → ℂ := fun q t => ∑ j ∈ range p.bins.length, R (p.bins.getD j 0) q t

theorem cov_herm (p : Finder) (X : Nat → Nat → Nat → ℂ) (k : Nat) (i j : Fin p.M) : covLoop p X k i j = conj (covLoop p X k j i) := by
  rw [C80_loop, C80_loop]
  unfold cov
  rw [map_div₀, map_sum, Complex.conj_natCast]
  congr 1
  exact sum_congr rfl fun s _ => by rw [map_mul, Complex.conj_conj, mul_comm]

theorem congr_herm {M : Nat} (T : Matrix (Fin M) (Fin M) ℂ) {C : Fin M → Fin M → ℂ} (h : ∀ i j, C i j = conj (C j i)) (r c : Fin M) : congr T C r c = conj (congr T C c r) := by
  unfold congr
  rw [map_sum, Finset.sum_comm]
  apply sum_congr rfl
  intro j _
  rw [map_sum]
  apply sum_congr rfl
  intro i _
  rw [map_mul, map_mul, Complex.conj_conj, ← h i j]
  ring

/-- Mean power of a delay and sum beamformer towards a point, in a band (specification). -/
noncomputable def power (p : Finder) (X : Nat → Nat → Nat → ℂ) (k : Nat) : Nat → Option ℝ :=
  fun n => some ((∑ s ∈ range p.numSnap, ‖∑ i ∈ range p.M, conj (p.steer k i n) * X i k s‖ ^ 2) / p.numSnap)

theorem scan_power (p : Finder) (X : Nat → Nat → Nat → ℂ) (k : Nat) : scan p (covLoop p X k) k = power p X k := by
  funext n
  unfold scan power
  have e : ∑ r, conj (vec p k n r) * ∑ c, covLoop p X k r c * vec p k n c = (((∑ s ∈ range p.numSnap, ‖∑ i ∈ range p.M, conj (p.steer k i n) * X i k s‖ ^ 2) / p.numSnap : ℝ) : ℂ) := by
    have h1 : ∀ s, ((‖∑ i ∈ range p.M, conj (p.steer k i n) * X i k s‖ ^ 2 : ℝ) : ℂ) = ∑ r : Fin p.M, ∑ c : Fin p.M, conj (vec p k n r) * (X r k s * conj (X c k s) * vec p k n c) := by
      intro s
      rw [← Complex.normSq_eq_norm_sq, ← Complex.mul_conj, ← Fin.sum_univ_eq_sum_range (fun i => conj (p.steer k i n) * X i k s), map_sum, Finset.sum_mul_sum]
      exact sum_congr rfl fun r _ => sum_congr rfl fun c _ => by
        rw [map_mul, Complex.conj_conj]
        unfold vec
        ring
    rw [Complex.ofReal_div, Complex.ofReal_sum, sum_congr rfl fun s _ => h1 s, Finset.sum_comm, Finset.sum_div]
    apply sum_congr rfl
    intro r _
    rw [Finset.sum_comm, Finset.sum_div, Finset.mul_sum]
    apply sum_congr rfl
    intro c _
    rw [C80_loop]
    unfold cov
    rw [Complex.ofReal_natCast, Finset.sum_div, Finset.sum_div, Finset.sum_mul, Finset.mul_sum]
    exact sum_congr rfl fun s _ => by ring
  rw [e, Complex.norm_real, Real.norm_of_nonneg]
  exact div_nonneg (Finset.sum_nonneg fun _ _ => sq_nonneg _) (Nat.cast_nonneg _)

theorem step_shows {p : Finder} {K : Nat} (hK : 1 ≤ K) {src : Fin K → Nat} {X : Nat → Nat → Nat → ℂ} {R : Nat → Fin K → Fin K → ℂ}
    (hC : ∀ k ∈ p.bins, WaveMatrix (cov p X k) (fun r q => vec p k (src q) r) (R k) 0) (hR : Definite (total p R)) {f0 : Nat}
    (hA : ∀ y : Fin K → ℂ, (∀ i, i < p.M → ∑ q, p.steer f0 i (src q) * y q = 0) → y = 0)
    {eigh : (Fin p.M → Fin p.M → ℂ) → (Fin p.M → ℝ) × (Fin p.M → Fin p.M → ℂ)} (he : EighSpec eigh) {bands : List (Nat × List Nat)} (hb : Ready p src bands) :
    ∃ S, coherentSum p (fun j => covLoop p X (p.bins.getD j 0)) f0 bands = .ok S ∧ Shows p src f0 fun n => spectrumOf (noise p.M K) (eigh S).2 (vec p f0 n) := by
  obtain ⟨T, hT⟩ := hb.focus f0
  refine ⟨_, coherentSum_ok fun j hj => (hT j hj).1, ?_⟩
  set S : Fin p.M → Fin p.M → ℂ := fun r c => ∑ j ∈ range bands.length, congr (T j) (covLoop p X (p.bins.getD j 0)) r c with hS
  have hh : ∀ i j, S i j = conj (S j i) := by
    intro i j
    rw [hS]
    simp only [map_sum]
    exact sum_congr rfl fun b _ => congr_herm _ (cov_herm p X _) i j
  have hw : WaveMatrix S (fun r q => vec p f0 (src q) r) (total p R) 0 := by
    intro r c
    simp only [Complex.ofReal_zero, ite_self, add_zero]
    rw [hS]
    simp only
    have h1 : ∀ j ∈ range bands.length, congr (T j) (covLoop p X (p.bins.getD j 0)) r c = ∑ q, ∑ t, vec p f0 (src q) r * R (p.bins.getD j 0) q t * conj (vec p f0 (src t) c) := by
      intro j hj
      rw [mem_range] at hj
      have hmem : p.bins.getD j 0 ∈ p.bins := by
        rw [List.getD_eq_getElem _ _ (by rw [← hb.len]; exact hj)]
        exact List.getElem_mem _
      have hC' : WaveMatrix (covLoop p X (p.bins.getD j 0)) (fun r q => vec p (p.bins.getD j 0) (src q) r) (R (p.bins.getD j 0)) 0 := by
        intro r c
        rw [C80_loop]
        exact hC _ hmem r c
      exact congr_wave hC' (hT j hj).2 r c
    rw [sum_congr rfl h1, Finset.sum_comm]
    apply sum_congr rfl
    intro q _
    rw [Finset.sum_comm]
    apply sum_congr rfl
    intro t _
    rw [← Finset.sum_mul, ← Finset.mul_sum]
    unfold total
    rw [hb.len]
  intro n
  beta_reduce
  rw [spectrumOf_eq hK (he S hh).orth, C80_subspace hK hw hR (fun y hy => hA y fun i hi => congrFun hy ⟨i, hi⟩) (he S hh)]
  exact shows_iff

theorem cssmLoop_shows {p : Finder} {K : Nat} (hK : 1 ≤ K) {src : Fin K → Nat} {X : Nat → Nat → Nat → ℂ} {R : Nat → Fin K → Fin K → ℂ}
    (hC : ∀ k ∈ p.bins, WaveMatrix (cov p X k) (fun r q => vec p k (src q) r) (R k) 0) (hR : Definite (total p R)) {f0 : Nat}
    (hA : ∀ y : Fin K → ℂ, (∀ i, i < p.M → ∑ q, p.steer f0 i (src q) * y q = 0) → y = 0)
    {eigh : (Fin p.M → Fin p.M → ℂ) → (Fin p.M → ℝ) × (Fin p.M → Fin p.M → ℂ)} (he : EighSpec eigh) {find : (Nat → Option ℝ) → List Nat}
    (hf : ∀ vals, Shows p src f0 vals → Useful p src (find vals)) (iter : Nat) : ∀ (bands : List (Nat × List Nat)) (v : Nat → Option ℝ), Ready p src bands →
    ∃ vals, cssmLoop p K find eigh (fun j => covLoop p X (p.bins.getD j 0)) f0 (iter + 1) bands v = .ok vals ∧ Shows p src f0 vals := by
  induction iter with
  | zero =>
    intro bands v hb
    obtain ⟨S, e, hs⟩ := step_shows hK hC hR hA he hb
    refine ⟨_, ?_, hs⟩
    unfold cssmLoop
    rw [e]
    rfl
  | succ iter ih =>
    intro bands v hb
    obtain ⟨S, e, hs⟩ := step_shows hK hC hR hA he hb
    obtain ⟨vals, e2, h2⟩ := ih (refresh bands (find fun n => spectrumOf (noise p.M K) (eigh S).2 (vec p f0 n))) (fun n => spectrumOf (noise p.M K) (eigh S).2 (vec p f0 n)) (hb.refresh (hf _ hs))
    refine ⟨vals, ?_, h2⟩
    unfold cssmLoop
    rw [e]
    exact e2

/-- **C106** CSSM without noise. The correlation matrix of every band is that of `K` waves from points of the grid, and the correlations of the sources are definite only when added over all bands (so the sources
may be coherent in each of them). The search for peaks finds points of use: at the start in every band, and then if the values are infinite exactly at the sources and the points that cannot be told from them.
Then, after one or more iterations, the values are infinite exactly at the points whose steering vector at the reference is a combination of those of the sources. The reference is a band of the greatest amplitude. -/
theorem C106_cssm {p : Finder} (hp : p.bins ≠ []) {K : Nat} (hK : 1 ≤ K) {src : Fin K → Nat} {X : Nat → Nat → Nat → ℂ} {R : Nat → Fin K → Fin K → ℂ}
    (hC : ∀ k ∈ p.bins, WaveMatrix (cov p X k) (fun r q => vec p k (src q) r) (R k) 0) (hR : Definite (total p R))
    (hA : ∀ k ∈ p.bins, ∀ y : Fin K → ℂ, (∀ i, i < p.M → ∑ q, p.steer k i (src q) * y q = 0) → y = 0)
    {eigh : (Fin p.M → Fin p.M → ℂ) → (Fin p.M → ℝ) × (Fin p.M → Fin p.M → ℂ)} (he : EighSpec eigh) {find : (Nat → Option ℝ) → List Nat}
    (hstart : ∀ k ∈ p.bins, Useful p src (find (power p X k))) (hf : ∀ k ∈ p.bins, ∀ vals, Shows p src k vals → Useful p src (find vals)) {iter : Nat} (hi : 1 ≤ iter) :
    ∃ f0 ∈ p.bins, (∀ k ∈ p.bins, loudness p X k ≤ loudness p X f0) ∧ ∃ vals, cssm p K iter find eigh X = .ok vals ∧ Shows p src f0 vals := by
  have hmem : ∀ j, j < p.bins.length → p.bins.getD j 0 ∈ p.bins := fun j hj => by
    rw [List.getD_eq_getElem _ _ hj]
    exact List.getElem_mem _
  have hready : Ready p src (kept p K find fun j => covLoop p X (p.bins.getD j 0)) := by
    apply kept_ready
    intro j hj
    rw [scan_power]
    exact hstart _ (hmem j hj)
  obtain ⟨j, hj, eref, hmax, -⟩ := (C106_reference p X p.bins).2 hp
  refine ⟨p.bins.getD j 0, hmem j hj, ?_, ?_⟩
  · intro k hk
    obtain ⟨i, hi, rfl⟩ := List.getElem_of_mem hk
    rw [← List.getD_eq_getElem p.bins 0 hi]
    exact hmax i hi
  · obtain ⟨m, rfl⟩ := Nat.exists_eq_add_of_le' hi
    obtain ⟨vals, e, hs⟩ := cssmLoop_shows hK hC hR (hA _ (hmem j hj)) he (hf _ (hmem j hj)) m _
      (scan p (covLoop p X (p.bins.getD (p.bins.length - 1) 0)) (p.bins.getD (p.bins.length - 1) 0)) hready
    refine ⟨vals, ?_, hs⟩
    unfold cssm
    simp only
    rw [hready.bins, eref]
    exact e

end Verif.Cssm
