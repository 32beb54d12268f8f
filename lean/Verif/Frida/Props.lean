import Verif.Frida.Model
import Mathlib.LinearAlgebra.Matrix.NonsingularInverse
import Mathlib.LinearAlgebra.Matrix.PosDef
import Mathlib.Analysis.Matrix.Spectrum
import Mathlib.Algebra.BigOperators.Field
import Mathlib.Algebra.BigOperators.Group.List.Lemmas

namespace Verif.Frida

open Matrix ComplexConjugate

variable {M N K : ℕ}

/-! ## Specification -/

/-- The pairs of different microphones, the first one changing slowest. -/
def pairs (M : ℕ) : List (Fin M × Fin M) := ((List.finRange M).flatMap fun q => (List.finRange M).map fun p => (q, p)).filter fun p => decide (p.1 ≠ p.2)

/-- The phase of a wave with the wave number `kappa` that arrives from the azimuth `phi`. -/
noncomputable def wave (kappa : ℝ) (px py phi : ℝ) : ℂ := Complex.exp (Complex.I * ((kappa * (px * Real.cos phi + py * Real.sin phi) : ℝ) : ℂ))

/-- What a source with this phase contributes to the visibility of a pair: the propagation vector points to `psi`. -/
noncomputable def response (kappa : ℝ) (px py : Fin M → ℝ) (psi : ℝ) (p : Fin M × Fin M) : ℂ :=
  Complex.exp (-Complex.I * ((kappa * ((px p.1 - px p.2) * Real.cos psi + (py p.1 - py p.2) * Real.sin psi) : ℝ) : ℂ))

/-! ## Lemmas -/

theorem zip_map_map {α β γ : Type*} (f : α → β) (g : α → γ) (l : List α) : (l.map f).zip (l.map g) = l.map fun x => (f x, g x) := by
  induction l with
  | nil => rfl
  | cons a l ih => simp [ih]

theorem ravel_eq {α : Type*} (A : Matrix (Fin M) (Fin M) α) : ravel A = ((List.finRange M).flatMap fun q => (List.finRange M).map fun p => (q, p)).map fun p => A p.1 p.2 := by
  unfold ravel
  rw [List.map_flatMap]
  simp only [List.map_map]
  rfl

theorem extract_eq {α : Type*} (A : Matrix (Fin M) (Fin M) α) : extract (offCond M) A = (pairs M).map fun p => A p.1 p.2 := by
  unfold extract offCond pairs
  rw [ravel_eq, ravel_eq, zip_map_map]
  generalize (List.finRange M).flatMap (fun q => (List.finRange M).map fun p => (q, p)) = l
  induction l with
  | nil => rfl
  | cons a l ih =>
    by_cases h : a.1 = a.2
    · simp only [List.map_cons, List.filterMap_cons, List.filter_cons]
      rw [if_neg (by simp [h]), if_neg (by simp [h])]
      exact ih
    · simp only [List.map_cons, List.filterMap_cons, List.filter_cons]
      rw [if_pos (by simp [h]), if_pos (by simp [h])]
      simp only [List.map_cons]
      congr 1

theorem mem_pairs {p : Fin M × Fin M} (h : p ∈ pairs M) : p.1 ≠ p.2 := by
  unfold pairs at h
  simpa using (List.mem_filter.mp h).2

theorem loop_pairs (visi : List ℂ) (px py : Fin M → ℝ) (theta : ℝ) (v : Fin M × Fin M → ℂ) (l : List (Fin M × Fin M)) (img : ℂ) (n : ℕ)
    (h : visi.drop n = (l.filter fun p => decide (p.1 ≠ p.2)).map v) :
    (l.foldlM (imageStep visi px py theta) (img, n)).map Prod.fst =
      some (img + ((l.filter fun p => decide (p.1 ≠ p.2)).map fun p => v p * Complex.exp (-Complex.I * (((px p.1 - px p.2) * Real.cos theta + (py p.1 - py p.2) * Real.sin theta : ℝ) : ℂ))).sum) := by
  induction l generalizing img n with
  | nil => simp
  | cons a l ih =>
    rw [List.foldlM_cons]
    by_cases ha : a.1 = a.2
    · rw [List.filter_cons_of_neg (by simp [ha])] at h ⊢
      unfold imageStep
      rw [if_pos ha]
      exact ih img n h
    · rw [List.filter_cons_of_pos (by simp [ha])] at h ⊢
      rw [List.map_cons] at h
      have h0 : visi[n]? = some (v a) := by
        have := congrArg (fun l => l[0]?) h
        simpa using this
      have h1 : visi.drop (n + 1) = (l.filter fun p => decide (p.1 ≠ p.2)).map v := by
        have := congrArg List.tail h
        simpa using this
      unfold imageStep
      rw [if_neg ha, h0]
      simp only [Option.map_some, List.map_cons, List.sum_cons]
      rw [← add_assoc]
      exact ih _ _ h1

theorem pairs_length (M : ℕ) : (pairs M).length = M * (M - 1) := by
  have hn : (pairs M).Nodup := List.Nodup.filter _ (List.Nodup.product (List.nodup_finRange M) (List.nodup_finRange M))
  rw [← List.toFinset_card_of_nodup hn]
  have : (pairs M).toFinset = (Finset.univ : Finset (Fin M)).offDiag := by
    ext p
    simp only [pairs, List.mem_toFinset, List.mem_filter, Finset.mem_offDiag, Finset.mem_univ, true_and, decide_eq_true_eq]
    constructor
    · exact fun h => h.2
    · refine fun h => ⟨?_, h⟩
      rw [List.mem_flatMap]
      exact ⟨p.1, List.mem_finRange _, List.mem_map.mpr ⟨p.2, List.mem_finRange _, rfl⟩⟩
  rw [this, Finset.offDiag_card, Finset.card_univ, Fintype.card_fin, Nat.mul_sub, mul_one]

theorem response_wave (kappa : ℝ) (px py : Fin M → ℝ) (phi : ℝ) (q p : Fin M) :
    conj (wave kappa (px p) (py p) phi) * wave kappa (px q) (py q) phi = response kappa px py (phi + Real.pi) (q, p) := by
  unfold wave response
  rw [← Complex.exp_conj, ← Complex.exp_add, Real.cos_add_pi, Real.sin_add_pi]
  congr 1
  simp only [map_mul, Complex.conj_I, Complex.conj_ofReal]
  push_cast
  ring

theorem band_eq (px py : Fin M → ℝ) (theta c : ℝ) (img : ℂ) (omega : ℝ) (v : Fin M × Fin M → ℂ) :
    imageBand px py theta c img (omega, (pairs M).map v) = some (img + ((pairs M).map fun p => v p * response (omega / c) px py theta p).sum) := by
  unfold imageBand
  simp only
  rw [ravel_eq]
  simp only [Matrix.of_apply, Prod.mk.eta, List.map_id']
  rw [loop_pairs _ _ _ _ v _ _ _ (by rw [List.drop_zero]; rfl)]
  congr 3
  refine List.map_congr_left fun p _ => ?_
  unfold response
  congr 5
  rw [div_div_eq_mul_div, div_div_eq_mul_div, div_div_eq_mul_div, div_div_eq_mul_div]
  ring

theorem cov_eq {threshold : ℝ} {y : Fin M → Fin N → ℂ} {A : Finset (Fin N)} (hA : ∀ n, n ∈ A ↔ threshold < (∑ q, ‖y q n - (∑ p, y p n) / (M : ℂ)‖ ^ 2) / M) (hne : A.Nonempty) :
    covMtxEst y (frames threshold y) = some (.of fun q p => (∑ n ∈ A, conj (y q n) * y p n) / (A.card : ℂ)) := by
  classical
  have hnd : (frames threshold y).Nodup := List.Nodup.filter _ (List.nodup_finRange N)
  have hfr : (frames threshold y).toFinset = A := by
    ext n
    rw [hA n]
    simp only [frames, var, List.mem_toFinset, List.mem_filter, List.mem_finRange, true_and]
    exact decide_eq_true_iff
  have hcard : (frames threshold y).length = A.card := by rw [← hfr, List.toFinset_card_of_nodup hnd]
  have hl : frames threshold y ≠ [] := by
    intro h
    rw [h] at hcard
    exact hne.card_pos.ne' hcard.symm
  have : covMtxEst y (frames threshold y) = some (.of fun q p => ((frames threshold y).map fun n => conj (y q n) * y p n).sum / ((frames threshold y).length : ℂ)) := by
    cases hfr2 : frames threshold y with
    | nil => exact absurd hfr2 hl
    | cons a I => rfl
  rw [this, hcard]
  congr 2
  funext q p
  rw [← hfr, List.sum_toFinset _ hnd]

/-! ## Theorems -/

/-- Sources at different azimuths whose signals are not correlated in the selected frames: the visibilities are the sum of the responses of the opposite directions (those in which the waves
travel), weighted with the mean powers, for the pairs of different microphones in order. -/
theorem C118_visibilities {threshold kappa : ℝ} {px py : Fin M → ℝ} {phi : Fin K → ℝ} {s : Fin K → Fin N → ℂ} {y : Fin M → Fin N → ℂ} {A : Finset (Fin N)}
    (hy : ∀ q n, y q n = ∑ k, s k n * wave kappa (px q) (py q) (phi k)) (hA : ∀ n, n ∈ A ↔ threshold < (∑ q, ‖y q n - (∑ p, y p n) / (M : ℂ)‖ ^ 2) / M) (hne : A.Nonempty)
    (hs : ∀ k l, k ≠ l → ∑ n ∈ A, conj (s k n) * s l n = 0) :
    visibilities threshold none y = some ((pairs M).map fun p => ∑ k, (((∑ n ∈ A, ‖s k n‖ ^ 2) / A.card : ℝ) : ℂ) * response kappa px py (phi k + Real.pi) p) := by
  have hcov := cov_eq hA hne
  unfold visibilities
  rw [hcov]
  simp only [Option.map_some]
  unfold extractOffDiag
  rw [extract_eq]
  congr 1
  refine List.map_congr_left fun p _ => ?_
  rw [Matrix.transpose_apply, Matrix.of_apply]
  have hsum : ∑ n ∈ A, conj (y p.2 n) * y p.1 n = ∑ k, ((∑ n ∈ A, ‖s k n‖ ^ 2 : ℝ) : ℂ) * response kappa px py (phi k + Real.pi) p := by
    have e1 : ∀ n, conj (y p.2 n) * y p.1 n = ∑ k, ∑ l, conj (s k n) * s l n * (conj (wave kappa (px p.2) (py p.2) (phi k)) * wave kappa (px p.1) (py p.1) (phi l)) := by
      intro n
      rw [hy, hy, map_sum, Finset.sum_mul_sum]
      refine Finset.sum_congr rfl fun k _ => Finset.sum_congr rfl fun l _ => ?_
      rw [map_mul]
      ring
    simp only [e1]
    rw [Finset.sum_comm]
    refine Finset.sum_congr rfl fun k _ => ?_
    rw [Finset.sum_comm, Finset.sum_eq_single k]
    · rw [← Finset.sum_mul, response_wave]
      congr 1
      push_cast
      refine Finset.sum_congr rfl fun n _ => ?_
      rw [mul_comm, Complex.mul_conj, Complex.normSq_eq_norm_sq]
      push_cast
      rfl
    · intro l _ hl
      rw [← Finset.sum_mul, hs k l (Ne.symm hl), zero_mul]
    · simp
  rw [hsum, Finset.sum_div]
  refine Finset.sum_congr rfl fun k _ => ?_
  push_cast
  ring

/-- `build_mtx_amp` has these responses as rows, in the same order. -/
theorem C118_amplitudes (psi : Fin K → ℝ) (px py : Fin M → ℝ) : buildMtxAmp psi px py = (pairs M).map fun p k => response 1 px py (psi k) p := by
  unfold buildMtxAmp
  rw [extract_eq, extract_eq, zip_map_map, List.map_map]
  refine List.map_congr_left fun p _ => ?_
  funext k
  unfold response
  simp only [Function.comp, Matrix.of_apply]
  congr 3
  ring

/-- The coordinates divided by `c / omega` in place of the wave number. -/
theorem C118_normalised (psi : Fin K → ℝ) (px py : Fin M → ℝ) (omega c : ℝ) :
    buildMtxAmp psi (fun q => px q / (c / omega)) (fun q => py q / (c / omega)) = (pairs M).map fun p k => response (omega / c) px py (psi k) p := by
  rw [C118_amplitudes]
  refine List.map_congr_left fun p _ => ?_
  funext k
  unfold response
  congr 3
  beta_reduce
  rw [div_div_eq_mul_div, div_div_eq_mul_div, div_div_eq_mul_div, div_div_eq_mul_div]
  ring

open scoped ComplexOrder in
/-- The cleaned matrix: if the matrix is the sum of a positive semidefinite matrix of rank at most `k` and of a multiple of the identity, then the entries off the diagonal are those
of the first one. -/
theorem clean_eq {k : ℕ} {S : Matrix (Fin M) (Fin M) ℂ} (hS : S.PosSemidef) (hrank : S.rank ≤ k) {sigma : ℝ} (hsigma : 0 ≤ sigma) {w : Fin M → ℝ} {V : Fin M → Fin M → ℂ}
    (h : Music.IsEigh (fun r c => S r c + if r = c then (sigma : ℂ) else 0) w V) :
    extractOffDiag (clean k w V) = (pairs M).map fun p => S p.2 p.1 := by
  set U : Matrix (Fin M) (Fin M) ℂ := .of V with hU
  have hUU : Uᴴ * U = 1 := by
    ext i j
    rw [Matrix.mul_apply, Matrix.one_apply]
    exact h.orth i j
  have hUU' : U * Uᴴ = 1 := mul_eq_one_comm.mp hUU
  have hSU : S * U = U * Matrix.diagonal fun i => ((w i - sigma : ℝ) : ℂ) := by
    ext r i
    have := h.eigen r i
    rw [Matrix.mul_diagonal, Matrix.mul_apply]
    simp only [hU, Matrix.of_apply]
    have e : ∑ c, (S r c + if r = c then (sigma : ℂ) else 0) * V c i = ∑ c, S r c * V c i + sigma * V r i := by
      simp only [add_mul, Finset.sum_add_distrib, ite_mul, zero_mul, Finset.sum_ite_eq, Finset.mem_univ, if_true]
    rw [e] at this
    push_cast
    linear_combination this
  have hD : Uᴴ * S * U = Matrix.diagonal fun i => ((w i - sigma : ℝ) : ℂ) := by
    rw [Matrix.mul_assoc, hSU, ← Matrix.mul_assoc, hUU, Matrix.one_mul]
  have hw : ∀ i, sigma ≤ w i := by
    intro i
    have hp : (Uᴴ * S * U).PosSemidef := hS.conjTranspose_mul_mul_same U
    have := hp.diag_nonneg (i := i)
    rw [hD, Matrix.diagonal_apply_eq] at this
    have : (0 : ℝ) ≤ w i - sigma := by exact_mod_cast this
    linarith
  have hrk : (Matrix.diagonal fun i => ((w i - sigma : ℝ) : ℂ)).rank ≤ k := by
    rw [← hD]
    exact le_trans (Matrix.rank_mul_le_left _ _) (le_trans (Matrix.rank_mul_le_right _ _) hrank)
  have hout : ∀ i, i ∉ Music.signal M k → w i = sigma := by
    intro i hi
    simp only [Music.signal, Finset.mem_filter, Finset.mem_univ, true_and, not_or, not_le] at hi
    by_contra hne
    have hlt : sigma < w i := lt_of_le_of_ne (hw i) (Ne.symm hne)
    rw [Matrix.rank_diagonal] at hrk
    have : M - (i : ℕ) ≤ Fintype.card {j : Fin M // ((w j - sigma : ℝ) : ℂ) ≠ 0} := by
      rw [Fintype.card_subtype]
      refine le_trans ?_ (Finset.card_le_card (s := Finset.Ici i) ?_)
      · rw [Fin.card_Ici]
      · intro j hj
        rw [Finset.mem_filter]
        refine ⟨Finset.mem_univ _, ?_⟩
        have := h.ascending (Finset.mem_Ici.mp hj)
        have : w j - sigma ≠ 0 := by linarith
        exact_mod_cast this
    omega
  have habs : ∀ i, |w i| = w i := fun i => abs_of_nonneg (le_trans hsigma (hw i))
  unfold extractOffDiag
  rw [extract_eq]
  refine List.map_congr_left fun p hp => ?_
  have hne := mem_pairs hp
  rw [Matrix.transpose_apply]
  unfold clean
  rw [Matrix.of_apply]
  simp only [habs]
  have hmin : ∀ i, i ∉ Music.signal M k → w i = ⨅ j, w j := by
    intro i hi
    apply le_antisymm
    · have : Nonempty (Fin M) := ⟨i⟩
      exact le_ciInf fun j => by rw [hout i hi]; exact hw j
    · exact ciInf_le (Set.finite_range w).bddBelow i
  have hfull : ∑ i ∈ Music.signal M k, V p.2 i * ((w i - ⨅ j, w j : ℝ) : ℂ) * conj (V p.1 i) = ∑ i, V p.2 i * ((w i - ⨅ j, w j : ℝ) : ℂ) * conj (V p.1 i) := by
    apply Finset.sum_subset (Finset.subset_univ _)
    intro i _ hi
    rw [← hmin i hi, sub_self, Complex.ofReal_zero, mul_zero, zero_mul]
  rw [hfull]
  have h1 : ∑ i, V p.2 i * conj (V p.1 i) = 0 := by
    have := congrFun (congrFun hUU' p.2) p.1
    rw [Matrix.mul_apply, Matrix.one_apply_ne (Ne.symm hne)] at this
    exact this
  have h2 : ∑ i, V p.2 i * ((w i - sigma : ℝ) : ℂ) * conj (V p.1 i) = S p.2 p.1 := by
    have : S = U * (Matrix.diagonal fun i => ((w i - sigma : ℝ) : ℂ)) * Uᴴ := by rw [← hSU, Matrix.mul_assoc, hUU', Matrix.mul_one]
    have h3 := congrFun (congrFun this p.2) p.1
    rw [Matrix.mul_apply] at h3
    rw [h3]
    refine Finset.sum_congr rfl fun i _ => ?_
    rw [Matrix.mul_diagonal]
    rfl
  rw [← h2]
  have e : ∀ i, V p.2 i * ((w i - ⨅ j, w j : ℝ) : ℂ) * conj (V p.1 i) = V p.2 i * ((w i - sigma : ℝ) : ℂ) * conj (V p.1 i) + ((sigma - ⨅ j, w j : ℝ) : ℂ) * (V p.2 i * conj (V p.1 i)) := by
    intro i
    push_cast
    ring
  rw [Finset.sum_congr rfl fun i _ => e i, Finset.sum_add_distrib, ← Finset.mul_sum, h1, mul_zero, add_zero]

open scoped ComplexOrder in
/-- The cleaning removes white noise: if the mean of the products of the microphones over the selected frames is the sum of a positive semidefinite matrix of rank at most `k` and of a multiple of
the identity, then the visibilities are the entries of the first one off the diagonal. -/
theorem C118_cleaning {threshold : ℝ} {k : ℕ} {y : Fin M → Fin N → ℂ} {A : Finset (Fin N)} (hA : ∀ n, n ∈ A ↔ threshold < (∑ q, ‖y q n - (∑ p, y p n) / (M : ℂ)‖ ^ 2) / M) (hne : A.Nonempty)
    {S : Matrix (Fin M) (Fin M) ℂ} (hS : S.PosSemidef) (hrank : S.rank ≤ k) {sigma : ℝ} (hsigma : 0 ≤ sigma)
    (hR : ∀ q p, (∑ n ∈ A, conj (y q n) * y p n) / (A.card : ℂ) = S q p + if q = p then (sigma : ℂ) else 0)
    {eigh : Matrix (Fin M) (Fin M) ℂ → (Fin M → ℝ) × (Fin M → Fin M → ℂ)} (heigh : ∀ R : Matrix (Fin M) (Fin M) ℂ, R.IsHermitian → Music.IsEigh R (eigh R).1 (eigh R).2) :
    visibilities threshold (some (k, eigh)) y = some ((pairs M).map fun p => S p.2 p.1) := by
  unfold visibilities
  rw [cov_eq hA hne]
  simp only [Option.map_some, hR]
  have hH : (Matrix.of fun q p => S q p + if q = p then (sigma : ℂ) else 0).IsHermitian := by
    ext q p
    rw [Matrix.conjTranspose_apply, Matrix.of_apply, Matrix.of_apply, star_add, hS.1.apply q p]
    congr 1
    by_cases h : q = p
    · rw [if_pos h, if_pos h.symm]
      exact Complex.conj_ofReal _
    · rw [if_neg h, if_neg (Ne.symm h), star_zero]
  exact congrArg some (clean_eq hS hrank hsigma (heigh _ hH))

/-- The dirty image of one source is largest at its azimuth, where it is the sum of the powers. -/
theorem C118_image (hM : 2 ≤ M) (px py : Fin M → ℝ) (c phi : ℝ) (bands : List (ℝ × ℝ)) (hpos : ∀ b ∈ bands, 0 ≤ b.2) :
    dirtyImage px py c (bands.map fun b => (b.1, (pairs M).map fun p => (b.2 : ℂ) * response (b.1 / c) px py (phi + Real.pi) p)) phi = some (((bands.map Prod.snd).sum : ℝ) : ℂ) ∧
    ∀ theta, ∃ z, dirtyImage px py c (bands.map fun b => (b.1, (pairs M).map fun p => (b.2 : ℂ) * response (b.1 / c) px py (phi + Real.pi) p)) theta = some z ∧ ‖z‖ ≤ (bands.map Prod.snd).sum := by
  have hMM : M * (M - 1) ≠ 0 := Nat.mul_ne_zero (by omega) (by omega)
  have hMc : (M : ℂ) * ((M : ℂ) - 1) = ((M * (M - 1) : ℕ) : ℂ) := by
    rw [Nat.cast_mul, Nat.cast_sub (by omega)]
    simp
  have hMc0 : ((M * (M - 1) : ℕ) : ℂ) ≠ 0 := by exact_mod_cast hMM
  have hfold : ∀ theta (l : List (ℝ × ℝ)) (img : ℂ), (l.map fun b => (b.1, (pairs M).map fun p => (b.2 : ℂ) * response (b.1 / c) px py (phi + Real.pi) p)).foldlM (imageBand px py theta c) img =
      some (img + (l.map fun b => ((pairs M).map fun p => (b.2 : ℂ) * response (b.1 / c) px py (phi + Real.pi) p * response (b.1 / c) px py theta p).sum).sum) := by
    intro theta l
    induction l with
    | nil =>
      intro img
      simp
    | cons b l ih =>
      intro img
      rw [List.map_cons, List.foldlM_cons, band_eq]
      show List.foldlM _ _ _ = _
      rw [ih, List.map_cons, List.sum_cons, add_assoc]
  have hval : ∀ theta, dirtyImage px py c (bands.map fun b => (b.1, (pairs M).map fun p => (b.2 : ℂ) * response (b.1 / c) px py (phi + Real.pi) p)) theta =
      some ((bands.map fun b => ((pairs M).map fun p => (b.2 : ℂ) * response (b.1 / c) px py (phi + Real.pi) p * response (b.1 / c) px py theta p).sum).sum / ((M * (M - 1) : ℕ) : ℂ)) := by
    intro theta
    unfold dirtyImage
    rw [if_neg hMM, hfold, Option.map_some, zero_add, hMc]
  constructor
  · rw [hval]
    congr 1
    rw [div_eq_iff hMc0]
    have h1 : ∀ (b : ℝ × ℝ) p, (b.2 : ℂ) * response (b.1 / c) px py (phi + Real.pi) p * response (b.1 / c) px py phi p = b.2 := by
      intro b p
      rw [mul_assoc]
      unfold response
      rw [← Complex.exp_add, Real.cos_add_pi, Real.sin_add_pi]
      rw [show ∀ a b : ℂ, a + b = b + a from add_comm, show ∀ x y : ℝ, -Complex.I * ((x : ℝ) : ℂ) + -Complex.I * ((y : ℝ) : ℂ) = -Complex.I * ((x + y : ℝ) : ℂ) by intro x y; push_cast; ring]
      rw [show ∀ a x y u v : ℝ, a * (x * u + y * v) + a * (x * -u + y * -v) = 0 by intros; ring]
      simp
    simp only [h1, List.map_const', List.sum_replicate, pairs_length]
    rw [← Complex.coe_algebraMap, map_list_sum, List.map_map]
    simp only [nsmul_eq_mul]
    rw [List.sum_map_mul_left, mul_comm]
    rfl
  · intro theta
    refine ⟨_, hval theta, ?_⟩
    have hnorm : ∀ l : List ℂ, ‖l.sum‖ ≤ (l.map fun z => ‖z‖).sum := by
      intro l
      induction l with
      | nil => simp
      | cons a l ih =>
        rw [List.sum_cons, List.map_cons, List.sum_cons]
        exact le_trans (norm_add_le _ _) (by linarith)
    rw [norm_div, div_le_iff₀ (by rw [Complex.norm_natCast]; exact_mod_cast Nat.pos_of_ne_zero hMM), Complex.norm_natCast]
    refine le_trans (hnorm _) ?_
    rw [mul_comm, ← List.sum_map_mul_left, List.map_map]
    apply List.sum_le_sum
    intro b hb
    simp only [Function.comp]
    refine le_trans (hnorm _) ?_
    have h1 : ∀ k psi p, ‖response k px py psi p‖ = 1 := by
      intro k psi p
      unfold response
      rw [show ∀ x : ℝ, -Complex.I * (x : ℂ) = ((-x : ℝ) : ℂ) * Complex.I by intro x; push_cast; ring]
      exact Complex.norm_exp_ofReal_mul_I _
    rw [List.map_map, List.map_congr_left (g := fun _ => b.2)]
    · rw [List.map_const', List.sum_replicate, pairs_length, nsmul_eq_mul]
    · intro p _
      simp only [Function.comp, norm_mul, h1, mul_one, Complex.norm_real, Real.norm_eq_abs]
      exact abs_of_nonneg (hpos b hb)

/-- The conversion of the propagation direction gives back the azimuth, between zero and a turn. -/
theorem C118_azimuth (phi : ℝ) (m : ℤ) : 0 ≤ toDoa (phi + Real.pi + 2 * Real.pi * m) ∧ toDoa (phi + Real.pi + 2 * Real.pi * m) < 2 * Real.pi ∧
    ∃ j : ℤ, toDoa (phi + Real.pi + 2 * Real.pi * m) = phi + 2 * Real.pi * j := by
  have hpi := Real.two_pi_pos
  unfold toDoa
  set x := phi + Real.pi + 2 * Real.pi * m - Real.pi with hx
  have h1 := Int.floor_le (x / (2 * Real.pi))
  have h2 := Int.lt_floor_add_one (x / (2 * Real.pi))
  rw [le_div_iff₀ hpi] at h1
  rw [div_lt_iff₀ hpi] at h2
  refine ⟨by linarith, by linarith, m - ⌊x / (2 * Real.pi)⌋, ?_⟩
  rw [hx]
  push_cast
  ring

/-- The frames are selected by the variance between the microphones, not by the energy: if all microphones record the same signal (whatever its energy), no frame is used and the visibilities
are not numbers. -/
theorem C118_equal_deviation {threshold : ℝ} (ht : 0 ≤ threshold) (hM : 0 < M) (s : Fin N → ℂ) (cleaning) : visibilities (M := M) threshold cleaning (fun _ n => s n) = none := by
  have hf : frames (M := M) threshold (fun _ n => s n) = [] := by
    unfold frames
    rw [List.filter_eq_nil_iff]
    intro n _
    have hM' : (M : ℂ) ≠ 0 := by exact_mod_cast hM.ne'
    have : var (fun (_ : Fin M) n => s n) n = 0 := by
      unfold var
      simp [mul_div_cancel_left₀ _ hM']
    rw [this]
    simpa using ht
  unfold visibilities
  rw [hf]
  rfl

/-! ## Examples -/

/-- Two microphones at half a wavelength, two sources, two frames. -/
noncomputable def exY : Fin 2 → Fin 2 → ℂ := fun q n => ∑ k : Fin 2, (if k = 1 ∧ n = 1 then -1 else 1) * wave Real.pi (![0, 1] q) 0 (![0, Real.pi / 2] k)

theorem exY_eq (q n : Fin 2) : exY q n = if q = n then 2 * (if q = 0 then 1 else -1) else 0 := by
  unfold exY wave
  rw [Fin.sum_univ_two]
  have h : Complex.exp (Complex.I * Real.pi) = -1 := by rw [mul_comm]; exact Complex.exp_pi_mul_I
  fin_cases q <;> fin_cases n <;> simp [h] <;> norm_num

theorem exY_frames (n : Fin 2) : (0 : ℝ) < (∑ q, ‖exY q n - (∑ p, exY p n) / ((2 : ℕ) : ℂ)‖ ^ 2) / (2 : ℕ) := by
  apply div_pos _ (by norm_num)
  rw [Fin.sum_univ_two]
  apply add_pos_of_nonneg_of_pos (by positivity)
  apply pow_pos
  rw [norm_pos_iff, Fin.sum_univ_two]
  simp only [exY_eq]
  fin_cases n <;> norm_num

example : visibilities 0 none exY = some ((pairs 2).map fun p => ∑ k : Fin 2, (((∑ n ∈ (Finset.univ : Finset (Fin 2)), ‖(if k = 1 ∧ n = 1 then -1 else 1 : ℂ)‖ ^ 2) / (Finset.univ : Finset (Fin 2)).card : ℝ) : ℂ) *
    response Real.pi ![0, 1] (fun _ => 0) (![0, Real.pi / 2] k + Real.pi) p) :=
  C118_visibilities (s := fun k n => if k = 1 ∧ n = 1 then -1 else 1) (fun q n => rfl) (fun n => ⟨fun _ => exY_frames n, fun _ => Finset.mem_univ n⟩) ⟨0, Finset.mem_univ 0⟩
    (by intro k l hkl; fin_cases k <;> fin_cases l <;> simp_all [Fin.sum_univ_two])

open scoped ComplexOrder in
/-- White noise of power two and nothing else: there are no visibilities left. -/
example {eigh : Matrix (Fin 2) (Fin 2) ℂ → (Fin 2 → ℝ) × (Fin 2 → Fin 2 → ℂ)} (heigh : ∀ R : Matrix (Fin 2) (Fin 2) ℂ, R.IsHermitian → Music.IsEigh R (eigh R).1 (eigh R).2) :
    visibilities 0 (some (1, eigh)) exY = some ((pairs 2).map fun _ => 0) :=
  C118_cleaning (A := Finset.univ) (S := 0) (sigma := 2) (fun n => ⟨fun _ => exY_frames n, fun _ => Finset.mem_univ n⟩) ⟨0, Finset.mem_univ 0⟩ Matrix.PosSemidef.zero (by simp) (by norm_num)
    (by intro q p; rw [Fin.sum_univ_two]; simp only [exY_eq]; fin_cases q <;> fin_cases p <;> norm_num [Complex.ext_iff]) heigh

example (bands : List (ℝ × ℝ)) (h : bands = [(1000, 2), (2000, 3)]) :
    dirtyImage (M := 3) ![0, 1, 0] ![0, 0, 1] 343 (bands.map fun b => (b.1, (pairs 3).map fun p => (b.2 : ℂ) * response (b.1 / 343) ![0, 1, 0] ![0, 0, 1] (1 + Real.pi) p)) 1 = some 5 := by
  rw [(C118_image (by norm_num) ![0, 1, 0] ![0, 0, 1] 343 1 bands (by simp [h])).1, h]
  norm_num

example : ∃ j : ℤ, toDoa (1 + Real.pi + 2 * Real.pi * (3 : ℤ)) = 1 + 2 * Real.pi * j := (C118_azimuth 1 3).2.2

example : visibilities (M := 3) (N := 2) 0 none (fun _ n => ![5, 7] n) = none := C118_equal_deviation le_rfl (by norm_num) _ _

end Verif.Frida
