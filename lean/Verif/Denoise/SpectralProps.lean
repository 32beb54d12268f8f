import Verif.Denoise.SpectralModel
import Mathlib.Data.List.GetD
import Mathlib.Order.Bounds.Basic

/-!
# Properties of spectral subtraction (C49)
-/

namespace Verif.Denoise

open Verif.Py (Err)

/-! ## Specification -/

/-- Power of bin `k` in a frame. -/
noncomputable def power (X : List ℂ) (k : Nat) : ℝ := ‖X.getD k 0‖ ^ 2

/-- Power of bin `k`, `j` frames ago; nothing before the stream began. -/
noncomputable def recent (stream : List (List ℂ)) (k j : Nat) : ℝ := power (stream.getD j []) k

/-- `p` is the smallest power of bin `k` among the newest `lookback + 1` frames. -/
def IsNoise (lookback : Nat) (stream : List (List ℂ)) (k : Nat) (p : ℝ) : Prop := IsLeast {x | ∃ j ≤ lookback, x = recent stream k j} p

/-- The formula of the documentation. -/
noncomputable def documented (beta alpha gmin p pn : ℝ) : ℝ := max ((max (p - beta * pn) 0 / p) ^ alpha) gmin

/-! ## Rows -/

theorem foldl_min (t : List ℝ) (a : ℝ) : t.foldl min a ∈ a :: t ∧ ∀ x ∈ a :: t, t.foldl min a ≤ x := by
  induction t generalizing a with
  | nil => simp
  | cons b t ih =>
    obtain ⟨h1, h2⟩ := ih (min a b)
    rw [List.foldl_cons]
    constructor
    · rcases List.mem_cons.mp h1 with h | h
      · rw [h]
        rcases min_choice a b with e | e <;> rw [e] <;> simp
      · simp [h]
    · intro x hx
      have hm := h2 (min a b) (by simp)
      rcases List.mem_cons.mp hx with rfl | hx
      · exact hm.trans (min_le_left _ _)
      · rcases List.mem_cons.mp hx with rfl | hx
        · exact hm.trans (min_le_right _ _)
        · exact h2 x (List.mem_cons_of_mem _ hx)

theorem rowMin_isLeast {row : List ℝ} (h : row ≠ []) : IsLeast {x | x ∈ row} (rowMin row) := by
  cases row with
  | nil => exact absurd rfl h
  | cons a t => exact ⟨(foldl_min t a).1, (foldl_min t a).2⟩

/-- The row of bin `k` after a stream: the newest `lookback` powers, oldest first, and one more that will be overwritten. -/
def RowOk (lookback : Nat) (stream : List (List ℂ)) (k : Nat) (row : List ℝ) : Prop :=
  row.length = lookback + 1 ∧ ∀ j < lookback, row.getD (lookback - 1 - j) 0 = recent stream k j

/-- The row just before the minimum: the newest `lookback + 1` powers. -/
theorem setLast_ok {lookback : Nat} {stream : List (List ℂ)} {k : Nat} {row : List ℝ} (h : RowOk lookback stream k row) (X : List ℂ) :
    (setLast row (power X k)).length = lookback + 1 ∧ ∀ j ≤ lookback, (setLast row (power X k)).getD (lookback - j) 0 = recent (X :: stream) k j := by
  obtain ⟨hl, hr⟩ := h
  refine ⟨by simp [setLast, hl], fun j hj => ?_⟩
  unfold setLast
  rw [List.getD_eq_getElem?_getD, List.getElem?_set, hl]
  cases j with
  | zero => simp [recent]
  | succ j =>
    rw [if_neg (by omega), ← List.getD_eq_getElem?_getD, show lookback - (j + 1) = lookback - 1 - j by omega, hr j (by omega)]
    simp [recent]

theorem rollLeft_ok {lookback : Nat} {stream : List (List ℂ)} {k : Nat} {row : List ℝ}
    (h : row.length = lookback + 1 ∧ ∀ j ≤ lookback, row.getD (lookback - j) 0 = recent stream k j) : RowOk lookback stream k (rollLeft row) := by
  obtain ⟨hl, hr⟩ := h
  refine ⟨by simp [rollLeft, hl], fun j hj => ?_⟩
  unfold rollLeft
  rw [List.getD_append _ _ _ _ (by simp [hl]; omega), List.getD_eq_getElem?_getD, List.getElem?_drop, ← List.getD_eq_getElem?_getD]
  rw [show 1 + (lookback - 1 - j) = lookback - j by omega]
  exact hr j (by omega)

theorem min_ok {lookback : Nat} {stream : List (List ℂ)} {k : Nat} {row : List ℝ}
    (h : row.length = lookback + 1 ∧ ∀ j ≤ lookback, row.getD (lookback - j) 0 = recent stream k j) : IsNoise lookback stream k (rowMin row) := by
  obtain ⟨hl, hr⟩ := h
  have hset : {x | x ∈ row} = {x | ∃ j ≤ lookback, x = recent stream k j} := by
    ext x
    simp only [Set.mem_ofPred_eq]
    constructor
    · intro hx
      obtain ⟨i, hi, rfl⟩ := List.getElem_of_mem hx
      refine ⟨lookback - i, by omega, ?_⟩
      rw [← hr _ (by omega), show lookback - (lookback - i) = i by omega, List.getD_eq_getElem _ _ hi]
    · rintro ⟨j, hj, rfl⟩
      rw [← hr j hj, List.getD_eq_getElem _ _ (by omega)]
      exact List.getElem_mem _
  unfold IsNoise
  rw [← hset]
  exact rowMin_isLeast (by intro h; rw [h] at hl; simp at hl)

/-! ## States -/

/-- What holds between two calls. -/
structure Running (nfft : Nat) (dbReduc : ℝ) (lookback : Nat) (beta alpha : ℝ) (stream : List (List ℂ)) (s : SpectralSub) : Prop where
  beta : s.beta = beta
  alpha : s.alpha = alpha
  gmin : s.gmin = (10 : ℝ) ^ (-dbReduc / 20)
  nBins : s.nBins = nfft / 2 + 1
  rows : s.pPrev.length = nfft / 2 + 1
  row : ∀ k < nfft / 2 + 1, RowOk lookback stream k (s.pPrev.getD k [])

theorem getD_zipWith_setLast (rows : List (List ℝ)) (p : List ℝ) (k : Nat) (h1 : k < rows.length) (h2 : k < p.length) :
    (List.zipWith setLast rows p).getD k [] = setLast (rows.getD k []) (p.getD k 0) := by
  rw [List.getD_eq_getElem _ _ (by simp; omega), List.getElem_zipWith, List.getD_eq_getElem _ _ h1, List.getD_eq_getElem _ _ h2]

theorem power_eq (X : List ℂ) (k : Nat) : (X.map Complex.normSq).getD k 0 = power X k := by
  unfold power
  rw [← Complex.normSq_eq_norm_sq]
  rw [← List.getD_map (f := Complex.normSq)]
  simp

/-- One call. -/
theorem compute_ok {nfft : Nat} {dbReduc : ℝ} {lookback : Nat} {beta alpha : ℝ} {stream : List (List ℂ)} {s : SpectralSub}
    (hs : Running nfft dbReduc lookback beta alpha stream s) {X : List ℂ} (hX : X.length = nfft / 2 + 1) :
    ∃ g s', s.computeGainFilter X = .ok (g, s') ∧ Running nfft dbReduc lookback beta alpha (X :: stream) s' ∧ g.length = nfft / 2 + 1 ∧
      ∀ k < nfft / 2 + 1, ∃ pn, IsNoise lookback (X :: stream) k pn ∧ g[k]? = some (gain s (power X k) pn) := by
  unfold SpectralSub.computeGainFilter
  rw [if_neg (by rw [hX, hs.nBins]; simp)]
  simp only
  have hlen : (List.zipWith setLast s.pPrev (X.map Complex.normSq)).length = nfft / 2 + 1 := by simp [hs.rows, hX]
  have hrow : ∀ k < nfft / 2 + 1, ((List.zipWith setLast s.pPrev (X.map Complex.normSq)).getD k []).length = lookback + 1 ∧
      ∀ j ≤ lookback, ((List.zipWith setLast s.pPrev (X.map Complex.normSq)).getD k []).getD (lookback - j) 0 = recent (X :: stream) k j := by
    intro k hk
    rw [getD_zipWith_setLast _ _ _ (by rw [hs.rows]; exact hk) (by rw [List.length_map, hX]; exact hk), power_eq]
    exact setLast_ok (hs.row k hk) X
  refine ⟨_, _, rfl, ⟨hs.beta, hs.alpha, hs.gmin, hs.nBins, by simp [hs.rows, hX], ?_⟩, by simp [hs.nBins], ?_⟩
  · intro k hk
    simp only
    have : ((List.zipWith setLast s.pPrev (X.map Complex.normSq)).map rollLeft).getD k [] =
        rollLeft ((List.zipWith setLast s.pPrev (X.map Complex.normSq)).getD k []) := by
      rw [List.getD_eq_getElem _ _ (by rw [List.length_map, hlen]; exact hk), List.getElem_map, List.getD_eq_getElem _ _ (by rw [hlen]; exact hk)]
    rw [this]
    exact rollLeft_ok (hrow k hk)
  · intro k hk
    refine ⟨_, min_ok (hrow k hk), ?_⟩
    rw [List.getElem?_map, List.getElem?_range (by rw [hs.nBins]; exact hk), Option.map_some, power_eq]
    congr 2
    rw [List.getD_eq_getElem _ _ (by rw [List.length_map, hlen]; exact hk), List.getElem_map, List.getD_eq_getElem _ _ (by rw [hlen]; exact hk)]

theorem after_ok {nfft : Nat} (dbReduc : ℝ) (lookback : Nat) (beta alpha : ℝ) {stream : List (List ℂ)} (h : ∀ X ∈ stream, X.length = nfft / 2 + 1) :
    ∃ s, (SpectralSub.init nfft dbReduc lookback beta alpha).after stream = .ok s ∧ Running nfft dbReduc lookback beta alpha stream s := by
  induction stream with
  | nil =>
    refine ⟨_, rfl, ⟨rfl, rfl, rfl, rfl, by simp [SpectralSub.init], fun k hk => ?_⟩⟩
    have : (SpectralSub.init nfft dbReduc lookback beta alpha).pPrev.getD k [] = List.replicate (lookback + 1) 0 := by
      simp only [SpectralSub.init]
      rw [List.getD_eq_getElem _ _ (by simpa using hk), List.getElem_replicate]
    rw [this]
    refine ⟨by simp, fun j hj => ?_⟩
    rw [List.getD_eq_getElem _ _ (by simp; omega), List.getElem_replicate]
    simp [recent, power]
  | cons X t ih =>
    obtain ⟨s, e, hs⟩ := ih fun X hX => h X (List.mem_cons_of_mem _ hX)
    obtain ⟨g, s', e', hs', _⟩ := compute_ok hs (h X (by simp))
    refine ⟨s', ?_, hs'⟩
    simp only [SpectralSub.after]
    rw [e]
    simp only [Except.bind]
    rw [e']
    rfl

/-! ## Theorems -/

/-- **C49, gain.** For every stream of spectra and every next spectrum, every bin with power gets the gain of the documented formula, with as noise
level the least power of that bin in the newest `lookback + 1` frames, those before the stream began counting as silent. -/
theorem C49_gain (nfft : Nat) (dbReduc : ℝ) (lookback : Nat) (beta alpha : ℝ) (ha : 0 ≤ alpha) (X : List ℂ) (stream : List (List ℂ))
    (h : ∀ Y ∈ X :: stream, Y.length = nfft / 2 + 1) :
    ∃ s g s', (SpectralSub.init nfft dbReduc lookback beta alpha).after stream = .ok s ∧ s.computeGainFilter X = .ok (g, s') ∧ g.length = nfft / 2 + 1 ∧
      ∀ k < nfft / 2 + 1, X.getD k 0 ≠ 0 → ∃ pn, IsNoise lookback (X :: stream) k pn ∧
        g[k]? = some (.fin (documented beta alpha ((10 : ℝ) ^ (-dbReduc / 20)) (power X k) pn)) := by
  obtain ⟨s, e, hs⟩ := after_ok dbReduc lookback beta alpha (stream := stream) fun Y hY => h Y (List.mem_cons_of_mem _ hY)
  obtain ⟨g, s', e', _, hl, hg⟩ := compute_ok hs (h X (by simp))
  refine ⟨s, g, s', e, e', hl, fun k hk hX => ?_⟩
  obtain ⟨pn, hn, hgk⟩ := hg k hk
  refine ⟨pn, hn, ?_⟩
  rw [hgk]
  unfold gain documented
  have hp : power X k ≠ 0 := by
    unfold power
    exact pow_ne_zero 2 (norm_ne_zero_iff.mpr hX)
  rw [if_neg hp]
  simp only
  rw [if_neg (by rw [hs.alpha]; exact fun hc => absurd hc.2 (not_lt.mpr ha)), hs.alpha, hs.beta, hs.gmin]

/-- **C49, bounds.** The documented gain is never below the smallest gain; with an overestimation factor that is not negative it is at most one, or the
smallest gain if that is larger. -/
theorem C49_bounds {beta alpha gmin p pn : ℝ} (hp : 0 < p) (hn : 0 ≤ pn) (hb : 0 ≤ beta) (ha : 0 ≤ alpha) :
    gmin ≤ documented beta alpha gmin p pn ∧ documented beta alpha gmin p pn ≤ max 1 gmin := by
  unfold documented
  refine ⟨le_max_right _ _, max_le_max_right _ ?_⟩
  refine Real.rpow_le_one (by positivity) ?_ ha
  rw [div_le_one hp]
  exact max_le (by nlinarith) hp.le

/-- The noise level is a power: it is not negative. -/
theorem noise_nonneg {lookback : Nat} {stream : List (List ℂ)} {k : Nat} {p : ℝ} (h : IsNoise lookback stream k p) : 0 ≤ p := by
  obtain ⟨j, _, rfl⟩ := h.1
  unfold recent power
  positivity

/-- **C49, range.** For a reduction that is not negative all gains of bins with power lie between the smallest gain and one. -/
theorem C49_range (nfft : Nat) (dbReduc : ℝ) (hd : 0 ≤ dbReduc) (lookback : Nat) (beta alpha : ℝ) (hb : 0 ≤ beta) (ha : 0 ≤ alpha) (X : List ℂ)
    (stream : List (List ℂ)) (h : ∀ Y ∈ X :: stream, Y.length = nfft / 2 + 1) :
    ∃ s g s', (SpectralSub.init nfft dbReduc lookback beta alpha).after stream = .ok s ∧ s.computeGainFilter X = .ok (g, s') ∧
      ∀ k < nfft / 2 + 1, X.getD k 0 ≠ 0 → ∃ x, g[k]? = some (.fin x) ∧ (10 : ℝ) ^ (-dbReduc / 20) ≤ x ∧ x ≤ 1 := by
  obtain ⟨s, g, s', e, e', _, hg⟩ := C49_gain nfft dbReduc lookback beta alpha ha X stream h
  refine ⟨s, g, s', e, e', fun k hk hX => ?_⟩
  obtain ⟨pn, hn, hgk⟩ := hg k hk hX
  have hp : 0 < power X k := by
    unfold power
    exact pow_pos (norm_pos_iff.mpr hX) 2
  obtain ⟨b1, b2⟩ := C49_bounds (gmin := (10 : ℝ) ^ (-dbReduc / 20)) hp (noise_nonneg hn) hb ha
  have hgm : (10 : ℝ) ^ (-dbReduc / 20) ≤ 1 := Real.rpow_le_one_of_one_le_of_nonpos (by norm_num) (by linarith)
  exact ⟨_, hgk, b1, b2.trans (max_le le_rfl hgm)⟩

/-- **C49, silence (deviation).** A bin without power gets no gain at all, whatever came before, unless the exponent is zero. -/
theorem C49_silence_deviation (nfft : Nat) (dbReduc : ℝ) (lookback : Nat) (beta alpha : ℝ) (ha : alpha ≠ 0) (X : List ℂ) (stream : List (List ℂ))
    (h : ∀ Y ∈ X :: stream, Y.length = nfft / 2 + 1) :
    ∃ s g s', (SpectralSub.init nfft dbReduc lookback beta alpha).after stream = .ok s ∧ s.computeGainFilter X = .ok (g, s') ∧
      ∀ k < nfft / 2 + 1, X.getD k 0 = 0 → g[k]? = some .nan := by
  obtain ⟨s, e, hs⟩ := after_ok dbReduc lookback beta alpha (stream := stream) fun Y hY => h Y (List.mem_cons_of_mem _ hY)
  obtain ⟨g, s', e', _, hl, hg⟩ := compute_ok hs (h X (by simp))
  refine ⟨s, g, s', e, e', fun k hk hX => ?_⟩
  obtain ⟨pn, hn, hgk⟩ := hg k hk
  rw [hgk]
  unfold gain
  rw [if_pos (by unfold power; rw [hX]; simp : power X k = 0), if_neg (by rw [hs.alpha]; exact ha)]

/-- **C49, start.** Until `lookback + 1` frames have come the noise level is zero and nothing is subtracted. -/
theorem C49_start {lookback : Nat} {X : List ℂ} {stream : List (List ℂ)} (hl : stream.length < lookback) {k : Nat} {pn : ℝ} (hX : X.getD k 0 ≠ 0)
    (hn : IsNoise lookback (X :: stream) k pn) (beta alpha gmin : ℝ) : documented beta alpha gmin (power X k) pn = max 1 gmin := by
  have h0 : pn = 0 := by
    refine le_antisymm ?_ (noise_nonneg hn)
    refine hn.2 ⟨lookback, le_rfl, ?_⟩
    unfold recent
    rw [List.getD_eq_default _ _ (by simp; omega)]
    simp [power]
  have hp : 0 < power X k := by
    unfold power
    exact pow_pos (norm_pos_iff.mpr hX) 2
  unfold documented
  rw [h0, mul_zero, sub_zero, max_eq_left hp.le, div_self hp.ne', Real.one_rpow]

/-! ## The hypotheses can be met -/

/-- A stream of two frames of two bins, one bin of the newest silent, and the level of the other. -/
example : (∀ Y ∈ ([2, 0] : List ℂ) :: [[1, 3]], Y.length = 2 / 2 + 1) ∧ ([2, 0] : List ℂ).getD 0 0 ≠ 0 ∧ ([2, 0] : List ℂ).getD 1 0 = 0 ∧
    IsNoise 1 (([2, 0] : List ℂ) :: [[1, 3]]) 0 1 := by
  refine ⟨by intro Y hY; simp at hY; rcases hY with rfl | rfl <;> rfl, by simp, by simp, ⟨1, le_rfl, by simp [recent, power]⟩, ?_⟩
  rintro x ⟨j, hj, rfl⟩
  have : j = 0 ∨ j = 1 := by omega
  rcases this with rfl | rfl <;> simp [recent, power]

end Verif.Denoise
