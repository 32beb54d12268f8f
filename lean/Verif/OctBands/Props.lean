import Verif.OctBands.Model
import Verif.Bands.Antoni
import Mathlib.Analysis.SpecialFunctions.Pow.Real

namespace Verif.OctBands

open Py Bands DFT Finset

/-! ## Edges -/

/-- The number of bands of an octave. -/
def perOctave (third : Bool) : ℕ := if third then 3 else 1

theorem perOctave_pos (third : Bool) : 0 < perOctave third := by
  cases third <;> decide

theorem centres_eq (fc : ℝ) (third : Bool) (start : ℝ) (n : ℕ) :
    (octaveBands fc third start n).2 = (List.range (n * perOctave third - (perOctave third - 1))).map fun i : ℕ => fc * (2 : ℝ) ^ (start + (i : ℝ) / perOctave third) := by
  unfold octaveBands
  simp only
  have hd := perOctave_pos third
  have hd' : (perOctave third : ℝ) ≠ 0 := by exact_mod_cast hd.ne'
  change (List.range ⌈(start + n) * (perOctave third : ℝ) - ((perOctave third : ℝ) - 1) - start * (perOctave third : ℝ)⌉.toNat).map (fun i : ℕ => fc * (2 : ℝ) ^ ((start * (perOctave third : ℝ) + (i : ℝ)) / (perOctave third : ℝ))) = _
  rw [show (start + n) * (perOctave third : ℝ) - ((perOctave third : ℝ) - 1) - start * (perOctave third : ℝ) = (((n * perOctave third : ℕ) - ((perOctave third : ℕ) - 1) : ℤ) : ℝ) by push_cast; ring, Int.ceil_intCast,
    show ((n * perOctave third : ℕ) - ((perOctave third : ℕ) - 1) : ℤ).toNat = n * perOctave third - (perOctave third - 1) by omega]
  refine List.map_congr_left fun i _ => ?_
  congr 2
  field_simp

theorem bands_eq (fc : ℝ) (third : Bool) (start : ℝ) (n : ℕ) :
    (octaveBands fc third start n).1 = (octaveBands fc third start n).2.map fun f => (f / (2 : ℝ) ^ (0.5 / (perOctave third : ℝ)), f * (2 : ℝ) ^ (0.5 / (perOctave third : ℝ))) := rfl

/-- The lower edge of the band `i` (and the upper edge of the band before). -/
noncomputable def edge (fc : ℝ) (third : Bool) (start : ℝ) (i : ℕ) : ℝ := fc * (2 : ℝ) ^ (start + ((i : ℝ) - 1 / 2) / perOctave third)

theorem bands_edges (fc : ℝ) (third : Bool) (start : ℝ) (n : ℕ) :
    (octaveBands fc third start n).1 = (List.range (n * perOctave third - (perOctave third - 1))).map fun i : ℕ => (edge fc third start i, edge fc third start (i + 1)) := by
  rw [bands_eq, centres_eq, List.map_map]
  refine List.map_congr_left fun i _ => ?_
  simp only [Function.comp]
  unfold edge
  rw [mul_div_assoc, ← Real.rpow_sub (by norm_num), mul_assoc, ← Real.rpow_add (by norm_num)]
  have e1 : start + (i : ℝ) / perOctave third - 0.5 / perOctave third = start + ((i : ℝ) - 1 / 2) / perOctave third := by ring
  have e2 : start + (i : ℝ) / perOctave third + 0.5 / perOctave third = start + (((i + 1 : ℕ) : ℝ) - 1 / 2) / perOctave third := by
    push_cast
    ring
  rw [e1, e2]

/-- The bands of `octave_bands`: the centres are `2^(1/div)` apart from `fc 2^start` on, up to that of the last octave; each centre is the geometric mean of its edges; the upper edge of a band is the lower edge of the next. -/
theorem C125_octaves {fc : ℝ} (hfc : 0 < fc) (third : Bool) (start : ℝ) {n : ℕ} (hn : 0 < n) :
    let r := octaveBands fc third start n
    r.1.length = (n - 1) * perOctave third + 1 ∧ r.2.length = (n - 1) * perOctave third + 1 ∧ r.2.getD 0 0 = fc * (2 : ℝ) ^ start ∧
    r.2.getD ((n - 1) * perOctave third) 0 = fc * (2 : ℝ) ^ start * (2 : ℝ) ^ (n - 1) ∧
    (∀ i < (n - 1) * perOctave third, r.2.getD (i + 1) 0 = r.2.getD i 0 * (2 : ℝ) ^ (1 / (perOctave third : ℝ)) ∧ (r.1.getD i 0).2 = (r.1.getD (i + 1) 0).1) ∧
    ∀ i ≤ (n - 1) * perOctave third, 0 < (r.1.getD i 0).1 ∧ (r.1.getD i 0).1 < r.2.getD i 0 ∧ r.2.getD i 0 < (r.1.getD i 0).2 ∧ (r.1.getD i 0).1 * (r.1.getD i 0).2 = r.2.getD i 0 ^ 2 := by
  intro r
  have hd := perOctave_pos third
  have hd' : (0 : ℝ) < perOctave third := by exact_mod_cast hd
  have hlen : n * perOctave third - (perOctave third - 1) = (n - 1) * perOctave third + 1 := by
    obtain ⟨m, rfl⟩ : ∃ m, n = m + 1 := ⟨n - 1, by omega⟩
    rw [Nat.add_sub_cancel, Nat.succ_mul]
    omega
  have h1 : r.1 = (List.range ((n - 1) * perOctave third + 1)).map fun i : ℕ => (edge fc third start i, edge fc third start (i + 1)) := by
    rw [← hlen]
    exact bands_edges fc third start n
  have h2 : r.2 = (List.range ((n - 1) * perOctave third + 1)).map fun i : ℕ => fc * (2 : ℝ) ^ (start + (i : ℝ) / perOctave third) := by
    rw [← hlen]
    exact centres_eq fc third start n
  have g1 : ∀ i ≤ (n - 1) * perOctave third, r.1.getD i 0 = (edge fc third start i, edge fc third start (i + 1)) := by
    intro i hi
    rw [h1, List.getD_eq_getElem?_getD, List.getElem?_map, List.getElem?_range (by omega)]
    rfl
  have g2 : ∀ i ≤ (n - 1) * perOctave third, r.2.getD i 0 = fc * (2 : ℝ) ^ (start + (i : ℝ) / perOctave third) := by
    intro i hi
    rw [h2, List.getD_eq_getElem?_getD, List.getElem?_map, List.getElem?_range (by omega)]
    rfl
  refine ⟨by rw [h1]; simp, by rw [h2]; simp, ?_, ?_, ?_, ?_⟩
  · rw [g2 0 (Nat.zero_le _)]
    simp
  · rw [g2 _ (le_refl _), mul_assoc, ← Real.rpow_natCast, ← Real.rpow_add (by norm_num)]
    congr 3
    push_cast
    field_simp
  · intro i hi
    refine ⟨?_, ?_⟩
    · rw [g2 _ hi, g2 _ (by omega), mul_assoc, ← Real.rpow_add (by norm_num)]
      congr 2
      push_cast
      ring
    · rw [g1 _ hi, g1 _ (by omega)]
  · intro i hi
    rw [g1 i hi, g2 i hi]
    unfold edge
    simp only
    refine ⟨by positivity, ?_, ?_, ?_⟩
    · refine mul_lt_mul_of_pos_left (Real.rpow_lt_rpow_of_exponent_lt (by norm_num) ?_) hfc
      have : ((i : ℝ) - 1 / 2) / perOctave third < (i : ℝ) / perOctave third := div_lt_div_of_pos_right (by linarith) hd'
      linarith
    · refine mul_lt_mul_of_pos_left (Real.rpow_lt_rpow_of_exponent_lt (by norm_num) ?_) hfc
      have : (i : ℝ) / perOctave third < (((i + 1 : ℕ) : ℝ) - 1 / 2) / perOctave third := div_lt_div_of_pos_right (by push_cast; linarith) hd'
      linarith
    · rw [mul_pow, ← Real.rpow_mul_natCast (by norm_num)]
      rw [show ∀ a b : ℝ, fc * a * (fc * b) = fc ^ 2 * (a * b) by intro a b; ring, ← Real.rpow_add (by norm_num)]
      congr 2
      push_cast
      field_simp
      ring

/-- `start` is documented as a frequency in Hz; it counts octaves: the bands are those from `fc 2^start` on. -/
theorem C125_start_deviation (fc : ℝ) (third : Bool) (start : ℝ) (n : ℕ) : octaveBands fc third start n = octaveBands (fc * (2 : ℝ) ^ start) third 0 n := by
  have h2 : (octaveBands fc third start n).2 = (octaveBands (fc * (2 : ℝ) ^ start) third 0 n).2 := by
    rw [centres_eq, centres_eq]
    refine List.map_congr_left fun i _ => ?_
    rw [Real.rpow_add (by norm_num), zero_add, mul_assoc]
  refine Prod.ext ?_ h2
  rw [bands_eq, bands_eq, h2]

/-! ## The number of bands -/

/-- The filter banks take as many octaves as fit: the last centre is in the upper half of the frequencies below Nyquist. -/
theorem C125_count {base fs : ℝ} (hb : 0 < base) (h2 : 2 * base ≤ fs) (third : Bool) : 0 < nOctaves base fs ∧ base * (2 : ℝ) ^ (nOctaves base fs - 1) ≤ fs / 2 ∧ fs / 4 < base * (2 : ℝ) ^ (nOctaves base fs - 1) ∧
    ∀ c ∈ (octaveBands base third 0 (nOctaves base fs)).2, base ≤ c ∧ c ≤ fs / 2 := by
  have hq : 2 ≤ fs / base := by rwa [le_div_iff₀ hb]
  have hq0 : 0 < fs / base := by linarith
  have hl1 : (1 : ℝ) ≤ Real.logb 2 (fs / base) := by
    rw [Real.le_logb_iff_rpow_le (by norm_num) hq0, Real.rpow_one]
    exact hq
  have hf : (1 : ℤ) ≤ ⌊Real.logb 2 (fs / base)⌋ := by
    rw [Int.le_floor]
    exact_mod_cast hl1
  have hn : ((nOctaves base fs : ℕ) : ℤ) = ⌊Real.logb 2 (fs / base)⌋ := by
    unfold nOctaves
    exact Int.toNat_of_nonneg (by omega)
  have hpos : 0 < nOctaves base fs := by omega
  have hlow : ((nOctaves base fs : ℕ) : ℝ) ≤ Real.logb 2 (fs / base) := by
    have := Int.floor_le (Real.logb 2 (fs / base))
    rw [← hn] at this
    exact_mod_cast this
  have hup : Real.logb 2 (fs / base) < (nOctaves base fs : ℝ) + 1 := by
    have := Int.lt_floor_add_one (Real.logb 2 (fs / base))
    rw [← hn] at this
    exact_mod_cast this
  rw [Real.le_logb_iff_rpow_le (by norm_num) hq0, Real.rpow_natCast, le_div_iff₀ hb] at hlow
  rw [Real.logb_lt_iff_lt_rpow (by norm_num) hq0, show (nOctaves base fs : ℝ) + 1 = ((nOctaves base fs + 1 : ℕ) : ℝ) by push_cast; rfl, Real.rpow_natCast, div_lt_iff₀ hb] at hup
  obtain ⟨m, hm⟩ : ∃ m, nOctaves base fs = m + 1 := ⟨nOctaves base fs - 1, by omega⟩
  rw [hm] at hlow hup ⊢
  rw [Nat.add_sub_cancel]
  rw [pow_succ] at hlow
  rw [pow_succ, pow_succ] at hup
  refine ⟨by omega, by linarith, by linarith, ?_⟩
  intro c hc
  rw [centres_eq] at hc
  obtain ⟨i, hi, rfl⟩ := List.mem_map.mp hc
  have hd := perOctave_pos third
  have hd' : (0 : ℝ) < perOctave third := by exact_mod_cast hd
  have hi' : i ≤ m * perOctave third := by
    have := List.mem_range.mp hi
    rw [Nat.succ_mul] at this
    omega
  have hi'' : (i : ℝ) / perOctave third ≤ m := by
    rw [div_le_iff₀ hd']
    exact_mod_cast hi'
  constructor
  · have : (1 : ℝ) ≤ (2 : ℝ) ^ (0 + (i : ℝ) / perOctave third) := Real.one_le_rpow (by norm_num) (by positivity)
    nlinarith
  · have h3 : (2 : ℝ) ^ (0 + (i : ℝ) / perOctave third) ≤ (2 : ℝ) ^ m := by
      rw [← Real.rpow_natCast]
      exact Real.rpow_le_rpow_of_exponent_le (by norm_num) (by linarith)
    have := mul_le_mul_of_nonneg_left h3 hb.le
    linarith

/-! ## Bandwidths -/

theorem list_sum_range {M : Type} [AddCommMonoid M] (f : ℕ → M) (n : ℕ) : ((List.range n).map f).sum = ∑ i ∈ range n, f i := by
  induction n with
  | zero => rfl
  | succ n ih => rw [List.range_succ, List.map_append, List.sum_append, ih, sum_range_succ]; simp

theorem telescope {lo : ℕ → ℝ} {H z : ℝ} (m : ℕ) (h : ∀ i ≤ m, lo i ≤ H) :
    ∑ i ∈ range (m + 1), (min (lo (i + 1)) H - if i = 0 then z else lo i) = min (lo (m + 1)) H - z := by
  induction m with
  | zero => simp
  | succ m ih =>
    rw [sum_range_succ, ih fun i hi => h i (by omega), if_neg (by omega), min_eq_left (h (m + 1) (le_refl _))]
    ring

theorem edge_lt {fc : ℝ} (hfc : 0 < fc) (third : Bool) (start : ℝ) (i : ℕ) : edge fc third start i < edge fc third start (i + 1) := by
  unfold edge
  refine mul_lt_mul_of_pos_left (Real.rpow_lt_rpow_of_exponent_lt (by norm_num) ?_) hfc
  have hd' : (0 : ℝ) < perOctave third := by exact_mod_cast perOctave_pos third
  have : ((i : ℝ) - 1 / 2) / perOctave third < (((i + 1 : ℕ) : ℝ) - 1 / 2) / perOctave third := div_lt_div_of_pos_right (by push_cast; linarith) hd'
  linarith

/-- An edge is below the centre above it. -/
theorem edge_lt_centre {fc : ℝ} (hfc : 0 < fc) (third : Bool) (start : ℝ) (i : ℕ) : edge fc third start i < fc * (2 : ℝ) ^ (start + (i : ℝ) / perOctave third) := by
  unfold edge
  refine mul_lt_mul_of_pos_left (Real.rpow_lt_rpow_of_exponent_lt (by norm_num) ?_) hfc
  have hd' : (0 : ℝ) < perOctave third := by exact_mod_cast perOctave_pos third
  have : ((i : ℝ) - 1 / 2) / perOctave third < (i : ℝ) / perOctave third := div_lt_div_of_pos_right (by linarith) hd'
  linarith

theorem edges_below {fc : ℝ} (hfc : 0 < fc) (third : Bool) {fs : ℝ} {n : ℕ} (hc : ∀ c ∈ (octaveBands fc third 0 n).2, c ≤ fs / 2) {i : ℕ} (hi : i < n * perOctave third - (perOctave third - 1)) :
    edge fc third 0 i < fs / 2 := by
  refine lt_of_lt_of_le (edge_lt_centre hfc third 0 i) (hc _ ?_)
  rw [centres_eq]
  exact List.mem_map.mpr ⟨i, List.mem_range.mpr hi, rfl⟩

theorem cosBw_eq (fc : ℝ) (third : Bool) (n : ℕ) (keepDc : Bool) (fs : ℝ) : cosBw (octaveBands fc third 0 n).1 keepDc fs =
    (List.range (n * perOctave third - (perOctave third - 1))).map fun i => min (edge fc third 0 (i + 1)) (fs / 2) - if i = 0 then (if keepDc then 0 else edge fc third 0 0) else edge fc third 0 i := by
  unfold cosBw
  rw [bands_edges]
  apply List.ext_getElem
  · simp
  · intro i h1 h2
    rw [List.getElem_mapIdx, List.getElem_map, List.getElem_map, List.getElem_range]
    simp only
    congr 1
    by_cases hi : i = 0
    · subst hi
      cases keepDc <;> simp
    · simp [hi]

/-- The bandwidths of the cosine filter bank are positive and add up to the range from the first edge (or zero with `keep_dc`) to the last edge, at most half of the sampling frequency. -/
theorem C125_bandwidth {base fs : ℝ} (hb : 0 < base) (h2 : 2 * base ≤ fs) (keepDc : Bool) :
    (cosBw (octaveBands base false 0 (nOctaves base fs)).1 keepDc fs).length = nOctaves base fs ∧ (∀ w ∈ cosBw (octaveBands base false 0 (nOctaves base fs)).1 keepDc fs, 0 < w) ∧
    (cosBw (octaveBands base false 0 (nOctaves base fs)).1 keepDc fs).sum =
      min (base * (2 : ℝ) ^ (nOctaves base fs - 1) * Real.sqrt 2) (fs / 2) - if keepDc then 0 else base / Real.sqrt 2 := by
  obtain ⟨hpos, _, _, hc⟩ := C125_count hb h2 false
  have hbel := @edges_below base hb false fs (nOctaves base fs) fun c hc' => (hc c hc').2
  rw [cosBw_eq]
  obtain ⟨m, hm⟩ : ∃ m, nOctaves base fs = m + 1 := ⟨nOctaves base fs - 1, by omega⟩
  rw [hm] at hbel ⊢
  have hone : (m + 1) * perOctave false - (perOctave false - 1) = m + 1 := by
    change (m + 1) * 1 - 0 = m + 1
    omega
  rw [hone] at hbel ⊢
  refine ⟨by simp, ?_, ?_⟩
  · intro w hw
    obtain ⟨i, hi, rfl⟩ := List.mem_map.mp hw
    have hi' := List.mem_range.mp hi
    have h3 : edge base false 0 i < min (edge base false 0 (i + 1)) (fs / 2) := lt_min (edge_lt hb false 0 i) (hbel hi')
    have h4 : 0 < edge base false 0 i := by
      unfold edge
      positivity
    split
    · split
      · linarith
      · rename_i h5 _
        subst h5
        linarith
    · linarith
  · rw [list_sum_range, telescope m fun i hi => (hbel (show i < m + 1 by omega)).le]
    have e1 : edge base false 0 (m + 1) = base * (2 : ℝ) ^ (m + 1 - 1) * Real.sqrt 2 := by
      unfold edge
      rw [Nat.add_sub_cancel, mul_assoc, Real.sqrt_eq_rpow, ← Real.rpow_natCast 2 m, ← Real.rpow_add (by norm_num)]
      congr 2
      change 0 + (((m + 1 : ℕ) : ℝ) - 1 / 2) / ((1 : ℕ) : ℝ) = _
      push_cast
      ring
    have e2 : edge base false 0 0 = base / Real.sqrt 2 := by
      unfold edge
      rw [Real.sqrt_eq_rpow, div_eq_mul_inv base, ← Real.rpow_neg (show (0 : ℝ) ≤ 2 by norm_num)]
      congr 2
      change 0 + (((0 : ℕ) : ℝ) - 1 / 2) / ((1 : ℕ) : ℝ) = _
      push_cast
      ring
    rw [e1, e2]

/-- The filters cover all frequencies (C34), but the bandwidths leave out those above the edge of the last band, if this is below Nyquist. -/
theorem C125_bandwidth_deviation {base fs : ℝ} (hb : 0 < base) (h2 : 2 * base ≤ fs) :
    (cosBw (octaveBands base false 0 (nOctaves base fs)).1 true fs).sum = fs / 2 ↔ fs / 2 ≤ base * (2 : ℝ) ^ (nOctaves base fs - 1) * Real.sqrt 2 := by
  rw [(C125_bandwidth hb h2 true).2.2]
  simp only [if_true, sub_zero]
  exact min_eq_right_iff

theorem npRound_mono {x y : ℝ} (h : x ≤ y) : npRound x ≤ npRound y := by
  by_contra hlt
  push Not at hlt
  have h1 := (npRound_bounds x).2
  have h2 := (npRound_bounds y).1
  have h3 : ((npRound y : ℤ) : ℝ) + 1 ≤ npRound x := by exact_mod_cast hlt
  have : x = y := le_antisymm h (by linarith)
  subst this
  exact lt_irrefl _ hlt

theorem telescope_int (r : ℕ → ℤ) (K : ℤ) (m : ℕ) : ∑ i ∈ range (m + 1), ((if i = m then K else r (i + 1)) - if i = 0 then 0 else r i) = K := by
  have h : ∀ j ≤ m, ∑ i ∈ range j, ((if i = m then K else r (i + 1)) - if i = 0 then 0 else r i) = if j = 0 then 0 else r j := by
    intro j
    induction j with
    | zero => simp
    | succ j ih =>
      intro hj
      rw [sum_range_succ, ih (by omega), if_neg (show ¬ j = m by omega), if_neg (show ¬ j + 1 = 0 by omega)]
      ring
  rw [sum_range_succ, h m (le_refl _), if_pos rfl]
  ring

/-- The bandwidths of Antoni's filter bank are not negative and add up to half of the sampling frequency, whatever the length of the transform. -/
theorem C125_antoni {base fs : ℝ} (hb : 0 < base) (h2 : 2 * base ≤ fs) (third : Bool) (nfft : ℕ) : ∃ l, antoniBw (octaveBands base third 0 (nOctaves base fs)).1 fs nfft = .ok l ∧
    l.length = (octaveBands base third 0 (nOctaves base fs)).2.length ∧ (∀ w ∈ l, 0 ≤ w) ∧ l.sum = fs / 2 := by
  obtain ⟨hpos, _, _, hc⟩ := C125_count hb h2 third
  have hbel := @edges_below base hb third fs (nOctaves base fs) fun c hc' => (hc c hc').2
  have hfs : 0 < fs := by linarith
  have hd := perOctave_pos third
  obtain ⟨m, hm⟩ : ∃ m, nOctaves base fs * perOctave third - (perOctave third - 1) = m + 1 := by
    have : perOctave third ≤ nOctaves base fs * perOctave third := Nat.le_mul_of_pos_left _ hpos
    exact ⟨nOctaves base fs * perOctave third - (perOctave third - 1) - 1, by omega⟩
  rw [hm] at hbel
  have hlen : (octaveBands base third 0 (nOctaves base fs)).2.length = m + 1 := by
    rw [centres_eq, hm, List.length_map, List.length_range]
  have hbands : (octaveBands base third 0 (nOctaves base fs)).1 = (List.range (m + 1)).map fun i : ℕ => (edge base third 0 i, edge base third 0 (i + 1)) := by
    rw [bands_edges, hm]
  rw [hlen, hbands]
  set r := fun i : ℕ => npRound (edge base third 0 i / fs * nfft) with hr
  set K : ℤ := ((nfft / 2 + 1 : ℕ) : ℤ) with hK
  have hdiff : List.zipWith (fun b a : ℤ => b - a)
      ((((List.range (m + 1)).map fun i : ℕ => (edge base third 0 i, edge base third 0 (i + 1))).map fun p => npRound (p.2 / fs * nfft)).set
        (((List.range (m + 1)).map fun i : ℕ => (edge base third 0 i, edge base third 0 (i + 1))).length - 1) K)
      ((((List.range (m + 1)).map fun i : ℕ => (edge base third 0 i, edge base third 0 (i + 1))).map fun p => npRound (p.1 / fs * nfft)).set 0 0) =
      (List.range (m + 1)).map fun i => (if i = m then K else r (i + 1)) - if i = 0 then 0 else r i := by
    apply List.ext_getElem
    · simp
    · intro i h1 h2
      have hi : i < m + 1 := by simpa using h2
      rw [List.getElem_zipWith, List.getElem_set, List.getElem_set, List.getElem_map, List.getElem_map, List.getElem_map, List.getElem_map, List.getElem_range]
      simp only [List.length_map, List.length_range, Nat.add_sub_cancel]
      simp only [eq_comm (a := m), eq_comm (a := 0), hr, List.getElem_map, List.getElem_range]
  have hsum : ((List.range (m + 1)).map fun i => (if i = m then K else r (i + 1)) - if i = 0 then 0 else r i).sum = K := by
    rw [list_sum_range, telescope_int]
  have hKpos : 0 < K := by
    rw [hK]
    positivity
  have hK' : (0 : ℝ) < K := by exact_mod_cast hKpos
  unfold antoniBw
  simp only
  rw [hdiff, hsum, if_neg (by simp), if_neg (by omega)]
  refine ⟨_, rfl, by simp, ?_, ?_⟩
  · intro w hw
    obtain ⟨dd, hdd, rfl⟩ := List.mem_map.mp hw
    have hdd0 : 0 ≤ dd := by
      obtain ⟨i, hi, rfl⟩ := List.mem_map.mp hdd
      have hi' := List.mem_range.mp hi
      have hmono : r i ≤ r (i + 1) := by
        refine npRound_mono ?_
        have := edge_lt hb third 0 i
        gcongr
      have hr0 : 0 ≤ r (i + 1) := by
        have h0 : npRound 0 = 0 := by
          unfold npRound
          simp
        rw [← h0]
        refine npRound_mono ?_
        have : 0 < edge base third 0 (i + 1) := by
          unfold edge
          positivity
        positivity
      have hrK : r i ≤ K := by
        have h3 : ((r i : ℤ) : ℝ) ≤ edge base third 0 i / fs * nfft + 1 / 2 := (npRound_bounds (edge base third 0 i / fs * nfft)).2
        have h4 : edge base third 0 i / fs ≤ 1 / 2 := by
          rw [div_le_iff₀ hfs]
          linarith [hbel hi']
        have h5 : edge base third 0 i / fs * nfft ≤ 1 / 2 * nfft := by gcongr
        have h6 : ((nfft : ℕ) : ℝ) ≤ 2 * ((nfft / 2 : ℕ) : ℝ) + 1 := by exact_mod_cast (show nfft ≤ 2 * (nfft / 2) + 1 by omega)
        have h7 : ((r i : ℤ) : ℝ) ≤ ((K : ℤ) : ℝ) := by
          have hKr : ((K : ℤ) : ℝ) = ((nfft / 2 : ℕ) : ℝ) + 1 := by rw [hK, Int.cast_natCast, Nat.cast_succ]
          rw [hKr]
          linarith
        exact_mod_cast h7
      split <;> split <;> omega
    have : (0 : ℝ) ≤ dd := by exact_mod_cast hdd0
    positivity
  · have : ∀ l : List ℤ, (l.map fun d : ℤ => (d : ℝ) / (K : ℝ) * fs / 2).sum = (l.sum : ℝ) / K * fs / 2 := by
      intro l
      induction l with
      | nil => simp
      | cons a l ih =>
        rw [List.map_cons, List.sum_cons, List.sum_cons, ih]
        push_cast
        ring
    rw [this, hsum, div_self hK'.ne', one_mul]

/-! ## Energies, binning and interpolation -/

/-- `energy` adds over the bands instead of the time: its result has one value for every sample (the documentation promises one for every band); only the sum of all is that of the energies of the bands. -/
theorem C125_energy_deviation (nfft : ℕ) {nBands : ℕ} (hn : nBands ≠ 1) (mag : ℕ → ℕ → ℝ) (x : List ℝ) : (cosEnergy nfft nBands mag x).length = x.length ∧
    (cosEnergy nfft nBands mag x).sum = ∑ b ∈ range nBands, ∑ t ∈ range x.length, cosAnalysis nfft mag x b t ^ 2 := by
  unfold cosEnergy
  rw [if_neg hn]
  refine ⟨by simp, ?_⟩
  rw [list_sum_range, sum_comm]

/-- `binning` gives the mean (not the sum) of the columns of a band; a band without columns gives nan. -/
theorem C125_binning (row : List ℝ) {a b : ℕ} (hb : b ≤ row.length) : (a < b → binning row (a, b) = some ((∑ k ∈ Ico a b, row.getD k 0) / ((b : ℝ) - a))) ∧ (b ≤ a → binning row (a, b) = none) := by
  have hs : slice row (some (a : ℤ)) (some (b : ℤ)) = (row.drop (min a row.length)).take (b - min a row.length) := by
    unfold slice sliceStart sliceStop clampIdx
    simp only [if_neg (show ¬ ((a : ℤ) < 0) by omega), if_neg (show ¬ ((b : ℤ) < 0) by omega), Int.toNat_natCast, Nat.min_eq_left hb]
  constructor
  · intro hab
    have hl : slice row (some (a : ℤ)) (some (b : ℤ)) = (List.range (b - a)).map fun k => row.getD (a + k) 0 := by
      rw [hs, Nat.min_eq_left (by omega)]
      apply List.ext_getElem
      · simp
        omega
      · intro i h1 h2
        have hi : i < b - a := by simpa using h2
        rw [List.getElem_take, List.getElem_drop, List.getElem_map, List.getElem_range, List.getD_eq_getElem?_getD, List.getElem?_eq_getElem (by omega)]
        rfl
    unfold binning
    simp only
    rw [hl, List.length_map, List.length_range, if_neg (by omega), list_sum_range, sum_Ico_eq_sum_range, Nat.cast_sub hab.le]
  · intro hab
    unfold binning
    simp only
    rw [hs, if_pos]
    rw [List.length_take]
    rw [Nat.min_eq_left (by omega)]
    omega

theorem idft_sum (N n : ℕ) (c : ℕ → ℂ) (X : ℕ → ℕ → ℂ) (t : ℕ) : idft N (fun k => ∑ b ∈ range n, c b * X b k) t = ∑ b ∈ range n, c b * idft N (X b) t := by
  unfold idft
  simp only [sum_mul, mul_div_assoc', sum_div, mul_sum]
  rw [sum_comm]
  exact sum_congr rfl fun b _ => sum_congr rfl fun k _ => by ring

/-- Without minimum phase `interpolate_octave_bands` gives the same filter as `synthesis` of the filter bank: the sum of the filters with the attenuations as weights. -/
theorem C125_interpolate (nfft : ℕ) (filters : ℕ → ℕ → ℝ) (nBands : ℕ) (att : ℕ → ℝ) {t : ℕ} (ht : t < nfft) : interpolateBands nfft nBands filters att t = ∑ b ∈ range nBands, att b * filters b t := by
  unfold interpolateBands
  rw [idft_sum, Complex.re_sum]
  refine sum_congr rfl fun b _ => ?_
  rw [idft_dft _ ht, ← Complex.ofReal_mul, Complex.ofReal_re]

/-- The same with the filters of the cosine filter bank. -/
theorem C125_interpolate_synthesis (nfft : ℕ) (mag : ℕ → ℕ → ℝ) (coeffs : List ℝ) {t : ℕ} (ht : t < nfft) :
    interpolateBands nfft coeffs.length (cosFilter nfft mag) (fun b => coeffs.getD b 0) t = cosSynthesis nfft mag coeffs t := C125_interpolate nfft _ _ _ ht

/-! ## The hypotheses can be met -/

/-- The defaults: seven bands from 125 Hz for 16 kHz. -/
example : (cosBw (octaveBands 125 false 0 (nOctaves 125 16000)).1 true 16000).sum = 8000 := by
  have hn : nOctaves 125 16000 = 7 := by
    unfold nOctaves
    rw [show (16000 / 125 : ℝ) = (2 : ℝ) ^ (7 : ℝ) by norm_num, Real.logb_rpow (by norm_num) (by norm_num), show (7 : ℝ) = ((7 : ℤ) : ℝ) by norm_num, Int.floor_intCast]
    rfl
  have h := (C125_bandwidth_deviation (base := 125) (fs := 16000) (by norm_num) (by norm_num)).mpr
  rw [h]
  · norm_num
  · rw [hn]
    have : (1 : ℝ) ≤ Real.sqrt 2 := Real.one_le_sqrt.mpr (by norm_num)
    norm_num

/-- Antoni's bank with third octaves. -/
example : ∃ l, antoniBw (octaveBands 125 true 0 (nOctaves 125 16000)).1 16000 512 = .ok l ∧ l.sum = 16000 / 2 := by
  obtain ⟨l, h, _, _, hs⟩ := C125_antoni (base := 125) (fs := 16000) (by norm_num) (by norm_num) true 512
  exact ⟨l, h, hs⟩

/-- Binning of three columns. -/
example : binning [1, 2, 6, 4] ((1 : ℕ), (3 : ℕ)) = some 4 := by
  rw [(C125_binning [1, 2, 6, 4] (a := 1) (b := 3) (by simp)).1 (by norm_num)]
  simp [Finset.sum_Ico_eq_sum_range, Finset.sum_range_succ]
  norm_num

end Verif.OctBands
