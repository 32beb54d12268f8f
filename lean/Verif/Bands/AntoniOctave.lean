import Verif.Bands.AntoniTransform

/-!
# C68: Antoni's octave filter bank, the rounded edges of the bands
-/

namespace Verif.Bands

open Py (Err)
open Finset Verif.DFT

theorem octave_ratio_sq {div : Nat} (hd : 0 < div) (b : Nat) : (2 : ℝ) ^ ((b : ℝ) / div) = ((2 : ℝ) ^ (0.5 / (div : ℝ))) ^ (2 * b) := by
  rw [← Real.rpow_natCast, ← Real.rpow_mul (by norm_num)]
  congr 1
  have : (div : ℝ) ≠ 0 := by exact_mod_cast hd.ne'
  push_cast
  field_simp
  norm_num
  ring

/-- Bounds for the rounded edges in terms of the position of the centre. -/
theorem bins_bounds {fc fs overlap : ℝ} {div nOct nfft : Nat} (hd : 0 < div) (h0 : 0 ≤ overlap) (h1 : overlap ≤ 1 / 2)
    {F : ℝ} (hF : F = (2 : ℝ) ^ (0.5 / (div : ℝ))) {b : Nat} (hb0 : 0 < b) (hb : b < (antoniBins fc fs div nOct nfft overlap).n)
    (hu : 1 ≤ fc * F ^ (2 * b) / fs * nfft * (F - 1)) :
    let a := antoniBins fc fs div nOct nfft overlap
    let u := fc * F ^ (2 * b) / fs * nfft
    u / F - 1 / 2 ≤ a.k1 b ∧ (a.k1 b : ℝ) ≤ u / F + 1 / 2 ∧ 0 ≤ a.P b ∧ (a.P b : ℝ) ≤ u * (F - 1) / 2 + 1 := by
  have hFpos : 0 < F := by rw [hF]; positivity
  have hlen : b < (octaveCenters fc div nOct).length := hb
  have hc : (octaveCenters fc div nOct).getD b 0 = fc * F ^ (2 * b) := by
    rw [List.getD_eq_getElem _ _ hlen]
    simp only [octaveCenters, List.getElem_map, List.getElem_range]
    rw [octave_ratio_sq hd, ← hF]
  have he : (octaveEdges fc div nOct).getD b (0, 0) = (fc * F ^ (2 * b) / F, fc * F ^ (2 * b) * F) := by
    rw [List.getD_eq_getElem _ _ (by simpa [octaveEdges] using hlen)]
    rw [List.getD_eq_getElem _ _ hlen] at hc
    simp only [octaveEdges, List.getElem_map, hc, ← hF]
  simp only [antoniBins, if_neg (show ¬b = 0 by omega), hc, he]
  generalize hk2 : npRound (fc * F ^ (2 * b) * F / fs * nfft) = k2
  generalize hkm : npRound (fc * F ^ (2 * b) / fs * nfft) = km
  generalize hk1 : npRound (fc * F ^ (2 * b) / F / fs * nfft) = k1
  have b2 := npRound_bounds (fc * F ^ (2 * b) * F / fs * nfft)
  have bm := npRound_bounds (fc * F ^ (2 * b) / fs * nfft)
  have b1 := npRound_bounds (fc * F ^ (2 * b) / F / fs * nfft)
  rw [hk2, show fc * F ^ (2 * b) * F / fs * nfft = fc * F ^ (2 * b) / fs * nfft * F by ring] at b2
  rw [hkm] at bm
  rw [hk1, show fc * F ^ (2 * b) / F / fs * nfft = fc * F ^ (2 * b) / fs * nfft / F by ring] at b1
  generalize fc * F ^ (2 * b) / fs * nfft = u at *
  have bp := npRound_bounds (overlap * ((k2 : ℝ) - km))
  have h2 : 0 ≤ (k2 : ℝ) - km := by linarith [b2.1, bm.2]
  have h3 : (k2 : ℝ) - km ≤ u * (F - 1) + 1 := by linarith [b2.2, bm.1]
  refine ⟨b1.1, b1.2, ?_, ?_⟩
  · have : (-1 : ℝ) < npRound (overlap * ((k2 : ℝ) - km)) := by nlinarith [bp.1, mul_nonneg h0 h2]
    have : (-1 : Int) < npRound (overlap * ((k2 : ℝ) - km)) := by exact_mod_cast this
    omega
  · have : overlap * ((k2 : ℝ) - km) ≤ 1 / 2 * (u * (F - 1) + 1) := by
      calc overlap * ((k2 : ℝ) - km) ≤ 1 / 2 * ((k2 : ℝ) - km) := by nlinarith
        _ ≤ _ := by linarith
    linarith [bp.2]

theorem separated_gen {fc fs overlap : ℝ} {div nOct nfft : Nat} (hd : 0 < div) (h0 : 0 ≤ overlap) (h1 : overlap ≤ 1 / 2) (hfc : 0 < fc) (hfs : 0 < fs)
    (hn : 0 < nOct) {F : ℝ} (hF : F = (2 : ℝ) ^ (0.5 / (div : ℝ))) (hF1 : 1 < F) {u1 : ℝ} (hu1 : 0 < u1) (hu : u1 ≤ fc * F ^ 2 / fs * nfft)
    (hk1 : 3 ≤ u1 * (F - 1 / F - (F - 1) * (1 + F ^ 2) / 2)) (hk2 : 3 / 2 ≤ u1 * (1 / F - (F - 1) / 2)) (hk3 : 3 / 2 ≤ u1 * (1 - 1 / F - (F - 1) / 2))
    (hk4 : 1 ≤ u1 * (F - 1)) (htop : fc * 2 ^ (nOct - 1) ≤ fs / 2) :
    let a := antoniBins fc fs div nOct nfft overlap
    Separated a ∧ (∀ b < a.n, 0 < a.half b) ∧ a.nfreq = nfft / 2 + 1 := by
  intro a
  have hFpos : 0 < F := by linarith
  have han : a.n = nOct * div - (div - 1) := by simp [a, antoniBins, octaveCenters]
  have hn1 : 1 ≤ a.n := by
    have : 1 * div ≤ nOct * div := Nat.mul_le_mul_right _ hn
    omega
  have hub : ∀ b, 0 < b → u1 ≤ fc * F ^ (2 * b) / fs * nfft := by
    intro b hb
    refine le_trans hu ?_
    have : F ^ 2 ≤ F ^ (2 * b) := pow_le_pow_right₀ hF1.le (by omega)
    gcongr
  have hB : ∀ b, 0 < b → b < a.n → _ := fun b hb0 hb =>
    bins_bounds (fc := fc) (fs := fs) (nfft := nfft) (nOct := nOct) hd h0 h1 hF hb0 hb
      (le_trans hk4 (mul_le_mul_of_nonneg_right (hub b hb0) (by linarith)))
  have hsucc : ∀ b, fc * F ^ (2 * (b + 1)) / fs * nfft = fc * F ^ (2 * b) / fs * nfft * F ^ 2 := by
    intro b; rw [show 2 * (b + 1) = 2 * b + 2 by ring, pow_add]; ring
  -- consecutive lower edges
  have horder : ∀ b, 0 < b → b + 1 < a.n → a.k1 b + a.P b ≤ a.k1 (b + 1) - a.P (b + 1) ∧ a.k1 b < a.k1 (b + 1) := by
    intro b hb0 hb
    obtain ⟨-, h3, h4, h5⟩ := hB b hb0 (by omega)
    obtain ⟨g2, -, g4, g5⟩ := hB (b + 1) (by omega) hb
    have hu := hub b hb0
    rw [hsucc] at g2 g5
    change _ ≤ ((a.k1 (b + 1) : Int) : ℝ) at g2
    change ((a.P (b + 1) : Int) : ℝ) ≤ _ at g5
    change ((a.k1 b : Int) : ℝ) ≤ _ at h3
    change ((a.P b : Int) : ℝ) ≤ _ at h5
    change 0 ≤ a.P b at h4
    change 0 ≤ a.P (b + 1) at g4
    generalize fc * F ^ (2 * b) / fs * nfft = u at *
    have e : u * F ^ 2 / F = u * F := by field_simp
    rw [e] at g2
    have hpos : 0 < F - 1 / F - (F - 1) * (1 + F ^ 2) / 2 := by
      by_contra hh
      have := mul_nonneg hu1.le (show 0 ≤ -(F - 1 / F - (F - 1) * (1 + F ^ 2) / 2) by linarith)
      linarith
    have hq : 3 ≤ u * (F - 1 / F - (F - 1) * (1 + F ^ 2) / 2) := le_trans hk1 (mul_le_mul_of_nonneg_right hu hpos.le)
    have hq' : u * (F - 1 / F - (F - 1) * (1 + F ^ 2) / 2) = u * F - u / F - u * (F - 1) / 2 - u * F ^ 2 * (F - 1) / 2 := by ring
    rw [hq'] at hq
    have : ((a.k1 b + a.P b : Int) : ℝ) ≤ ((a.k1 (b + 1) - a.P (b + 1) : Int) : ℝ) := by
      push_cast; linarith
    have h6 : a.k1 b + a.P b ≤ a.k1 (b + 1) - a.P (b + 1) := by exact_mod_cast this
    refine ⟨h6, ?_⟩
    have hpp : 0 ≤ u * F ^ 2 * (F - 1) / 2 := by
      have : 0 < u := by linarith
      have : 0 < F - 1 := by linarith
      positivity
    have hpp' : 0 ≤ u * (F - 1) / 2 := by
      have : 0 < u := by linarith
      have : 0 < F - 1 := by linarith
      positivity
    have : (a.k1 b : ℝ) < a.k1 (b + 1) := by linarith
    exact_mod_cast this
  have hfirst : 1 < a.n → 0 ≤ a.k1 1 - a.P 1 ∧ 0 < a.k1 1 := by
    intro h
    obtain ⟨g2, -, -, g5⟩ := hB 1 (by omega) h
    have hu := hub 1 (by omega)
    change _ ≤ ((a.k1 1 : Int) : ℝ) at g2
    change ((a.P 1 : Int) : ℝ) ≤ _ at g5
    generalize fc * F ^ (2 * 1) / fs * nfft = u at *
    have hpos : 0 < 1 / F - (F - 1) / 2 := by
      by_contra hh
      have := mul_nonneg hu1.le (show 0 ≤ -(1 / F - (F - 1) / 2) by linarith)
      linarith
    have hq : 3 / 2 ≤ u * (1 / F - (F - 1) / 2) := le_trans hk2 (mul_le_mul_of_nonneg_right hu hpos.le)
    have hq' : u * (1 / F - (F - 1) / 2) = u / F - u * (F - 1) / 2 := by ring
    rw [hq'] at hq
    have hpp' : 0 ≤ u * (F - 1) / 2 := by
      have : 0 < u := by linarith
      have : 0 < F - 1 := by linarith
      positivity
    constructor
    · have : (0 : ℝ) ≤ ((a.k1 1 - a.P 1 : Int) : ℝ) := by push_cast; linarith
      exact_mod_cast this
    · have : (0 : ℝ) < a.k1 1 := by linarith
      exact_mod_cast this
  have hlast : 1 < a.n → a.k1 (a.n - 1) + a.P (a.n - 1) + 1 ≤ a.nfreq := by
    intro h
    obtain ⟨-, h3, -, h5⟩ := hB (a.n - 1) (by omega) (by omega)
    have hu := hub (a.n - 1) (by omega)
    change ((a.k1 (a.n - 1) : Int) : ℝ) ≤ _ at h3
    change ((a.P (a.n - 1) : Int) : ℝ) ≤ _ at h5
    have htop' : fc * F ^ (2 * (a.n - 1)) / fs * nfft ≤ nfft / 2 := by
      have hpow : F ^ (2 * (a.n - 1)) ≤ 2 ^ (nOct - 1) := by
        have h6 : F ^ (2 * (a.n - 1)) = (2 : ℝ) ^ (((a.n - 1 : Nat) : ℝ) / div) := by rw [octave_ratio_sq hd, hF]
        rw [h6, ← Real.rpow_natCast]
        apply Real.rpow_le_rpow_of_exponent_le (by norm_num)
        rw [div_le_iff₀ (by exact_mod_cast hd)]
        have : a.n - 1 ≤ (nOct - 1) * div := by
          rw [han, Nat.sub_mul, one_mul]; omega
        exact_mod_cast this
      have h7 : fc * F ^ (2 * (a.n - 1)) ≤ fs / 2 := le_trans (mul_le_mul_of_nonneg_left hpow hfc.le) htop
      have h8 : fc * F ^ (2 * (a.n - 1)) / fs ≤ 1 / 2 := by rw [div_le_iff₀ hfs]; linarith
      have := mul_le_mul_of_nonneg_right h8 (Nat.cast_nonneg (α := ℝ) nfft)
      linarith
    generalize fc * F ^ (2 * (a.n - 1)) / fs * nfft = u at *
    have hpos : 0 < 1 - 1 / F - (F - 1) / 2 := by
      by_contra hh
      have := mul_nonneg hu1.le (show 0 ≤ -(1 - 1 / F - (F - 1) / 2) by linarith)
      linarith
    have hq : 3 / 2 ≤ u * (1 - 1 / F - (F - 1) / 2) := le_trans hk3 (mul_le_mul_of_nonneg_right hu hpos.le)
    have hq' : u * (1 - 1 / F - (F - 1) / 2) = u - u / F - u * (F - 1) / 2 := by ring
    rw [hq'] at hq
    have h6 : ((2 * (a.k1 (a.n - 1) + a.P (a.n - 1)) : Int) : ℝ) ≤ ((nfft : Int) : ℝ) := by push_cast; linarith
    have h7 : 2 * (a.k1 (a.n - 1) + a.P (a.n - 1)) ≤ (nfft : Int) := by exact_mod_cast h6
    have : a.nfreq = nfft / 2 + 1 := rfl
    rw [this]; push_cast; omega
  have hPn : ∀ b, 0 < b → b < a.n → 0 ≤ a.P b := fun b hb0 hb => (hB b hb0 hb).2.2.1
  refine ⟨⟨by omega, hPn, fun h => (hfirst h).1, fun b hb0 hb => (horder b hb0 hb).1, hlast⟩, ?_, rfl⟩
  intro b hb
  have hh := high_le a b
  suffices a.low b < a.high b by omega
  unfold AntoniBins.low AntoniBins.high
  by_cases h2 : b + 1 < a.n
  · rw [if_pos h2]
    have hp := hPn (b + 1) (by omega) h2
    by_cases h3 : b = 0
    · subst h3
      have := (hfirst h2).2
      rw [if_pos rfl]; simp only [Nat.zero_add] at hp ⊢; omega
    · rw [if_neg h3]
      have := horder b (by omega) h2
      have := hPn b (by omega) hb
      omega
  · rw [if_neg h2]
    have hfr : (0 : Int) < a.nfreq := by
      have : a.nfreq = nfft / 2 + 1 := rfl
      omega
    by_cases h3 : b = 0
    · rw [if_pos h3]; exact hfr
    · rw [if_neg h3]
      have h4 := hlast (by omega)
      have h5 := hPn b (by omega) hb
      have : b = a.n - 1 := by omega
      rw [← this] at h4
      omega

theorem top_le {fc fs : ℝ} (hfc : 0 < fc) (h2 : 2 * fc ≤ fs) :
    0 < Nat.floor (Real.logb 2 (fs / fc)) ∧ fc * 2 ^ (Nat.floor (Real.logb 2 (fs / fc)) - 1) ≤ fs / 2 := by
  have hfs : 0 < fs := by linarith
  have hq : 0 < fs / fc := by positivity
  have hlog1 : 1 ≤ Real.logb 2 (fs / fc) := by
    rw [Real.le_logb_iff_rpow_le (by norm_num) hq, le_div_iff₀ hfc]
    norm_num; exact h2
  have hn : 1 ≤ Nat.floor (Real.logb 2 (fs / fc)) := Nat.le_floor (by exact_mod_cast hlog1)
  have h1 := Nat.floor_le (show 0 ≤ Real.logb 2 (fs / fc) by linarith)
  rw [Real.le_logb_iff_rpow_le (by norm_num) hq, Real.rpow_natCast, le_div_iff₀ hfc] at h1
  generalize Nat.floor (Real.logb 2 (fs / fc)) = n at hn h1
  obtain ⟨m, rfl⟩ : ∃ m, n = m + 1 := ⟨n - 1, by omega⟩
  rw [Nat.add_sub_cancel]
  rw [pow_succ] at h1
  exact ⟨hn, by linarith⟩

/-- The bins of the class for transforms of length `nfft`; the number of octaves is that of the constructor (605). -/
noncomputable def classBins (fc fs : ℝ) (third : Bool) (nfft : Nat) (overlap : ℝ) : AntoniBins :=
  antoniBins fc fs (if third then 3 else 1) (Nat.floor (Real.logb 2 (fs / fc))) nfft overlap

/-- **C68** The transitions of octave bands do not overlap if the base frequency is at least 17.5 bins (26 bins for third octave bands), for all overlap
ratios that the constructor accepts. -/
theorem C68_separated {fc fs overlap : ℝ} (third : Bool) {nfft : Nat} (h0 : 0 ≤ overlap) (h1 : overlap ≤ 1 / 2) (hfc : 0 < fc) (h2 : 2 * fc ≤ fs)
    (hu : (if third then 26 else 17.5) ≤ fc / fs * nfft) :
    let a := classBins fc fs third nfft overlap
    Separated a ∧ (∀ b < a.n, 0 < a.half b) ∧ a.nfreq = nfft / 2 + 1 := by
  have hfs : 0 < fs := by linarith
  obtain ⟨hn, htop⟩ := top_le hfc h2
  unfold classBins
  cases third with
  | false =>
    simp only [Bool.false_eq_true, if_false] at hu ⊢
    have hF : (2 : ℝ) ^ (0.5 / ((1 : Nat) : ℝ)) = Real.sqrt 2 := by rw [Real.sqrt_eq_rpow]; norm_num
    have hs : Real.sqrt 2 ^ 2 = 2 := Real.sq_sqrt (by norm_num)
    have hs1 : (1.41421 : ℝ) < Real.sqrt 2 := by rw [Real.lt_sqrt (by norm_num)]; norm_num
    have hs2 : Real.sqrt 2 < 1.41422 := by rw [Real.sqrt_lt' (by norm_num)]; norm_num
    have hinv : 1 / Real.sqrt 2 = Real.sqrt 2 / 2 := by
      rw [div_eq_div_iff (by positivity) (by norm_num), ← sq, hs]; norm_num
    refine separated_gen (u1 := 35) one_pos h0 h1 hfc hfs hn hF.symm (by linarith) (by norm_num) ?_ ?_ ?_ ?_ ?_ htop
    · rw [hs]
      rw [show fc * 2 / fs * nfft = fc / fs * nfft * 2 by ring]
      norm_num at hu ⊢; linarith
    · rw [hinv, hs]; linarith
    · rw [hinv]; linarith
    · rw [hinv]; linarith
    · linarith
  | true =>
    simp only [if_true] at hu ⊢
    generalize hF : (2 : ℝ) ^ (0.5 / ((3 : Nat) : ℝ)) = F
    have hF0 : 0 < F := by rw [← hF]; positivity
    have hF6 : F ^ 6 = 2 := by
      rw [← hF, ← Real.rpow_natCast, ← Real.rpow_mul (by norm_num)]; norm_num
    have hs1 : (1.1224 : ℝ) < F := by
      by_contra hh
      have : F ^ 6 ≤ 1.1224 ^ 6 := pow_le_pow_left₀ hF0.le (not_lt.mp hh) 6
      rw [hF6] at this; norm_num at this
    have hs2 : F < 1.1225 := by
      by_contra hh
      have : (1.1225 : ℝ) ^ 6 ≤ F ^ 6 := pow_le_pow_left₀ (by norm_num) (not_lt.mp hh) 6
      rw [hF6] at this; norm_num at this
    have hinv1 : 1 / F < 1 / 1.1224 := one_div_lt_one_div_of_lt (by norm_num) hs1
    have hinv2 : 1 / 1.1225 < 1 / F := one_div_lt_one_div_of_lt hF0 hs2
    norm_num at hinv1 hinv2
    rw [← one_div] at hinv1 hinv2
    have hsq1 : (1.2597 : ℝ) < F ^ 2 := by nlinarith
    have hsq2 : F ^ 2 < 1.2601 := by nlinarith
    refine separated_gen (u1 := 32.7) (by norm_num) h0 h1 hfc hfs hn hF.symm (by linarith) (by norm_num) ?_ ?_ ?_ ?_ ?_ htop
    · rw [show fc * F ^ 2 / fs * nfft = fc / fs * nfft * F ^ 2 by ring]
      nlinarith
    · nlinarith
    · linarith
    · linarith
    · linarith

/-- **C68** Perfect reconstruction for the class. -/
theorem C68_class {fc fs overlap : ℝ} (third : Bool) {nfft : Nat} (h0 : 0 ≤ overlap) (h1 : overlap ≤ 1 / 2) (hfc : 0 < fc) (h2 : 2 * fc ≤ fs)
    (hu : (if third then 26 else 17.5) ≤ fc / fs * nfft) (slope : Nat) (x : Nat → ℝ) {t : Nat} (ht : t < nfft) :
    ∑ b ∈ range (classBins fc fs third nfft overlap).n, antoniAnalysis (classBins fc fs third nfft overlap) slope nfft x b t = x t := by
  obtain ⟨hs, hN, hf⟩ := C68_separated third h0 h1 hfc h2 hu
  exact C68_reconstruction _ slope nfft hs hN hf x ht

/-- Non-vacuity: half a second at 16 kHz with the default bands; transforms have 16384 points. -/
example (slope : Nat) (x : Nat → ℝ) (t : Nat) (ht : t < 8000) :
    ∑ b ∈ range (classBins 125 16000 false 16384 (1 / 2)).n, antoniAnalysis (classBins 125 16000 false 16384 (1 / 2)) slope 16384 x b t = x t :=
  C68_class false (by norm_num) (by norm_num) (by norm_num) (by norm_num) (by norm_num) slope x (by omega)

/-! ## The default filter bank -/

theorem sin_iter_neg_one (slope : Nat) : (fun x => Real.sin (Real.pi / 2 * x))^[slope] (-1) = -1 := by
  induction slope with
  | zero => rfl
  | succ n ih => rw [Function.iterate_succ_apply, mul_neg_one, Real.sin_neg, Real.sin_pi_div_two, ih]

theorem sin_iter_mem (slope : Nat) (x : ℝ) (h1 : -1 < x) (h2 : x < 1) :
    -1 < (fun x => Real.sin (Real.pi / 2 * x))^[slope] x ∧ (fun x => Real.sin (Real.pi / 2 * x))^[slope] x < 1 := by
  induction slope generalizing x with
  | zero => exact ⟨h1, h2⟩
  | succ n ih =>
    rw [Function.iterate_succ_apply]
    have hp := Real.pi_pos
    apply ih
    · rw [← Real.sin_pi_div_two, ← Real.sin_neg]
      exact Real.sin_lt_sin_of_lt_of_le_pi_div_two (by linarith) (by nlinarith) (by nlinarith)
    · rw [← Real.sin_pi_div_two]
      exact Real.sin_lt_sin_of_lt_of_le_pi_div_two (by nlinarith) (le_refl _) (by nlinarith)

theorem fold_untouched (a : AntoniBins) (slope : Nat) (G : Nat → Int → ℝ) (b m : Nat) (hb : b + 1 ≤ m) (j : Nat) (k : Int) :
    (List.range (m + j)).foldl (fun G i => antoniStep a slope G (i + 1)) G b k = (List.range m).foldl (fun G i => antoniStep a slope G (i + 1)) G b k := by
  induction j with
  | zero => rfl
  | succ j ih =>
    rw [← Nat.add_assoc, List.range_succ, List.foldl_append, List.foldl_cons, List.foldl_nil, ← ih]
    unfold antoniStep
    have h1 : ¬b = m + j + 1 := by omega
    have h2 : ¬b = m + j + 1 - 1 := by omega
    simp only [h1, h2, false_and, if_false]
    split
    · simp only [h1, h2, false_and, if_false]
    · rfl

/-- **C68** Deviation: with the default arguments (base frequency 125 Hz, 16 kHz, 512 points, overlap 0.5, any slope) the transitions at the second and at the third band
overlap. The squares of the magnitudes (attribute `filters`, used for signals of at most 256 samples too) do not add up to one at bin 7. -/
theorem C68_default_deviation (slope : Nat) : 1 < ∑ b ∈ range (classBins 125 16000 false 512 (1 / 2)).n, antoniG (classBins 125 16000 false 512 (1 / 2)) slope b 7 ^ 2 := by
  have hfl : Nat.floor (Real.logb 2 ((16000 : ℝ) / 125)) = 7 := by
    have : Real.logb 2 ((16000 : ℝ) / 125) = 7 := by
      rw [show (16000 : ℝ) / 125 = 2 ^ (7 : ℝ) by norm_num, Real.logb_rpow (by norm_num) (by norm_num)]
    rw [this]; norm_num
  have hs1 : (1.4142 : ℝ) < Real.sqrt 2 := by rw [Real.lt_sqrt (by norm_num)]; norm_num
  have hs2 : Real.sqrt 2 < 1.4143 := by rw [Real.sqrt_lt' (by norm_num)]; norm_num
  have hs : Real.sqrt 2 ^ 2 = 2 := Real.sq_sqrt (by norm_num)
  have hF : (2 : ℝ) ^ ((0.5 : ℝ) / ((1 : Nat) : ℝ)) = Real.sqrt 2 := by rw [Real.sqrt_eq_rpow]; norm_num
  have hdiv : ∀ x : ℝ, x / Real.sqrt 2 = x / 2 * Real.sqrt 2 := by
    intro x
    rw [div_eq_iff (by positivity), mul_assoc, ← sq, hs]; ring
  generalize ha : classBins 125 16000 false 512 (1 / 2) = a
  have hc : ∀ b : Nat, b < 7 → (octaveCenters 125 1 7).getD b 0 = 125 * 2 ^ b := by
    intro b hb
    rw [List.getD_eq_getElem _ _ (by simpa [octaveCenters] using hb)]
    simp [octaveCenters]
  have he : ∀ b : Nat, b < 7 → (octaveEdges 125 1 7).getD b (0, 0) = (125 * 2 ^ b / 2 * Real.sqrt 2, 125 * 2 ^ b * Real.sqrt 2) := by
    intro b hb
    have h := hc b hb
    rw [List.getD_eq_getElem _ _ (by simpa [octaveCenters] using hb)] at h
    rw [List.getD_eq_getElem _ _ (by simpa [octaveEdges, octaveCenters] using hb)]
    simp only [octaveEdges, List.getElem_map, h, hF]
    rw [hdiv]
  have han : a.n = 7 := by rw [← ha]; simp [classBins, antoniBins, octaveCenters, hfl]
  have hfr : a.nfreq = 257 := by rw [← ha]; rfl
  have k11 : a.k1 1 = 6 := by
    rw [← ha]
    simp only [classBins, antoniBins, hfl, Bool.false_eq_true, if_false, one_ne_zero, he 1 (by norm_num)]
    apply npRound_eq <;> push_cast <;> linarith
  have k12 : a.k1 2 = 11 := by
    rw [← ha]
    simp only [classBins, antoniBins, hfl, Bool.false_eq_true, if_false, OfNat.ofNat_ne_zero, he 2 (by norm_num)]
    apply npRound_eq <;> push_cast <;> linarith
  have hhalf : ∀ m : Int, npRound ((m : ℝ) + 1 / 2) = if m % 2 = 0 then m else m + 1 := by
    intro m
    have h1 : Int.fract ((m : ℝ) + 1 / 2) = 1 / 2 := by
      rw [add_comm, Int.fract_add_intCast]
      norm_num
    have h2 : ⌊(m : ℝ) + 1 / 2⌋ = m := by
      rw [Int.floor_eq_iff]; constructor <;> linarith
    unfold npRound
    rw [h1, h2]; norm_num
  have P1 : a.P 1 = 2 := by
    rw [← ha]
    simp only [classBins, antoniBins, hfl, Bool.false_eq_true, if_false, he 1 (by norm_num), hc 1 (by norm_num)]
    rw [npRound_eq (x := 125 * 2 ^ 1 * Real.sqrt 2 / 16000 * ((512 : Nat) : ℝ)) (n := 11) (by push_cast; linarith) (by push_cast; linarith),
      npRound_eq (x := 125 * 2 ^ 1 / 16000 * ((512 : Nat) : ℝ)) (n := 8) (by norm_num) (by norm_num)]
    rw [show (1 : ℝ) / 2 * (((11 : Int) : ℝ) - ((8 : Int) : ℝ)) = ((1 : Int) : ℝ) + 1 / 2 by norm_num, hhalf]; norm_num
  have P2 : a.P 2 = 4 := by
    rw [← ha]
    simp only [classBins, antoniBins, hfl, Bool.false_eq_true, if_false, he 2 (by norm_num), hc 2 (by norm_num)]
    rw [npRound_eq (x := 125 * 2 ^ 2 * Real.sqrt 2 / 16000 * ((512 : Nat) : ℝ)) (n := 23) (by push_cast; linarith) (by push_cast; linarith),
      npRound_eq (x := 125 * 2 ^ 2 / 16000 * ((512 : Nat) : ℝ)) (n := 16) (by norm_num) (by norm_num)]
    rw [show (1 : ℝ) / 2 * (((23 : Int) : ℝ) - ((16 : Int) : ℝ)) = ((3 : Int) : ℝ) + 1 / 2 by norm_num, hhalf]; norm_num
  -- the two bands
  have hneg := sin_iter_neg_one slope
  have G1 : antoniG a slope 1 7 = 1 := by
    unfold antoniG
    rw [han, hfr, if_pos (by norm_num), show 7 - 1 = 2 + 4 by rfl, fold_untouched a slope _ 1 2 (by norm_num)]
    simp only [List.range_succ, List.range_zero, List.nil_append, List.foldl_cons, List.foldl_nil, List.foldl_append]
    rw [antoniStep, k12, P2]
    norm_num [antoniPhi, hneg]
  have G0 : antoniG a slope 0 7 = Real.cos (Real.pi / 2 * antoniPhi slope 1 2) := by
    unfold antoniG
    rw [han, hfr, if_pos (by norm_num), show 7 - 1 = 1 + 5 by rfl, fold_untouched a slope _ 0 1 (by norm_num)]
    simp only [List.range_succ, List.range_zero, List.nil_append, List.foldl_cons, List.foldl_nil]
    rw [antoniStep, k11, P1]
    norm_num
  have hphi := sin_iter_mem slope
  have hcos : 0 < Real.cos (Real.pi / 2 * antoniPhi slope 1 2) := by
    have h := hphi (1 / 2) (by norm_num) (by norm_num)
    have hp := Real.pi_pos
    have e : antoniPhi slope 1 2 = 0.5 * ((fun x => Real.sin (Real.pi / 2 * x))^[slope] (1 / 2) + 1) := by unfold antoniPhi; norm_num
    rw [e]
    apply Real.cos_pos_of_mem_Ioo
    constructor
    · nlinarith [h.1]
    · nlinarith [h.2]
  rw [han, sum_range_succ' _ 6, sum_range_succ' _ 5]
  simp only [Nat.zero_add]
  rw [G0, G1]
  have : 0 ≤ ∑ b ∈ range 5, antoniG a slope (b + 1 + 1) 7 ^ 2 := sum_nonneg fun b _ => sq_nonneg _
  have := sq_pos_of_pos hcos
  linarith

end Verif.Bands
