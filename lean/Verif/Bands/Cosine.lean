import Verif.Bands.FilterModel
import Mathlib.Analysis.SpecialFunctions.Trigonometric.Bounds
import Mathlib.Data.List.GetD
import Mathlib.Analysis.SpecialFunctions.Pow.Real
import Mathlib.Analysis.SpecialFunctions.Log.Base

/-!
# C34: the cosine octave filter bank
-/

namespace Verif.Bands

open Py (Err)
open Finset Verif.DFT

/-! ## Linearity of the inverse transform -/

theorem hermExt_smul (N : Nat) (a : ℝ) (X : Nat → ℂ) (k : Nat) : hermExt N (fun k => (a : ℂ) * X k) k = a * hermExt N X k := by
  unfold hermExt; split <;> simp

theorem hermExt_sum (N : Nat) {ι : Type} (s : Finset ι) (X : ι → Nat → ℂ) (k : Nat) :
    hermExt N (fun k => ∑ b ∈ s, X b k) k = ∑ b ∈ s, hermExt N (X b) k := by
  unfold hermExt; split <;> simp

theorem irfft_smul (N : Nat) (a : ℝ) (X : Nat → ℂ) (n : Nat) : irfft N (fun k => (a : ℂ) * X k) n = a * irfft N X n := by
  unfold irfft
  rw [idft_congr (fun k _ => hermExt_smul N a X k)]
  unfold idft
  rw [show (∑ k ∈ range N, (a : ℂ) * hermExt N X k * tw N (n * k)) / (N : ℂ) = (a : ℂ) * ((∑ k ∈ range N, hermExt N X k * tw N (n * k)) / N) by
    rw [sum_congr rfl fun k _ => mul_assoc _ _ _, ← mul_sum]; ring]
  rw [Complex.re_ofReal_mul]

theorem irfft_sum (N : Nat) {ι : Type} (s : Finset ι) (X : ι → Nat → ℂ) (n : Nat) :
    irfft N (fun k => ∑ b ∈ s, X b k) n = ∑ b ∈ s, irfft N (X b) n := by
  unfold irfft
  rw [idft_congr (fun k _ => hermExt_sum N s X k)]
  unfold idft
  rw [← Complex.re_sum, ← sum_div]
  congr 2
  rw [sum_comm]
  exact sum_congr rfl fun k _ => sum_mul _ _ _

theorem irfft_congr {N : Nat} {X Y : Nat → ℂ} (h : ∀ k, k ≤ N / 2 → X k = Y k) (n : Nat) : irfft N X n = irfft N Y n := by
  unfold irfft
  rw [idft_congr (Y := hermExt N Y)]
  intro k hk
  unfold hermExt
  split
  · rename_i h1; exact h k h1
  · rw [h (N - k) (by omega)]

/-! ## Magnitudes -/

/-- The rising side of band `b`, up to one. -/
noncomputable def rise (centers : List ℝ) (keepDc : Bool) (b : Nat) (f : ℝ) : ℝ :=
  if b = centers.length then 0
  else if centers.getD b 0 ≤ f then 1
  else if b = 0 ∧ keepDc = true then 1
  else if (if b = 0 then centers.getD 0 0 / 2 else centers.getD (b - 1) 0) ≤ f then 0.5 * (1 + Real.cos (2 * Real.pi * f / centers.getD b 0)) else 0

theorem centers_lt {centers : List ℝ} (h : centers.Pairwise (· < ·)) {i j : Nat} (hij : i < j) (hj : j < centers.length) :
    centers.getD i 0 < centers.getD j 0 := by
  rw [List.getD_eq_getElem _ _ (by omega), List.getD_eq_getElem _ _ hj]
  exact List.pairwise_iff_getElem.mp h i j (by omega) hj hij

theorem cosMag_eq {centers : List ℝ} (fs : ℝ) (keepDc : Bool) (h : centers.Pairwise (· < ·)) (h0 : 0 < centers.getD 0 0) {b : Nat}
    (hb : b < centers.length) (f : ℝ) (hn : 2 ≤ centers.length) :
    cosMag centers fs keepDc b f = rise centers keepDc b f - rise centers keepDc (b + 1) f := by
  have hpos : 0 < centers.getD b 0 := by
    rcases Nat.eq_zero_or_pos b with h1 | h1
    · rw [h1]; exact h0
    · exact lt_trans h0 (centers_lt h h1 hb)
  have hb1 : (newBand centers fs b).1 = if b = 0 then centers.getD 0 0 / 2 else centers.getD (b - 1) 0 := by
    unfold newBand
    by_cases h1 : b = 0
    · simp [h1]
    · by_cases h2 : b < centers.length - 1
      · simp [h1, h2]
      · have e : centers.length - 2 = b - 1 := by omega
        simp only [h1, h2, if_false, e]
  have hlt : (newBand centers fs b).1 < centers.getD b 0 := by
    rw [hb1]
    split
    · rename_i h1; subst h1; linarith
    · exact centers_lt h (by omega) hb
  by_cases hl : b = centers.length - 1
  · have hn1 : b + 1 = centers.length := by omega
    have hr : rise centers keepDc (b + 1) f = 0 := by simp [rise, hn1]
    rw [hr, sub_zero]
    unfold cosMag rise
    simp only [hl.symm, ne_eq, not_true_eq_false, if_false]
    rw [if_neg (show ¬b = centers.length by omega), ← hb1]
    by_cases h1 : centers.getD b 0 ≤ f
    · rw [if_pos h1, if_pos h1]
    · rw [if_neg h1, if_neg h1]
      by_cases h2 : b = 0 ∧ keepDc = true
      · rw [if_pos h2, if_pos h2, if_pos (not_le.mp h1)]
      · rw [if_neg h2, if_neg h2]
        by_cases h3 : (newBand centers fs b).1 ≤ f
        · rw [if_pos ⟨h3, not_le.mp h1⟩, if_pos h3]
        · rw [if_neg (fun h => h3 h.1), if_neg h3]
  · have hn1 : b + 1 < centers.length := by omega
    have hb2 : (newBand centers fs b).2 = centers.getD (b + 1) 0 := by
      unfold newBand
      by_cases h1 : b = 0
      · simp [h1]
      · simp [h1, show b < centers.length - 1 by omega]
    have hlt2 := centers_lt h (Nat.lt_succ_self b) hn1
    unfold cosMag rise
    rw [if_neg (show ¬b = centers.length by omega), if_neg (show ¬b + 1 = centers.length by omega), ← hb1]
    simp only [ne_eq, hl, not_false_eq_true, if_true, hb2, Nat.add_eq_zero_iff, one_ne_zero, and_false, false_and, if_false, Nat.add_sub_cancel]
    by_cases h1 : centers.getD b 0 ≤ f
    · rw [if_pos h1]
      by_cases h2 : f < centers.getD (b + 1) 0
      · rw [if_pos ⟨h1, h2⟩, if_neg (not_le.mpr h2), if_pos h1]; ring
      · rw [if_neg (fun h => h2 h.2), if_pos (not_lt.mp h2), if_neg (not_lt.mpr h1)]
        simp only [sub_self]
        by_cases h3 : b = 0 ∧ keepDc = true
        · rw [if_pos h3]
        · rw [if_neg h3, if_neg (fun h => absurd h.2 (not_lt.mpr h1))]
    · have h1' := not_le.mp h1
      have h4 : ¬centers.getD (b + 1) 0 ≤ f := by
        have : centers.getD b 0 < centers.getD (b + 1) 0 := hlt2
        linarith
      rw [if_neg h1, if_neg (fun h => h1 h.1), if_neg h4, if_neg h1, sub_zero, if_pos h1']
      by_cases h2 : b = 0 ∧ keepDc = true
      · rw [if_pos h2, if_pos h2]
      · rw [if_neg h2, if_neg h2]
        by_cases h3 : (newBand centers fs b).1 ≤ f
        · rw [if_pos ⟨h3, h1'⟩, if_pos h3]
        · rw [if_neg (fun h => h3 h.1), if_neg h3]

theorem cosMag_sum {centers : List ℝ} (fs : ℝ) (keepDc : Bool) (h : centers.Pairwise (· < ·)) (h0 : 0 < centers.getD 0 0)
    (f : ℝ) (hn : 2 ≤ centers.length) :
    ∑ b ∈ range centers.length, cosMag centers fs keepDc b f = rise centers keepDc 0 f := by
  rw [sum_congr rfl fun b hb => cosMag_eq fs keepDc h h0 (mem_range.mp hb) f hn, sum_range_sub']
  simp [rise]

/-- **C34** At every frequency from the centre of the first band on the magnitudes of the bands add up to one; if the constant part is kept, this is so at
every frequency; otherwise they fade to zero over the octave below. -/
theorem C34_sum {centers : List ℝ} (fs : ℝ) (keepDc : Bool) (h : centers.Pairwise (· < ·)) (h0 : 0 < centers.getD 0 0) (hn : 2 ≤ centers.length) (f : ℝ) :
    ∑ b ∈ range centers.length, cosMag centers fs keepDc b f =
      if keepDc = true ∨ centers.getD 0 0 ≤ f then 1
      else if centers.getD 0 0 / 2 ≤ f then 0.5 * (1 + Real.cos (2 * Real.pi * f / centers.getD 0 0)) else 0 := by
  rw [cosMag_sum fs keepDc h h0 f hn]
  unfold rise
  rw [if_neg (by omega)]
  by_cases h1 : centers.getD 0 0 ≤ f
  · rw [if_pos h1, if_pos (Or.inr h1)]
  · rw [if_neg h1]
    by_cases h2 : keepDc = true
    · rw [if_pos ⟨rfl, h2⟩, if_pos (Or.inl h2)]
    · have h3 : ¬(keepDc = true ∨ centers.getD 0 0 ≤ f) := by tauto
      rw [if_neg (fun h => h2 h.2), if_neg h3, if_pos rfl]

/-- **C34** Every magnitude is in [0, 1]. -/
theorem C34_range (centers : List ℝ) (fs : ℝ) (keepDc : Bool) (b : Nat) (f : ℝ) :
    0 ≤ cosMag centers fs keepDc b f ∧ cosMag centers fs keepDc b f ≤ 1 := by
  have hc : ∀ x : ℝ, (0 ≤ 0.5 * (1 + Real.cos x) ∧ 0.5 * (1 + Real.cos x) ≤ 1) ∧ 0 ≤ 0.5 * (1 - Real.cos x) ∧ 0.5 * (1 - Real.cos x) ≤ 1 := by
    intro x
    have h1 := Real.neg_one_le_cos x
    have h2 := Real.cos_le_one x
    refine ⟨⟨?_, ?_⟩, ?_, ?_⟩ <;> linarith
  unfold cosMag
  simp only
  split_ifs
  all_goals first
    | exact (hc _).1
    | exact (hc _).2
    | exact ⟨zero_le_one, le_refl _⟩
    | exact ⟨le_refl _, zero_le_one⟩

/-- A band has no output outside of its range: below the centre of the band before it, and from the centre of the next band on. -/
theorem C34_support {centers : List ℝ} (fs : ℝ) (keepDc : Bool) (h : centers.Pairwise (· < ·)) (h0 : 0 < centers.getD 0 0) {b : Nat}
    (hb : b < centers.length) (hn : 2 ≤ centers.length) (f : ℝ)
    (hf : (0 < b ∧ f < centers.getD (b - 1) 0) ∨ (b + 1 < centers.length ∧ centers.getD (b + 1) 0 ≤ f)) : cosMag centers fs keepDc b f = 0 := by
  rw [cosMag_eq fs keepDc h h0 hb f hn]
  have hz : ∀ c, 0 < c → c < centers.length → f < centers.getD (c - 1) 0 → rise centers keepDc c f = 0 := by
    intro c hc hcl hlt
    have h3 := centers_lt h (show c - 1 < c by omega) hcl
    unfold rise
    rw [if_neg (show ¬c = centers.length by omega), if_neg (show ¬centers.getD c 0 ≤ f by linarith),
      if_neg (show ¬(c = 0 ∧ keepDc = true) from fun hh => absurd hh.1 (by omega)), if_neg (show ¬c = 0 by omega),
      if_neg (show ¬centers.getD (c - 1) 0 ≤ f by linarith)]
  rcases hf with ⟨h1, h2⟩ | ⟨h1, h2⟩
  · rw [hz b h1 hb h2]
    by_cases h4 : b + 1 = centers.length
    · simp [rise, h4]
    · have h3 := centers_lt h (show b - 1 < b by omega) hb
      rw [hz (b + 1) (by omega) (by omega) (by rw [Nat.add_sub_cancel]; linarith), sub_zero]
  · have h3 := centers_lt h (show b < b + 1 by omega) h1
    unfold rise
    rw [if_neg (show ¬b = centers.length by omega), if_pos (show centers.getD b 0 ≤ f by linarith), if_neg (show ¬b + 1 = centers.length by omega),
      if_pos h2, sub_self]

/-! ## Filters -/

theorem delay_eq {nfft : Nat} (hn : 0 < nfft) (k : Nat) :
    cosDelay nfft k = rfft nfft (fun s => if s = (nfft - 1) / 2 then 1 else 0) k := by
  unfold rfft dft cosDelay
  rw [sum_eq_single ((nfft - 1) / 2) (by intro s _ hs; simp [hs]) (by intro h; exact absurd (mem_range.mpr (by omega)) h)]
  simp only [if_true, Complex.ofReal_one, one_mul]
  have e : tw nfft (-((((nfft - 1) / 2 : Nat) : Int) * k)) = tw nfft ((nfft / 2 + 1 : Nat) * k) := by
    have h1 : ((nfft / 2 + 1 : Nat) : Int) * k = -((((nfft - 1) / 2 : Nat) : Int) * k) + (nfft : Int) * k := by
      have : ((nfft / 2 + 1 : Nat) : Int) = (nfft : Int) - ((nfft - 1) / 2 : Nat) := by omega
      rw [this]; ring
    rw [h1, tw_add, tw_dvd hn (Dvd.intro _ rfl), mul_one]
  rw [e]
  unfold tw
  congr 1
  generalize nfft / 2 + 1 = m
  push_cast
  ring

theorem filter_sum {nfft n : Nat} {mag : Nat → Nat → ℝ} (hmag : ∀ k ≤ nfft / 2, ∑ b ∈ range n, mag b k = 1) {t : Nat} (ht : t < nfft) :
    ∑ b ∈ range n, cosFilter nfft mag b t = if t = (nfft - 1) / 2 then 1 else 0 := by
  unfold cosFilter
  rw [← irfft_sum, ← irfft_rfft (fun s => if s = (nfft - 1) / 2 then (1 : ℝ) else 0) ht]
  apply irfft_congr
  intro k hk
  rw [← sum_mul, ← delay_eq (by omega)]
  have := hmag k hk
  rw [show (∑ b ∈ range n, (mag b k : ℂ)) = ((∑ b ∈ range n, mag b k : ℝ) : ℂ) by push_cast; rfl, this]
  simp

theorem convSame_sum (x : List ℝ) (n m : Nat) (h : Nat → Nat → ℝ) (t : Nat) :
    ∑ b ∈ range m, convSame x n (h b) t = convSame x n (fun s => ∑ b ∈ range m, h b s) t := by
  unfold convSame
  simp only
  rw [sum_comm]
  refine sum_congr rfl fun j _ => ?_
  rw [← mul_sum]
  congr 1
  split
  · rfl
  · simp

theorem convSame_congr (x : List ℝ) (n : Nat) {h g : Nat → ℝ} (hg : ∀ s < n, h s = g s) (t : Nat) : convSame x n h t = convSame x n g t := by
  unfold convSame
  simp only
  refine sum_congr rfl fun j _ => ?_
  congr 1
  split
  · rename_i h1; exact hg _ h1.2
  · rfl

theorem convSame_delta (x : List ℝ) (n : Nat) (hn : 0 < n) {t : Nat} (ht : t < x.length) :
    convSame x n (fun s => if s = (n - 1) / 2 then 1 else 0) t = x.getD t 0 := by
  unfold convSame
  have e : (x.length + n - 1 - x.length) / 2 = (n - 1) / 2 := by congr 1; omega
  simp only [e]
  rw [sum_eq_single t]
  · rw [if_pos ⟨by omega, by omega⟩, if_pos (by omega), mul_one]
  · intro j _ hj
    split_ifs with h1 h2
    · exfalso; omega
    · simp
    · simp
  · intro h; exact absurd (mem_range.mpr ht) h

theorem response_ok {nfft : Nat} {centers : List ℝ} {fs : ℝ} {keepDc : Bool} {mag : Nat → Nat → ℝ}
    (h : cosineResponse nfft centers fs keepDc = .ok mag) :
    2 ≤ centers.length ∧ mag = fun b k : Nat => cosMag centers fs keepDc b ((k : ℝ) / nfft * fs) := by
  unfold cosineResponse at h
  simp only at h
  split at h
  · exact absurd h (by simp)
  · split at h
    · exact absurd h (by simp)
    · simp only [Except.ok.injEq] at h
      exact ⟨by omega, h.symm⟩

/-- **C34** Splitting a signal is lossless: if the constant part is kept, the signals of the bands add up to the signal, whatever its length and the
number of taps. -/
theorem C34_lossless {nfft : Nat} {centers : List ℝ} {fs : ℝ} {mag : Nat → Nat → ℝ} (h : centers.Pairwise (· < ·)) (h0 : 0 < centers.getD 0 0)
    (hnfft : 0 < nfft) (hok : cosineResponse nfft centers fs true = .ok mag) (x : List ℝ) {t : Nat} (ht : t < x.length) :
    ∑ b ∈ range centers.length, cosAnalysis nfft mag x b t = x.getD t 0 := by
  obtain ⟨hn, rfl⟩ := response_ok hok
  unfold cosAnalysis
  rw [convSame_sum, ← convSame_delta x nfft hnfft ht]
  apply convSame_congr
  intro s hs
  exact filter_sum (fun k _ => by rw [C34_sum fs true h h0 hn]; simp) hs

/-- **C34** A filter with the same magnitude in all bands is an impulse in the middle, with this magnitude. -/
theorem C34_synthesis {nfft : Nat} {centers : List ℝ} {fs : ℝ} {mag : Nat → Nat → ℝ} (h : centers.Pairwise (· < ·)) (h0 : 0 < centers.getD 0 0)
    (hok : cosineResponse nfft centers fs true = .ok mag) (c : ℝ) {t : Nat} (ht : t < nfft) :
    cosSynthesis nfft mag (List.replicate centers.length c) t = if t = (nfft - 1) / 2 then c else 0 := by
  obtain ⟨hn, rfl⟩ := response_ok hok
  unfold cosSynthesis
  rw [List.length_replicate]
  have e : ∀ b ∈ range centers.length, (List.replicate centers.length c).getD b 0 * cosFilter nfft (fun b k : Nat => cosMag centers fs true b ((k : ℝ) / nfft * fs)) b t =
      c * cosFilter nfft (fun b k : Nat => cosMag centers fs true b ((k : ℝ) / nfft * fs)) b t := by
    intro b hb
    rw [List.getD_eq_getElem _ _ (by simpa using hb), List.getElem_replicate]
  rw [sum_congr rfl e, ← mul_sum, filter_sum (fun k _ => by rw [C34_sum fs true h h0 hn]; simp) ht]
  split <;> simp

/-- The centres of octave and fractional octave bands increase. -/
theorem octaveCenters_inc {fc : ℝ} (hfc : 0 < fc) {div : Nat} (hd : 0 < div) (n : Nat) : (octaveCenters fc div n).Pairwise (· < ·) := by
  unfold octaveCenters
  rw [List.pairwise_map]
  refine List.Pairwise.imp_of_mem ?_ List.pairwise_lt_range
  intro a b _ _ hab
  apply mul_lt_mul_of_pos_left _ hfc
  apply Real.rpow_lt_rpow_of_exponent_lt (by norm_num)
  apply div_lt_div_of_pos_right _ (by exact_mod_cast hd)
  exact_mod_cast hab

/-- **C34** The filter bank of the class (`n_bands`, 407) exists, and is lossless, if the base frequency is at most a quarter of the sampling rate and
the bins are at most half of it apart. -/
theorem C34_octaves {nfft : Nat} {fc fs : ℝ} (hfc : 0 < fc) (h4 : 4 * fc ≤ fs) (hnfft : 2 * fs ≤ fc * nfft) :
    ∃ mag, cosineResponse nfft (octaveCenters fc 1 (Nat.floor (Real.logb 2 (fs / fc)))) fs true = .ok mag ∧
      ∀ (x : List ℝ) (t : Nat), t < x.length → ∑ b ∈ range (Nat.floor (Real.logb 2 (fs / fc))), cosAnalysis nfft mag x b t = x.getD t 0 := by
  have hfs : 0 < fs := by linarith
  have hq : 0 < fs / fc := by positivity
  have hlog2 : 2 ≤ Real.logb 2 (fs / fc) := by
    rw [Real.le_logb_iff_rpow_le (by norm_num) hq, le_div_iff₀ hfc]
    norm_num; exact h4
  have hn : 2 ≤ Nat.floor (Real.logb 2 (fs / fc)) := Nat.le_floor (by exact_mod_cast hlog2)
  have htop : fc * 2 ^ (Nat.floor (Real.logb 2 (fs / fc))) ≤ fs := by
    have h1 := Nat.floor_le (show 0 ≤ Real.logb 2 (fs / fc) by linarith)
    rw [Real.le_logb_iff_rpow_le (by norm_num) hq, Real.rpow_natCast, le_div_iff₀ hfc] at h1
    linarith
  generalize Nat.floor (Real.logb 2 (fs / fc)) = n at hn htop
  have hlen : (octaveCenters fc 1 n).length = n := by simp [octaveCenters]
  have hget : ∀ b < n, (octaveCenters fc 1 n).getD b 0 = fc * 2 ^ b := by
    intro b hb
    rw [List.getD_eq_getElem _ _ (by omega)]
    simp [octaveCenters]
  have hinc := octaveCenters_inc hfc one_pos n
  have h0 : 0 < (octaveCenters fc 1 n).getD 0 0 := by rw [hget 0 (by omega)]; simpa using hfc
  have hpos : (0 : ℝ) < nfft := by
    by_contra hh
    have : (nfft : ℝ) = 0 := le_antisymm (not_lt.mp hh) (Nat.cast_nonneg _)
    rw [this] at hnfft; linarith
  have hposn : 0 < nfft := by exact_mod_cast hpos
  have hok : cosineResponse nfft (octaveCenters fc 1 n) fs true = .ok
      (fun b k : Nat => cosMag (octaveCenters fc 1 n) fs true b ((k : ℝ) / nfft * fs)) := by
    unfold cosineResponse
    simp only
    rw [if_neg (by omega), if_neg]
    rintro ⟨b, hb, hall⟩
    rw [hlen] at hb
    have hc := hget b hb
    have hnext : ∀ f < fc * 2 ^ b, rise (octaveCenters fc 1 n) true (b + 1) f = 0 := by
      intro f hf
      unfold rise
      rw [hlen]
      by_cases h1 : b + 1 = n
      · rw [if_pos h1]
      · have hc1 := hget (b + 1) (by omega)
        have : fc * 2 ^ b ≤ fc * 2 ^ (b + 1) := by rw [pow_succ]; nlinarith [show 0 < fc * 2 ^ b by positivity]
        rw [if_neg h1, hc1, if_neg (by linarith), if_neg (fun hh => absurd hh.1 (by omega)), if_neg (show ¬b + 1 = 0 by omega), Nat.add_sub_cancel,
          hc, if_neg (by linarith)]
    rcases Nat.eq_zero_or_pos b with hb0 | hb0
    · subst hb0
      apply hall 0 (by omega)
      rw [cosMag_eq fs true hinc h0 (by omega) _ (by omega), hnext _ (by simpa using hfc)]
      unfold rise
      rw [hlen, if_neg (by omega)]
      simp
    -- the last bin before the centre
    have hcp : 0 < fc * 2 ^ b := by positivity
    have hfc_le : fc * 2 ≤ fc * 2 ^ b := by
      have : (2 : ℝ) ^ 1 ≤ 2 ^ b := pow_le_pow_right₀ (by norm_num) hb0
      nlinarith
    obtain ⟨k, hk⟩ : ∃ k, ⌈fc * 2 ^ b / fs * nfft⌉₊ = k + 1 :=
      ⟨_, (Nat.succ_pred_eq_of_pos (Nat.ceil_pos.mpr (by positivity))).symm⟩
    have hk1 : fc * 2 ^ b / fs * nfft ≤ (k : ℝ) + 1 := by
      have := Nat.le_ceil (fc * 2 ^ b / fs * nfft)
      rw [hk] at this; push_cast at this; exact this
    have hk2 : (k : ℝ) < fc * 2 ^ b / fs * nfft := by
      have := Nat.ceil_lt_add_one (show 0 ≤ fc * 2 ^ b / fs * nfft by positivity)
      rw [hk] at this; push_cast at this; linarith
    have e : fc * 2 ^ b = fc * 2 ^ b / fs * nfft / nfft * fs := by field_simp
    have hf1 : (k : ℝ) / nfft * fs < fc * 2 ^ b := by
      rw [e]; gcongr
    have hstep : fs / nfft ≤ fc / 2 := by rw [div_le_iff₀ hpos]; linarith
    have hf2 : fc * 2 ^ b - fc / 2 ≤ (k : ℝ) / nfft * fs := by
      have e1 : ((k : ℝ) + 1) / nfft * fs = (k : ℝ) / nfft * fs + fs / nfft := by field_simp
      have : fc * 2 ^ b ≤ ((k : ℝ) + 1) / nfft * fs := by rw [e]; gcongr
      linarith
    have htop' : fc * 2 ^ b ≤ fs / 2 := by
      have h1 : (2 : ℝ) ^ b * 2 ≤ 2 ^ n := by rw [← pow_succ]; exact pow_le_pow_right₀ (by norm_num) (by omega)
      nlinarith
    have hkle : k ≤ nfft / 2 := by
      have h1 : (k : ℝ) / nfft * fs < fs / 2 := by linarith
      have h2 : (k : ℝ) < nfft / 2 := by
        have e : (k : ℝ) / nfft * fs = k * fs / nfft := by ring
        rw [e, div_lt_iff₀ hpos] at h1
        nlinarith
      have h3 : (k : ℝ) * 2 < nfft := by linarith
      have h4 : k * 2 < nfft := by exact_mod_cast h3
      omega
    apply hall k hkle
    rw [cosMag_eq fs true hinc h0 (by omega) _ (by omega)]
    generalize (k : ℝ) / nfft * fs = f at hf1 hf2
    rw [hnext f hf1, sub_zero]
    have hc1 := hget (b - 1) (by omega)
    have hpow : fc * 2 ^ b = fc * 2 ^ (b - 1) * 2 := by
      rw [mul_assoc, ← pow_succ, Nat.sub_add_cancel hb0]
    have hp1 : 0 < fc * 2 ^ (b - 1) := by positivity
    unfold rise
    rw [hlen, if_neg (show ¬b = n by omega), hc, if_neg (by linarith), if_neg (fun hh => absurd hh.1 (by omega)), if_neg (show ¬b = 0 by omega), hc1,
      if_pos (by linarith)]
    have hx1 : Real.pi < 2 * Real.pi * f / (fc * 2 ^ b) := by
      rw [lt_div_iff₀ hcp]; nlinarith [Real.pi_pos]
    have hx2 : 2 * Real.pi * f / (fc * 2 ^ b) < 2 * Real.pi := by
      rw [div_lt_iff₀ hcp]; nlinarith [Real.pi_pos]
    have : -1 < Real.cos (2 * Real.pi * f / (fc * 2 ^ b)) := by
      rw [← Real.cos_two_pi_sub]
      have h3 := Real.cos_lt_cos_of_nonneg_of_le_pi (show 0 ≤ 2 * Real.pi - 2 * Real.pi * f / (fc * 2 ^ b) by linarith) (le_refl Real.pi)
        (by linarith)
      simpa using h3
    linarith
  refine ⟨_, hok, fun x t ht => ?_⟩
  have := C34_lossless hinc h0 hposn hok x ht
  rwa [hlen] at this

/-- Non-vacuity: the defaults, 125 Hz at 16 kHz with 512 taps. -/
example : ∃ mag, cosineResponse 512 (octaveCenters 125 1 (Nat.floor (Real.logb 2 (16000 / 125)))) 16000 true = .ok mag ∧
      ∀ (x : List ℝ) (t : Nat), t < x.length → ∑ b ∈ range (Nat.floor (Real.logb 2 (16000 / 125))), cosAnalysis 512 mag x b t = x.getD t 0 :=
  C34_octaves (by norm_num) (by norm_num) (by norm_num)

/-- Without the constant part the bands of a constant signal vanish. -/
example (b : Nat) (hb : b < 2) : cosMag [125, 250] 1000 false b 0 = 0 := by
  obtain rfl | rfl : b = 0 ∨ b = 1 := by omega
  all_goals norm_num [cosMag, newBand]

/-- **C34** One band is refused. -/
theorem C34_one_band_deviation (nfft : Nat) (c fs : ℝ) (keepDc : Bool) : cosineResponse nfft [c] fs keepDc = .error .indexError := by
  simp [cosineResponse]

end Verif.Bands
