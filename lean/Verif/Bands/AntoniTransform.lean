import Verif.Bands.Antoni

/-!
# C68: Antoni's octave filter bank, analysis and synthesis
-/

namespace Verif.Bands

open Py (Err)
open Finset Verif.DFT

/-! ## One band -/

theorem exp_tw {N : Nat} (hN : 0 < N) (m : Int) : Complex.exp (Complex.I * Real.pi * m / N) = tw (2 * N) m := by
  unfold tw
  congr 1
  have : (N : ℂ) ≠ 0 := by exact_mod_cast hN.ne'
  push_cast
  field_simp

theorem antoniW_eq {N : Nat} (hN : 0 < N) (g : Nat → ℝ) (X : Nat → ℂ) (m : Nat) :
    antoniW N g X m = ∑ i ∈ range (2 * N), (g i : ℂ) * X i * tw (2 * N) (-((i : Int) * ((m : Int) - N + 1))) := by
  unfold antoniW
  simp only
  split
  · rename_i h
    unfold dft
    rw [map_sum]
    refine sum_congr rfl fun i _ => ?_
    rw [map_mul, map_mul, Complex.conj_ofReal, Complex.conj_conj, tw_conj]
    congr 2
    push_cast [show m ≤ N - 1 by omega, show 1 ≤ N by omega]
    ring
  · rename_i h
    unfold dft
    refine sum_congr rfl fun i _ => ?_
    congr 2
    push_cast [show N - 1 ≤ m by omega, show 1 ≤ N by omega]
    ring

theorem conj_dft_conj (M : Nat) (Z : Nat → ℂ) (i : Nat) :
    (starRingEnd ℂ) (dft M (fun m => (starRingEnd ℂ) (Z m)) i) = ∑ m ∈ range M, Z m * tw M ((m : Int) * i) := by
  unfold dft
  rw [map_sum]
  refine sum_congr rfl fun m _ => ?_
  rw [map_mul, Complex.conj_conj, tw_conj, neg_neg]

theorem sum_tw_diff {M : Nat} {i j : Nat} (hi : i < M) (hj : j < M) :
    ∑ m ∈ range M, tw M (((i : Int) - j) * m) = if j = i then (M : ℂ) else 0 := by
  rw [sum_tw (by omega)]
  by_cases h : j = i
  · rw [if_pos h, if_pos (by rw [h]; simp)]
  · rw [if_neg h, if_neg]
    rintro ⟨c, hc⟩
    rcases lt_trichotomy c 0 with h1 | h1 | h1
    · nlinarith
    · rw [h1] at hc; omega
    · nlinarith

/-- Analysis followed by synthesis multiplies the spectrum by the square of the window. -/
theorem antoniFilt_coeff {N : Nat} (hN : 0 < N) (band : Nat) (d : Int) (g : Nat → ℝ) (X : Nat → ℂ) {i : Nat} (hi : i < 2 * N) :
    antoniFilt band N d g (antoniCoeff band N d g X) i = (g i : ℂ) ^ 2 * X i := by
  unfold antoniFilt
  simp only
  rw [conj_dft_conj]
  have hδ : ((Real.sqrt (1 / (2 * N)) : ℝ) : ℂ) * (Real.sqrt (1 / (2 * N)) : ℝ) * (2 * N) = 1 := by
    rw [← Complex.ofReal_mul, Real.mul_self_sqrt (by positivity)]
    have : (N : ℝ) ≠ 0 := by exact_mod_cast hN.ne'
    push_cast
    have : (N : ℂ) ≠ 0 := by exact_mod_cast hN.ne'
    field_simp
  have hI : (-Complex.I) ^ band * Complex.I ^ band = 1 := by rw [← mul_pow]; simp
  generalize hδ' : ((Real.sqrt (1 / (2 * N)) : ℝ) : ℂ) = δ at hδ
  have e1 : ∀ m ∈ range (2 * N), Complex.exp (-Complex.I * Real.pi * d * m / N) * antoniCoeff band N d g X m * tw (2 * N) ((m : Int) * i) =
      Complex.I ^ band * δ * tw (2 * N) (d * (1 - N)) *
        ∑ j ∈ range (2 * N), (g j : ℂ) * X j * tw (2 * N) ((j : Int) * (N - 1)) * tw (2 * N) (((i : Int) - j) * m) := by
    intro m _
    unfold antoniCoeff
    simp only
    rw [hδ', antoniW_eq hN]
    have h1 : Complex.exp (-Complex.I * Real.pi * d * m / N) = tw (2 * N) (-(d * m)) := by
      rw [← exp_tw hN]; congr 1; push_cast; ring
    have h2 : Complex.exp (Complex.I * Real.pi * d * ((m : ℂ) - N + 1) / N) = tw (2 * N) (d * ((m : Int) - N + 1)) := by
      rw [← exp_tw hN]; congr 1; push_cast; ring
    rw [h1, h2]
    have h3 : tw (2 * N) (d * (1 - N)) = tw (2 * N) (-(d * m)) * tw (2 * N) (d * ((m : Int) - N + 1)) := by
      rw [← tw_add]; congr 1; ring
    rw [h3]
    have h4 : ∀ j ∈ range (2 * N), (g j : ℂ) * X j * tw (2 * N) ((j : Int) * (N - 1)) * tw (2 * N) (((i : Int) - j) * m) =
        (g j : ℂ) * X j * tw (2 * N) (-((j : Int) * ((m : Int) - N + 1))) * tw (2 * N) ((m : Int) * i) := by
      intro j _
      rw [mul_assoc, mul_assoc ((g j : ℂ) * X j), ← tw_add, ← tw_add]
      congr 2
      ring
    rw [sum_congr rfl h4, ← sum_mul]
    ring
  rw [sum_congr rfl e1, ← mul_sum, sum_comm]
  have e2 : ∀ j ∈ range (2 * N), ∑ m ∈ range (2 * N), (g j : ℂ) * X j * tw (2 * N) ((j : Int) * (N - 1)) * tw (2 * N) (((i : Int) - j) * m) =
      if j = i then (g i : ℂ) * X i * tw (2 * N) ((i : Int) * (N - 1)) * (2 * N : Nat) else 0 := by
    intro j hj
    rw [← mul_sum, sum_tw_diff hi (mem_range.mp hj)]
    split
    · rename_i h; rw [h]
    · simp
  rw [sum_congr rfl e2, sum_ite_eq' (range (2 * N)) i, if_pos (mem_range.mpr hi)]
  have h5 : Complex.exp (-Complex.I * Real.pi * ((i : ℂ) - d) * (N - 1) / N) = tw (2 * N) (-(((i : Int) - d) * (N - 1))) := by
    rw [← exp_tw hN]; congr 1; push_cast; ring
  rw [h5]
  have h6 : tw (2 * N) (-(((i : Int) - d) * (N - 1))) * tw (2 * N) (d * (1 - N)) * tw (2 * N) ((i : Int) * (N - 1)) = 1 := by
    rw [← tw_add, ← tw_add, ← tw_zero (2 * N)]; congr 1; ring
  calc _ = ((-Complex.I) ^ band * Complex.I ^ band) * (δ * δ * (2 * N)) *
        (tw (2 * N) (-(((i : Int) - d) * (N - 1))) * tw (2 * N) (d * (1 - N)) * tw (2 * N) ((i : Int) * (N - 1))) * ((g i : ℂ) ^ 2 * X i) := by
        push_cast; ring
    _ = _ := by rw [hI, hδ, h6]; ring

theorem normSq_tw (N : Nat) (m : Int) : Complex.normSq (tw N m) = 1 := by
  have h : ((Complex.normSq (tw N m) : ℝ) : ℂ) = 1 := by
    rw [← Complex.mul_conj, tw_conj, ← tw_add, add_neg_cancel, tw_zero]
  exact_mod_cast h

theorem parseval_shift {M : Nat} (V : Nat → ℂ) (s : Int) :
    ∑ m ∈ range M, Complex.normSq (∑ i ∈ range M, V i * tw M (-((i : Int) * ((m : Int) - s)))) = M * ∑ i ∈ range M, Complex.normSq (V i) := by
  have h : ((∑ m ∈ range M, Complex.normSq (∑ i ∈ range M, V i * tw M (-((i : Int) * ((m : Int) - s)))) : ℝ) : ℂ) =
      ((M * ∑ i ∈ range M, Complex.normSq (V i) : ℝ) : ℂ) := by
    push_cast
    simp only [← Complex.mul_conj, map_sum, map_mul, tw_conj, neg_neg, sum_mul_sum]
    rw [sum_comm, mul_sum]
    refine sum_congr rfl fun i hi => ?_
    rw [sum_comm]
    have e : ∀ j ∈ range M, ∑ m ∈ range M, V i * tw M (-((i : Int) * ((m : Int) - s))) * ((starRingEnd ℂ) (V j) * tw M ((j : Int) * ((m : Int) - s))) =
        if i = j then V i * (starRingEnd ℂ) (V i) * M else 0 := by
      intro j hj
      have e2 : ∀ m ∈ range M, V i * tw M (-((i : Int) * ((m : Int) - s))) * ((starRingEnd ℂ) (V j) * tw M ((j : Int) * ((m : Int) - s))) =
          V i * (starRingEnd ℂ) (V j) * tw M (((i : Int) - j) * s) * tw M (((j : Int) - i) * m) := by
        intro m _
        have : tw M (-((i : Int) * ((m : Int) - s))) * tw M ((j : Int) * ((m : Int) - s)) = tw M (((i : Int) - j) * s) * tw M (((j : Int) - i) * m) := by
          rw [← tw_add, ← tw_add]; congr 1; ring
        calc _ = V i * (starRingEnd ℂ) (V j) * (tw M (-((i : Int) * ((m : Int) - s))) * tw M ((j : Int) * ((m : Int) - s))) := by ring
          _ = _ := by rw [this]; ring
      rw [sum_congr rfl e2, ← mul_sum, sum_tw_diff (mem_range.mp hj) (mem_range.mp hi)]
      split
      · rename_i hij; subst hij; simp [tw_zero]
      · simp
    rw [sum_congr rfl e, sum_ite_eq (range M) i, if_pos hi]
    ring
  exact_mod_cast h

/-- The energy of the coefficients of a band. -/
theorem coeff_energy {N : Nat} (hN : 0 < N) (band : Nat) (d : Int) (g : Nat → ℝ) (X : Nat → ℂ) :
    ∑ m ∈ range (2 * N), Complex.normSq (antoniCoeff band N d g X m) = ∑ i ∈ range (2 * N), g i ^ 2 * Complex.normSq (X i) := by
  have e : ∀ m ∈ range (2 * N), Complex.normSq (antoniCoeff band N d g X m) =
      1 / (2 * N) * Complex.normSq (∑ i ∈ range (2 * N), (g i : ℂ) * X i * tw (2 * N) (-((i : Int) * ((m : Int) - (N - 1))))) := by
    intro m _
    unfold antoniCoeff
    simp only
    have h2 : Complex.exp (Complex.I * Real.pi * d * ((m : ℂ) - N + 1) / N) = tw (2 * N) (d * ((m : Int) - N + 1)) := by
      rw [← exp_tw hN]; congr 1; push_cast; ring
    rw [h2, antoniW_eq hN, map_mul, map_mul, map_mul, normSq_tw, map_pow, Complex.normSq_I, one_pow, Complex.normSq_ofReal,
      Real.mul_self_sqrt (by positivity)]
    rw [show ((m : Int) - N + 1) = (m : Int) - (N - 1) by ring]
    ring
  rw [sum_congr rfl e, ← mul_sum, parseval_shift]
  have : (N : ℝ) ≠ 0 := by exact_mod_cast hN.ne'
  push_cast
  rw [← mul_assoc, one_div, inv_mul_cancel₀ (by positivity), one_mul]
  refine sum_congr rfl fun i _ => ?_
  rw [map_mul, Complex.normSq_ofReal, sq]

/-! ## All bands -/

theorem low_nonneg {a : AntoniBins} (hs : Separated a) {b : Nat} (hb : b < a.n) : 0 ≤ a.low b := by
  unfold AntoniBins.low
  by_cases h : b = 0
  · rw [if_pos h]
  · rw [if_neg h]
    induction b with
    | zero => exact absurd rfl h
    | succ b ih =>
      by_cases h1 : b = 0
      · subst h1; exact hs.first (by omega)
      · have := ih (by omega) h1
        have h2 := hs.order b (by omega) hb
        have h3 := hs.P_nonneg b (by omega) (by omega)
        omega

theorem high_le (a : AntoniBins) (b : Nat) : a.high b ≤ a.low b + 2 * a.half b := by
  unfold AntoniBins.half
  have h1 := Int.le_ceil (((a.high b - a.low b : Int) : ℝ) / 2)
  have h2 := Int.self_le_toNat ⌈((a.high b - a.low b : Int) : ℝ) / 2⌉
  have h3 : ((a.high b - a.low b : Int) : ℝ) ≤ 2 * ⌈((a.high b - a.low b : Int) : ℝ) / 2⌉ := by linarith
  have h4 : a.high b - a.low b ≤ 2 * ⌈((a.high b - a.low b : Int) : ℝ) / 2⌉ := by exact_mod_cast h3
  omega

/-- **C68** The spectrum of the output of a band is that of the signal multiplied by the square of the magnitude, a real number: there is no change of phase. -/
theorem C68_band (a : AntoniBins) (slope nfft : Nat) (hs : Separated a) {b : Nat} (hb : b < a.n) (hN : 0 < a.half b) (x : Nat → ℝ) {k : Nat}
    (hk : k < a.nfreq) :
    antoniXfilt a slope (antoniAnalysisCoeff a slope nfft x) b k = (antoniG a slope b k : ℂ) ^ 2 * antoniSpectrum nfft x k := by
  unfold antoniXfilt
  have hl := low_nonneg hs hb
  have hh := high_le a b
  by_cases h : a.low b ≤ k ∧ (k : Int) < a.low b + 2 * a.half b
  · rw [if_pos h]
    unfold antoniAnalysisCoeff
    obtain ⟨i, hi⟩ := Int.eq_ofNat_of_zero_le (show 0 ≤ (k : Int) - a.low b by omega)
    rw [hi, Int.toNat_natCast, antoniFilt_coeff hN _ _ _ _ (show i < 2 * a.half b by omega)]
    have e : a.low b + i = k := by omega
    simp only [e, Int.toNat_natCast, if_pos hk]
  · rw [if_neg h]
    rw [C68_support a slope hs hb (show (k : Int) < a.low b ∨ a.high b ≤ k by omega)]
    simp

/-- **C68** The signals of the bands add up to the signal. -/
theorem C68_reconstruction (a : AntoniBins) (slope nfft : Nat) (hs : Separated a) (hN : ∀ b < a.n, 0 < a.half b) (hf : a.nfreq = nfft / 2 + 1)
    (x : Nat → ℝ) {t : Nat} (ht : t < nfft) :
    ∑ b ∈ range a.n, antoniAnalysis a slope nfft x b t = x t := by
  unfold antoniAnalysis antoniSynthesis
  rw [← sum_mul, ← irfft_sum]
  have h0 : (0 : ℝ) < Real.sqrt nfft := Real.sqrt_pos.mpr (by exact_mod_cast (by omega : 0 < nfft))
  have e : irfft nfft (fun k => ∑ b ∈ range a.n, antoniXfilt a slope (antoniAnalysisCoeff a slope nfft x) b k) t =
      irfft nfft (fun k => ((1 / Real.sqrt nfft : ℝ) : ℂ) * rfft nfft x k) t := by
    apply irfft_congr
    intro k hk
    have hk' : k < a.nfreq := by omega
    rw [sum_congr rfl fun b hb => C68_band a slope nfft hs (mem_range.mp hb) (hN b (mem_range.mp hb)) x hk', ← sum_mul]
    have hp := C68_power a slope hs (k := k) (by omega) (by omega)
    have : ∑ b ∈ range a.n, (antoniG a slope b k : ℂ) ^ 2 = ((∑ b ∈ range a.n, antoniG a slope b k ^ 2 : ℝ) : ℂ) := by push_cast; rfl
    rw [this, hp]
    unfold antoniSpectrum
    push_cast
    ring
  rw [e, irfft_smul, irfft_rfft x ht]
  field_simp

/-- A band of the signal `x`, given by its spectrum. -/
theorem antoniXfilt_smul (a : AntoniBins) (slope : Nat) (coeffs : Nat → Nat → ℂ) (c : ℝ) (b k : Nat) :
    antoniXfilt a slope (fun b m => coeffs b m * (c : ℂ)) b k = (c : ℂ) * antoniXfilt a slope coeffs b k := by
  unfold antoniXfilt
  split
  · unfold antoniFilt
    simp only
    rw [conj_dft_conj, conj_dft_conj]
    rw [show ∀ A S : ℂ, (c : ℂ) * (A * S) = A * (c * S) by intros; ring]
    congr 1
    rw [mul_sum]
    refine sum_congr rfl fun m _ => ?_
    ring
  · simp

/-- **C68** The filter designed for equal magnitudes in all bands is an impulse with this height in the middle. -/
theorem C68_design (a : AntoniBins) (slope nfft : Nat) (hs : Separated a) (hN : ∀ b < a.n, 0 < a.half b) (hf : a.nfreq = nfft / 2 + 1)
    (length : Nat) (c : ℝ) {t : Nat} (ht : t < nfft) :
    antoniDesign a slope nfft length (List.replicate a.n c) t = if t = length / 2 then c else 0 := by
  have h := C68_reconstruction a slope nfft hs hN hf (fun s => if s = length / 2 then 1 else 0) ht
  unfold antoniDesign
  have e : ∀ b ∈ range a.n, antoniSynthesis a slope nfft
      (fun b m => antoniAnalysisCoeff a slope nfft (fun s => if s = length / 2 then 1 else 0) b m * ((List.replicate a.n c).getD b 0 : ℂ)) b t =
      c * antoniAnalysis a slope nfft (fun s => if s = length / 2 then 1 else 0) b t := by
    intro b hb
    unfold antoniAnalysis antoniSynthesis
    rw [← mul_assoc, ← irfft_smul]
    congr 1
    apply irfft_congr
    intro k _
    rw [← antoniXfilt_smul]
    unfold antoniXfilt
    have : (List.replicate a.n c).getD b 0 = c := by
      rw [List.getD_eq_getElem _ _ (by simpa using hb), List.getElem_replicate]
    simp only [this]
  rw [sum_congr rfl e, ← mul_sum, h]
  split <;> simp

/-! ## Energy -/

theorem parseval {n : Nat} (x : Nat → ℝ) : ∑ k ∈ range n, Complex.normSq (rfft n x k) = n * ∑ t ∈ range n, x t ^ 2 := by
  have h := parseval_shift (M := n) (fun t => (x t : ℂ)) 0
  simp only [sub_zero, Complex.normSq_ofReal] at h
  unfold rfft dft
  rw [h]
  simp only [sq]

/-- Half of the spectrum of a real signal. -/
theorem half_spectrum {n : Nat} (hn : 0 < n) (he : n % 2 = 0) (x : Nat → ℝ) :
    2 * ∑ k ∈ range (n / 2 + 1), Complex.normSq (rfft n x k) =
      n * ∑ t ∈ range n, x t ^ 2 + Complex.normSq (rfft n x 0) + Complex.normSq (rfft n x (n / 2)) := by
  rw [← parseval]
  obtain ⟨h, rfl⟩ : ∃ h, n = 2 * h := ⟨n / 2, by omega⟩
  have hsym : ∀ k, k ≤ 2 * h → Complex.normSq (rfft (2 * h) x (2 * h - k)) = Complex.normSq (rfft (2 * h) x k) := by
    intro k hk
    rw [← Complex.normSq_conj]
    unfold rfft
    rw [dft_conj hn x hk]
  generalize hF : (fun k => Complex.normSq (rfft (2 * h) x k)) = F at hsym
  have hF' : ∀ k, Complex.normSq (rfft (2 * h) x k) = F k := fun k => congrFun hF k
  simp only [hF'] at hsym ⊢
  rw [show 2 * h / 2 = h by omega]
  have h1 : ∑ k ∈ range (2 * h), F k = ∑ k ∈ range (h + 1), F k + ∑ k ∈ Ico (h + 1) (2 * h), F k := (sum_range_add_sum_Ico F (by omega)).symm
  have h2 : ∑ k ∈ Ico (h + 1) (2 * h), F k = ∑ k ∈ Ico 1 h, F k := by
    have := sum_Ico_reflect F 1 (m := h) (n := 2 * h) (by omega)
    rw [show 2 * h + 1 - h = h + 1 by omega, show 2 * h + 1 - 1 = 2 * h by omega] at this
    rw [← this]
    exact sum_congr rfl fun k hk => hsym k (by have := mem_Ico.mp hk; omega)
  have h3 : ∑ k ∈ range (h + 1), F k = F 0 + ∑ k ∈ Ico 1 h, F k + F h := by
    rw [sum_range_succ, ← sum_range_add_sum_Ico F (show 1 ≤ h by omega)]
    simp
  rw [h1, h2, h3]; ring

/-- **C68** The energy of a band is twice that of the half spectrum, weighted. -/
theorem C68_band_energy (a : AntoniBins) (slope nfft : Nat) (hs : Separated a) {b : Nat} (hb : b < a.n) (hN : 0 < a.half b) (x : Nat → ℝ) :
    antoniEnergy a slope nfft x b = 2 * ∑ k ∈ range a.nfreq, antoniG a slope b k ^ 2 * Complex.normSq (antoniSpectrum nfft x k) := by
  unfold antoniEnergy antoniAnalysisCoeff
  rw [coeff_energy hN]
  congr 1
  obtain ⟨l, hl⟩ := Int.eq_ofNat_of_zero_le (low_nonneg hs hb)
  have hh := high_le a b
  have hsup := fun k h => C68_support a slope hs hb (k := k) h
  rw [hl] at hh hsup ⊢
  have e : ∀ i ∈ range (2 * a.half b), antoniG a slope b ((l : Int) + i) ^ 2 *
      Complex.normSq (if ((l : Int) + i).toNat < a.nfreq then antoniSpectrum nfft x ((l : Int) + i).toNat else 0) =
      (fun k : Nat => antoniG a slope b k ^ 2 * Complex.normSq (antoniSpectrum nfft x k)) (l + i) := by
    intro i _
    have : ((l : Int) + i).toNat = l + i := by omega
    simp only [this]
    have e2 : ((l + i : Nat) : Int) = (l : Int) + i := by push_cast; rfl
    rw [e2]
    split
    · rfl
    · rename_i h
      have : antoniG a slope b ((l : Int) + i) = 0 := by unfold antoniG; rw [if_neg (by omega)]
      rw [this]; simp
  have e3 := sum_Ico_eq_sum_range (fun k : Nat => antoniG a slope b k ^ 2 * Complex.normSq (antoniSpectrum nfft x k)) l (l + 2 * a.half b)
  rw [Nat.add_sub_cancel_left] at e3
  rw [sum_congr rfl e, ← e3]
  have h1 : ∀ k : Nat, k ∉ range a.nfreq → antoniG a slope b k ^ 2 * Complex.normSq (antoniSpectrum nfft x k) = 0 := by
    intro k hk
    have : antoniG a slope b k = 0 := by unfold antoniG; rw [if_neg (by have := mem_range.not.mp hk; omega)]
    rw [this]; simp
  have h2 : ∀ k : Nat, k ∉ Ico l (l + 2 * a.half b) → antoniG a slope b k ^ 2 * Complex.normSq (antoniSpectrum nfft x k) = 0 := by
    intro k hk
    rw [hsup k (by have := mem_Ico.not.mp hk; omega)]; simp
  rw [← sum_subset (inter_subset_left (s₁ := Ico l (l + 2 * a.half b)) (s₂ := range a.nfreq))
      (fun k hk hk' => h1 k fun h => hk' (mem_inter.mpr ⟨hk, h⟩)),
    ← sum_subset (inter_subset_right (s₁ := Ico l (l + 2 * a.half b)) (s₂ := range a.nfreq))
      (fun k hk hk' => h2 k fun h => hk' (mem_inter.mpr ⟨h, hk⟩))]

/-- **C68** The energies of the bands add up to the energy of the signal, but that of the constant part and of the highest frequency counts twice. -/
theorem C68_energy (a : AntoniBins) (slope nfft : Nat) (hs : Separated a) (hN : ∀ b < a.n, 0 < a.half b) (hf : a.nfreq = nfft / 2 + 1)
    (hn : 0 < nfft) (he : nfft % 2 = 0) (x : Nat → ℝ) :
    ∑ b ∈ range a.n, antoniEnergy a slope nfft x b =
      ∑ t ∈ range nfft, x t ^ 2 + ((∑ t ∈ range nfft, x t) ^ 2 + (∑ t ∈ range nfft, (-1) ^ t * x t) ^ 2) / nfft := by
  rw [sum_congr rfl fun b hb => C68_band_energy a slope nfft hs (mem_range.mp hb) (hN b (mem_range.mp hb)) x, ← mul_sum, sum_comm]
  have e : ∀ k ∈ range a.nfreq, ∑ b ∈ range a.n, antoniG a slope b k ^ 2 * Complex.normSq (antoniSpectrum nfft x k) =
      1 / nfft * Complex.normSq (rfft nfft x k) := by
    intro k hk
    have hk := mem_range.mp hk
    rw [← sum_mul, C68_power a slope hs (by omega) (by omega), one_mul]
    unfold antoniSpectrum
    rw [map_div₀, Complex.normSq_ofReal, Real.mul_self_sqrt (Nat.cast_nonneg _)]
    ring
  have h0 : rfft nfft x 0 = ((∑ t ∈ range nfft, x t : ℝ) : ℂ) := by
    unfold rfft dft
    push_cast
    exact sum_congr rfl fun t _ => by simp [tw_zero]
  have h1 : rfft nfft x (nfft / 2) = ((∑ t ∈ range nfft, (-1) ^ t * x t : ℝ) : ℂ) := by
    unfold rfft dft
    rw [Complex.ofReal_sum]
    refine sum_congr rfl fun t _ => ?_
    have : tw nfft (-((nfft / 2 : Nat) : Int)) = -1 := by
      unfold tw
      obtain ⟨h, rfl⟩ : ∃ h, nfft = 2 * h := ⟨nfft / 2, by omega⟩
      have hh : (h : ℂ) ≠ 0 := by exact_mod_cast (by omega : h ≠ 0)
      rw [show 2 * h / 2 = h by omega]
      rw [show (2 * Real.pi * Complex.I * ((-(h : Int) : Int) : ℂ) / ((2 * h : Nat) : ℂ)) = -(Real.pi * Complex.I) by push_cast; field_simp]
      rw [Complex.exp_neg, Complex.exp_pi_mul_I]; norm_num
    rw [show -((t : Int) * (nfft / 2 : Nat)) = -((nfft / 2 : Nat) : Int) * t by ring, tw_mul_nat, this, Complex.ofReal_mul, Complex.ofReal_pow]
    push_cast
    ring
  rw [sum_congr rfl e, ← mul_sum, hf]
  have h2 := half_spectrum hn he x
  rw [h0, h1, Complex.normSq_ofReal, Complex.normSq_ofReal] at h2
  have hn0 : (nfft : ℝ) ≠ 0 := by exact_mod_cast hn.ne'
  calc _ = 1 / nfft * (2 * ∑ k ∈ range (nfft / 2 + 1), Complex.normSq (rfft nfft x k)) := by ring
    _ = _ := by rw [h2]; field_simp; ring

end Verif.Bands
