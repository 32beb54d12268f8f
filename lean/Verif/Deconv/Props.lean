import Verif.Deconv.Model
import Verif.Sync.Lemmas
import Verif.Sync.Props
import Verif.IsmIr.Props
import Verif.GriffinLim.Props
import Mathlib.Tactic.FieldSimp
import Mathlib.Tactic.LinearCombination
import Mathlib.Algebra.Order.BigOperators.Group.Finset

/-!
# C103: deconvolution

Small specification: convolution of two signals, Fourier coefficients of the result.
-/

namespace Verif.Deconv

open Verif.Py Verif.DFT Finset

theorem padded_ge (n1 n2 : Nat) : n1 + n2 - 1 ≤ padded n1 n2 := by unfold padded; split <;> omega

theorem padded_even (n1 n2 : Nat) : padded n1 n2 % 2 = 0 := by unfold padded; split <;> omega

theorem padded_pos {n1 n2 : Nat} (h : 2 ≤ n1 + n2) : 2 ≤ padded n1 n2 := by
  have h1 := padded_ge n1 n2
  have h2 := padded_even n1 n2
  omega

theorem inverse_length (n : Nat) (H : Nat → ℂ) : (inverse n H).length = n := by simp [inverse]

theorem inverse_getD (n : Nat) (H : Nat → ℂ) {t : Nat} (h : t < n) : (inverse n H).getD t 0 = irfft n H t := by
  simp [inverse, List.getD_eq_getElem?_getD, h]

theorem cut_none (h : List ℝ) : cut none h = h := by
  unfold cut slice sliceStart sliceStop
  simp only [Option.getD_none, clampIdx_nat, List.drop_zero, Nat.sub_zero, Nat.min_self, List.take_length]

/-- The first samples. -/
theorem cut_nat (h : List ℝ) (m : Nat) : cut (some m) h = h.take m := by
  unfold cut slice sliceStart sliceStop
  simp only [Option.getD_some, clampIdx_nat, List.drop_zero, Nat.sub_zero]
  rcases Nat.le_total m h.length with hm | hm
  · rw [Nat.min_eq_left hm]
  · rw [Nat.min_eq_right hm, List.take_length, List.take_of_length_le hm]

/-- The convolution of two signals. -/
def IsConv (y h s : List ℝ) : Prop := y.length = h.length + s.length - 1 ∧ ∀ n, y.getD n 0 = ∑ p ∈ antidiagonal n, h.getD p.1 0 * s.getD p.2 0

theorem short (x : List ℝ) : IsmIr.Short x.length fun n => x.getD n 0 := fun _ hi => Sync.getD_zero x hi

theorem spectrum_conv {y h s : List ℝ} (hc : IsConv y h s) {N : Nat} (hN : h.length + s.length ≤ N + 1) (k : Nat) : Sync.spectrum N y k = Sync.spectrum N h k * Sync.spectrum N s k := by
  unfold Sync.spectrum
  rw [IsmIr.rfft_conv (short h) (short s) hN]
  congr 1
  funext n
  exact hc.2 n

/-- A real signal with given coefficients. -/
theorem rfft_irfft {N : Nat} (hN : 0 < N) (he : N % 2 = 0) {X : Nat → ℂ} (h0 : (X 0).im = 0) (h1 : (X (N / 2)).im = 0) {k : Nat} (hk : k ≤ N / 2) : rfft N (irfft N X) k = X k := by
  have hconj : ∀ k, k < N → (starRingEnd ℂ) (hermExt N X k) = hermExt N X ((N - k) % N) := by
    intro k hk
    rcases Nat.eq_zero_or_pos k with h | h
    · subst h
      rw [Nat.sub_zero, Nat.mod_self]
      unfold hermExt
      rw [if_pos (by omega)]
      exact Complex.conj_eq_iff_im.mpr h0
    · rw [Nat.mod_eq_of_lt (by omega)]
      unfold hermExt
      by_cases h2 : k ≤ N / 2
      · rw [if_pos h2]
        by_cases h3 : N - k ≤ N / 2
        · rw [if_pos h3, show N - k = N / 2 by omega, show k = N / 2 by omega]
          exact Complex.conj_eq_iff_im.mpr h1
        · rw [if_neg h3, show N - (N - k) = k by omega]
      · rw [if_neg h2, if_pos (by omega), Complex.conj_conj]
  have hreal : ∀ n, ((irfft N X n : ℝ) : ℂ) = idft N (hermExt N X) n := by
    intro n
    unfold irfft
    apply Complex.conj_eq_iff_re.mp
    unfold idft
    rw [map_div₀, map_sum, Complex.conj_natCast]
    congr 1
    rw [← Sync.neg_mod_bij N hN (fun k => hermExt N X k * tw N ((n : Int) * k))]
    apply sum_congr rfl
    intro k hk
    rw [mem_range] at hk
    rw [map_mul, hconj k hk, tw_conj]
    congr 1
    apply Sync.tw_congr hN
    have : ((N - k) % N : Nat) = if k = 0 then 0 else N - k := by
      split
      · next h => subst h; simp
      · exact Nat.mod_eq_of_lt (by omega)
    rw [this]
    split
    · next h => subst h; simp
    · rw [Nat.cast_sub hk.le]
      exact ⟨-n, by ring⟩
  unfold rfft
  rw [dft_congr (fun n _ => hreal n), GriffinLim.dft_idft _ (by omega)]
  unfold hermExt
  rw [if_pos hk]

theorem spectrum_real {N : Nat} (hN : 0 < N) (he : N % 2 = 0) (x : List ℝ) : (Sync.spectrum N x 0).im = 0 ∧ (Sync.spectrum N x (N / 2)).im = 0 := by
  unfold Sync.spectrum rfft
  constructor
  · unfold dft
    simp [tw_zero]
  · have := dft_conj hN (fun n => x.getD n 0) (show N / 2 ≤ N by omega)
    rw [show N - N / 2 = N / 2 by omega] at this
    exact Complex.conj_eq_iff_im.mp this

theorem sqrt_ne {n : Nat} (h : 2 ≤ n) : (Real.sqrt n : ℂ) ≠ 0 := by
  have : 0 < Real.sqrt n := Real.sqrt_pos.mpr (by exact_mod_cast (show 0 < n by omega))
  exact_mod_cast this.ne'

theorem spec_norm (n : Nat) (x : List ℝ) (k : Nat) : ‖spec n x k‖ = ‖Sync.spectrum n x k‖ / Real.sqrt n := by
  unfold spec
  rw [norm_div, Complex.norm_real, Real.norm_eq_abs, abs_of_nonneg (Real.sqrt_nonneg _)]

theorem thresh_iff {n : Nat} (h : 2 ≤ n) (x : List ℝ) (k : Nat) (t : ℝ) : t < ‖spec n x k‖ ↔ t * Real.sqrt n < ‖Sync.spectrum n x k‖ := by
  rw [spec_norm, lt_div_iff₀ (Real.sqrt_pos.mpr (by exact_mod_cast (show 0 < n by omega)))]

theorem ratio_eq {n : Nat} (h : 2 ≤ n) (y s : List ℝ) (t : ℝ) (k : Nat) : ratio (spec n y) (spec n s) t k =
    open Classical in if t * Real.sqrt n < ‖Sync.spectrum n s k‖ then Sync.spectrum n y k / Sync.spectrum n s k else 0 := by
  unfold ratio
  by_cases hk : t < ‖spec n s k‖
  · rw [if_pos hk, if_pos ((thresh_iff h s k t).mp hk)]
    unfold spec
    rw [div_div_div_cancel_right₀ (sqrt_ne h)]
  · rw [if_neg hk, if_neg (fun hh => hk ((thresh_iff h s k t).mpr hh))]

theorem deconvolve_ok {y s : List ℝ} (hl : 2 ≤ y.length + s.length) (length : Option Int) {t : ℝ} (ht : 0 ≤ t) :
    deconvolve y s length t = .ok (some (cut length (inverse (padded y.length s.length) (ratio (spec (padded y.length s.length) y) (spec (padded y.length s.length) s) t)))) := by
  unfold deconvolve
  rw [if_neg (by omega)]
  simp only
  rw [if_neg]
  rintro ⟨k, -, h1, h2⟩
  rw [h2, norm_zero] at h1
  linarith

/-- **C103, errors.** At most one sample in total raises `ValueError`; otherwise there is an answer, with numbers that are not finite exactly if the threshold is negative and a coefficient of the excitation is zero. -/
theorem C103_errors (y s : List ℝ) (length : Option Int) (t : ℝ) :
    (y.length + s.length ≤ 1 → deconvolve y s length t = .error .valueError) ∧
      (2 ≤ y.length + s.length → ∃ r, deconvolve y s length t = .ok r ∧
        (r = none ↔ t < 0 ∧ ∃ k, k ≤ padded y.length s.length / 2 ∧ Sync.spectrum (padded y.length s.length) s k = 0)) := by
  constructor
  · intro h
    unfold deconvolve
    rw [if_pos h]
  · intro h
    have h2 := padded_pos h
    have hz : ∀ k, spec (padded y.length s.length) s k = 0 ↔ Sync.spectrum (padded y.length s.length) s k = 0 := by
      intro k
      unfold spec
      rw [div_eq_zero_iff, or_iff_left (sqrt_ne h2)]
    unfold deconvolve
    rw [if_neg (by omega)]
    simp only
    split
    · next hh =>
      obtain ⟨k, hk, h3, h4⟩ := hh
      refine ⟨none, rfl, fun _ => ⟨?_, k, hk, (hz k).mp h4⟩, fun _ => rfl⟩
      rwa [h4, norm_zero] at h3
    · next hh =>
      refine ⟨_, rfl, ⟨fun h => absurd h (by simp), ?_⟩⟩
      rintro ⟨h3, k, hk, h4⟩
      exact absurd ⟨k, hk, by rw [(hz k).mpr h4, norm_zero]; exact h3, (hz k).mpr h4⟩ hh

/-- **C103, coefficients.** For all signals and thresholds from zero on: where the excitation is above the threshold, the coefficients of the result times those of the excitation are those of the recording;
elsewhere those of the result are zero. -/
theorem C103_bins {y s : List ℝ} (hl : 2 ≤ y.length + s.length) {t : ℝ} (ht : 0 ≤ t) {n : Nat} (hn : n = padded y.length s.length) :
    ∃ h, deconvolve y s none t = .ok (some h) ∧ h.length = n ∧ ∀ k, k ≤ n / 2 →
      (t * Real.sqrt n < ‖Sync.spectrum n s k‖ → Sync.spectrum n h k * Sync.spectrum n s k = Sync.spectrum n y k) ∧
      (¬t * Real.sqrt n < ‖Sync.spectrum n s k‖ → Sync.spectrum n h k = 0) := by
  have h2 := padded_pos hl
  have hev := padded_even y.length s.length
  rw [← hn] at h2 hev
  set H := ratio (spec n y) (spec n s) t with hH
  refine ⟨inverse n H, by rw [deconvolve_ok hl none ht, ← hn, cut_none], inverse_length _ _, ?_⟩
  have hR : ∀ k, (Sync.spectrum n y k).im = 0 → (Sync.spectrum n s k).im = 0 → (H k).im = 0 := by
    intro k h3 h4
    rw [hH, ratio_eq h2]
    split
    · rw [Complex.div_im, h3, h4]; simp
    · rfl
  have hb : ∀ k, k ≤ n / 2 → Sync.spectrum n (inverse n H) k = H k := by
    intro k hk
    unfold Sync.spectrum
    rw [rfft_congr (fun j hj => inverse_getD n H hj)]
    exact rfft_irfft (by omega) hev (hR 0 (spectrum_real (by omega) hev y).1 (spectrum_real (by omega) hev s).1)
      (hR _ (spectrum_real (by omega) hev y).2 (spectrum_real (by omega) hev s).2) hk
  intro k hk
  rw [hb k hk, hH, ratio_eq h2]
  constructor
  · intro h3
    rw [if_pos h3]
    refine div_mul_cancel₀ _ ?_
    intro h4
    rw [h4, norm_zero] at h3
    have := mul_nonneg ht (Real.sqrt_nonneg n)
    linarith
  · intro h3
    rw [if_neg h3]

/-- **C103, exact.** If the recording is the convolution of a response with the excitation and all coefficients of the excitation are above the threshold, the result is the response followed by zeros; with its
length given, exactly the response. -/
theorem C103_exact {y h s : List ℝ} (hc : IsConv y h s) (hh : 1 ≤ h.length) (hs : 1 ≤ s.length) {t : ℝ} (ht : 0 ≤ t) {n : Nat} (hn : n = padded y.length s.length)
    (hS : ∀ k, k ≤ n / 2 → t * Real.sqrt n < ‖Sync.spectrum n s k‖) (m : Nat) :
    deconvolve y s none t = .ok (some (h ++ List.replicate (n - h.length) 0)) ∧ deconvolve y s (some m) t = .ok (some ((h ++ List.replicate (n - h.length) 0).take m)) ∧
      deconvolve y s (some h.length) t = .ok (some h) := by
  have hl : 2 ≤ y.length + s.length := by have := hc.1; omega
  have h2 := padded_pos hl
  have hge := padded_ge y.length s.length
  rw [← hn] at h2 hge
  have hlen := hc.1
  have key : inverse n (ratio (spec n y) (spec n s) t) = h ++ List.replicate (n - h.length) 0 := by
    apply List.ext_getElem
    · rw [inverse_length, List.length_append, List.length_replicate]; omega
    · intro j hj1 hj2
      rw [inverse_length] at hj1
      rw [← List.getD_eq_getElem _ 0 (by rw [inverse_length]; exact hj1), ← List.getD_eq_getElem _ 0 hj2, inverse_getD _ _ hj1]
      rw [Sync.irfft_congr (Y := Sync.spectrum n h) (fun k hk => by
        rw [ratio_eq h2, if_pos (hS k hk), spectrum_conv hc (by omega), mul_div_cancel_right₀]
        intro h0
        have h3 := hS k hk
        rw [h0, norm_zero] at h3
        have := mul_nonneg ht (Real.sqrt_nonneg n)
        linarith)]
      unfold Sync.spectrum
      rw [irfft_rfft _ hj1]
      by_cases hjh : j < h.length
      · rw [List.getD_append _ _ _ _ hjh]
      · rw [Sync.getD_zero _ (by omega), List.getD_append_right _ _ _ _ (by omega), List.getD_replicate _ (by omega)]
  refine ⟨?_, ?_, ?_⟩
  · rw [deconvolve_ok hl none ht, ← hn, cut_none, key]
  · rw [deconvolve_ok hl _ ht, ← hn, cut_nat, key]
  · rw [deconvolve_ok hl _ ht, ← hn, cut_nat, key, List.take_left']
    rfl

theorem irfft_bound {n : Nat} (hn : 0 < n) {H : Nat → ℂ} {B : ℝ} (hB : ∀ k, k ≤ n / 2 → ‖H k‖ ≤ B) (j : Nat) : |irfft n H j| ≤ B := by
  unfold irfft
  refine (Complex.abs_re_le_norm _).trans ?_
  unfold idft
  rw [norm_div, Complex.norm_natCast, div_le_iff₀ (by exact_mod_cast hn)]
  refine (norm_sum_le _ _).trans ?_
  calc ∑ k ∈ range n, ‖hermExt n H k * tw n ((j : Int) * k)‖ ≤ ∑ k ∈ range n, B := by
        apply sum_le_sum
        intro k hk
        rw [mem_range] at hk
        rw [norm_mul, Sync.tw_norm, mul_one]
        unfold hermExt
        split
        · exact hB k (by assumption)
        · rw [RCLike.norm_conj]; exact hB _ (by omega)
    _ = B * n := by rw [sum_const, card_range, nsmul_eq_mul, mul_comm]

theorem spectrum_bound (n : Nat) (e : List ℝ) (k : Nat) : ‖Sync.spectrum n e k‖ ≤ ∑ j ∈ range n, |e.getD j 0| := by
  unfold Sync.spectrum rfft dft
  refine (norm_sum_le _ _).trans (le_of_eq (sum_congr rfl fun j _ => ?_))
  rw [norm_mul, Sync.tw_norm, mul_one, Complex.norm_real, Real.norm_eq_abs]

/-- **C103, noise.** Recording of a response with noise: each sample of the result differs from the response by at most the sum of the absolute noise divided by the threshold and the square root of the length. -/
theorem C103_noise {y h s e : List ℝ} (hc : IsConv y h s) (hh : 1 ≤ h.length) (hs : 1 ≤ s.length) (he : e.length = y.length) {t : ℝ} (ht : 0 < t) {n : Nat}
    (hn : n = padded y.length s.length) (hS : ∀ k, k ≤ n / 2 → t * Real.sqrt n < ‖Sync.spectrum n s k‖) :
    ∃ r, deconvolve (List.zipWith (· + ·) y e) s none t = .ok (some r) ∧ r.length = n ∧ ∀ j, j < n → |r.getD j 0 - h.getD j 0| ≤ (∑ i ∈ range n, |e.getD i 0|) / (t * Real.sqrt n) := by
  have hl : 2 ≤ y.length + s.length := by have := hc.1; omega
  have hzl : (List.zipWith (· + ·) y e).length = y.length := by rw [List.length_zipWith, he, Nat.min_self]
  have h2 := padded_pos hl
  have hge := padded_ge y.length s.length
  rw [← hn] at h2 hge
  have hlen := hc.1
  refine ⟨_, by rw [deconvolve_ok (by rw [hzl]; exact hl) none ht.le, hzl, ← hn, cut_none], inverse_length _ _, ?_⟩
  have hadd : ∀ k, Sync.spectrum n (List.zipWith (· + ·) y e) k = Sync.spectrum n y k + Sync.spectrum n e k := by
    intro k
    unfold Sync.spectrum rfft dft
    rw [← sum_add_distrib]
    apply sum_congr rfl
    intro j _
    have : (List.zipWith (· + ·) y e).getD j 0 = y.getD j 0 + e.getD j 0 := by
      by_cases hj : j < y.length
      · rw [List.getD_eq_getElem _ _ (by omega), List.getElem_zipWith, List.getD_eq_getElem _ _ hj, List.getD_eq_getElem _ _ (by omega)]
      · rw [Sync.getD_zero _ (by omega), Sync.getD_zero _ (by omega), Sync.getD_zero _ (by omega), add_zero]
    beta_reduce
    rw [this]
    push_cast
    ring
  intro j hj
  rw [inverse_getD _ _ hj]
  have hhj : h.getD j 0 = irfft n (Sync.spectrum n h) j := by
    unfold Sync.spectrum
    rw [irfft_rfft _ hj]
  have hsub : irfft n (ratio (spec n (List.zipWith (· + ·) y e)) (spec n s) t) j - irfft n (Sync.spectrum n h) j = irfft n (fun k => Sync.spectrum n e k / Sync.spectrum n s k) j := by
    have hz : ∀ k, k ≤ n / 2 → ratio (spec n (List.zipWith (· + ·) y e)) (spec n s) t k - Sync.spectrum n h k = Sync.spectrum n e k / Sync.spectrum n s k := by
      intro k hk
      have h0 : Sync.spectrum n s k ≠ 0 := by
        intro h0
        have h3 := hS k hk
        rw [h0, norm_zero] at h3
        have := mul_nonneg ht.le (Real.sqrt_nonneg n)
        linarith
      rw [ratio_eq h2, if_pos (hS k hk), hadd, spectrum_conv hc (by omega)]
      field_simp
      ring
    unfold irfft
    rw [← Complex.sub_re]
    congr 1
    unfold idft
    rw [← sub_div, ← sum_sub_distrib]
    congr 1
    apply sum_congr rfl
    intro k hk
    rw [mem_range] at hk
    rw [← sub_mul]
    congr 1
    unfold hermExt
    split
    · exact hz k (by assumption)
    · rw [← map_sub, hz _ (by omega)]
  rw [hhj, hsub]
  apply irfft_bound (by omega)
  intro k hk
  rw [norm_div]
  have hp : 0 < t * Real.sqrt n := mul_pos ht (Real.sqrt_pos.mpr (by exact_mod_cast (show 0 < n by omega)))
  exact div_le_div₀ (sum_nonneg fun _ _ => abs_nonneg _) (spectrum_bound n e k) hp (hS k hk).le

/-- An excitation of one sample. -/
example : deconvolve [2, 4, 6] [2] (some 3) 0.1 = .ok (some [1, 2, 3]) := by
  have hsp : ∀ N, 1 ≤ N → ∀ k, Sync.spectrum N [2] k = 2 := by
    intro N hN k
    unfold Sync.spectrum rfft dft
    rw [Finset.sum_eq_single 0]
    · simp [tw_zero]
    · intro m _ hm
      simp only [Sync.getD_zero [2] (show [(2 : ℝ)].length ≤ m by simp; omega)]
      simp
    · intro h
      exact absurd (mem_range.mpr (by omega)) h
  refine (C103_exact (h := [1, 2, 3]) ⟨by simp, ?_⟩ (by simp) (by simp) (by norm_num) rfl ?_ 3).2.2
  · intro n
    rcases n with _ | _ | _ | n
    · simp
    · norm_num [antidiagonal, Multiset.Nat.antidiagonal, List.Nat.antidiagonal, List.range_succ]
    · norm_num [antidiagonal, Multiset.Nat.antidiagonal, List.Nat.antidiagonal, List.range_succ]
    · rw [Sync.getD_zero _ (by simp)]
      symm
      apply sum_eq_zero
      intro p hp
      rw [mem_antidiagonal] at hp
      by_cases h : p.2 = 0
      · rw [Sync.getD_zero [1, 2, 3] (by simp; omega), zero_mul]
      · rw [Sync.getD_zero [2] (by simp; omega), mul_zero]
  · intro k _
    rw [hsp _ (by unfold padded; simp)]
    have : Real.sqrt ((padded [(2 : ℝ), 4, 6].length [(2 : ℝ)].length : Nat) : ℝ) ≤ 10 := by
      rw [Real.sqrt_le_left (by norm_num)]
      unfold padded; norm_num
    simp only [Complex.norm_ofNat]
    linarith

end Verif.Deconv
