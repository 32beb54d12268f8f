import Verif.MinPhase.Model
import Verif.Sync.Lemmas
import Verif.BeamProc.Props

namespace Verif.MinPhase

open Verif.Py Verif.DFT Finset

/-! ## Specification -/

/-- The transform of a real sequence. -/
noncomputable def spectrum (N : Nat) (y : List ℝ) (k : Nat) : ℂ :=
  ∑ n ∈ range N, ((y.getD n 0 : ℝ) : ℂ) * Complex.exp (-(2 * Real.pi * Complex.I * (n : ℂ) * (k : ℂ) / (N : ℂ)))

/-- The magnitude asked for at bin `k` of `N`: even, zero above the frequencies given, at least `eps`. -/
noncomputable def target (N : Nat) (mag : List ℝ) (eps : ℝ) (k : Nat) : ℝ := max (mag.getD (if k ≤ N / 2 then k else N - k) 0) eps

/-- A cepstrum without negative times. -/
def Causal (N : Nat) (c : List ℝ) : Prop := ∀ n, N / 2 < n → n < N → c.getD n 0 = 0

/-- Minimum phase on the grid: the logarithm of the spectrum is that of a real sequence without negative times. -/
def MinimumPhase (N : Nat) (y : List ℝ) : Prop := ∃ c : List ℝ, Causal N c ∧ ∀ k, k < N → spectrum N y k = Complex.exp (spectrum N c k)

/-! ## Lemmas -/

theorem spectrum_dft (N : Nat) (y : List ℝ) (k : Nat) : spectrum N y k = dft N (fun n => ((y.getD n 0 : ℝ) : ℂ)) k := by
  unfold spectrum dft tw
  refine sum_congr rfl fun n _ => ?_
  congr 2
  push_cast
  ring

/-- Sequences that are even. -/
def Even (M : Nat) (x : Nat → ℝ) : Prop := ∀ k, k < M → x ((M - k) % M) = x k

theorem neg_mod {M n : Nat} (hn : n < M) : (((M - n) % M : Nat) : Int) = if n = 0 then 0 else (M : Int) - n := by
  split
  · next h => subst h; simp
  · rw [Nat.mod_eq_of_lt (by omega), Nat.cast_sub hn.le]

theorem tw_neg_mod {M n : Nat} (hM : 0 < M) (hn : n < M) (k : Int) : tw M ((((M - n) % M : Nat) : Int) * k) = tw M (-((n : Int) * k)) := by
  apply Sync.tw_congr hM
  rw [neg_mod hn]
  split
  · next h => subst h; simp
  · exact ⟨k, by ring⟩

theorem dft_even {M : Nat} {x : Nat → ℝ} (hM : 0 < M) (hx : Even M x) (n : Nat) :
    dft M (fun j => (x j : ℂ)) n = ((dft M (fun j => (x j : ℂ)) n).re : ℂ) := by
  symm
  apply Complex.conj_eq_iff_re.mp
  unfold dft
  rw [map_sum, ← Sync.neg_mod_bij M hM (fun j => (x j : ℂ) * tw M (-((j : Int) * n)))]
  refine sum_congr rfl fun j hj => ?_
  have hj := mem_range.mp hj
  rw [map_mul, Complex.conj_ofReal, tw_conj, hx j hj, neg_mul_eq_mul_neg (((M - j) % M : Nat) : Int), tw_neg_mod hM hj, neg_mul_eq_mul_neg]

/-- The real cepstrum. -/
noncomputable def ceps (M : Nat) (x : Nat → ℝ) (n : Nat) : ℝ := (dft M (fun j => (x j : ℂ)) n).re / M

theorem dft_ceps {M : Nat} {x : Nat → ℝ} (hM : 0 < M) (hx : Even M x) (n : Nat) : dft M (fun j => (x j : ℂ)) n = (M : ℂ) * (ceps M x n : ℂ) := by
  have : (M : ℂ) ≠ 0 := by exact_mod_cast hM.ne'
  rw [dft_even hM hx]
  unfold ceps
  push_cast
  field_simp

theorem even_ceps {M : Nat} {x : Nat → ℝ} (hM : 0 < M) : Even M (ceps M x) := by
  intro k hk
  unfold ceps
  congr 1
  rcases Nat.eq_zero_or_pos k with h | h
  · subst h; simp
  · rw [Nat.mod_eq_of_lt (by omega), ← dft_conj hM x hk.le, Complex.conj_re]

theorem ceps_sum {M : Nat} {x : Nat → ℝ} (hM : 0 < M) (hx : Even M x) {k : Nat} (hk : k < M) :
    (x k : ℂ) = ∑ n ∈ range M, (ceps M x n : ℂ) * tw M ((k : Int) * n) := by
  have hM0 : (M : ℂ) ≠ 0 := by exact_mod_cast hM.ne'
  rw [← idft_dft (fun j => (x j : ℂ)) hk]
  unfold idft
  rw [sum_div]
  refine sum_congr rfl fun n _ => ?_
  rw [dft_ceps hM hx]
  field_simp

theorem hilbert_sum {M : Nat} {x : Nat → ℝ} (hM : 0 < M) (hx : Even M x) (k : Nat) :
    hilbert M x k = ∑ n ∈ range M, ((gain M n * ceps M x n : ℝ) : ℂ) * tw M ((k : Int) * n) := by
  have hM0 : (M : ℂ) ≠ 0 := by exact_mod_cast hM.ne'
  unfold hilbert idft
  rw [sum_div]
  refine sum_congr rfl fun n _ => ?_
  beta_reduce
  rw [dft_ceps hM hx]
  push_cast
  field_simp

theorem gain_add {M n : Nat} (hn : n < M) : gain M n + gain M ((M - n) % M) = 2 := by
  unfold gain
  rcases Nat.eq_zero_or_pos n with h | h
  · subst h
    rw [Nat.sub_zero, Nat.mod_self, if_pos (Or.inl rfl)]
    norm_num
  · rw [Nat.mod_eq_of_lt (by omega)]
    by_cases h2 : 2 * n = M
    · rw [if_pos (Or.inr h2), if_pos (by omega)]
      norm_num
    · rw [if_neg (show ¬(n = 0 ∨ 2 * n = M) by omega), if_neg (show ¬(M - n = 0 ∨ 2 * (M - n) = M) by omega)]
      by_cases h3 : 2 * n < M
      · rw [if_pos h3, if_neg (by omega)]
        norm_num
      · rw [if_neg h3, if_pos (by omega)]
        norm_num

theorem dft_gain {M : Nat} {x : Nat → ℝ} (hM : 0 < M) (hx : Even M x) (k : Nat) :
    dft M (fun n => ((gain M n * ceps M x n : ℝ) : ℂ)) k = (starRingEnd ℂ) (hilbert M x k) := by
  rw [hilbert_sum hM hx, map_sum]
  unfold dft
  refine sum_congr rfl fun n _ => ?_
  rw [map_mul, Complex.conj_ofReal, tw_conj]
  congr 3
  ring

/-- The real part of the analytic signal is the signal. -/
theorem hilbert_re {M : Nat} {x : Nat → ℝ} (hM : 0 < M) (hx : Even M x) {k : Nat} (hk : k < M) : (hilbert M x k).re = x k := by
  have h : hilbert M x k + (starRingEnd ℂ) (hilbert M x k) = 2 * (x k : ℂ) := by
    rw [← dft_gain hM hx, hilbert_sum hM hx]
    unfold dft
    rw [← Sync.neg_mod_bij M hM (fun n => ((gain M n * ceps M x n : ℝ) : ℂ) * tw M (-((n : Int) * k))), ← sum_add_distrib, ceps_sum hM hx hk, mul_sum]
    refine sum_congr rfl fun n hn => ?_
    have hn := mem_range.mp hn
    have h1 : tw M (-((((M - n) % M : Nat) : Int) * k)) = tw M ((k : Int) * n) := by
      rw [neg_mul_eq_mul_neg, tw_neg_mod hM hn]
      congr 1
      ring
    rw [h1, even_ceps hM n hn, ← add_mul, ← Complex.ofReal_add, ← add_mul, gain_add hn]
    push_cast
    ring
  rw [Complex.add_conj] at h
  have h2 := congrArg Complex.re h
  simp at h2
  linarith

theorem extend_length (mag : List ℝ) (pad : Nat) (hm : mag ≠ []) : (extend mag pad).length = 2 * mag.length - 1 + pad := by
  have := List.length_pos_of_ne_nil hm
  simp [extend]
  omega

theorem extend_getD (mag : List ℝ) (pad : Nat) (hm : mag ≠ []) {M k : Nat} (hM : M = 2 * mag.length - 1 + pad) (hk : k < M) :
    (extend mag pad).getD k 0 = mag.getD (if k ≤ M / 2 then k else M - k) 0 := by
  have hl := List.length_pos_of_ne_nil hm
  unfold extend
  by_cases h1 : k < mag.length + pad
  · rw [List.getD_append _ _ _ _ (by simpa using h1)]
    by_cases h2 : k < mag.length
    · rw [List.getD_append _ _ _ _ h2, if_pos (by omega)]
    · rw [List.getD_append_right _ _ _ _ (by omega)]
      have h0 : (List.replicate pad (0 : ℝ)).getD (k - mag.length) 0 = 0 := by simp
      rw [h0]
      split
      · rw [List.getD_eq_default _ _ (by omega)]
      · rw [List.getD_eq_default _ _ (by omega)]
  · rw [List.getD_append_right _ _ _ _ (by simpa using h1), if_neg (by omega)]
    have h3 : k - (mag ++ List.replicate pad (0 : ℝ)).length < mag.tail.reverse.length := by simp; omega
    rw [List.getD_eq_getElem _ _ h3, List.getElem_reverse, List.getElem_tail, List.getD_eq_getElem _ _ (by omega)]
    congr 1
    simp
    omega

/-- The response extended. -/
noncomputable def full (mag : List ℝ) (N : Nat) (eps : ℝ) : List ℝ := (extend mag (padding mag.length N).toNat).map fun (v : ℝ) => max v eps

/-- The number of bins of the extended response. -/
def bins (N : Nat) : Nat := if N % 2 = 0 then N + 1 else N

theorem full_length (mag : List ℝ) (N : Nat) (eps : ℝ) (hm : mag ≠ []) (hp : 0 ≤ padding mag.length N) : (full mag N eps).length = bins N := by
  have hl := List.length_pos_of_ne_nil hm
  unfold full
  rw [List.length_map, extend_length _ _ hm]
  unfold padding bins at *
  split at hp <;> simp_all <;> omega

theorem full_getD (mag : List ℝ) (N : Nat) (eps : ℝ) (hm : mag ≠ []) (hp : 0 ≤ padding mag.length N) {k : Nat} (hk : k < bins N) :
    (full mag N eps).getD k 0 = target (bins N) mag eps k := by
  have h := full_length mag N eps hm hp
  have h' := h
  unfold full at h'
  rw [List.length_map, extend_length _ _ hm] at h'
  unfold target
  rw [← extend_getD mag _ hm h'.symm hk, List.getD_eq_getElem _ _ (by omega)]
  unfold full
  rw [List.getElem_map, List.getD_eq_getElem]

theorem target_even (M : Nat) (mag : List ℝ) (eps : ℝ) {k : Nat} (hk : k < M) : target M mag eps ((M - k) % M) = target M mag eps k := by
  unfold target
  congr 2
  rcases Nat.eq_zero_or_pos k with h | h
  · subst h; simp
  · rw [Nat.mod_eq_of_lt (by omega)]
    by_cases h1 : k ≤ M / 2
    · rw [if_pos h1]
      split <;> omega
    · rw [if_neg h1, if_pos (by omega)]

theorem target_pos (M : Nat) (mag : List ℝ) {eps : ℝ} (he : 0 < eps) (k : Nat) : 0 < target M mag eps k := lt_max_of_lt_right he

/-- The causal cepstrum of the extended response. -/
noncomputable def cepstrum (mag : List ℝ) (N : Nat) (eps : ℝ) : List ℝ :=
  (List.range (bins N)).map fun n => gain (bins N) n * ceps (bins N) (fun k => Real.log ((full mag N eps).getD k 0)) n

theorem full_even (mag : List ℝ) (N : Nat) (eps : ℝ) (hm : mag ≠ []) (hp : 0 ≤ padding mag.length N) :
    Even (bins N) (fun k => Real.log ((full mag N eps).getD k 0)) := by
  intro k hk
  beta_reduce
  rw [full_getD mag N eps hm hp hk, full_getD mag N eps hm hp (Nat.mod_lt _ (by omega)), target_even _ _ _ hk]

theorem cepstrum_causal (mag : List ℝ) (N : Nat) (eps : ℝ) : Causal (bins N) (cepstrum mag N eps) := by
  intro n h1 h2
  unfold cepstrum
  rw [List.getD_eq_getElem _ _ (by simpa using h2), List.getElem_map, List.getElem_range]
  unfold gain
  have h3 : bins N % 2 = 1 := by unfold bins; split <;> omega
  rw [if_neg (by omega), if_neg (by omega), zero_mul]

theorem cepstrum_spectrum (mag : List ℝ) {N : Nat} {eps : ℝ} (he : 0 < eps) (hm : mag ≠ []) (hp : 0 ≤ padding mag.length N) {k : Nat} (hk : k < bins N) :
    Complex.exp (spectrum (bins N) (cepstrum mag N eps) k) = ((full mag N eps).getD k 0 : ℂ) * Complex.exp (Complex.I * (phase (full mag N eps) k : ℂ)) := by
  have hb : 0 < bins N := by omega
  have hx := full_even mag N eps hm hp
  have h1 : spectrum (bins N) (cepstrum mag N eps) k = (starRingEnd ℂ) (hilbert (bins N) (fun k => Real.log ((full mag N eps).getD k 0)) k) := by
    rw [← dft_gain hb hx, spectrum_dft]
    apply dft_congr
    intro n hn
    unfold cepstrum
    rw [List.getD_eq_getElem _ _ (by simpa using hn), List.getElem_map, List.getElem_range]
  have h2 : (starRingEnd ℂ) (hilbert (bins N) (fun k => Real.log ((full mag N eps).getD k 0)) k)
      = (Real.log ((full mag N eps).getD k 0) : ℂ) + Complex.I * (phase (full mag N eps) k : ℂ) := by
    unfold phase
    rw [full_length mag N eps hm hp]
    apply Complex.ext
    · rw [Complex.conj_re, hilbert_re hb hx hk]
      simp
    · simp
  have hpos : 0 < (full mag N eps).getD k 0 := by rw [full_getD mag N eps hm hp hk]; exact target_pos _ _ he _
  rw [h1, h2, Complex.exp_add, ← Complex.ofReal_exp, Real.exp_log hpos]

theorem norm_exp_cepstrum (mag : List ℝ) {N : Nat} {eps : ℝ} (he : 0 < eps) (hm : mag ≠ []) (hp : 0 ≤ padding mag.length N) {k : Nat} (hk : k < bins N) :
    ‖Complex.exp (spectrum (bins N) (cepstrum mag N eps) k)‖ = target (bins N) mag eps k := by
  rw [cepstrum_spectrum mag he hm hp hk, norm_mul, mul_comm Complex.I, Complex.norm_exp_ofReal_mul_I, mul_one, full_getD mag N eps hm hp hk,
    Complex.norm_real, Real.norm_of_nonneg (target_pos _ _ he _).le]

theorem bins_half (N : Nat) : N / 2 < bins N := by
  unfold bins
  split <;> omega

theorem spectrum_conj {N : Nat} (hN : 0 < N) (y : List ℝ) {k : Nat} (hk : k ≤ N) : (starRingEnd ℂ) (spectrum N y (N - k)) = spectrum N y k := by
  rw [spectrum_dft, spectrum_dft]
  exact dft_conj hN (fun n => y.getD n 0) hk

theorem spectrum_zero_im (N : Nat) (y : List ℝ) : (spectrum N y 0).im = 0 := by
  rw [spectrum_dft]
  unfold dft
  simp [tw_zero]

/-- The spectrum of the filter returned. -/
theorem minPhase_spectrum (mag : List ℝ) {N : Nat} (hN : 0 < N) {eps : ℝ} (he : 0 < eps) (hm : mag ≠ []) (hp : 0 ≤ padding mag.length N) :
    ∃ y, minPhase mag N eps = .ok y ∧ y.length = N ∧ ∀ k, k < N → spectrum N y k =
      hermExt N (BeamProc.realEnds N fun k => Complex.exp (spectrum (bins N) (cepstrum mag N eps) k)) k := by
  unfold minPhase
  rw [if_neg (by omega), if_neg (by omega)]
  refine ⟨_, rfl, by simp, ?_⟩
  intro k hk
  rw [spectrum_dft]
  change dft N (fun n => ((((List.range N).map fun (n : Nat) => irfft N (fun (k : Nat) => ((full mag N eps).getD k 0 : ℂ) * Complex.exp (Complex.I * (phase (full mag N eps) k : ℂ))) n).getD n 0 : ℝ) : ℂ)) k = _
  rw [dft_congr (y := fun n => ((irfft N (fun (k : Nat) => ((full mag N eps).getD k 0 : ℂ) * Complex.exp (Complex.I * (phase (full mag N eps) k : ℂ))) n : ℝ) : ℂ))
    (fun n hn => by rw [List.getD_eq_getElem _ _ (by simpa using hn), List.getElem_map, List.getElem_range]), BeamProc.dft_irfft _ hk]
  unfold hermExt BeamProc.realEnds
  have hb := bins_half N
  beta_reduce
  by_cases h1 : k ≤ N / 2
  · rw [if_pos h1, if_pos h1, cepstrum_spectrum mag he hm hp (by omega)]
  · rw [if_neg h1, if_neg h1, cepstrum_spectrum mag he hm hp (by omega)]

/-! ## Theorems -/

/-- It raises exactly if the response does not fit into the spectrum. -/
theorem C110_raises (mag : List ℝ) {N : Nat} (hN : 0 < N) (eps : ℝ) (hm : mag ≠ []) :
    (minPhase mag N eps = .error .valueError ↔ N / 2 + 1 < mag.length) ∧ (mag.length ≤ N / 2 + 1 → ∃ y, minPhase mag N eps = .ok y ∧ y.length = N) := by
  have hl := List.length_pos_of_ne_nil hm
  have hp : padding mag.length N < 0 ↔ N / 2 + 1 < mag.length := by
    unfold padding
    split <;> omega
  unfold minPhase
  constructor
  · rw [← hp]
    by_cases h : padding mag.length N < 0
    · simp [h]
    · rw [if_neg h, if_neg (by omega)]
      simp [h]
  · intro h
    rw [if_neg (by omega), if_neg (by omega)]
    exact ⟨_, rfl, by simp⟩

theorem padding_nonneg (mag : List ℝ) {N : Nat} (h : mag.length ≤ N / 2 + 1) : 0 ≤ padding mag.length N := by
  unfold padding
  split <;> omega

/-- For an odd length the filter has the magnitudes asked for and is minimum phase. -/
theorem C110_odd (mag : List ℝ) {N : Nat} (ho : N % 2 = 1) {eps : ℝ} (he : 0 < eps) (hm : mag ≠ []) (hl : mag.length ≤ N / 2 + 1) :
    ∃ y, minPhase mag N eps = .ok y ∧ y.length = N ∧ (∀ k, k < N → ‖spectrum N y k‖ = target N mag eps k) ∧ MinimumPhase N y := by
  have hN : 0 < N := by omega
  have hp := padding_nonneg mag hl
  have hb : bins N = N := by unfold bins; rw [if_neg (by omega)]
  obtain ⟨y, h1, h2, h3⟩ := minPhase_spectrum mag hN he hm hp
  have h4 : ∀ k, k < N → spectrum N y k = Complex.exp (spectrum N (cepstrum mag N eps) k) := by
    intro k hk
    rw [h3 k hk, hb]
    unfold hermExt BeamProc.realEnds
    beta_reduce
    by_cases h5 : k ≤ N / 2
    · rw [if_pos h5]
      by_cases h6 : k = 0
      · rw [if_pos (Or.inl h6), h6]
        have h0 : spectrum N (cepstrum mag N eps) 0 = ((spectrum N (cepstrum mag N eps) 0).re : ℂ) := by
          apply Complex.ext
          · simp
          · simp [spectrum_zero_im]
        rw [h0, Complex.exp_ofReal_re, Complex.ofReal_exp]
      · rw [if_neg (by omega)]
    · rw [if_neg h5, if_neg (by omega), ← Complex.exp_conj, spectrum_conj hN _ hk.le]
  refine ⟨y, h1, h2, ?_, cepstrum mag N eps, ?_, h4⟩
  · intro k hk
    have := norm_exp_cepstrum mag he hm hp (k := k) (by omega)
    rw [hb] at this
    rw [h4 k hk, this]
  · have := cepstrum_causal mag N eps
    rwa [hb] at this

/-- The cepstrum of a minimum phase sequence is known from the magnitudes. -/
theorem cepstrum_unique {N : Nat} (ho : N % 2 = 1) {c d : List ℝ} (hc : Causal N c) (hd : Causal N d) (h : ∀ k, k < N → (spectrum N c k).re = (spectrum N d k).re) :
    ∀ n, n < N → c.getD n 0 = d.getD n 0 := by
  have hN : 0 < N := by omega
  have hre : ∀ (y : List ℝ) k, k < N → ((2 * (spectrum N y k).re : ℝ) : ℂ) = dft N (fun n => ((y.getD n 0 + y.getD ((N - n) % N) 0 : ℝ) : ℂ)) k := by
    intro y k _
    rw [← Complex.add_conj, spectrum_dft]
    unfold dft
    rw [map_sum, ← Sync.neg_mod_bij N hN (fun n => (starRingEnd ℂ) (((y.getD n 0 : ℝ) : ℂ) * tw N (-((n : Int) * k)))), ← sum_add_distrib]
    refine sum_congr rfl fun n hn => ?_
    have hn := mem_range.mp hn
    rw [map_mul, Complex.conj_ofReal, tw_conj, neg_neg, tw_neg_mod hN hn, ← add_mul]
    congr 1
    exact (Complex.ofReal_add _ _).symm
  have heq : ∀ n, n < N → c.getD n 0 + c.getD ((N - n) % N) 0 = d.getD n 0 + d.getD ((N - n) % N) 0 := by
    intro n hn
    have h1 := idft_dft (fun n => ((c.getD n 0 + c.getD ((N - n) % N) 0 : ℝ) : ℂ)) hn
    have h2 := idft_dft (fun n => ((d.getD n 0 + d.getD ((N - n) % N) 0 : ℝ) : ℂ)) hn
    rw [idft_congr (fun k hk => by rw [← hre c k hk, h k hk, hre d k hk]) n, h2] at h1
    exact_mod_cast h1.symm
  intro n hn
  by_cases h1 : N / 2 < n
  · rw [hc n h1 hn, hd n h1 hn]
  · have h2 := heq n hn
    rcases Nat.eq_zero_or_pos n with h3 | h3
    · subst h3
      rw [Nat.sub_zero, Nat.mod_self] at h2
      linarith
    · rw [Nat.mod_eq_of_lt (by omega), hc (N - n) (by omega) (by omega), hd (N - n) (by omega) (by omega)] at h2
      linarith

/-- For an odd length it is the only sequence with these magnitudes that is minimum phase. -/
theorem C110_unique (mag : List ℝ) {N : Nat} (ho : N % 2 = 1) {eps : ℝ} (he : 0 < eps) (hm : mag ≠ []) (hl : mag.length ≤ N / 2 + 1)
    (z : List ℝ) (hz : z.length = N) (hmag : ∀ k, k < N → ‖spectrum N z k‖ = target N mag eps k) (hmin : MinimumPhase N z) : minPhase mag N eps = .ok z := by
  obtain ⟨y, h1, h2, h3, c, hc, hcy⟩ := C110_odd mag ho he hm hl
  obtain ⟨d, hd, hdz⟩ := hmin
  have hre : ∀ k, k < N → (spectrum N c k).re = (spectrum N d k).re := by
    intro k hk
    have := h3 k hk
    rw [← hmag k hk, hcy k hk, hdz k hk, Complex.norm_exp, Complex.norm_exp] at this
    exact Real.exp_injective this
  have hcd := cepstrum_unique ho hc hd hre
  have hyz : ∀ n, n < N → y.getD n 0 = z.getD n 0 := by
    intro n hn
    have h4 := idft_dft (fun n => ((y.getD n 0 : ℝ) : ℂ)) hn
    have h5 := idft_dft (fun n => ((z.getD n 0 : ℝ) : ℂ)) hn
    have h6 : ∀ k, k < N → dft N (fun n => ((y.getD n 0 : ℝ) : ℂ)) k = dft N (fun n => ((z.getD n 0 : ℝ) : ℂ)) k := by
      intro k hk
      rw [← spectrum_dft, ← spectrum_dft, hcy k hk, hdz k hk, spectrum_dft, spectrum_dft, dft_congr (fun n hn => by rw [hcd n hn])]
    rw [idft_congr h6 n, h5] at h4
    exact_mod_cast h4.symm
  rw [h1]
  congr 1
  apply List.ext_getElem (by omega)
  intro n h7 h8
  rw [← List.getD_eq_getElem _ 0 h7, ← List.getD_eq_getElem _ 0 h8]
  exact hyz n (by omega)

/-- For an even length the extended response has a bin too many: the spectrum has the magnitudes asked for below the Nyquist bin, with the phase of the bins of a transform
of length `N + 1`; at the Nyquist bin only the real part is left. -/
theorem C110_even_deviation (mag : List ℝ) {N : Nat} (ho : N % 2 = 0) (hN : 0 < N) {eps : ℝ} (he : 0 < eps) (hm : mag ≠ []) (hl : mag.length ≤ N / 2 + 1) :
    ∃ y c, minPhase mag N eps = .ok y ∧ y.length = N ∧ Causal (N + 1) c ∧ (∀ k, k < N / 2 → ‖spectrum N y k‖ = max (mag.getD k 0) eps) ∧
      (∀ k, k < N / 2 → spectrum N y k = Complex.exp (spectrum (N + 1) c k)) ∧
      ‖Complex.exp (spectrum (N + 1) c (N / 2))‖ = max (mag.getD (N / 2) 0) eps ∧
      spectrum N y (N / 2) = ((Complex.exp (spectrum (N + 1) c (N / 2))).re : ℂ) ∧ ‖spectrum N y (N / 2)‖ ≤ max (mag.getD (N / 2) 0) eps := by
  have hp := padding_nonneg mag hl
  have hb : bins N = N + 1 := by unfold bins; rw [if_pos ho]
  obtain ⟨y, h1, h2, h3⟩ := minPhase_spectrum mag hN he hm hp
  rw [hb] at h3
  have hn : ∀ k, k ≤ N / 2 → ‖Complex.exp (spectrum (N + 1) (cepstrum mag N eps) k)‖ = max (mag.getD k 0) eps := by
    intro k hk
    have := norm_exp_cepstrum mag he hm hp (k := k) (by omega)
    rw [hb] at this
    rw [this]
    unfold target
    rw [if_pos (by omega)]
  have h4 : ∀ k, k < N / 2 → spectrum N y k = Complex.exp (spectrum (N + 1) (cepstrum mag N eps) k) := by
    intro k hk
    rw [h3 k (by omega)]
    unfold hermExt BeamProc.realEnds
    beta_reduce
    rw [if_pos (by omega)]
    by_cases h6 : k = 0
    · rw [if_pos (Or.inl h6), h6]
      have h0 : spectrum (N + 1) (cepstrum mag N eps) 0 = ((spectrum (N + 1) (cepstrum mag N eps) 0).re : ℂ) := by
        apply Complex.ext
        · simp
        · simp [spectrum_zero_im]
      rw [h0, Complex.exp_ofReal_re, Complex.ofReal_exp]
    · rw [if_neg (by omega)]
  have h5 : spectrum N y (N / 2) = ((Complex.exp (spectrum (N + 1) (cepstrum mag N eps) (N / 2))).re : ℂ) := by
    rw [h3 _ (by omega)]
    unfold hermExt BeamProc.realEnds
    beta_reduce
    rw [if_pos le_rfl, if_pos (by omega)]
  refine ⟨y, cepstrum mag N eps, h1, h2, ?_, ?_, h4, hn _ le_rfl, h5, ?_⟩
  · have := cepstrum_causal mag N eps
    rwa [hb] at this
  · intro k hk
    rw [h4 k hk, hn k hk.le]
  · rw [h5, Complex.norm_real, ← hn _ le_rfl]
    exact Complex.abs_re_le_norm _

/-! ## The Nyquist bin -/

/-- The response of the examples: `exp t` at zero, one elsewhere. -/
noncomputable def peak (t : ℝ) (N : Nat) : List ℝ := Real.exp t :: List.replicate (N / 2) 1

theorem peak_target {t : ℝ} (ht : 0 ≤ t) {N : Nat} (he : N % 2 = 0) {eps : ℝ} (h1 : eps ≤ 1) {k : Nat} (hk : k < N + 1) :
    target (N + 1) (peak t N) eps k = if k = 0 then Real.exp t else 1 := by
  have h2 := Real.one_le_exp ht
  unfold target peak
  by_cases h : k = 0
  · rw [if_pos h, if_pos (by omega), h, List.getD_cons_zero, max_eq_left (by linarith)]
  · rw [if_neg h]
    obtain ⟨j, hj⟩ : ∃ j, (if k ≤ (N + 1) / 2 then k else N + 1 - k) = j + 1 ∧ j < N / 2 := by
      split
      · exact ⟨k - 1, by omega, by omega⟩
      · exact ⟨N - k, by omega, by omega⟩
    rw [hj.1, List.getD_cons_succ, List.getD_eq_getElem _ _ (by simpa using hj.2), List.getElem_replicate, max_eq_left h1]

/-- The causal half of the unit sequence has no real spectrum. -/
theorem half_sum {m : Nat} {z : ℂ} (hz : ‖z‖ = 1) (h1 : z ≠ 1) : ∑ n ∈ range (2 * m + 1), (gain (2 * m + 1) n : ℂ) * z ^ n ≠ 0 := by
  have hsum : ∑ n ∈ range (2 * m + 1), (gain (2 * m + 1) n : ℂ) * z ^ n = 1 + 2 * ∑ n ∈ range m, z ^ (n + 1) := by
    rw [sum_range_succ', two_mul, sum_range_add]
    have ha : ∑ n ∈ range m, (gain (m + m + 1) (n + 1) : ℂ) * z ^ (n + 1) = 2 * ∑ n ∈ range m, z ^ (n + 1) := by
      rw [mul_sum]
      refine sum_congr rfl fun n hn => ?_
      have hn := mem_range.mp hn
      unfold gain
      rw [if_neg (by omega), if_pos (by omega)]
      push_cast
      rfl
    have hb : ∑ n ∈ range m, (gain (m + m + 1) (m + n + 1) : ℂ) * z ^ (m + n + 1) = 0 := by
      refine sum_eq_zero fun n _ => ?_
      unfold gain
      rw [if_neg (by omega), if_neg (by omega)]
      simp
    rw [ha, hb]
    simp [gain]
    ring
  rw [hsum]
  intro h0
  have hgeo : (z - 1) * ∑ n ∈ range m, z ^ (n + 1) = z ^ (m + 1) - z := by
    have := mul_geom_sum z m
    simp only [pow_succ, ← sum_mul]
    linear_combination z * this
  have h2 : z + 1 = 2 * z ^ (m + 1) := by linear_combination (1 - z) * h0 + 2 * hgeo
  have h3 : ‖z + 1‖ = 2 := by rw [h2, norm_mul, norm_pow, hz]; simp
  have h4 : Complex.normSq (z + 1) = 4 := by rw [Complex.normSq_eq_norm_sq, h3]; norm_num
  have h5 : Complex.normSq z = 1 := by rw [Complex.normSq_eq_norm_sq, hz]; norm_num
  rw [Complex.normSq_apply] at h4 h5
  simp at h4
  have h6 : z.re = 1 := by nlinarith
  have h7 : z.im = 0 := by nlinarith
  exact h1 (Complex.ext (by simpa using h6) (by simpa using h7))

theorem norm_tw (N : Nat) (m : Int) : ‖tw N m‖ = 1 := by
  unfold tw
  have : (2 * Real.pi * Complex.I * (m : ℂ) / (N : ℂ)) = ((2 * Real.pi * m / N : ℝ) : ℂ) * Complex.I := by push_cast; ring
  rw [this, Complex.norm_exp_ofReal_mul_I]

/-- For every even length there is a response, at least one everywhere, for which the filter returned has no component at the Nyquist frequency. -/
theorem C110_nyquist_deviation {N : Nat} (hN : 0 < N) (he : N % 2 = 0) {eps : ℝ} (h0 : 0 < eps) (h1 : eps ≤ 1) :
    ∃ mag y, mag.length = N / 2 + 1 ∧ (∀ v ∈ mag, 1 ≤ v) ∧ minPhase mag N eps = .ok y ∧ spectrum N y (N / 2) = 0 := by
  have hb : bins N = N + 1 := by unfold bins; rw [if_pos he]
  obtain ⟨m, rfl⟩ : ∃ m, N = 2 * m := ⟨N / 2, by omega⟩
  have hm : 2 * m / 2 = m := by omega
  -- the spectrum of the cepstrum
  have hsp : ∀ t : ℝ, 0 ≤ t → spectrum (2 * m + 1) (cepstrum (peak t (2 * m)) (2 * m) eps) m =
      (t : ℂ) * ((∑ n ∈ range (2 * m + 1), (gain (2 * m + 1) n : ℂ) * tw (2 * m + 1) (-(m : Int)) ^ n) / ((2 * m + 1 : ℕ) : ℂ)) := by
    intro t ht
    have hlen : (peak t (2 * m)).length ≤ 2 * m / 2 + 1 := by simp [peak]
    have hne : peak t (2 * m) ≠ [] := by simp [peak]
    have hceps : ∀ n, ceps (2 * m + 1) (fun k => Real.log ((full (peak t (2 * m)) (2 * m) eps).getD k 0)) n = t / (2 * m + 1 : ℕ) := by
      intro n
      unfold ceps dft
      have : ∀ k ∈ range (2 * m + 1), ((Real.log ((full (peak t (2 * m)) (2 * m) eps).getD k 0) : ℝ) : ℂ) * tw (2 * m + 1) (-((k : Int) * n)) = if k = 0 then (t : ℂ) else 0 := by
        intro k hk
        have hk := mem_range.mp hk
        rw [full_getD _ _ _ hne (padding_nonneg _ hlen) (by omega), hb, peak_target ht he h1 hk]
        split
        · next h => subst h; simp [tw_zero]
        · simp
      rw [sum_congr rfl this, sum_ite_eq', if_pos (by simp), Complex.ofReal_re]
    rw [spectrum_dft]
    unfold dft
    rw [mul_div_assoc', mul_sum, sum_div]
    refine sum_congr rfl fun n hn => ?_
    have hn := mem_range.mp hn
    unfold cepstrum
    beta_reduce
    rw [hb, List.getD_eq_getElem _ _ (by simpa using Nat.lt_succ_iff.mp hn), List.getElem_map, List.getElem_range, hceps n, ← tw_mul_nat]
    have : -(m : Int) * (n : Int) = -((n : Int) * m) := by ring
    rw [this]
    push_cast
    ring
  set w : ℂ := (∑ n ∈ range (2 * m + 1), (gain (2 * m + 1) n : ℂ) * tw (2 * m + 1) (-(m : Int)) ^ n) / ((2 * m + 1 : ℕ) : ℂ) with hw
  have hM0 : ((2 * m + 1 : ℕ) : ℂ) ≠ 0 := by exact_mod_cast (by omega : 2 * m + 1 ≠ 0)
  have hw0 : w ≠ 0 := by
    rw [hw]
    refine div_ne_zero (half_sum (norm_tw _ _) ?_) hM0
    intro h
    rw [tw_eq_one (by omega)] at h
    have := Int.eq_zero_of_abs_lt_dvd h (by rw [abs_neg, abs_lt]; omega)
    omega
  -- the magnitude is one at the Nyquist bin, so that the real part is zero
  have hre : w.re = 0 := by
    have hlen : (peak 1 (2 * m)).length ≤ 2 * m / 2 + 1 := by simp [peak]
    have h := norm_exp_cepstrum (peak 1 (2 * m)) h0 (by simp [peak]) (padding_nonneg _ hlen) (k := m) (by rw [hb]; omega)
    rw [hb, peak_target zero_le_one he h1 (by omega), if_neg (by omega), hsp 1 zero_le_one, Complex.norm_exp, Complex.ofReal_one, one_mul, Real.exp_eq_one_iff] at h
    exact h
  have him : w.im ≠ 0 := fun h => hw0 (Complex.ext hre h)
  have ht : 0 < Real.pi / 2 / |w.im| := by positivity
  have hlen : (peak (Real.pi / 2 / |w.im|) (2 * m)).length ≤ 2 * m / 2 + 1 := by simp [peak]
  obtain ⟨y, hy1, hy2, hy3⟩ := minPhase_spectrum (peak (Real.pi / 2 / |w.im|) (2 * m)) hN h0 (by simp [peak]) (padding_nonneg _ hlen)
  refine ⟨_, y, by simp [peak], ?_, hy1, ?_⟩
  · intro v hv
    unfold peak at hv
    rcases List.mem_cons.mp hv with h | h
    · rw [h]
      exact Real.one_le_exp ht.le
    · rw [List.eq_of_mem_replicate h]
  · rw [hy3 _ (by omega)]
    unfold hermExt BeamProc.realEnds
    beta_reduce
    rw [if_pos le_rfl, if_pos (by omega), hm, hb, hsp _ ht.le, Complex.exp_re]
    have : ((Real.pi / 2 / |w.im| : ℝ) * w).im = Real.pi / 2 ∨ ((Real.pi / 2 / |w.im| : ℝ) * w).im = -(Real.pi / 2) := by
      rw [Complex.im_ofReal_mul]
      rcases lt_or_gt_of_ne him with h | h
      · right
        rw [abs_of_neg h]
        field_simp
      · left
        rw [abs_of_pos h]
        field_simp
    rcases this with h | h
    · rw [h]; simp
    · rw [h]; simp

/-! ## Examples -/

example : ∃ y, minPhase [2, 1] 5 (1 / 100000) = .ok y ∧ y.length = 5 ∧ ‖spectrum 5 y 4‖ = 1 ∧ ‖spectrum 5 y 2‖ = 1 / 100000 ∧ MinimumPhase 5 y := by
  obtain ⟨y, h1, h2, h3, h4⟩ := C110_odd [2, 1] (N := 5) (eps := 1 / 100000) (by norm_num) (by norm_num) (by simp) (by simp)
  refine ⟨y, h1, h2, ?_, ?_, h4⟩
  · rw [h3 4 (by norm_num)]
    simp [target]
    norm_num
  · rw [h3 2 (by norm_num)]
    simp [target]

example : minPhase [1, 1, 1] 3 (1 / 100000) = .error .valueError := (C110_raises [1, 1, 1] (N := 3) (by norm_num) _ (by simp)).1.mpr (by simp)

example : ∃ y, minPhase [3] 1 (1 / 100000) = .ok y ∧ ‖spectrum 1 y 0‖ = 3 := by
  obtain ⟨y, h1, h2, h3, h4⟩ := C110_odd [3] (N := 1) (eps := 1 / 100000) (by norm_num) (by norm_num) (by simp) (by simp)
  refine ⟨y, h1, ?_⟩
  rw [h3 0 (by norm_num)]
  simp [target]
  norm_num

/-- The hypotheses of uniqueness are met by one impulse. -/
example : minPhase [1, 1] 3 1 = .ok [1, 0, 0] := by
  have hs : ∀ k, spectrum 3 [1, 0, 0] k = 1 := by
    intro k
    simp [spectrum, sum_range_succ]
  refine C110_unique [1, 1] (by norm_num) one_pos (by simp) (by simp) [1, 0, 0] rfl ?_ ⟨[], ?_, ?_⟩
  · intro k hk
    rw [hs]
    have : target 3 [1, 1] 1 k = 1 := by
      unfold target
      interval_cases k <;> simp
    rw [this, norm_one]
  · intro n _ _
    rfl
  · intro k _
    rw [hs]
    simp [spectrum]

example : ∃ y c, minPhase [2, 1, 1] 4 (1 / 100000) = .ok y ∧ y.length = 4 ∧ Causal 5 c ∧ spectrum 4 y 2 = ((Complex.exp (spectrum 5 c 2)).re : ℂ) := by
  obtain ⟨y, c, h1, h2, h3, _, _, _, h4, _⟩ := C110_even_deviation [2, 1, 1] (N := 4) (eps := 1 / 100000) (by norm_num) (by norm_num) (by norm_num) (by simp) (by simp)
  exact ⟨y, c, h1, h2, h3, h4⟩

example : ∃ mag y, mag.length = 257 ∧ (∀ v ∈ mag, (1 : ℝ) ≤ v) ∧ minPhase mag 512 (1 / 100000) = .ok y ∧ spectrum 512 y 256 = 0 :=
  C110_nyquist_deviation (N := 512) (by norm_num) (by norm_num) (by norm_num) (by norm_num)

end Verif.MinPhase
