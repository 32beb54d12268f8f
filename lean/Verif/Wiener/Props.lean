import Verif.Wiener.Model
import Verif.LinPred.MinPhase
import Mathlib.Analysis.SpecialFunctions.Complex.Circle

/-!
# C99: iterative Wiener filtering

Small specification: the filter is `P / (P + σ²)` with positive spectra `P`, the noise level is the smoothed energy of the quiet frames.
-/

namespace Verif.Wiener

open Verif.Py Verif.DFT Verif.LinPred Finset
open Verif.Sync (getD_zero)

/-! ## Helper functions -/

theorem sum_getD (l : List ℝ) : l.sum = ∑ i ∈ range l.length, l.getD i 0 := by
  induction l with
  | nil => simp
  | cons a l ih =>
    rw [List.sum_cons, List.length_cons, Finset.sum_range_succ', ih]
    simp [add_comm]

theorem variance_mul {y : List ℝ} (hy : y.length ≠ 0) : y.length * variance y = (y.map fun v => v ^ 2).sum - y.length * (y.sum / y.length) ^ 2 := by
  have hN : (y.length : ℝ) ≠ 0 := by exact_mod_cast hy
  have key : ∀ (l : List ℝ) (m : ℝ), (l.map fun v => (v - m) ^ 2).sum = (l.map fun v => v ^ 2).sum - 2 * m * l.sum + l.length * m ^ 2 := by
    intro l m
    induction l with
    | nil => simp
    | cons a l ih =>
      simp only [List.map_cons, List.sum_cons, ih, List.length_cons]
      push_cast
      ring
  unfold variance
  rw [key]
  field_simp
  ring

theorem variance_nonneg (y : List ℝ) : 0 ≤ variance y := by
  unfold variance
  apply div_nonneg
  · apply List.sum_nonneg
    intro v hv
    obtain ⟨w, -, rfl⟩ := List.mem_map.mp hv
    positivity
  · positivity

theorem variance_zero {y : List ℝ} (h : ∀ k, y.getD k 0 = 0) : variance y = 0 := by
  by_cases hy : y.length = 0
  · simp [variance, List.length_eq_zero_iff.mp hy]
  · have hN : (y.length : ℝ) ≠ 0 := by exact_mod_cast hy
    have h1 := variance_mul hy
    have hs : y.sum = 0 := by
      rw [sum_getD]
      exact Finset.sum_eq_zero fun i _ => h i
    have hq : (y.map fun v => v ^ 2).sum = 0 := by
      rw [sum_getD]
      apply Finset.sum_eq_zero
      intro i hi
      rw [List.length_map, mem_range] at hi
      have := h i
      rw [List.getD_eq_getElem _ _ hi] at this
      rw [List.getD_eq_getElem _ _ (by simpa using hi), List.getElem_map, this]
      norm_num
    rw [hq, hs] at h1
    simp at h1
    rcases h1 with h1 | h1
    · simp [h1, variance]
    · exact h1

theorem collect_some {α : Type} (f : α → Option ℝ) (g : α → ℝ) (l : List α) (h : ∀ v ∈ l, f v = some (g v)) : collect (l.map f) = some (l.map g) := by
  induction l with
  | nil => rfl
  | cons a l ih =>
    rw [List.map_cons, h a (by simp)]
    simp only [collect]
    rw [ih fun v hv => h v (List.mem_cons_of_mem _ hv)]
    rfl

theorem omegas_getD {j : Nat} (hj : j < 1000) : omegas.getD j 0 = -Real.pi + j * (2 * Real.pi / 1000) := by
  unfold omegas
  rw [List.getD_eq_getElem _ _ (by simpa using hj)]
  simp

theorem omegas_length : omegas.length = 1000 := by
  unfold omegas
  rw [List.length_map, List.length_range]

/-- The sum of the trapezoids of a positive function. -/
theorem trapezoid_eq (g : ℝ → ℝ) : trapezoid (omegas.map g) omegas = ∑ j ∈ range 999, (2 * Real.pi / 1000) * (g (omegas.getD (j + 1) 0) + g (omegas.getD j 0)) / 2 := by
  unfold trapezoid
  rw [omegas_length]
  apply Finset.sum_congr rfl
  intro j hj
  rw [mem_range] at hj
  have h1 : ∀ i, i < 1000 → (omegas.map g).getD i 0 = g (omegas.getD i 0) := by
    intro i hi
    rw [List.getD_eq_getElem _ _ (by simpa [omegas_length] using hi), List.getElem_map, List.getD_eq_getElem omegas _ (by simpa [omegas_length] using hi)]
  rw [h1 (j + 1) (by omega), h1 j (by omega), omegas_getD (j := j + 1) (by omega), omegas_getD (j := j) (by omega)]
  push_cast
  ring

attribute [local irreducible] trapezoid

/-- Coefficients without a zero on the unit circle. -/
def Stable (a : List ℝ) : Prop := ∀ w : ℂ, ‖w‖ = 1 → allPole a w ≠ 0

theorem trapezoid_pos {a : List ℝ} (ha : Stable a) :
    ∃ vals, collect (omegas.map (integrand a)) = some vals ∧ 0 < trapezoid vals omegas ∧
      vals = omegas.map fun (w : ℝ) => 1 / ‖allPole a (Complex.exp (-Complex.I * w))‖ ^ 2 := by
  have hne : ∀ w : ℝ, allPole a (Complex.exp (-Complex.I * w)) ≠ 0 := fun w => ha _ (by
    rw [Complex.norm_exp]
    simp)
  refine ⟨_, collect_some (integrand a) (fun (w : ℝ) => 1 / ‖allPole a (Complex.exp (-Complex.I * w))‖ ^ 2) omegas ?_, ?_, rfl⟩
  · intro w _
    unfold integrand
    simp only
    rw [if_neg (hne w)]
  · rw [trapezoid_eq]
    apply Finset.sum_pos
    · intro j _
      have h1 := norm_pos_iff.mpr (hne (omegas.getD (j + 1) 0))
      have h2 := norm_pos_iff.mpr (hne (omegas.getD j 0))
      have := Real.pi_pos
      positivity
    · exact ⟨0, mem_range.mpr (by norm_num)⟩

/-- **C99, gain.** For a stable filter the gain satisfies the documented equation, with the integral as computed; it is positive if the energy is above that of the noise. -/
theorem C99_gain {a : List ℝ} (ha : Stable a) (noise : ℝ) {y : List ℝ} (hy : y.length ≠ 0) :
    ∃ g I : ℝ, squaredGain a noise y = some g ∧ 0 < I ∧ I = trapezoid (omegas.map fun (w : ℝ) => 1 / ‖allPole a (Complex.exp (-Complex.I * w))‖ ^ 2) omegas ∧
      y.length / (2 * Real.pi) * (g * I) = (y.map fun v => v ^ 2).sum - y.length * noise ∧
      (noise < variance y → 0 < g) := by
  obtain ⟨vals, hv, hpos, hvals⟩ := trapezoid_pos ha
  have hN : (0 : ℝ) < y.length := by exact_mod_cast Nat.pos_of_ne_zero hy
  have hpi := Real.pi_pos
  refine ⟨((y.map fun v => v ^ 2).sum - y.length * noise) * 2 * Real.pi / y.length / trapezoid vals omegas, trapezoid vals omegas, ?_, hpos, by rw [hvals], ?_, ?_⟩
  · unfold squaredGain
    rw [hv]
    simp only [Option.bind_some]
    rw [if_neg]
    push Not
    exact ⟨hpos.ne', hy⟩
  · field_simp
  · intro h
    have h1 := variance_mul hy
    have h2 : (y.length : ℝ) * noise < y.length * variance y := mul_lt_mul_of_pos_left h hN
    have h3 : 0 ≤ (y.length : ℝ) * (y.sum / y.length) ^ 2 := by positivity
    have h4 : 0 < (y.map fun v => v ^ 2).sum - y.length * noise := by linarith
    positivity


theorem gain_pos {a : List ℝ} (ha : Stable a) (noise : ℝ) {y : List ℝ} (hy : y.length ≠ 0) (h : noise < variance y) : ∃ g, squaredGain a noise y = some g ∧ 0 < g :=
  (C99_gain ha noise hy).elim fun g hg => hg.elim fun _ hI => ⟨g, hI.1, hI.2.2.2.2 h⟩

/-- **C99, deviation.** The sum ends one step before `π`. For a white signal (coefficients zero), the gain is `1000 / 999` times the one of the documented equation. -/
theorem C99_integral_deviation (p : Nat) (noise : ℝ) {y : List ℝ} (hy : y.length ≠ 0) :
    squaredGain (List.replicate p 0) noise y = some (1000 / 999 * ((y.map fun v => v ^ 2).sum / y.length - noise)) := by
  have hz : ∀ w, allPole (List.replicate p 0) w = 1 := by
    intro w
    unfold allPole
    rw [Finset.sum_eq_zero, sub_zero]
    intro k hk
    rw [List.length_replicate, mem_range] at hk
    rw [List.getD_replicate _ hk]
    simp
  obtain ⟨g, I, hg, hI, hIe, heq, -⟩ := C99_gain (a := List.replicate p 0) (fun w _ => by rw [hz]; exact one_ne_zero) noise hy
  have hI2 : I = 2 * Real.pi * 999 / 1000 := by
    rw [hIe, trapezoid_eq]
    simp only [hz, norm_one]
    rw [Finset.sum_const, card_range, nsmul_eq_mul]
    push_cast
    ring
  have hN : (y.length : ℝ) ≠ 0 := by exact_mod_cast hy
  have hpi := Real.pi_pos.ne'
  rw [hg]
  congr 1
  rw [hI2] at heq
  field_simp at heq ⊢
  linarith

/-- **C99, spectrum.** The spectrum is the gain over the squared magnitude of the documented polynomial at the bins. -/
theorem rfft_allPole {a : List ℝ} {N : Nat} (hN : a.length < N) (k : Nat) :
    rfft N (fun n => (1 :: a.map fun v => -1 * v).getD n 0) k = allPole a (tw N (-(k : Int))) := by
  unfold rfft dft allPole
  have hs : ∑ n ∈ range N, (((1 :: a.map fun v => -1 * v).getD n 0 : ℝ) : ℂ) * tw N (-((n : Int) * k)) =
      ∑ n ∈ range (a.length + 1), (((1 :: a.map fun v => -1 * v).getD n 0 : ℝ) : ℂ) * tw N (-((n : Int) * k)) := by
    symm
    apply Finset.sum_subset
    · intro i hi
      rw [mem_range] at *
      omega
    · intro i _ hi
      rw [mem_range] at hi
      rw [List.getD_eq_default _ _ (by simp; omega)]
      simp
  rw [hs, Finset.sum_range_succ']
  simp only [List.getD_cons_zero, List.getD_cons_succ]
  have h0 : tw N (-(((0 : Nat) : Int) * k)) = 1 := by
    rw [Nat.cast_zero, zero_mul, neg_zero, tw_zero]
  rw [h0, add_comm, sub_eq_add_neg, ← Finset.sum_neg_distrib]
  congr 1
  · simp
  · apply Finset.sum_congr rfl
    intro m hm
    rw [mem_range] at hm
    rw [← tw_mul_nat, List.getD_eq_getElem _ _ (by simpa using hm), List.getElem_map, List.getD_eq_getElem a _ hm]
    push_cast
    rw [show (-(((m : Int) + 1) * (k : Int))) = -(k : Int) * (m + 1) by ring]
    ring

theorem tw_norm (N : Nat) (m : Int) : ‖tw N m‖ = 1 := by
  unfold tw
  rw [Complex.norm_exp]
  have : (2 * Real.pi * Complex.I * (m : ℂ) / (N : ℂ)).re = 0 := by
    rw [show (2 * Real.pi * Complex.I * (m : ℂ) / (N : ℂ)) = ((2 * Real.pi * m / N : ℝ) : ℂ) * Complex.I by push_cast; ring]
    simp
  rw [this, Real.exp_zero]

/-- **C99, spectrum.** For a stable filter of less than `nfft` coefficients the spectrum is finite, and is the documented one. -/
theorem C99_psd {a : List ℝ} (ha : Stable a) (g2 : ℝ) {N : Nat} (hN : a.length < N) :
    ∃ P, speechPsd a g2 N = some P ∧ ∀ k, P k = g2 / ‖1 - ∑ m ∈ range a.length, (a.getD m 0 : ℂ) * Complex.exp (-(2 * Real.pi * Complex.I * k / N)) ^ (m + 1)‖ ^ 2 := by
  unfold speechPsd
  simp only
  rw [if_neg]
  · refine ⟨_, rfl, fun k => ?_⟩
    rw [rfft_allPole hN]
    unfold allPole tw
    congr 6
    funext m
    congr 3
    push_cast
    ring
  · rintro ⟨k, -, hk⟩
    rw [rfft_allPole hN] at hk
    exact ha _ (tw_norm _ _) hk

theorem psd_pos {a : List ℝ} (ha : Stable a) {g2 : ℝ} (hg : 0 < g2) {N : Nat} (hN : a.length < N) : ∃ P, speechPsd a g2 N = some P ∧ ∀ k, 0 < P k := by
  unfold speechPsd
  simp only
  have hne : ∀ k, rfft N (fun n => (1 :: a.map fun v => -1 * v).getD n 0) k ≠ 0 := by
    intro k
    rw [rfft_allPole hN]
    exact ha _ (tw_norm _ _)
  rw [if_neg]
  · refine ⟨_, rfl, fun k => ?_⟩
    have := norm_pos_iff.mpr (hne k)
    positivity
  · rintro ⟨k, -, hk⟩
    exact hne k hk

/-! ## The object -/

/-- Parameters for which everything is finite. -/
def Params (o : Iw) : Prop := 1 ≤ o.lpcOrder ∧ o.lpcOrder < o.frameLen ∧ 0 ≤ o.alpha ∧ o.alpha ≤ 1 ∧ 0 < o.thresh

/-- The filter belongs to a positive spectrum and to a noise level below the threshold. -/
def Sound (o : Iw) : Prop := 0 ≤ o.noise ∧ o.noise < o.thresh ∧
  ∃ P : Nat → ℝ, o.speech = some P ∧ (∀ k, 0 < P k) ∧ ∃ H, o.filt = some H ∧ ∀ k, H k = P k / (P k + o.noise)

/-- The same parameters. -/
def Same (o o' : Iw) : Prop := o'.frameLen = o.frameLen ∧ o'.lpcOrder = o.lpcOrder ∧ o'.iterations = o.iterations ∧ o'.alpha = o.alpha ∧ o'.thresh = o.thresh

theorem filter_ok {P : Nat → ℝ} (hP : ∀ k, 0 < P k) {noise : ℝ} (hn : 0 ≤ noise) (bins : Nat) : wienerFilter (some P) noise bins = some fun k => P k / (P k + noise) := by
  unfold wienerFilter
  simp only [Option.bind_some]
  rw [if_neg]
  rintro ⟨k, -, hk⟩
  have := hP k
  linarith

/-- Filtering with positive numbers keeps a signal different from zero. -/
theorem filtered_ne_zero {N : Nat} {v : Nat → ℝ} (hv : ∃ n, n < N ∧ v n ≠ 0) {H : Nat → ℝ} (hH : ∀ k, 0 < H k) {c : ℝ} (hc : 0 < c) :
    ∃ n, n < N ∧ irfft N (fun k => (H k : ℂ) * (rfft N v k / (c : ℂ))) n ≠ 0 := by
  obtain ⟨n0, hn0, hvn0⟩ := hv
  have hN : 0 < N := by omega
  have hNr : (0 : ℝ) < N := by exact_mod_cast hN
  by_contra hall
  push Not at hall
  set G : Nat → ℝ := fun k => if k ≤ N / 2 then H k / c else H (N - k) / c with hG
  have hGpos : ∀ k, 0 < G k := by
    intro k
    simp only [hG]
    split
    · exact div_pos (hH _) hc
    · exact div_pos (hH _) hc
  have hext : ∀ k, k < N → hermExt N (fun k => (H k : ℂ) * (rfft N v k / (c : ℂ))) k = (G k : ℂ) * dft N (fun n => (v n : ℂ)) k := by
    intro k hk
    rw [← hermExt_rfft v hk]
    unfold hermExt
    simp only [hG]
    split
    · push_cast
      ring
    · rw [map_mul, map_div₀, Complex.conj_ofReal, Complex.conj_ofReal]
      push_cast
      ring
  have hinner : ∑ n ∈ range N, v n * irfft N (fun k => (H k : ℂ) * (rfft N v k / (c : ℂ))) n = (∑ k ∈ range N, G k * Complex.normSq (dft N (fun n => (v n : ℂ)) k)) / N := by
    have h1 : ∀ n ∈ range N, v n * irfft N (fun k => (H k : ℂ) * (rfft N v k / (c : ℂ))) n =
        ((v n : ℂ) * ((∑ k ∈ range N, (G k : ℂ) * dft N (fun n => (v n : ℂ)) k * tw N ((n : Int) * k)) / (N : ℂ))).re := by
      intro n _
      unfold irfft
      rw [idft_congr hext]
      unfold idft
      rw [Complex.re_ofReal_mul]
    rw [Finset.sum_congr rfl h1, ← Complex.re_sum]
    have h2 : ∑ n ∈ range N, (v n : ℂ) * ((∑ k ∈ range N, (G k : ℂ) * dft N (fun n => (v n : ℂ)) k * tw N ((n : Int) * k)) / (N : ℂ)) =
        (((∑ k ∈ range N, G k * Complex.normSq (dft N (fun n => (v n : ℂ)) k)) / N : ℝ) : ℂ) := by
      simp only [Finset.sum_div, Finset.mul_sum]
      rw [Finset.sum_comm]
      push_cast
      apply Finset.sum_congr rfl
      intro k _
      rw [← Complex.mul_conj]
      have hconj : (starRingEnd ℂ) (dft N (fun n => (v n : ℂ)) k) = ∑ n ∈ range N, (v n : ℂ) * tw N ((n : Int) * k) := by
        unfold dft
        rw [map_sum]
        apply Finset.sum_congr rfl
        intro n _
        rw [map_mul, Complex.conj_ofReal, tw_conj, neg_neg]
      rw [hconj, Finset.mul_sum, Finset.mul_sum, Finset.sum_div]
      apply Finset.sum_congr rfl
      intro n _
      ring
    rw [h2, Complex.ofReal_re]
  rw [Finset.sum_eq_zero (fun n hn => by rw [hall n (mem_range.mp hn), mul_zero])] at hinner
  have hz : ∑ k ∈ range N, G k * Complex.normSq (dft N (fun n => (v n : ℂ)) k) = 0 := by
    rcases div_eq_zero_iff.mp hinner.symm with h | h
    · exact h
    · exact absurd h hNr.ne'
  rw [Finset.sum_eq_zero_iff_of_nonneg (fun k _ => mul_nonneg (hGpos k).le (Complex.normSq_nonneg _))] at hz
  have hd : ∀ k, k < N → dft N (fun n => (v n : ℂ)) k = 0 := by
    intro k hk
    rcases mul_eq_zero.mp (hz k (mem_range.mpr hk)) with h | h
    · exact absurd h (hGpos k).ne'
    · exact Complex.normSq_eq_zero.mp h
  have := idft_dft (fun n => (v n : ℂ)) hn0
  unfold idft at this
  rw [Finset.sum_eq_zero (fun k hk => by rw [hd k (mem_range.mp hk), zero_mul]), zero_div] at this
  exact hvn0 (by exact_mod_cast this.symm)

theorem lpc_stable {s : List ℝ} (hs : ∃ k, s.getD k 0 ≠ 0) {p : Nat} (hp1 : 1 ≤ p) (hp : p < s.length) : ∃ a, lpc s p true = .ok (some a) ∧ a.length = p ∧ Stable a := by
  obtain ⟨a, ha, hl, hw⟩ := C63_minimum_phase s hs hp1 hp
  refine ⟨a, ha, hl, fun w h1 => ?_⟩
  unfold allPole
  rw [hl]
  exact hw w h1.le

/-- One pass: the coefficients of linear prediction of `s` and the gain of the frame `y` give the spectrum `P`. -/
def Pass (y : List ℝ) (N p : Nat) (noise : ℝ) (s : List ℝ) (P : Nat → ℝ) : Prop :=
  ∃ a g, lpc s p true = .ok (some a) ∧ squaredGain a noise y = some g ∧ ∀ k, P k = g / ‖1 - ∑ m ∈ range a.length, (a.getD m 0 : ℂ) * Complex.exp (-(2 * Real.pi * Complex.I * k / N)) ^ (m + 1)‖ ^ 2

/-- The passes over a frame: from `s`, `n + 1` times, to the spectrum `P`. In between the transform `Y` is filtered. -/
inductive Passes (y : List ℝ) (Y : Nat → ℂ) (N p : Nat) (noise : ℝ) : Nat → List ℝ → (Nat → ℝ) → Prop
  | last (s : List ℝ) (P : Nat → ℝ) : Pass y N p noise s P → Passes y Y N p noise 0 s P
  | more (n : Nat) (s : List ℝ) (P Q : Nat → ℝ) : Pass y N p noise s P →
      Passes y Y N p noise n ((List.range N).map fun (t : Nat) => irfft N (fun k => ((P k / (P k + noise) : ℝ) : ℂ) * Y k) t) Q → Passes y Y N p noise (n + 1) s Q

theorem psd_some {a : List ℝ} {g2 : ℝ} {N : Nat} (hN : a.length < N) {P : Nat → ℝ} (h : speechPsd a g2 N = some P) (ha : Stable a) (k : Nat) :
    P k = g2 / ‖1 - ∑ m ∈ range a.length, (a.getD m 0 : ℂ) * Complex.exp (-(2 * Real.pi * Complex.I * k / N)) ^ (m + 1)‖ ^ 2 := by
  obtain ⟨Q, hQ, hv⟩ := C99_psd ha g2 hN
  rw [hQ] at h
  cases h
  exact hv k

/-- The loop of a speech frame keeps everything finite. -/
theorem iterate_sound {y : List ℝ} {N : Nat} (hyN : y.length = N) {v : Nat → ℝ} {c : ℝ} (hc : 0 < c) (n : Nat) (hv : n ≤ 1 ∨ ∃ t, t < N ∧ v t ≠ 0) {s : List ℝ} (hsl : s.length = N)
    (hs : ∃ k, s.getD k 0 ≠ 0) {o : Iw} (hoN : o.frameLen = N) (ho : Params o) (hso : Sound o) (hloud : o.thresh ≤ variance y) :
    ∃ o', iterate y (fun k => rfft N v k / (c : ℂ)) n s o = .ok o' ∧ Sound o' ∧ Same o o' ∧ o'.noise = o.noise ∧
      ∀ m, n = m + 1 → ∃ P, o'.speech = some P ∧ Passes y (fun k => rfft N v k / (c : ℂ)) N o.lpcOrder o.noise m s P := by
  induction n generalizing s o with
  | zero => exact ⟨o, rfl, hso, ⟨rfl, rfl, rfl, rfl, rfl⟩, rfl, fun m hm => by omega⟩
  | succ n ih =>
    obtain ⟨hp1, hp2, ha0, ha1, ht⟩ := ho
    obtain ⟨hn0, hnt, -⟩ := hso
    obtain ⟨a, hlpc, hal, hst⟩ := lpc_stable hs hp1 (by rw [hsl, ← hoN]; exact hp2)
    obtain ⟨g, hg, hg0⟩ := gain_pos hst o.noise (y := y) (by omega) (lt_of_lt_of_le hnt hloud)
    obtain ⟨P, hP, hPpos⟩ := psd_pos hst hg0 (N := o.frameLen) (by omega)
    have hPe : ((squaredGain a o.noise y).bind fun g2 => speechPsd a g2 o.frameLen) = some P := by
      rw [hg, Option.bind_some, hP]
    unfold iterate
    rw [hlpc]
    simp only [hPe]
    rw [filter_ok hPpos hn0]
    simp only
    have hpass : Pass y N o.lpcOrder o.noise s P := ⟨a, g, hlpc, hg, fun k => by rw [psd_some (by omega) hP hst k, hoN]⟩
    set o1 : Iw := { o with speech := some P, filt := some fun k => P k / (P k + o.noise) } with ho1
    have hs1 : Sound o1 := ⟨hn0, hnt, P, rfl, hPpos, _, rfl, fun k => rfl⟩
    have hp1' : Params o1 := ⟨hp1, hp2, ha0, ha1, ht⟩
    cases n with
    | zero =>
      refine ⟨o1, rfl, hs1, ⟨rfl, rfl, rfl, rfl, rfl⟩, rfl, fun m hm => ⟨P, rfl, ?_⟩⟩
      obtain rfl : m = 0 := by omega
      exact .last s P hpass
    | succ n =>
      have hv' : ∃ t, t < N ∧ v t ≠ 0 := by
        rcases hv with h | h
        · omega
        · exact h
      have hHpos : ∀ k, 0 < P k / (P k + o.noise) := fun k => div_pos (hPpos k) (by have := hPpos k; linarith)
      obtain ⟨t, htN, htv⟩ := filtered_ne_zero hv' hHpos hc
      have hne : ∃ k, ((List.range o.frameLen).map fun (t : Nat) => irfft o.frameLen (fun k => ((P k / (P k + o.noise) : ℝ) : ℂ) * (rfft N v k / (c : ℂ))) t).getD k 0 ≠ 0 := by
        refine ⟨t, ?_⟩
        rw [List.getD_eq_getElem _ _ (by simp; omega), List.getElem_map, List.getElem_range, hoN]
        exact htv
      obtain ⟨o', h1, h2, h3, h4, h5⟩ := ih (Or.inr hv') (s := (List.range o.frameLen).map fun (t : Nat) => irfft o.frameLen (fun k => ((P k / (P k + o.noise) : ℝ) : ℂ) * (rfft N v k / (c : ℂ))) t)
        (by simp [hoN]) hne (o := o1) hoN hp1' hs1 hloud
      refine ⟨o', h1, h2, h3, h4, fun m hm => ?_⟩
      obtain ⟨Q, hQ, hpQ⟩ := h5 n rfl
      obtain rfl : m = n + 1 := by omega
      refine ⟨Q, hQ, .more n s P Q hpass ?_⟩
      rw [hoN] at hpQ
      exact hpQ

/-- The transform given for a frame is that of a real signal, which is not zero if it is used again and again. -/
def FrameOk (o : Iw) (f : List ℝ × Option (Nat → ℂ)) (v : Nat → ℝ) : Prop :=
  f.1.length = o.frameLen ∧ f.2.getD (rfft o.frameLen fun n => f.1.getD n 0) = rfft o.frameLen v ∧
  (o.thresh ≤ variance f.1 → o.iterations ≤ 1 ∨ ∃ t, t < o.frameLen ∧ v t ≠ 0)

/-- **C99, one frame.** The object stays sound: the noise level is smoothed with the energy of the frame if this is below the threshold, and untouched otherwise. The output is the transform over the square root
of the length, times the filter, which is between zero and one. -/
theorem C99_frame {o : Iw} (ho : Params o) (hso : Sound o) {f : List ℝ × Option (Nat → ℂ)} {v : Nat → ℝ} (hf : FrameOk o f v) :
    ∃ o' P H Z, compute o f.1 f.2 = .ok (o', some Z, fun k => rfft o.frameLen v k / (Real.sqrt o.frameLen : ℂ)) ∧ Sound o' ∧ Same o o' ∧
      o'.noise = (if variance f.1 < o.thresh then o.alpha * o.noise + (1 - o.alpha) * variance f.1 else o.noise) ∧
      o'.speech = some P ∧ o'.filt = some H ∧ ∀ k, H k = P k / (P k + o'.noise) ∧ 0 < H k ∧ H k ≤ 1 ∧ Z k = H k * (rfft o.frameLen v k / (Real.sqrt o.frameLen : ℂ)) := by
  obtain ⟨hlen, hdft, hspeech⟩ := hf
  have hN : 0 < o.frameLen := by
    have := ho.2.1
    omega
  have hsq : 0 < Real.sqrt o.frameLen := Real.sqrt_pos.mpr (by exact_mod_cast hN)
  have fin : ∀ o' : Iw, Sound o' → ∃ P H, o'.speech = some P ∧ o'.filt = some H ∧ ∀ k, H k = P k / (P k + o'.noise) ∧ 0 < H k ∧ H k ≤ 1 := by
    rintro o' ⟨h0, -, P, hP, hPp, H, hH, hHv⟩
    refine ⟨P, H, hP, hH, fun k => ⟨hHv k, ?_, ?_⟩⟩
    · rw [hHv]
      exact div_pos (hPp k) (by have := hPp k; linarith)
    · rw [hHv, div_le_one (by have := hPp k; linarith)]
      linarith
  unfold compute
  rw [if_neg (by simpa using hlen)]
  simp only [hdft]
  by_cases he : variance f.1 < o.thresh
  · rw [if_pos he, if_pos he]
    obtain ⟨h0, ht, P, hP, hPp, -⟩ := hso
    have hve := variance_nonneg f.1
    have hn0 : 0 ≤ o.alpha * o.noise + (1 - o.alpha) * variance f.1 := by
      have h1 := mul_nonneg ho.2.2.1 h0
      have h2 : 0 ≤ (1 - o.alpha) * variance f.1 := mul_nonneg (by have := ho.2.2.2.1; linarith) hve
      linarith
    have hnt : o.alpha * o.noise + (1 - o.alpha) * variance f.1 < o.thresh := by
      have h1 := ho.2.2.1
      have h2 := ho.2.2.2.1
      rcases eq_or_lt_of_le h1 with h3 | h3
      · rw [← h3]
        linarith
      · nlinarith
    have hs' : Sound { o with noise := o.alpha * o.noise + (1 - o.alpha) * variance f.1, filt := wienerFilter o.speech (o.alpha * o.noise + (1 - o.alpha) * variance f.1) (o.frameLen / 2 + 1) } := by
      refine ⟨hn0, hnt, P, hP, hPp, _, ?_, fun k => rfl⟩
      simp only [hP]
      exact filter_ok hPp hn0 _
    obtain ⟨P', H, hP', hH, hall⟩ := fin _ hs'
    refine ⟨_, P', H, fun k => (H k : ℂ) * (rfft o.frameLen v k / (Real.sqrt o.frameLen : ℂ)), ?_, hs', ⟨rfl, rfl, rfl, rfl, rfl⟩, rfl, hP', hH, fun k => ⟨(hall k).1, (hall k).2.1, (hall k).2.2, rfl⟩⟩
    simp only [Except.map]
    simp only at hH
    rw [hH]
    rfl
  · rw [if_neg he, if_neg he]
    have hne : ∃ k, f.1.getD k 0 ≠ 0 := by
      by_contra hall
      push Not at hall
      have := variance_zero hall
      have := ho.2.2.2.2
      linarith
    obtain ⟨o', h1, h2, h3, h4, -⟩ := iterate_sound hlen hsq o.iterations (hspeech (not_lt.mp he)) hlen hne rfl ho hso (not_lt.mp he)
    obtain ⟨P', H, hP', hH, hall⟩ := fin _ h2
    refine ⟨o', P', H, fun k => (H k : ℂ) * (rfft o.frameLen v k / (Real.sqrt o.frameLen : ℂ)), ?_, h2, h3, h4, hP', hH, fun k => ⟨(hall k).1, (hall k).2.1, (hall k).2.2, rfl⟩⟩
    rw [h1]
    simp only [Except.map, hH]
    rfl

/-- **C99, speech frames.** With one iteration or more, the spectrum after a frame with an energy above the threshold is that of the passes over this frame. -/
theorem C99_speech {o : Iw} (ho : Params o) (hso : Sound o) {f : List ℝ × Option (Nat → ℂ)} {v : Nat → ℝ} (hf : FrameOk o f v) (hloud : o.thresh ≤ variance f.1) {m : Nat} (hm : o.iterations = m + 1) :
    ∃ o' P Z Y, compute o f.1 f.2 = .ok (o', some Z, Y) ∧ o'.speech = some P ∧
      Passes f.1 (fun k => rfft o.frameLen v k / (Real.sqrt o.frameLen : ℂ)) o.frameLen o.lpcOrder o.noise m f.1 P := by
  obtain ⟨o1, P1, H1, Z1, hc, -, -, -, hP1, -⟩ := C99_frame ho hso hf
  obtain ⟨hlen, hdft, hspeech⟩ := hf
  have hN : 0 < o.frameLen := by
    have := ho.2.1
    omega
  have hsq : 0 < Real.sqrt o.frameLen := Real.sqrt_pos.mpr (by exact_mod_cast hN)
  have hne : ∃ k, f.1.getD k 0 ≠ 0 := by
    by_contra hall
    push Not at hall
    have := variance_zero hall
    have := ho.2.2.2.2
    linarith
  obtain ⟨o', h1, -, -, -, h5⟩ := iterate_sound hlen hsq o.iterations (hspeech hloud) hlen hne rfl ho hso hloud
  obtain ⟨P, hP, hpass⟩ := h5 m hm
  refine ⟨o1, P, Z1, _, hc, ?_, hpass⟩
  unfold compute at hc
  rw [if_neg (by simpa using hlen)] at hc
  simp only [hdft] at hc
  rw [if_neg (not_lt.mpr hloud), h1] at hc
  simp only [Except.map, Except.ok.injEq, Prod.mk.injEq] at hc
  rw [← hc.1]
  exact hP

/-- **C99, lengths.** A frame of another length raises `ValueError`. -/
theorem C99_length {o : Iw} {y : List ℝ} (h : y.length ≠ o.frameLen) (d : Option (Nat → ℂ)) : compute o y d = .error .valueError := by
  unfold compute
  rw [if_pos h]

/-- The noise level after some frames: smoothed energies of those below the threshold. -/
noncomputable def noiseAfter (alpha thresh : ℝ) : List (List ℝ) → ℝ → ℝ
  | [], σ => σ
  | y :: l, σ => noiseAfter alpha thresh l (if variance y < thresh then alpha * σ + (1 - alpha) * variance y else σ)

/-- **C99, all frames.** From a new object on, for every sequence of frames: nothing raises or becomes infinite, the noise level is the smoothed energy of the quiet frames and below the threshold, and every
coefficient of every output is the one of its frame over the square root of the length, times a factor in `(0, 1]`. -/
theorem C99_frames {N p it : Nat} {alpha thresh : ℝ} (hN : N % 2 = 0) (hp1 : 1 ≤ p) (hp : p < N) (ha0 : 0 ≤ alpha) (ha1 : alpha ≤ 1) (ht : 0 < thresh) {o : Iw}
    (ho : Iw.new N p it alpha thresh = .ok o) (fs : List ((List ℝ × Option (Nat → ℂ)) × (Nat → ℝ))) (hf : ∀ f ∈ fs, FrameOk o f.1 f.2) :
    ∃ o' outs, process o (fs.map Prod.fst) = .ok (o', outs) ∧ Sound o' ∧ o'.noise = noiseAfter alpha thresh (fs.map fun f => f.1.1) 0 ∧ outs.length = fs.length ∧
      ∀ i, i < fs.length → ∃ f Z, fs[i]? = some f ∧ outs[i]? = some (some Z) ∧ ∀ k, ∃ g : ℝ, 0 < g ∧ g ≤ 1 ∧ Z k = g * (rfft N f.2 k / (Real.sqrt N : ℂ)) := by
  unfold Iw.new at ho
  rw [if_neg (by omega), if_neg (by push Not; exact ⟨ha1, ha0⟩)] at ho
  simp only [Except.ok.injEq] at ho
  have key : ∀ (fs : List ((List ℝ × Option (Nat → ℂ)) × (Nat → ℝ))) (q : Iw), Params q → Sound q → Same o q → (∀ f ∈ fs, FrameOk o f.1 f.2) →
      ∃ o' outs, process q (fs.map Prod.fst) = .ok (o', outs) ∧ Sound o' ∧ o'.noise = noiseAfter o.alpha o.thresh (fs.map fun f => f.1.1) q.noise ∧ outs.length = fs.length ∧
        ∀ i, i < fs.length → ∃ f Z, fs[i]? = some f ∧ outs[i]? = some (some Z) ∧ ∀ k, ∃ g : ℝ, 0 < g ∧ g ≤ 1 ∧ Z k = g * (rfft o.frameLen f.2 k / (Real.sqrt o.frameLen : ℂ)) := by
    intro fs
    induction fs with
    | nil => intro q _ hq _ _; exact ⟨q, [], rfl, hq, rfl, rfl, fun i hi => by simp at hi⟩
    | cons f fs ih =>
      intro q hq hqs hsame hall
      obtain ⟨e1, e2, e3, e4, e5⟩ := hsame
      have hfq : FrameOk q f.1 f.2 := by
        have := hall f (by simp)
        unfold FrameOk at this ⊢
        rw [e1, e3, e5]
        exact this
      obtain ⟨q', P, H, Z, hc, hs', hsm, hn, -, -, hZ⟩ := C99_frame hq hqs hfq
      obtain ⟨g1, g2, g3, g4, g5⟩ := hsm
      have hq' : Params q' := by
        unfold Params at hq ⊢
        rw [g1, g2, g4, g5]
        exact hq
      obtain ⟨o', outs, hp, h1, h2, h3, h4⟩ := ih q' hq' hs' ⟨g1.trans e1, g2.trans e2, g3.trans e3, g4.trans e4, g5.trans e5⟩ (fun f hf => hall f (List.mem_cons_of_mem _ hf))
      refine ⟨o', some Z :: outs, ?_, h1, ?_, by simp [h3], ?_⟩
      · simp only [List.map_cons, process]
        rw [hc]
        simp only
        rw [hp]
        rfl
      · rw [h2, hn, e4, e5]
        rfl
      · intro i hi
        cases i with
        | zero =>
          refine ⟨f, Z, rfl, rfl, fun k => ⟨H k, (hZ k).2.1, (hZ k).2.2.1, ?_⟩⟩
          rw [(hZ k).2.2.2, e1]
        | succ i => exact h4 i (by simpa using hi)
  have h0 : Params o ∧ Sound o ∧ o.alpha = alpha ∧ o.thresh = thresh ∧ o.frameLen = N ∧ o.noise = 0 := by
    subst ho
    exact ⟨⟨hp1, hp, ha0, ha1, ht⟩, ⟨le_refl _, ht, fun _ => 1, rfl, fun _ => one_pos, fun _ => 1, rfl, fun k => by simp⟩, rfl, rfl, rfl, rfl⟩
  obtain ⟨k1, k2, k3, k4, k5, k6⟩ := h0
  obtain ⟨o', outs, h1, h2, h3, h4, h5⟩ := key fs o k1 k2 ⟨rfl, rfl, rfl, rfl, rfl⟩ hf
  rw [k3, k4, k6] at h3
  rw [k5] at h5
  exact ⟨o', outs, h1, h2, h3, h4, h5⟩

/-- **C99, optimality.** The factor of the filter minimises the expected error of a component with power `P` in noise of power `σ²`. -/
theorem C99_optimal {P σ2 : ℝ} (hP : 0 < P) (hs : 0 ≤ σ2) {H : Nat → ℝ} {bins : Nat} (hH : wienerFilter (some fun _ => P) σ2 bins = some H) (k : Nat) (h : ℝ) :
    P * (1 - H k) ^ 2 + σ2 * H k ^ 2 ≤ P * (1 - h) ^ 2 + σ2 * h ^ 2 := by
  rw [filter_ok (fun _ => hP) hs] at hH
  cases hH
  simp only
  have hD : P + σ2 ≠ 0 := by linarith
  have : P * (1 - h) ^ 2 + σ2 * h ^ 2 = P * (1 - P / (P + σ2)) ^ 2 + σ2 * (P / (P + σ2)) ^ 2 + (P + σ2) * (h - P / (P + σ2)) ^ 2 := by
    field_simp
    ring
  rw [this]
  have : 0 ≤ (P + σ2) * (h - P / (P + σ2)) ^ 2 := mul_nonneg (by linarith) (sq_nonneg _)
  linarith

/-- **C99, constructor.** Odd lengths and smoothing factors outside of the unit interval raise `ValueError`. -/
theorem C99_refused (N p it : Nat) (alpha thresh : ℝ) (h : N % 2 = 1 ∨ alpha < 0 ∨ 1 < alpha) : Iw.new N p it alpha thresh = .error .valueError := by
  unfold Iw.new
  by_cases h1 : N % 2 ≠ 0
  · rw [if_pos h1]
  · rw [if_neg h1, if_pos]
    rcases h with h | h | h
    · omega
    · exact Or.inr h
    · exact Or.inl h

/-- **C99, deviation.** Without noise the frame should pass unchanged. It comes out, and the array of its transform stays, divided by the square root of its length. -/
theorem C99_scale_deviation {o : Iw} (ho : Params o) (hso : Sound o) (hn : o.noise = 0) {f : List ℝ × Option (Nat → ℂ)} {v : Nat → ℝ} (hf : FrameOk o f v) (hloud : o.thresh ≤ variance f.1) :
    ∃ o' Z, compute o f.1 f.2 = .ok (o', some Z, fun k => rfft o.frameLen v k / (Real.sqrt o.frameLen : ℂ)) ∧
      ∀ n, n < o.frameLen → irfft o.frameLen Z n = v n / Real.sqrt o.frameLen := by
  obtain ⟨o', P, H, Z, hc, ⟨-, -, P2, hP2, hPp, -⟩, -, hno, hP, -, hZ⟩ := C99_frame ho hso hf
  rw [if_neg (not_lt.mpr hloud), hn] at hno
  refine ⟨o', Z, hc, fun n hnN => ?_⟩
  have hZe : Z = fun k => rfft o.frameLen (fun n => v n / Real.sqrt o.frameLen) k := by
    funext k
    obtain ⟨h1, h2, -, h4⟩ := hZ k
    rw [hno, add_zero] at h1
    have hPk : P k ≠ 0 := by
      intro hc
      rw [hc, zero_div] at h1
      linarith
    rw [h4, h1, div_self hPk]
    unfold rfft dft
    rw [Complex.ofReal_one, one_mul, Finset.sum_div]
    apply Finset.sum_congr rfl
    intro m _
    push_cast
    ring
  rw [hZe, irfft_rfft _ hnN]

/-- **C99, deviation.** If the transform given is zero although the frame is not (as when the window hides all of it), two iterations or more give not-a-number. -/
theorem C99_hidden_frame_deviation {o : Iw} (ho : Params o) (hso : Sound o) (hit : 2 ≤ o.iterations) {y : List ℝ} (hlen : y.length = o.frameLen) (hloud : o.thresh ≤ variance y) :
    ∃ o' Y, compute o y (some fun _ => 0) = .ok (o', none, Y) ∧ o'.speech = none := by
  have hne : ∃ k, y.getD k 0 ≠ 0 := by
    by_contra hall
    push Not at hall
    have := variance_zero hall
    have := ho.2.2.2.2
    linarith
  obtain ⟨n, hn⟩ : ∃ n, o.iterations = n + 2 := ⟨o.iterations - 2, by omega⟩
  obtain ⟨hp1, hp2, -, -, ht⟩ := ho
  obtain ⟨hn0, hnt, -⟩ := hso
  obtain ⟨a, hlpc, hal, hst⟩ := lpc_stable hne hp1 (by rw [hlen]; exact hp2)
  obtain ⟨g, hg, hg0⟩ := gain_pos hst o.noise (y := y) (by omega) (lt_of_lt_of_le hnt hloud)
  obtain ⟨P, hP, hPpos⟩ := psd_pos hst hg0 (N := o.frameLen) (by omega)
  have hPe : ((squaredGain a o.noise y).bind fun g2 => speechPsd a g2 o.frameLen) = some P := by
    rw [hg, Option.bind_some, hP]
  unfold compute
  rw [if_neg (by simpa using hlen)]
  simp only [Option.getD_some]
  rw [if_neg (not_lt.mpr hloud), hn]
  unfold iterate
  rw [hlpc]
  simp only [hPe]
  rw [filter_ok hPpos hn0]
  simp only
  unfold iterate
  have hz : lpc ((List.range o.frameLen).map fun (t : Nat) => irfft o.frameLen (fun k => ((P k / (P k + o.noise) : ℝ) : ℂ) * (0 / (Real.sqrt o.frameLen : ℂ))) t) o.lpcOrder true = .ok none := by
    apply (C63_zero_deviation _ _ hp1 (by simpa using hp2)).1
    intro k
    rcases Nat.lt_or_ge k o.frameLen with h | h
    · rw [List.getD_eq_getElem _ _ (by simpa using h), List.getElem_map]
      simp [irfft, idft, hermExt]
    · rw [List.getD_eq_default _ _ (by simpa using h)]
  rw [hz]
  exact ⟨_, _, rfl, rfl⟩

/-- A new object with frames of four samples. -/
example : ∃ o, Iw.new 4 2 2 0.8 0.01 = .ok o ∧ Params o ∧ Sound o ∧ FrameOk o ([1, 0, -1, 0], none) (fun n => [1, 0, -1, 0].getD n 0) ∧ o.thresh ≤ variance [1, 0, -1, 0] := by
  refine ⟨⟨4, 2, 2, 0.8, 0.01, some fun _ => 1, 0, some fun _ => 1⟩, ?_, ⟨by norm_num, by norm_num, by norm_num, by norm_num, by norm_num⟩,
    ⟨le_refl _, by norm_num, fun _ => 1, rfl, fun _ => one_pos, fun _ => 1, rfl, fun k => by simp⟩, ⟨rfl, rfl, fun _ => Or.inr ⟨0, by norm_num, by simp⟩⟩, by norm_num [variance]⟩
  unfold Iw.new
  norm_num

end Verif.Wiener
