import Mathlib.Analysis.SpecialFunctions.Complex.Log
import Mathlib.Algebra.BigOperators.Intervals
import Mathlib.Algebra.Field.GeomSum
import Mathlib.Tactic.Ring
import Mathlib.Tactic.Linarith
import Mathlib.Tactic.FieldSimp

/-!
# Discrete Fourier transform

Mathematical definition of the transforms of `numpy.fft` (`fft`, `ifft`, `rfft`, `irfft`)
used by the models, and the facts about them that the proofs need. Signals are functions
of the sample index of which only the first `N` values matter.
-/

namespace Verif.DFT

open Finset

/-- `exp(2πi m / N)`. -/
noncomputable def tw (N : Nat) (m : Int) : ℂ := Complex.exp (2 * Real.pi * Complex.I * (m : ℂ) / (N : ℂ))

theorem tw_zero (N : Nat) : tw N 0 = 1 := by simp [tw]

theorem tw_add (N : Nat) (a b : Int) : tw N (a + b) = tw N a * tw N b := by
  unfold tw
  rw [← Complex.exp_add]
  congr 1
  push_cast; ring

theorem tw_mul_nat (N : Nat) (a : Int) (k : Nat) : tw N (a * k) = tw N a ^ k := by
  induction k with
  | zero => simp [tw_zero]
  | succ k ih =>
    rw [pow_succ, ← ih, ← tw_add]; congr 1; push_cast; ring

theorem tw_eq_one {N : Nat} (hN : 0 < N) (m : Int) : tw N m = 1 ↔ (N : Int) ∣ m := by
  unfold tw
  rw [Complex.exp_eq_one_iff]
  have hN0 : (N : ℂ) ≠ 0 := by exact_mod_cast hN.ne'
  have hpi : (2 * Real.pi * Complex.I : ℂ) ≠ 0 := by
    simp [Real.pi_ne_zero, Complex.I_ne_zero]
  constructor
  · rintro ⟨n, hn⟩
    refine ⟨n, ?_⟩
    have h1 : (2 * Real.pi * Complex.I : ℂ) * ((m : ℂ) / N) = (2 * Real.pi * Complex.I) * n := by
      rw [← mul_div_assoc, hn]; ring
    have h2 := mul_left_cancel₀ hpi h1
    rw [div_eq_iff hN0] at h2
    have h3 : (m : ℂ) = ((N * n : Int) : ℂ) := by rw [h2]; push_cast; ring
    exact_mod_cast h3
  · rintro ⟨n, rfl⟩
    refine ⟨n, ?_⟩
    push_cast
    field_simp

theorem tw_dvd {N : Nat} (hN : 0 < N) {m : Int} (h : (N : Int) ∣ m) : tw N m = 1 := (tw_eq_one hN m).mpr h

theorem tw_conj (N : Nat) (m : Int) : (starRingEnd ℂ) (tw N m) = tw N (-m) := by
  unfold tw
  rw [← Complex.exp_conj]
  congr 1
  have h2 : (starRingEnd ℂ) 2 = 2 := by
    rw [show (2 : ℂ) = ((2 : ℝ) : ℂ) by norm_num, Complex.conj_ofReal]
  simp [map_div₀, h2]

/-- Sum of the powers of a root of unity. -/
theorem sum_tw {N : Nat} (hN : 0 < N) (m : Int) :
    ∑ k ∈ range N, tw N (m * k) = if (N : Int) ∣ m then (N : ℂ) else 0 := by
  simp only [tw_mul_nat]
  by_cases h : (N : Int) ∣ m
  · rw [if_pos h, tw_dvd hN h]; simp
  · rw [if_neg h]
    have hne : tw N m ≠ 1 := fun hh => h ((tw_eq_one hN m).mp hh)
    rw [geom_sum_eq hne, ← tw_mul_nat, tw_dvd hN ⟨m, by ring⟩]
    simp

/-- `numpy.fft.fft` of length `N`. -/
noncomputable def dft (N : Nat) (x : Nat → ℂ) (k : Nat) : ℂ := ∑ n ∈ range N, x n * tw N (-((n : Int) * k))

/-- `numpy.fft.ifft` of length `N`. -/
noncomputable def idft (N : Nat) (X : Nat → ℂ) (n : Nat) : ℂ :=
  (∑ k ∈ range N, X k * tw N ((n : Int) * k)) / (N : ℂ)

theorem idft_dft {N : Nat} (x : Nat → ℂ) {n : Nat} (hn : n < N) : idft N (dft N x) n = x n := by
  have hN : 0 < N := by omega
  have hN0 : (N : ℂ) ≠ 0 := by exact_mod_cast hN.ne'
  unfold idft dft
  rw [div_eq_iff hN0]
  simp only [Finset.sum_mul]
  rw [Finset.sum_comm]
  have : ∀ m ∈ range N, ∑ k ∈ range N, x m * tw N (-((m : Int) * k)) * tw N ((n : Int) * k) =
      if m = n then x n * N else 0 := by
    intro m hm
    have hm' := mem_range.mp hm
    have h1 : ∀ k ∈ range N, x m * tw N (-((m : Int) * k)) * tw N ((n : Int) * k) =
        x m * tw N (((n : Int) - m) * k) := by
      intro k _
      rw [mul_assoc, ← tw_add]; congr 2; ring
    rw [sum_congr rfl h1, ← mul_sum, sum_tw hN]
    by_cases h : m = n
    · subst h; simp
    · rw [if_neg h, if_neg, mul_zero]
      intro hd
      have := Int.eq_zero_of_abs_lt_dvd hd (by rw [abs_lt]; omega)
      omega
  rw [sum_congr rfl this, sum_ite_eq' (range N) n, if_pos (mem_range.mpr hn)]

/-- Convolution theorem: the inverse transform of a product is the circular convolution. -/
theorem idft_mul {N : Nat} (x h : Nat → ℂ) {n : Nat} (hn : n < N) :
    idft N (fun k => dft N x k * dft N h k) n =
      ∑ a ∈ range N, ∑ b ∈ range N, if (a + b) % N = n then x a * h b else 0 := by
  have hN : 0 < N := by omega
  have hN0 : (N : ℂ) ≠ 0 := by exact_mod_cast hN.ne'
  unfold idft dft
  rw [div_eq_iff hN0]
  simp only [Finset.sum_mul, Finset.mul_sum]
  rw [Finset.sum_comm]
  have swap : ∀ a ∈ range N, (∑ k ∈ range N, ∑ i ∈ range N,
      x i * tw N (-((i : Int) * k)) * (h a * tw N (-((a : Int) * k))) * tw N ((n : Int) * k)) =
      ∑ i ∈ range N, if (i + a) % N = n then x i * h a * N else 0 := by
    intro a ha
    rw [Finset.sum_comm]
    apply sum_congr rfl
    intro i hi
    have h1 : ∀ k ∈ range N, x i * tw N (-((i : Int) * k)) * (h a * tw N (-((a : Int) * k))) *
        tw N ((n : Int) * k) = x i * h a * tw N (((n : Int) - i - a) * k) := by
      intro k _
      have : tw N (((n : Int) - i - a) * k) = tw N (-((i : Int) * k)) * tw N (-((a : Int) * k)) *
          tw N ((n : Int) * k) := by
        rw [← tw_add, ← tw_add]; congr 1; ring
      rw [this]; ring
    rw [sum_congr rfl h1, ← mul_sum, sum_tw hN]
    by_cases hd : (i + a) % N = n
    · rw [if_pos hd, if_pos]
      refine ⟨-(((i + a) / N : Nat) : Int), ?_⟩
      have := Nat.div_add_mod (i + a) N
      rw [hd] at this
      have h2 : ((N : Int) * (((i + a) / N : Nat) : Int) + n) = (i : Int) + a := by exact_mod_cast this
      linarith
    · rw [if_neg hd, if_neg, mul_zero]
      rintro ⟨q, hq⟩
      apply hd
      have h2 : ((i + a : Nat) : Int) % (N : Int) = (n : Int) := by
        have : ((i + a : Nat) : Int) = (n : Int) + (N : Int) * (-q) := by push_cast; linarith
        rw [this, Int.add_mul_emod_self_left]
        exact Int.emod_eq_of_lt (by omega) (by omega)
      have h3 : (((i + a) % N : Nat) : Int) = (n : Int) := by rw [Int.natCast_mod]; exact h2
      exact_mod_cast h3
  rw [sum_congr rfl swap, Finset.sum_comm]
  apply sum_congr rfl
  intro a _
  apply sum_congr rfl
  intro b _
  rw [ite_mul, zero_mul]

/-- The transform of a real signal is Hermitian. -/
theorem dft_conj {N : Nat} (hN : 0 < N) (x : Nat → ℝ) {k : Nat} (hk : k ≤ N) :
    (starRingEnd ℂ) (dft N (fun n => (x n : ℂ)) (N - k)) = dft N (fun n => (x n : ℂ)) k := by
  unfold dft
  rw [map_sum]
  apply sum_congr rfl
  intro n _
  rw [map_mul, Complex.conj_ofReal, tw_conj]
  congr 1
  rw [neg_neg, Nat.cast_sub hk]
  have : (n : Int) * ((N : Int) - k) = -((n : Int) * k) + (N : Int) * n := by ring
  rw [this, tw_add, tw_dvd hN (Int.dvd_mul_right _ _), mul_one]

/-- `numpy.fft.rfft(x, N)`: the first `N/2+1` coefficients. Values at other indices are
never used. -/
noncomputable def rfft (N : Nat) (x : Nat → ℝ) (k : Nat) : ℂ := dft N (fun n => (x n : ℂ)) k

/-- Hermitian extension of `N/2+1` coefficients. -/
noncomputable def hermExt (N : Nat) (X : Nat → ℂ) (k : Nat) : ℂ :=
  if k ≤ N / 2 then X k else (starRingEnd ℂ) (X (N - k))

/-- `numpy.fft.irfft(X, N)` of `N/2+1` coefficients. (The imaginary parts of the
coefficients at zero and, for even `N`, at `N/2` are ignored.) -/
noncomputable def irfft (N : Nat) (X : Nat → ℂ) (n : Nat) : ℝ := (idft N (hermExt N X) n).re

theorem idft_congr {N : Nat} {X Y : Nat → ℂ} (h : ∀ k, k < N → X k = Y k) (n : Nat) : idft N X n = idft N Y n := by
  unfold idft
  rw [sum_congr rfl (fun k hk => by rw [h k (mem_range.mp hk)])]

theorem dft_congr {N : Nat} {x y : Nat → ℂ} (h : ∀ k, k < N → x k = y k) (n : Nat) : dft N x n = dft N y n := by
  unfold dft
  rw [sum_congr rfl (fun k hk => by rw [h k (mem_range.mp hk)])]

theorem rfft_congr {N : Nat} {x y : Nat → ℝ} (h : ∀ k, k < N → x k = y k) : rfft N x = rfft N y := by
  funext k
  exact dft_congr (fun n hn => by rw [h n hn]) k

theorem hermExt_rfft {N : Nat} (x : Nat → ℝ) {k : Nat} (hk : k < N) :
    hermExt N (rfft N x) k = dft N (fun n => (x n : ℂ)) k := by
  unfold hermExt rfft
  split
  · rfl
  · exact dft_conj (by omega) x hk.le

theorem irfft_rfft {N : Nat} (x : Nat → ℝ) {n : Nat} (hn : n < N) : irfft N (rfft N x) n = x n := by
  unfold irfft
  rw [idft_congr (fun k hk => hermExt_rfft x hk), idft_dft _ hn]
  simp

theorem irfft_mul {N : Nat} (x h : Nat → ℝ) {n : Nat} (hn : n < N) :
    irfft N (fun k => rfft N x k * rfft N h k) n =
      ∑ a ∈ range N, ∑ b ∈ range N, if (a + b) % N = n then x a * h b else 0 := by
  unfold irfft
  have : ∀ k, k < N → hermExt N (fun k => rfft N x k * rfft N h k) k =
      dft N (fun n => (x n : ℂ)) k * dft N (fun n => (h n : ℂ)) k := by
    intro k hk
    rw [← hermExt_rfft x hk, ← hermExt_rfft h hk]
    unfold hermExt
    split
    · rfl
    · rw [map_mul]
  rw [idft_congr this, idft_mul _ _ hn]
  simp only [Complex.re_sum]
  apply sum_congr rfl
  intro a _
  apply sum_congr rfl
  intro b _
  split
  · rw [← Complex.ofReal_mul, Complex.ofReal_re]
  · rfl

end Verif.DFT
