import Verif.LinPred.Props
import Mathlib.Algebra.Polynomial.Div
import Mathlib.Algebra.Polynomial.Roots
import Mathlib.Analysis.Complex.Basic
import Mathlib.Tactic.Linarith
import Mathlib.Tactic.LinearCombination

/-!
# The prediction filter of `lpc` is minimum phase

The zeros of `1 - a₁ w - … - aₚ wᵖ` are outside of the closed unit disc, for every signal that is not zero.
-/

namespace Verif.LinPred

open Verif.Py Finset
open Verif.Sync (at0 at0_natCast at0_neg)

/-- A sequence delayed by one. -/
def delayed (u : Nat → ℂ) : Nat → ℂ
  | 0 => 0
  | n + 1 => u n

/-- If no other number predicts a finite sequence better from its delayed copy, the number is inside of the unit circle. -/
theorem predictor_lt_one {M : Nat} {u : Nat → ℂ} (hu : ∀ n, M ≤ n + 1 → u n = 0) (hne : ∃ n, u n ≠ 0) {ζ : ℂ}
    (hmin : ∀ ξ : ℂ, ∑ n ∈ range M, Complex.normSq (u n - ζ * delayed u n) ≤ ∑ n ∈ range M, Complex.normSq (u n - ξ * delayed u n)) : ‖ζ‖ < 1 := by
  set S : ℝ := ∑ n ∈ range M, Complex.normSq (u n) with hS
  set c : ℂ := ∑ n ∈ range M, u n * (starRingEnd ℂ) (delayed u n) with hc
  obtain ⟨n0, hn0⟩ := hne
  have hn0M : n0 + 1 < M := by
    by_contra h
    exact hn0 (hu n0 (by omega))
  have hSpos : 0 < S := by
    apply Finset.sum_pos' (fun n _ => Complex.normSq_nonneg _)
    exact ⟨n0, mem_range.mpr (by omega), Complex.normSq_pos.mpr hn0⟩
  have hS' : ∑ n ∈ range M, Complex.normSq (delayed u n) = S := by
    obtain ⟨m, rfl⟩ : ∃ m, M = m + 1 := ⟨M - 1, by omega⟩
    rw [Finset.sum_range_succ', hS, Finset.sum_range_succ, hu m (by omega)]
    simp [delayed]
  have hD : ∀ ξ : ℂ, ∑ n ∈ range M, Complex.normSq (u n - ξ * delayed u n) = S + Complex.normSq ξ * S - 2 * (c * (starRingEnd ℂ) ξ).re := by
    intro ξ
    have h1 : ∀ n ∈ range M, Complex.normSq (u n - ξ * delayed u n) =
        Complex.normSq (u n) + Complex.normSq ξ * Complex.normSq (delayed u n) - 2 * (u n * (starRingEnd ℂ) (delayed u n) * (starRingEnd ℂ) ξ).re := by
      intro n _
      rw [Complex.normSq_sub, Complex.normSq_mul, map_mul]
      congr 3
      ring
    rw [Finset.sum_congr rfl h1, Finset.sum_sub_distrib, Finset.sum_add_distrib, ← Finset.mul_sum, hS', ← Finset.mul_sum, hc, Finset.sum_mul, Complex.re_sum]
  have hζ : ζ * S = c := by
    have h1 := hmin (c / S)
    rw [hD, hD] at h1
    have hSc : (S : ℂ) ≠ 0 := by exact_mod_cast hSpos.ne'
    have h2 : Complex.normSq (ζ * S - c) = Complex.normSq ζ * S ^ 2 + Complex.normSq c - 2 * S * (c * (starRingEnd ℂ) ζ).re := by
      rw [Complex.normSq_sub, Complex.normSq_mul, Complex.normSq_ofReal]
      have : (ζ * (S : ℂ) * (starRingEnd ℂ) c).re = S * (c * (starRingEnd ℂ) ζ).re := by
        simp [Complex.mul_re, Complex.mul_im]
        ring
      rw [this]
      ring
    have h3 : Complex.normSq (c / S) = Complex.normSq c / S ^ 2 := by
      rw [Complex.normSq_div, Complex.normSq_ofReal, sq]
    have h4 : (c * (starRingEnd ℂ) (c / S)).re = Complex.normSq c / S := by
      rw [map_div₀, Complex.conj_ofReal, ← mul_div_assoc, Complex.mul_conj, ← Complex.ofReal_div, Complex.ofReal_re]
    rw [h3, h4] at h1
    have h5 : Complex.normSq c / S ^ 2 * S = Complex.normSq c / S := by
      field_simp
    rw [h5] at h1
    have h6 : S * (Complex.normSq c / S) = Complex.normSq c := by
      field_simp
    have h7 : Complex.normSq (ζ * S - c) ≤ 0 := by
      rw [h2]
      nlinarith
    exact sub_eq_zero.mp (Complex.normSq_eq_zero.mp (le_antisymm h7 (Complex.normSq_nonneg _)))
  have hcS : ‖c‖ < S := by
    by_cases hc0 : c = 0
    · rw [hc0, norm_zero]
      exact hSpos
    · have hcn : (0 : ℝ) < ‖c‖ := norm_pos_iff.mpr hc0
      set e : ℂ := c / (‖c‖ : ℂ) with he
      have hcn' : ((‖c‖ : ℝ) : ℂ) ≠ 0 := by exact_mod_cast hcn.ne'
      have he1 : Complex.normSq e = 1 := by
        rw [he, Complex.normSq_div, Complex.normSq_ofReal, Complex.normSq_eq_norm_sq]
        field_simp
      have hce : (c * (starRingEnd ℂ) e).re = ‖c‖ := by
        rw [he, map_div₀, Complex.conj_ofReal, ← mul_div_assoc, Complex.mul_conj, ← Complex.ofReal_div, Complex.ofReal_re, Complex.normSq_eq_norm_sq]
        field_simp
      have hpos : 0 < ∑ n ∈ range M, Complex.normSq (u n - e * delayed u n) := by
        by_contra hle
        have hz : ∑ n ∈ range M, Complex.normSq (u n - e * delayed u n) = 0 :=
          le_antisymm (not_lt.mp hle) (Finset.sum_nonneg fun n _ => Complex.normSq_nonneg _)
        rw [Finset.sum_eq_zero_iff_of_nonneg (fun n _ => Complex.normSq_nonneg _)] at hz
        have hall : ∀ n, n < M → u n = 0 := by
          intro n
          induction n with
          | zero =>
            intro h
            have := Complex.normSq_eq_zero.mp (hz 0 (mem_range.mpr h))
            simpa [delayed] using this
          | succ n ih =>
            intro h
            have := Complex.normSq_eq_zero.mp (hz (n + 1) (mem_range.mpr h))
            simpa [delayed, ih (by omega)] using this
        exact hn0 (hall n0 (by omega))
      rw [hD, he1, hce] at hpos
      linarith
  have hn : ‖ζ‖ * S = ‖c‖ := by
    rw [← hζ, norm_mul, Complex.norm_real, Real.norm_eq_abs, abs_of_pos hSpos]
  by_contra h
  push Not at h
  nlinarith

open Polynomial in
/-- Real coefficients that predict best also do so among complex ones. -/
theorem complex_min (x : List ℝ) {p : Nat} {a : Nat → ℝ} (ha : ∀ c : Nat → ℝ, predErr x p a ≤ predErr x p c) (c : Nat → ℂ) :
    predErr x p a ≤ ∑ n ∈ range (x.length + p), Complex.normSq ((at0 x n : ℂ) - ∑ k ∈ range p, c k * (at0 x ((n : Int) - 1 - k) : ℂ)) := by
  refine (ha fun k => (c k).re).trans ?_
  unfold predErr
  apply Finset.sum_le_sum
  intro n _
  have hre : ((at0 x n : ℂ) - ∑ k ∈ range p, c k * (at0 x ((n : Int) - 1 - k) : ℂ)).re = at0 x n - ∑ k ∈ range p, (c k).re * at0 x ((n : Int) - 1 - k) := by
    rw [Complex.sub_re, Complex.ofReal_re, Complex.re_sum]
    congr 1
    apply Finset.sum_congr rfl
    intro k _
    rw [Complex.re_mul_ofReal]
  rw [Complex.normSq_apply, hre]
  nlinarith [mul_self_nonneg ((at0 x n : ℂ) - ∑ k ∈ range p, c k * (at0 x ((n : Int) - 1 - k) : ℂ)).im]

section
open Polynomial

/-- The signal as a polynomial. -/
noncomputable def sig (x : List ℝ) : ℂ[X] := ∑ n ∈ range x.length, C (x.getD n 0 : ℂ) * X ^ n

/-- The prediction error filter. -/
noncomputable def errPoly (p : Nat) (c : Nat → ℂ) : ℂ[X] := 1 - ∑ k ∈ range p, C (c k) * X ^ (k + 1)

theorem sig_coeff (x : List ℝ) (n : Nat) : (sig x).coeff n = (x.getD n 0 : ℂ) := by
  unfold sig
  rw [finsetSum_coeff]
  simp only [coeff_C_mul, coeff_X_pow]
  rcases Nat.lt_or_ge n x.length with h | h
  · rw [Finset.sum_eq_single n]
    · simp
    · intro b _ hb
      rw [if_neg (Ne.symm hb), mul_zero]
    · intro hn
      exact absurd (mem_range.mpr h) hn
  · rw [List.getD_eq_default x 0 h]
    apply Finset.sum_eq_zero
    intro b hb
    rw [if_neg (by have := mem_range.mp hb; omega), mul_zero]

theorem sig_mul_err (x : List ℝ) (p : Nat) (c : Nat → ℂ) (n : Nat) :
    (sig x * errPoly p c).coeff n = (at0 x n : ℂ) - ∑ k ∈ range p, c k * (at0 x ((n : Int) - 1 - k) : ℂ) := by
  unfold errPoly
  rw [mul_sub, mul_one, coeff_sub, sig_coeff, at0_natCast, Finset.mul_sum, finsetSum_coeff]
  congr 1
  apply Finset.sum_congr rfl
  intro k _
  rw [← mul_assoc, coeff_mul_X_pow']
  split
  · rename_i h
    rw [coeff_mul_C, sig_coeff, mul_comm, show (n : Int) - 1 - k = ((n - (k + 1) : Nat) : Int) by omega, at0_natCast]
  · rw [at0_neg x (by omega)]
    simp

theorem errPoly_coeff (p : Nat) (c : Nat → ℂ) (n : Nat) : (errPoly p c).coeff n = if n = 0 then 1 else if n ≤ p then -c (n - 1) else 0 := by
  unfold errPoly
  rw [coeff_sub, coeff_one, finsetSum_coeff]
  simp only [coeff_C_mul, coeff_X_pow]
  cases n with
  | zero =>
    simp
  | succ n =>
    simp only [Nat.add_right_cancel_iff, Nat.succ_ne_zero, if_false, Nat.add_sub_cancel, zero_sub]
    by_cases h : n + 1 ≤ p
    · rw [if_pos h, Finset.sum_eq_single n]
      · simp
      · intro b _ hb
        rw [if_neg (Ne.symm hb), mul_zero]
      · intro hn
        exact absurd (mem_range.mpr (by omega)) hn
    · rw [if_neg h, neg_eq_zero]
      apply Finset.sum_eq_zero
      intro b hb
      rw [if_neg (by have := mem_range.mp hb; omega), mul_zero]

theorem errPoly_eval (p : Nat) (c : Nat → ℂ) (w : ℂ) : (errPoly p c).eval w = 1 - ∑ k ∈ range p, c k * w ^ (k + 1) := by
  unfold errPoly
  simp [eval_finsetSum]

/-- Filters of degree `p` with the constant coefficient one are prediction error filters. -/
theorem errPoly_of (p : Nat) (P : ℂ[X]) (h0 : P.coeff 0 = 1) (hd : ∀ n, p < n → P.coeff n = 0) : P = errPoly p fun k => -P.coeff (k + 1) := by
  ext n
  rw [errPoly_coeff]
  cases n with
  | zero => simp [h0]
  | succ n =>
    rw [if_neg (by omega)]
    split
    · simp
    · exact hd _ (by omega)

/-- Best prediction gives a minimum phase filter. -/
theorem min_phase (x : List ℝ) (hx : ∃ k, x.getD k 0 ≠ 0) {p : Nat} {a : Nat → ℝ} (ha : ∀ c : Nat → ℝ, predErr x p a ≤ predErr x p c) {w : ℂ} (hw : ‖w‖ ≤ 1) :
    1 - ∑ k ∈ range p, (a k : ℂ) * w ^ (k + 1) ≠ 0 := by
  intro hroot
  set A := errPoly p fun k => (a k : ℂ) with hA
  have hA0 : A.coeff 0 = 1 := by rw [hA, errPoly_coeff, if_pos rfl]
  have hAd : ∀ n, p < n → A.coeff n = 0 := fun n hn => by rw [hA, errPoly_coeff, if_neg (by omega), if_neg (by omega)]
  have hAr : A.IsRoot w := by
    rw [IsRoot.def, hA, errPoly_eval]
    exact hroot
  have hw0 : w ≠ 0 := by
    rintro rfl
    rw [IsRoot.def, ← coeff_zero_eq_eval_zero, hA0] at hAr
    exact one_ne_zero hAr
  obtain ⟨Q, hQ⟩ := dvd_iff_isRoot.mpr hAr
  set B : ℂ[X] := C (-w) * Q with hB
  set ζ : ℂ := w⁻¹ with hζ
  have hfac : ∀ ξ : ℂ, ∀ n, ((1 - C ξ * X) * B).coeff n = B.coeff n - ξ * delayed B.coeff n := by
    intro ξ n
    rw [sub_mul, one_mul, coeff_sub, mul_assoc]
    congr 1
    rw [coeff_C_mul]
    congr 1
    cases n with
    | zero => simp [delayed]
    | succ n => rw [coeff_X_mul]; rfl
  have hAB : A = (1 - C ζ * X) * B := by
    rw [hQ, hB]
    have : (1 - C ζ * X) * (C (-w) * Q) = (C (-w) - C (ζ * -w) * X) * Q := by
      rw [C_mul]
      ring
    rw [this, hζ, mul_neg, inv_mul_cancel₀ hw0, C_neg, C_neg, C_1]
    ring
  have hB0 : B.coeff 0 = 1 := by
    have := hfac ζ 0
    rw [← hAB, hA0] at this
    simpa [delayed] using this.symm
  have hBd : ∀ n, p ≤ n → B.coeff n = 0 := by
    have hA1 : A ≠ 0 := by
      intro h
      rw [h] at hA0
      simp at hA0
    have hnd : A.natDegree ≤ p := natDegree_le_iff_coeff_eq_zero.mpr fun n hn => hAd n hn
    have hQ0 : Q ≠ 0 := by
      rintro rfl
      rw [mul_zero] at hQ
      exact hA1 hQ
    have hQd : Q.natDegree + 1 ≤ p := by
      have := natDegree_mul (X_sub_C_ne_zero w) hQ0
      rw [← hQ, natDegree_X_sub_C] at this
      omega
    intro n hn
    rw [hB, coeff_C_mul, coeff_eq_zero_of_natDegree_lt (by omega), mul_zero]
  have hp : 1 ≤ p := by
    by_contra h
    have := hBd 0 (by omega)
    rw [hB0] at this
    exact one_ne_zero this
  -- the signal filtered with the remaining factor
  set U := sig x * B with hU
  have hL : 1 ≤ x.length := by
    obtain ⟨k, hk⟩ := hx
    by_contra h
    exact hk (List.getD_eq_default x 0 (by omega))
  have hUd : ∀ n, x.length + p ≤ n + 1 → U.coeff n = 0 := by
    intro n hn
    rw [hU, coeff_mul]
    apply Finset.sum_eq_zero
    intro ij hij
    have := Finset.mem_antidiagonal.mp hij
    rcases Nat.lt_or_ge ij.1 x.length with h | h
    · rw [hBd ij.2 (by omega), mul_zero]
    · rw [sig_coeff, List.getD_eq_default x 0 h]
      simp
  have hUne : ∃ n, U.coeff n ≠ 0 := by
    have hB1 : B ≠ 0 := by
      intro h
      rw [h] at hB0
      simp at hB0
    have hX : sig x ≠ 0 := by
      obtain ⟨k, hk⟩ := hx
      intro h
      have := sig_coeff x k
      rw [h] at this
      simp at this
      exact hk (by simpa using this.symm)
    have : U ≠ 0 := mul_ne_zero hX hB1
    by_contra hall
    push Not at hall
    exact this (Polynomial.ext hall)
  have hcoef : ∀ ξ : ℂ, ∀ n, U.coeff n - ξ * delayed U.coeff n = (sig x * ((1 - C ξ * X) * B)).coeff n := by
    intro ξ n
    have : sig x * ((1 - C ξ * X) * B) = U - C ξ * (X * U) := by
      rw [hU]
      ring
    rw [this, coeff_sub, coeff_C_mul]
    congr 2
    cases n with
    | zero => simp [delayed]
    | succ n => rw [coeff_X_mul]; rfl
  have hmin : ∀ ξ : ℂ, ∑ n ∈ range (x.length + p), Complex.normSq (U.coeff n - ζ * delayed U.coeff n) ≤
      ∑ n ∈ range (x.length + p), Complex.normSq (U.coeff n - ξ * delayed U.coeff n) := by
    intro ξ
    have h1 : ∑ n ∈ range (x.length + p), Complex.normSq (U.coeff n - ζ * delayed U.coeff n) = predErr x p a := by
      unfold predErr
      apply Finset.sum_congr rfl
      intro n _
      rw [hcoef, ← hAB, hA, sig_mul_err]
      have : (at0 x n : ℂ) - ∑ k ∈ range p, (a k : ℂ) * (at0 x ((n : Int) - 1 - k) : ℂ) = ((at0 x n - ∑ k ∈ range p, a k * at0 x ((n : Int) - 1 - k) : ℝ) : ℂ) := by
        push_cast
        rfl
      rw [this, Complex.normSq_ofReal, sq]
    have h2 : (1 - C ξ * X) * B = errPoly p fun k => -((1 - C ξ * X) * B).coeff (k + 1) := by
      apply errPoly_of
      · rw [hfac]
        simpa [delayed] using hB0
      · intro n hn
        obtain ⟨m, rfl⟩ : ∃ m, n = m + 1 := ⟨n - 1, by omega⟩
        rw [hfac, hBd _ (by omega)]
        simp [delayed, hBd m (by omega)]
    rw [h1]
    refine (complex_min x ha fun k => -((1 - C ξ * X) * B).coeff (k + 1)).trans (le_of_eq ?_)
    apply Finset.sum_congr rfl
    intro n _
    rw [hcoef, h2, sig_mul_err, ← h2]
  have hlt := predictor_lt_one hUd hUne hmin
  rw [hζ, norm_inv] at hlt
  have hwp : 0 < ‖w‖ := norm_pos_iff.mpr hw0
  have : 1 ≤ ‖w‖⁻¹ := (one_le_inv₀ hwp).mpr hw
  linarith

end

/-- **C63, minimum phase.** The prediction error filter of `lpc` has no zero in the closed unit disc: the all-pole filter with its coefficients is stable, and its spectrum is finite. -/
theorem C63_minimum_phase (x : List ℝ) (hx : ∃ k, x.getD k 0 ≠ 0) {p : Nat} (hp1 : 1 ≤ p) (hp : p < x.length) :
    ∃ a : List ℝ, lpc x p true = .ok (some a) ∧ a.length = p ∧ ∀ w : ℂ, ‖w‖ ≤ 1 → 1 - ∑ k ∈ range p, (a.getD k 0 : ℂ) * w ^ (k + 1) ≠ 0 := by
  obtain ⟨a, ha, hl, hmin⟩ := C63_lpc x hx hp1 hp
  refine ⟨a, ha, hl, fun w hw => ?_⟩
  apply min_phase x hx (a := fun k => a.getD k 0) _ hw
  intro c
  by_cases h : ∃ k, k < p ∧ c k ≠ a.getD k 0
  · exact (hmin c h).le
  · push Not at h
    apply le_of_eq
    unfold predErr
    apply Finset.sum_congr rfl
    intro n _
    congr 2
    apply Finset.sum_congr rfl
    intro k hk
    rw [h k (mem_range.mp hk)]

/-- A decaying signal. -/
example : ∃ k, ([1, 1 / 2, 1 / 4] : List ℝ).getD k 0 ≠ 0 := ⟨0, by simp⟩

end Verif.LinPred
