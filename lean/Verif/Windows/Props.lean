import Verif.Windows.Model
import Verif.DFT
import Mathlib.Analysis.SpecialFunctions.Trigonometric.Deriv
import Mathlib.Analysis.SpecialFunctions.Exponential
import Mathlib.Analysis.Calculus.Deriv.MeanValue
import Mathlib.Analysis.Complex.Trigonometric
import Mathlib.Data.List.GetD
import Mathlib.Tactic.FieldSimp
import Mathlib.Tactic.Ring
import Mathlib.Tactic.Linarith

/-!
# C93: windows

Small specification: `Is r N f` (the function returned the samples `f 0`, …, `f (N-1)`), `period` (the number by which the index is divided), the
documented formulas themselves.
-/

namespace Verif.Windows

open Verif.Py

/-- The result is the window of length `N` with the samples `f`. -/
def Is (r : Result) (N : Nat) (f : Nat → ℝ) : Prop := r = .ok (some ((List.range N).map f))

/-- `N` for the asymmetric, `N - 1` for the symmetric window. -/
noncomputable def period (N : Nat) (flag : Flag) : ℝ := if flag = .symmetric then (N : ℝ) - 1 else N

theorem points_some {N : Nat} {flag : Flag} (hN : N ≠ 1 ∨ flag ≠ .symmetric) (hf : flag ≠ .mdct) (part : Part) :
    points N (isSymmetric flag) part = some ((indices N part).map (· / period N flag)) := by
  cases flag
  · simp [points, isSymmetric, denominator, period]
  · have : N ≠ 1 := by simpa using hN
    simp [points, isSymmetric, denominator, period, this]
  · exact absurd rfl hf

theorem points_some' {N : Nat} {flag : Flag} (hN : N ≠ 1 ∨ flag ≠ .symmetric) (part : Part) :
    points N (flag = .symmetric) part = some ((indices N part).map (· / period N flag)) := by
  cases flag
  · simp [points, denominator, period]
  · have : N ≠ 1 := by simpa using hN
    simp [points, denominator, period, this]
  · simp [points, denominator, period]

theorem mdct_ok {flag : Flag} (hf : flag ≠ .mdct) (w : Option (List ℝ)) : mdct flag w = .ok w := if_neg hf

/-- **C93, formulas.** The windows have the documented samples, with `M = N` for the asymmetric and `M = N - 1` for the symmetric flag. -/
theorem C93_formulas {N : Nat} {flag : Flag} (hN : N ≠ 1 ∨ flag ≠ .symmetric) (hf : flag ≠ .mdct) :
    Is (hann N flag .full) N (fun n => 0.5 * (1 - Real.cos (2 * Real.pi * n / period N flag))) ∧
    Is (hamming N flag .full) N (fun n => 0.54 - 0.46 * Real.cos (2 * Real.pi * n / period N flag)) ∧
    Is (cosine N flag .full) N (fun n => Real.cos (Real.pi * (n / period N flag - 0.5)) ^ 2) ∧
    Is (triang N flag .full) N (fun n => 1 - |2 * n / period N flag - 1|) ∧
    Is (blackmanHarris N flag .full) N (fun n => 0.35875 - 0.48829 * Real.cos (2 * Real.pi * n / period N flag) +
      0.14128 * Real.cos (4 * Real.pi * n / period N flag) + 0.01168 * Real.cos (6 * Real.pi * n / period N flag)) ∧
    Is (flattop N flag .full) N (fun n => 0.21557895 - 0.41663158 * Real.cos (2 * Real.pi * n / period N flag) +
      0.277263158 * Real.cos (4 * Real.pi * n / period N flag) + 0.083578947 * Real.cos (6 * Real.pi * n / period N flag) +
      0.006947368 * Real.cos (8 * Real.pi * n / period N flag)) := by
  refine ⟨?_, ?_, ?_, ?_, ?_, ?_⟩ <;>
    simp only [Is, hann, hamming, cosine, triang, blackmanHarris, flattop, mdct_ok hf, points_some hN hf, points_some' hN, indices, Option.map_some,
      List.map_map, Function.comp_def, mul_div_assoc]

/-- **C93, formulas.** `bohman`, `gaussian`, `kaiser` and `rect`. -/
theorem C93_formulas_centred {N : Nat} (hN : 2 ≤ N) {std beta : ℝ} (hs : std ≠ 0) {flag : Flag} (hf : flag ≠ .mdct) (part : Part) :
    Is (bohman N flag part) N (fun n => (1 - |2 * n / ((N : ℝ) - 1) - 1|) * Real.cos (Real.pi * |2 * n / ((N : ℝ) - 1) - 1|) +
      Real.sin (Real.pi * |2 * n / ((N : ℝ) - 1) - 1|) / Real.pi) ∧
    Is (gaussian N std flag part) N (fun n => Real.exp (-(1 / 2) * ((n - ((N : ℝ) - 1) / 2) / std) ^ 2)) ∧
    Is (kaiser N beta flag part) N (fun n => i0 (beta * √(1 - 4 * (n - ((N : ℝ) - 1) / 2) ^ 2 / ((N : ℝ) - 1) ^ 2)) / i0 beta) ∧
    rect N = (List.range N).map (fun _ => 1) := by
  have h0 : ((N : ℝ) - 1) ≠ 0 := by
    have : (2 : ℝ) ≤ N := by exact_mod_cast hN
    intro h
    linarith
  refine ⟨?_, ?_, ?_, ?_⟩
  · unfold Is bohman
    rw [mdct_ok hf]
    congr 2
    obtain ⟨m, rfl⟩ : ∃ m, N = m + 2 := ⟨N - 2, by omega⟩
    rw [List.range_succ, List.range_succ_eq_map, List.map_append, List.map_cons]
    simp only [List.map_map, Nat.add_sub_cancel, List.cons_append, List.nil_append]
    congr 1
    · simp
    · congr 1
      · apply List.map_congr_left
        intro i _
        have : (-1 : ℝ) + 2 * ((i : ℝ) + 1) / (((m + 2 : Nat) : ℝ) - 1) = 2 * ((i.succ : Nat) : ℝ) / (((m + 2 : Nat) : ℝ) - 1) - 1 := by
          push_cast
          ring
        simp only [Function.comp_def]
        rw [this]
        ring
      · have : 2 * ((m + 1 : Nat) : ℝ) / (((m + 2 : Nat) : ℝ) - 1) - 1 = 1 := by
          field_simp
          push_cast
          ring
        simp only [List.map_cons, List.map_nil]
        rw [this]
        simp
  · unfold Is gaussian
    rw [if_neg (fun h => hs h.1)]
    congr 3
    funext n
    congr 1
    field_simp
  · unfold Is kaiser
    rw [mdct_ok hf, if_neg (by omega)]
    congr 3
    funext n
    congr 4
    field_simp
    ring
  · simp [rect, List.map_const']

/-- The windows that can be computed in halves. -/
noncomputable def divisible : List (Nat → Flag → Part → Result) :=
  [bart, bartHann, blackman, blackmanHarris, cosine, flattop, hamming, hann, triang]

theorem divisible_map {N : Nat} (hN : N ≠ 1) {flag : Flag} (hf : flag ≠ .mdct) {w : Nat → Flag → Part → Result} (hw : w ∈ divisible) :
    ∃ g : ℝ → ℝ, ∀ part, w N flag part = .ok (some ((indices N part).map g)) := by
  simp only [divisible, List.mem_cons, List.not_mem_nil, or_false] at hw
  have h1 := fun part => points_some (N := N) (Or.inl hN) hf part
  have h2 := fun part => points_some' (N := N) (flag := flag) (Or.inl hN) part
  have key : ∀ g : ℝ → ℝ, (∀ part, w N flag part = .ok (some (((indices N part).map (· / period N flag)).map g))) →
      ∃ g : ℝ → ℝ, ∀ part, w N flag part = .ok (some ((indices N part).map g)) :=
    fun g hg => ⟨fun x => g (x / period N flag), fun part => by rw [hg, List.map_map]; rfl⟩
  rcases hw with rfl | rfl | rfl | rfl | rfl | rfl | rfl | rfl | rfl
  · exact key (fun (t : ℝ) => 2 / ((N : ℝ) - 1) * (((N : ℝ) - 1) / 2 - |t - ((N : ℝ) - 1) / 2|))
      fun part => by simp only [bart, mdct_ok hf, h1, if_neg hN, Option.map_some]
  · exact key (fun (t : ℝ) => 0.62 - 0.48 * |t / N - 0.5| + 0.38 * Real.cos (2 * Real.pi * (t / N - 0.5)))
      fun part => by simp only [bartHann, mdct_ok hf, h1, Option.map_some]
  · exact key (fun (t : ℝ) => 0.42 - 0.5 * Real.cos (2 * Real.pi * t / ((N : ℝ) - 1)) + 0.08 * Real.cos (4 * Real.pi * t / ((N : ℝ) - 1)))
      fun part => by simp only [blackman, mdct_ok hf, h1, if_neg hN, Option.map_some]
  · exact key (fun (t : ℝ) => 0.35875 - 0.48829 * Real.cos (2 * Real.pi * t) + 0.14128 * Real.cos (4 * Real.pi * t) + 0.01168 * Real.cos (6 * Real.pi * t))
      fun part => by simp only [blackmanHarris, h2, Option.map_some]
  · exact key (fun (t : ℝ) => Real.cos (Real.pi * (t - 0.5)) ^ 2)
      fun part => by simp only [cosine, mdct_ok hf, h1, Option.map_some]
  · exact key (fun (t : ℝ) => 0.21557895 - 0.41663158 * Real.cos (2 * Real.pi * t) + 0.277263158 * Real.cos (4 * Real.pi * t) + 0.083578947 * Real.cos (6 * Real.pi * t) + 0.006947368 * Real.cos (8 * Real.pi * t))
      fun part => by simp only [flattop, h2, Option.map_some]
  · exact key (fun (t : ℝ) => 0.54 - 0.46 * Real.cos (2 * Real.pi * t))
      fun part => by simp only [hamming, mdct_ok hf, h1, Option.map_some]
  · exact key (fun (t : ℝ) => 0.5 * (1 - Real.cos (2 * Real.pi * t)))
      fun part => by simp only [hann, mdct_ok hf, h1, Option.map_some]
  · exact key (fun (t : ℝ) => 1 - |2 * t - 1|)
      fun part => by simp only [triang, mdct_ok hf, h1, Option.map_some]

/-- **C93, halves.** For even `N` the left and the right part, one after the other, are the full window. -/
theorem C93_halves {N : Nat} (hN : N % 2 = 0) {flag : Flag} (hf : flag ≠ .mdct) {w : Nat → Flag → Part → Result} (hw : w ∈ divisible) :
    ∃ l r, w N flag .left = .ok (some l) ∧ w N flag .right = .ok (some r) ∧ l.length = N / 2 ∧ r.length = N / 2 ∧ w N flag .full = .ok (some (l ++ r)) := by
  obtain ⟨g, hg⟩ := divisible_map (N := N) (by omega) hf hw
  refine ⟨_, _, hg _, hg _, ?_, ?_, ?_⟩
  · simp [indices]
    omega
  · simp [indices]
    omega
  · rw [hg, ← List.map_append]
    congr 3
    obtain ⟨m, rfl⟩ : ∃ m, N = m + m := ⟨N / 2, by omega⟩
    have : (m + m + 1) / 2 = m := by omega
    simp only [indices, this]
    rw [List.range_add, List.map_append, List.map_map]
    congr 1
    apply List.map_congr_left
    intro i _
    simp only [Function.comp_def]
    push_cast
    ring

/-- **C93, deviation.** For odd `N` the two parts have together one sample more than the window, and the samples of the right part lie between the
samples of the window. -/
theorem C93_odd_halves_deviation {N : Nat} (h3 : 3 ≤ N) (hN : N % 2 = 1) {flag : Flag} (hf : flag ≠ .mdct) {w : Nat → Flag → Part → Result} (hw : w ∈ divisible) :
    ∃ (g : ℝ → ℝ) (l r u : List ℝ), w N flag .left = .ok (some l) ∧ w N flag .right = .ok (some r) ∧ w N flag .full = .ok (some u) ∧
      u.length = N ∧ l.length + r.length = N + 1 ∧ (∀ n, n < N → u.getD n 0 = g n) ∧ ∀ i, i < (N + 1) / 2 → r.getD i 0 = g ((N / 2 : Nat) + i + 1 / 2) := by
  obtain ⟨g, hg⟩ := divisible_map (N := N) (by omega) hf hw
  refine ⟨g, _, _, _, hg _, hg _, hg _, ?_, ?_, ?_, ?_⟩
  · simp [indices]
  · simp [indices]
    omega
  · intro n hn
    rw [List.getD_eq_getElem _ _ (by simp [indices, hn])]
    simp [indices]
  · intro i hi
    rw [List.getD_eq_getElem _ _ (by simp [indices, hi])]
    simp only [indices, List.getElem_map, List.getElem_range]
    congr 1
    obtain ⟨m, rfl⟩ : ∃ m, N = 2 * m + 1 := ⟨N / 2, by omega⟩
    have : (2 * m + 1) / 2 = m := by omega
    rw [this]
    push_cast
    ring

theorem cos_flip (a : Nat) (x : ℝ) : Real.cos (2 * a * Real.pi * (1 - x)) = Real.cos (2 * a * Real.pi * x) := by
  have : 2 * (a : ℝ) * Real.pi * (1 - x) = (a : ℝ) * (2 * Real.pi) - 2 * a * Real.pi * x := by ring
  rw [this, Real.cos_nat_mul_two_pi_sub]

/-- The windows that are symmetric functions of `n / M`. -/
noncomputable def even' : List (Nat → Flag → Part → Result) := [blackmanHarris, cosine, flattop, hamming, hann, triang]

theorem even_map {N : Nat} {flag : Flag} (hN : N ≠ 1 ∨ flag ≠ .symmetric) (hf : flag ≠ .mdct) {w : Nat → Flag → Part → Result} (hw : w ∈ even') :
    ∃ g : ℝ → ℝ, (∀ x, g (1 - x) = g x) ∧ Is (w N flag .full) N (fun n => g (n / period N flag)) := by
  obtain ⟨h1, h2, h3, h4, h5, h6⟩ := C93_formulas hN hf
  simp only [even', List.mem_cons, List.not_mem_nil, or_false] at hw
  have c1 := cos_flip 1
  have c2 := cos_flip 2
  have c3 := cos_flip 3
  have c4 := cos_flip 4
  norm_num at c1 c2 c3 c4
  rcases hw with rfl | rfl | rfl | rfl | rfl | rfl
  · refine ⟨fun x => 0.35875 - 0.48829 * Real.cos (2 * Real.pi * x) + 0.14128 * Real.cos (4 * Real.pi * x) + 0.01168 * Real.cos (6 * Real.pi * x), fun x => ?_, ?_⟩
    · simp only [c1, c2, c3]
    · simpa only [mul_div_assoc] using h5
  · refine ⟨fun x => Real.cos (Real.pi * (x - 0.5)) ^ 2, fun x => ?_, h3⟩
    have : Real.pi * (1 - x - 0.5) = -(Real.pi * (x - 0.5)) := by ring
    simp only [this, Real.cos_neg]
  · refine ⟨fun x => 0.21557895 - 0.41663158 * Real.cos (2 * Real.pi * x) + 0.277263158 * Real.cos (4 * Real.pi * x) + 0.083578947 * Real.cos (6 * Real.pi * x)
      + 0.006947368 * Real.cos (8 * Real.pi * x), fun x => ?_, ?_⟩
    · simp only [c1, c2, c3, c4]
    · simpa only [mul_div_assoc] using h6
  · refine ⟨fun x => 0.54 - 0.46 * Real.cos (2 * Real.pi * x), fun x => ?_, ?_⟩
    · simp only [c1]
    · simpa only [mul_div_assoc] using h2
  · refine ⟨fun x => 0.5 * (1 - Real.cos (2 * Real.pi * x)), fun x => ?_, ?_⟩
    · simp only [c1]
    · simpa only [mul_div_assoc] using h1
  · refine ⟨fun x => 1 - |2 * x - 1|, fun x => ?_, ?_⟩
    · have : 2 * (1 - x) - 1 = -(2 * x - 1) := by ring
      simp only [this, abs_neg]
    · simpa only [mul_div_assoc] using h4

theorem reverse_of {N : Nat} {f : Nat → ℝ} (h : ∀ n, n < N → f (N - 1 - n) = f n) : ((List.range N).map f).reverse = (List.range N).map f := by
  apply List.ext_getElem (by simp)
  intro i h1 h2
  simp only [List.length_map, List.length_range] at h2
  simp only [List.getElem_reverse, List.getElem_map, List.getElem_range, List.length_map, List.length_range]
  exact h i h2

/-- **C93, symmetry.** With the symmetric flag the window reads the same in both directions. -/
theorem C93_symmetric {N : Nat} (hN : 2 ≤ N) {w : Nat → Flag → Part → Result} (hw : w ∈ even') :
    ∃ l, w N .symmetric .full = .ok (some l) ∧ l.length = N ∧ l.reverse = l := by
  obtain ⟨g, hg, hi⟩ := even_map (N := N) (flag := .symmetric) (Or.inl (by omega)) (by simp) hw
  refine ⟨_, hi, by simp, reverse_of fun n hn => ?_⟩
  rw [← hg]
  congr 1
  have h0 : ((N : ℝ) - 1) ≠ 0 := by
    have : (2 : ℝ) ≤ N := by exact_mod_cast hN
    intro h
    linarith
  simp only [period, if_true]
  rw [show N - 1 - n = N - (n + 1) by omega, Nat.cast_sub (by omega)]
  push_cast
  field_simp
  ring

/-- **C93, symmetry.** With the asymmetric flag sample `n` equals sample `N - n`. -/
theorem C93_asymmetric {N : Nat} {w : Nat → Flag → Part → Result} (hw : w ∈ even') :
    ∃ l, w N .asymmetric .full = .ok (some l) ∧ l.length = N ∧ ∀ n, 0 < n → n < N → l.getD (N - n) 0 = l.getD n 0 := by
  obtain ⟨g, hg, hi⟩ := even_map (N := N) (flag := .asymmetric) (Or.inr (by simp)) (by simp) hw
  refine ⟨_, hi, by simp, fun n h0 hn => ?_⟩
  rw [List.getD_eq_getElem _ _ (by simp; omega), List.getD_eq_getElem _ _ (by simpa using hn)]
  simp only [List.getElem_map, List.getElem_range]
  rw [← hg]
  congr 1
  have : (N : ℝ) ≠ 0 := by exact_mod_cast (show N ≠ 0 by omega)
  simp only [period]
  rw [Nat.cast_sub (by omega)]
  simp only [reduceCtorEq, if_false]
  field_simp
  ring

/-- **C93, symmetry.** `bohman`, `gaussian` and `kaiser` read the same in both directions, with every flag. -/
theorem C93_symmetric_centred {N : Nat} (hN : 2 ≤ N) {std : ℝ} (hs : std ≠ 0) (beta : ℝ) {flag : Flag} (hf : flag ≠ .mdct) (part : Part)
    {r : Result} (hr : r ∈ [bohman N flag part, gaussian N std flag part, kaiser N beta flag part]) : ∃ l, r = .ok (some l) ∧ l.length = N ∧ l.reverse = l := by
  obtain ⟨h1, h2, h3, -⟩ := C93_formulas_centred hN (beta := beta) hs hf part
  have h0 : ((N : ℝ) - 1) ≠ 0 := by
    have : (2 : ℝ) ≤ N := by exact_mod_cast hN
    intro h
    linarith
  have hc : ∀ n, n < N → ((N - 1 - n : Nat) : ℝ) - ((N : ℝ) - 1) / 2 = -((n : ℝ) - ((N : ℝ) - 1) / 2) := by
    intro n hn
    rw [show N - 1 - n = N - (n + 1) by omega, Nat.cast_sub (by omega)]
    push_cast
    ring
  simp only [List.mem_cons, List.not_mem_nil, or_false] at hr
  rcases hr with rfl | rfl | rfl
  · refine ⟨_, h1, by simp, reverse_of fun n hn => ?_⟩
    have : |2 * ((N - 1 - n : Nat) : ℝ) / ((N : ℝ) - 1) - 1| = |2 * (n : ℝ) / ((N : ℝ) - 1) - 1| := by
      rw [← abs_neg]
      congr 1
      rw [show N - 1 - n = N - (n + 1) by omega, Nat.cast_sub (by omega)]
      push_cast
      field_simp
      ring
    simp only [this]
  · refine ⟨_, h2, by simp, reverse_of fun n hn => ?_⟩
    simp only [hc n hn]
    congr 1
    ring
  · refine ⟨_, h3, by simp, reverse_of fun n hn => ?_⟩
    simp only [hc n hn, neg_sq]

/-- **C93, overlap.** The left and the right half of the asymmetric `hann`, `cosine` and `triang` windows add up to one. **Deviation:** `hamming` gives 1.08. -/
theorem C93_overlap {N : Nat} (hN : N % 2 = 0) :
    (∀ w ∈ [hann, cosine, triang], ∃ l r, w N .asymmetric .left = .ok (some l) ∧ w N .asymmetric .right = .ok (some r) ∧ List.zipWith (· + ·) l r = List.replicate (N / 2) 1) ∧
    ∃ l r, hamming N .asymmetric .left = .ok (some l) ∧ hamming N .asymmetric .right = .ok (some r) ∧ List.zipWith (· + ·) l r = List.replicate (N / 2) 1.08 := by
  obtain ⟨m, rfl⟩ : ∃ m, N = m + m := ⟨N / 2, by omega⟩
  have hm : (m + m + 1) / 2 = m := by omega
  have hm' : (m + m) / 2 = m := by omega
  have key : ∀ (g : ℝ → ℝ) (c : ℝ), (∀ i : Nat, i < m → g ((i : ℝ) / ((m + m : Nat) : ℝ)) + g ((i : ℝ) / ((m + m : Nat) : ℝ) + 1 / 2) = c) →
      List.zipWith (· + ·) (((indices (m + m) .left).map (· / period (m + m) .asymmetric)).map g)
        (((indices (m + m) .right).map (· / period (m + m) .asymmetric)).map g) = List.replicate ((m + m) / 2) c := by
    intro g c hg
    apply List.ext_getElem
    · simp [indices, hm, hm']
    · intro i h1 h2
      have hi : i < m := by simpa [hm'] using h2
      simp only [indices, hm, List.getElem_zipWith, List.getElem_map, List.getElem_range, List.getElem_replicate, period, reduceCtorEq, if_false]
      rw [← hg i hi]
      congr 2
      have : ((m + m : Nat) : ℝ) ≠ 0 := by exact_mod_cast (show m + m ≠ 0 by omega)
      field_simp
      ring
  have hp := fun part => points_some (N := m + m) (flag := .asymmetric) (Or.inr (by simp)) (by simp) part
  have hq := fun w => mdct_ok (flag := .asymmetric) (by simp) w
  have hcos : ∀ x : ℝ, Real.cos (2 * Real.pi * (x + 1 / 2)) = -Real.cos (2 * Real.pi * x) := by
    intro x
    rw [show 2 * Real.pi * (x + 1 / 2) = 2 * Real.pi * x + Real.pi by ring, Real.cos_add_pi]
  refine ⟨fun w hw => ?_, ?_⟩
  · simp only [List.mem_cons, List.not_mem_nil, or_false] at hw
    rcases hw with rfl | rfl | rfl
    · refine ⟨_, _, by rw [hann, hq, hp]; rfl, by rw [hann, hq, hp]; rfl, key _ _ fun i hi => ?_⟩
      rw [hcos]
      ring
    · refine ⟨_, _, by rw [cosine, hq, hp]; rfl, by rw [cosine, hq, hp]; rfl, key _ _ fun i hi => ?_⟩
      have : ∀ x : ℝ, Real.cos (Real.pi * (x + 1 / 2 - 0.5)) = -Real.sin (Real.pi * (x - 0.5)) := by
        intro x
        rw [show Real.pi * (x + 1 / 2 - 0.5) = Real.pi * (x - 0.5) + Real.pi / 2 by ring, Real.cos_add_pi_div_two]
      rw [this, neg_sq]
      exact Real.cos_sq_add_sin_sq _
    · refine ⟨_, _, by rw [triang, hq, hp]; rfl, by rw [triang, hq, hp]; rfl, key _ _ fun i hi => ?_⟩
      have hpos : (0 : ℝ) < ((m + m : Nat) : ℝ) := by exact_mod_cast (show 0 < m + m by omega)
      have h0 : (0 : ℝ) ≤ (i : ℝ) / ((m + m : Nat) : ℝ) := by positivity
      have h1 : (i : ℝ) / ((m + m : Nat) : ℝ) ≤ 1 / 2 := by
        rw [div_le_div_iff₀ hpos (by norm_num)]
        have : (i : ℝ) < m := by exact_mod_cast hi
        push_cast
        linarith
      generalize (i : ℝ) / ((m + m : Nat) : ℝ) = x at h0 h1 ⊢
      rw [abs_of_nonpos (by linarith), abs_of_nonneg (by linarith)]
      ring
  · refine ⟨_, _, by rw [hamming, hq, hp]; rfl, by rw [hamming, hq, hp]; rfl, key _ _ fun i hi => ?_⟩
    rw [hcos]
    ring

/-- **C93, overlap.** Hann windows shifted by `N / K` add up to `K / 2`, for every `K ≥ 2` that divides `N`. -/
theorem C93_hann_overlap {K L : Nat} (hK : 2 ≤ K) (hL : 0 < L) :
    ∃ l, hann (K * L) .asymmetric .full = .ok (some l) ∧ ∀ n, n < L → ∑ j ∈ Finset.range K, l.getD (n + j * L) 0 = (K : ℝ) / 2 := by
  refine ⟨_, (C93_formulas (N := K * L) (flag := .asymmetric) (Or.inr (by simp)) (by simp)).1, fun n hn => ?_⟩
  have hKL : ((K * L : Nat) : ℝ) ≠ 0 := by
    have : K * L ≠ 0 := Nat.mul_ne_zero (by omega) (by omega)
    exact_mod_cast this
  have hval : ∀ j ∈ Finset.range K, ((List.range (K * L)).map fun (n : Nat) => 0.5 * (1 - Real.cos (2 * Real.pi * n / period (K * L) .asymmetric))).getD (n + j * L) 0
      = 1 / 2 - 1 / 2 * (DFT.tw (K * L) n * DFT.tw K (1 * j)).re := by
    intro j hj
    have hlt : n + j * L < K * L := by
      have : j * L + L ≤ K * L := by
        have := Nat.mul_le_mul_right L (Finset.mem_range.mp hj)
        rwa [Nat.succ_mul] at this
      omega
    rw [List.getD_eq_getElem _ _ (by simpa using hlt)]
    simp only [List.getElem_map, List.getElem_range, period, reduceCtorEq, if_false]
    have hre : (DFT.tw (K * L) n * DFT.tw K (1 * j)).re = Real.cos (2 * Real.pi * ((n + j * L : Nat) : ℝ) / ((K * L : Nat) : ℝ)) := by
      have : DFT.tw (K * L) n * DFT.tw K (1 * j) = Complex.exp (((2 * Real.pi * ((n + j * L : Nat) : ℝ) / ((K * L : Nat) : ℝ) : ℝ) : ℂ) * Complex.I) := by
        unfold DFT.tw
        rw [← Complex.exp_add]
        congr 1
        have h1 : (K : ℂ) ≠ 0 := by exact_mod_cast (show K ≠ 0 by omega)
        have h2 : (L : ℂ) ≠ 0 := by exact_mod_cast (show L ≠ 0 by omega)
        push_cast
        field_simp
      rw [this, Complex.exp_ofReal_mul_I_re]
    rw [hre]
    ring
  rw [Finset.sum_congr rfl hval, Finset.sum_sub_distrib, ← Finset.mul_sum, ← Complex.re_sum, ← Finset.mul_sum]
  have h0 := DFT.sum_tw (N := K) (by omega) 1
  have hnd : ¬ (K : Int) ∣ 1 := by
    intro h
    have := Int.le_of_dvd one_pos h
    omega
  rw [if_neg hnd] at h0
  have h0' : ∑ j ∈ Finset.range K, DFT.tw K (1 * (j : Int)) = 0 := h0
  rw [h0']
  simp
  ring

/-- **C93, range.** The samples lie between zero and one; `hamming` is at least 0.08, `gaussian` is positive. -/
theorem C93_range {N : Nat} {flag : Flag} (hN : N ≠ 1 ∨ flag ≠ .symmetric) (hf : flag ≠ .mdct) :
    (∀ w ∈ [hann, cosine, triang], ∃ l, w N flag .full = .ok (some l) ∧ ∀ x ∈ l, 0 ≤ x ∧ x ≤ 1) ∧
    ∃ l, hamming N flag .full = .ok (some l) ∧ ∀ x ∈ l, 0.08 ≤ x ∧ x ≤ 1 := by
  obtain ⟨h1, h2, h3, h4, -, -⟩ := C93_formulas hN hf
  refine ⟨fun w hw => ?_, _, h2, fun x hx => ?_⟩
  · simp only [List.mem_cons, List.not_mem_nil, or_false] at hw
    rcases hw with rfl | rfl | rfl
    · refine ⟨_, h1, fun x hx => ?_⟩
      obtain ⟨n, -, rfl⟩ := List.mem_map.mp hx
      have := Real.cos_le_one (2 * Real.pi * n / period N flag)
      have := Real.neg_one_le_cos (2 * Real.pi * n / period N flag)
      constructor <;> norm_num <;> linarith
    · refine ⟨_, h3, fun x hx => ?_⟩
      obtain ⟨n, -, rfl⟩ := List.mem_map.mp hx
      exact ⟨sq_nonneg _, Real.cos_sq_le_one _⟩
    · refine ⟨_, h4, fun x hx => ?_⟩
      obtain ⟨n, hn, rfl⟩ := List.mem_map.mp hx
      have hn : n < N := List.mem_range.mp hn
      have h0 : (0 : ℝ) ≤ (n : ℝ) / period N flag ∧ (n : ℝ) / period N flag ≤ 1 := by
        by_cases hs : flag = .symmetric
        · have h2 : (n : ℝ) + 1 ≤ N := by exact_mod_cast hn
          have hN : N ≠ 1 := by simpa [hs] using hN
          have : (2 : ℝ) ≤ N := by exact_mod_cast (show 2 ≤ N by omega)
          simp only [period, hs, if_true]
          exact ⟨div_nonneg (by positivity) (by linarith), (div_le_one (by linarith)).mpr (by linarith)⟩
        · have h2 : (n : ℝ) ≤ N := by exact_mod_cast hn.le
          have : (0 : ℝ) < N := by exact_mod_cast (show 0 < N by omega)
          simp only [period, hs, if_false]
          exact ⟨by positivity, (div_le_one this).mpr h2⟩
      rw [mul_div_assoc]
      have : |2 * ((n : ℝ) / period N flag) - 1| ≤ 1 := abs_le.mpr ⟨by linarith [h0.1], by linarith [h0.2]⟩
      exact ⟨by linarith, by linarith [abs_nonneg (2 * ((n : ℝ) / period N flag) - 1)]⟩
  · obtain ⟨n, -, rfl⟩ := List.mem_map.mp hx
    have := Real.cos_le_one (2 * Real.pi * n / period N flag)
    have := Real.neg_one_le_cos (2 * Real.pi * n / period N flag)
    constructor <;> norm_num <;> linarith

theorem i0_summable (x : ℝ) : Summable fun k : Nat => (x ^ 2 / 4) ^ k / (k.factorial : ℝ) ^ 2 := by
  apply Summable.of_nonneg_of_le (fun k => by positivity) (fun k => ?_) (Real.summable_pow_div_factorial (x ^ 2 / 4))
  have h1 : (1 : ℝ) ≤ k.factorial := by exact_mod_cast Nat.factorial_pos k
  apply div_le_div_of_nonneg_left (by positivity) (by positivity)
  nlinarith

theorem i0_pos (x : ℝ) : 0 < i0 x := by
  have : (1 : ℝ) ≤ i0 x := by
    have := (i0_summable x).le_tsum 0 (fun k _ => by positivity)
    simpa [i0] using this
  linarith

theorem i0_mono {x y : ℝ} (h : x ^ 2 ≤ y ^ 2) : i0 x ≤ i0 y := by
  unfold i0
  refine (i0_summable x).tsum_le_tsum (fun k => ?_) (i0_summable y)
  apply div_le_div_of_nonneg_right _ (by positivity)
  exact pow_le_pow_left₀ (by positivity) (by linarith) k

theorem bohman_antitone : AntitoneOn (fun x : ℝ => (1 - x) * Real.cos (Real.pi * x) + Real.sin (Real.pi * x) / Real.pi) (Set.Icc 0 1) := by
  have hd : ∀ x : ℝ, HasDerivAt (fun x : ℝ => (1 - x) * Real.cos (Real.pi * x) + Real.sin (Real.pi * x) / Real.pi)
      (-((1 - x) * (Real.pi * Real.sin (Real.pi * x)))) x := by
    intro x
    have h1 : HasDerivAt (fun x : ℝ => Real.pi * x) Real.pi x := by simpa using (hasDerivAt_id x).const_mul Real.pi
    have h2 := (Real.hasDerivAt_cos (Real.pi * x)).comp x h1
    have h3 := (Real.hasDerivAt_sin (Real.pi * x)).comp x h1
    have h4 : HasDerivAt (fun x : ℝ => 1 - x) (-1) x := by simpa using (hasDerivAt_id x).const_sub 1
    have := (h4.mul h2).add (h3.div_const Real.pi)
    refine this.congr_deriv ?_
    have := Real.pi_ne_zero
    simp only [Function.comp_def]
    field_simp
    ring
  apply antitoneOn_of_deriv_nonpos (convex_Icc 0 1)
  · exact fun x _ => (hd x).continuousAt.continuousWithinAt
  · exact fun x _ => (hd x).differentiableAt.differentiableWithinAt
  · intro x hx
    rw [interior_Icc] at hx
    rw [(hd x).deriv]
    have : 0 ≤ Real.sin (Real.pi * x) := Real.sin_nonneg_of_nonneg_of_le_pi (mul_nonneg Real.pi_pos.le hx.1.le)
      (by nlinarith [Real.pi_pos, hx.2])
    have : 0 ≤ (1 - x) * (Real.pi * Real.sin (Real.pi * x)) := mul_nonneg (by linarith [hx.2]) (mul_nonneg Real.pi_pos.le this)
    linarith

/-- **C93, range.** `bohman` lies between zero and one, `gaussian` and `kaiser` are positive and at most one. -/
theorem C93_range_centred {N : Nat} (hN : 2 ≤ N) {std : ℝ} (hs : std ≠ 0) (beta : ℝ) {flag : Flag} (hf : flag ≠ .mdct) (part : Part) :
    (∃ l, bohman N flag part = .ok (some l) ∧ ∀ x ∈ l, 0 ≤ x ∧ x ≤ 1) ∧
    ∀ r ∈ [gaussian N std flag part, kaiser N beta flag part], ∃ l, r = .ok (some l) ∧ ∀ x ∈ l, 0 < x ∧ x ≤ 1 := by
  obtain ⟨h1, h2, h3, -⟩ := C93_formulas_centred hN (beta := beta) hs hf part
  have h2N : (2 : ℝ) ≤ N := by exact_mod_cast hN
  refine ⟨⟨_, h1, fun x hx => ?_⟩, fun r hr => ?_⟩
  · obtain ⟨n, hn, rfl⟩ := List.mem_map.mp hx
    have hn : (n : ℝ) + 1 ≤ N := by exact_mod_cast List.mem_range.mp hn
    have h0 : (0 : ℝ) ≤ (n : ℝ) / ((N : ℝ) - 1) := div_nonneg (by positivity) (by linarith)
    have h1 : (n : ℝ) / ((N : ℝ) - 1) ≤ 1 := (div_le_one (by linarith)).mpr (by linarith)
    have hm : |2 * (n : ℝ) / ((N : ℝ) - 1) - 1| ∈ Set.Icc (0 : ℝ) 1 := by
      rw [mul_div_assoc]
      exact ⟨abs_nonneg _, abs_le.mpr ⟨by linarith, by linarith⟩⟩
    have ha := bohman_antitone hm (Set.right_mem_Icc.mpr zero_le_one) hm.2
    have hb := bohman_antitone (Set.left_mem_Icc.mpr zero_le_one) hm hm.1
    simp only [sub_self, zero_mul, mul_one, Real.sin_pi, zero_div, add_zero, sub_zero, mul_zero, Real.cos_zero, Real.sin_zero] at ha hb
    exact ⟨ha, hb⟩
  · simp only [List.mem_cons, List.not_mem_nil, or_false] at hr
    rcases hr with rfl | rfl
    · refine ⟨_, h2, fun x hx => ?_⟩
      obtain ⟨n, hn, rfl⟩ := List.mem_map.mp hx
      refine ⟨Real.exp_pos _, Real.exp_le_one_iff.mpr ?_⟩
      nlinarith [sq_nonneg (((n : ℝ) - ((N : ℝ) - 1) / 2) / std)]
    · refine ⟨_, h3, fun x hx => ?_⟩
      obtain ⟨n, hn, rfl⟩ := List.mem_map.mp hx
      refine ⟨div_pos (i0_pos _) (i0_pos _), (div_le_one (i0_pos _)).mpr (i0_mono ?_)⟩
      rw [mul_pow]
      have : √(1 - 4 * ((n : ℝ) - ((N : ℝ) - 1) / 2) ^ 2 / ((N : ℝ) - 1) ^ 2) ≤ 1 := by
        rw [Real.sqrt_le_one]
        have : 0 ≤ 4 * ((n : ℝ) - ((N : ℝ) - 1) / 2) ^ 2 / ((N : ℝ) - 1) ^ 2 := by positivity
        linarith
      have h5 : √(1 - 4 * ((n : ℝ) - ((N : ℝ) - 1) / 2) ^ 2 / ((N : ℝ) - 1) ^ 2) ^ 2 ≤ 1 := pow_le_one₀ (Real.sqrt_nonneg _) this
      nlinarith [sq_nonneg beta]

/-- **C93, deviation.** `cosine` is the Hann window. -/
theorem C93_cosine_deviation (N : Nat) (flag : Flag) (part : Part) : cosine N flag part = hann N flag part := by
  unfold cosine hann
  congr 3
  funext l
  congr 1
  funext t
  rw [Real.cos_sq]
  rw [show 2 * (Real.pi * (t - 0.5)) = 2 * Real.pi * t - Real.pi by ring, Real.cos_sub_pi]
  ring

/-- **C93, deviation.** The flag `mdct` raises `TypeError` in every function that documents it (`ZeroDivisionError` in `bart` for one sample). -/
theorem C93_mdct_deviation (N : Nat) (beta : ℝ) (part : Part) :
    (∀ w ∈ [bartHann, blackman, bohman, cosine, hamming, hann, triang], w N .mdct part = .error .typeError) ∧ kaiser N beta .mdct part = .error .typeError ∧
    bart N .mdct part = .error (if N = 1 then .zeroDivision else .typeError) := by
  refine ⟨fun w hw => ?_, rfl, ?_⟩
  · simp only [List.mem_cons, List.not_mem_nil, or_false] at hw
    rcases hw with rfl | rfl | rfl | rfl | rfl | rfl | rfl <;> rfl
  · unfold bart
    split <;> rfl

/-- **C93, deviation.** `bohman`, `gaussian` and `kaiser` ignore the flag and the part: `length="left"` gives the full window. -/
theorem C93_ignored_deviation (N : Nat) (std beta : ℝ) {flag flag' : Flag} (hf : flag ≠ .mdct) (hf' : flag' ≠ .mdct) (part part' : Part) :
    bohman N flag part = bohman N flag' part' ∧ gaussian N std flag part = gaussian N std flag' part' ∧ kaiser N beta flag part = kaiser N beta flag' part' := by
  refine ⟨?_, rfl, ?_⟩
  · unfold bohman
    rw [mdct_ok hf, mdct_ok hf']
  · unfold kaiser
    rw [mdct_ok hf, mdct_ok hf']

/-- **C93, deviation.** `bart` is a ramp: the index is divided by the length before it is put into the formula for indices, so that the window rises
from its first to its last sample. -/
theorem C93_bart_deviation {N : Nat} (hN : 3 ≤ N) {flag : Flag} (hf : flag ≠ .mdct) :
    Is (bart N flag .full) N (fun n => 2 / ((N : ℝ) - 1) * (n / period N flag)) := by
  unfold Is bart
  rw [mdct_ok hf, points_some (Or.inl (by omega)) hf, if_neg (by omega)]
  simp only [indices, Option.map_some, List.map_map]
  congr 2
  apply List.map_congr_left
  intro n hn
  have hn : (n : ℝ) + 1 ≤ N := by exact_mod_cast List.mem_range.mp hn
  have h3 : (3 : ℝ) ≤ N := by exact_mod_cast hN
  have h1 : (n : ℝ) / period N flag ≤ 1 := by
    unfold period
    split
    · exact (div_le_one (by linarith)).mpr (by linarith)
    · exact (div_le_one (by linarith)).mpr (by linarith)
  simp only [Function.comp_def]
  rw [abs_of_nonpos (by linarith)]
  ring

/-- **C93, deviation.** In `bart_hann` and `blackman` the index is divided twice; the windows for the symmetric flag are not symmetric: they begin with
zero and end with a positive sample. -/
theorem C93_twice_divided_deviation {N : Nat} (hN : 3 ≤ N) {w : Nat → Flag → Part → Result} (hw : w ∈ [bartHann, blackman]) :
    ∃ l, w N .symmetric .full = .ok (some l) ∧ l.length = N ∧ l.getD 0 1 = 0 ∧ 0 < l.getD (N - 1) 0 := by
  have h3 : (3 : ℝ) ≤ N := by exact_mod_cast hN
  have h0 : ((N : ℝ) - 1) ≠ 0 := by
    intro h
    linarith
  have hlast : ((N - 1 : Nat) : ℝ) / ((N : ℝ) - 1) = 1 := by
    rw [Nat.cast_sub (by omega)]
    push_cast
    exact div_self h0
  have hp := points_some (N := N) (flag := .symmetric) (Or.inl (by omega)) (by simp) .full
  have hq := fun w => mdct_ok (flag := .symmetric) (by simp) w
  have hcos : ∀ x : ℝ, 0 < x → x ≤ 1 / 2 → Real.cos (2 * Real.pi * x) < 1 := by
    intro x hx hx2
    have := Real.cos_lt_cos_of_nonneg_of_le_pi (x := 0) (y := 2 * Real.pi * x) le_rfl (by nlinarith [Real.pi_pos]) (by have := Real.pi_pos; positivity)
    simpa using this
  simp only [List.mem_cons, List.not_mem_nil, or_false] at hw
  rcases hw with rfl | rfl
  · refine ⟨_, by rw [bartHann, hq, hp]; rfl, by simp [indices], ?_, ?_⟩
    · rw [List.getD_eq_getElem _ _ (by simp [indices]; omega)]
      simp only [indices, List.getElem_map, List.getElem_range, period, if_true]
      rw [show 2 * Real.pi * (((0 : Nat) : ℝ) / ((N : ℝ) - 1) / N - 0.5) = -Real.pi by simp; ring, Real.cos_neg, Real.cos_pi]
      norm_num [abs_of_nonneg]
    · rw [List.getD_eq_getElem _ _ (by simp [indices]; omega)]
      simp only [indices, List.getElem_map, List.getElem_range, period, if_true]
      rw [hlast]
      have hx : (0 : ℝ) < 1 / N := by positivity
      have hx2 : (1 : ℝ) / N ≤ 1 / 2 := by
        apply one_div_le_one_div_of_le (by norm_num)
        linarith
      have := hcos _ hx hx2
      rw [show 2 * Real.pi * (1 / (N : ℝ) - 0.5) = 2 * Real.pi * (1 / N) - Real.pi by ring, Real.cos_sub_pi, abs_of_nonpos (by norm_num at hx2 ⊢; linarith)]
      generalize (1 : ℝ) / N = y at *
      norm_num
      linarith
  · refine ⟨_, by rw [blackman, hq, hp, if_neg (by omega)]; rfl, by simp [indices], ?_, ?_⟩
    · rw [List.getD_eq_getElem _ _ (by simp [indices]; omega)]
      simp only [indices, List.getElem_map, List.getElem_range, period, if_true]
      norm_num
    · rw [List.getD_eq_getElem _ _ (by simp [indices]; omega)]
      simp only [indices, List.getElem_map, List.getElem_range, period, if_true]
      rw [hlast]
      have hx : (0 : ℝ) < 1 / ((N : ℝ) - 1) := one_div_pos.mpr (by linarith)
      have hx2 : (1 : ℝ) / ((N : ℝ) - 1) ≤ 1 / 2 := by
        apply one_div_le_one_div_of_le (by norm_num)
        linarith
      have h1 := hcos _ hx hx2
      have h2 := Real.neg_one_le_cos (2 * Real.pi * (1 / ((N : ℝ) - 1)))
      rw [show 4 * Real.pi * 1 / ((N : ℝ) - 1) = 2 * (2 * Real.pi * (1 / ((N : ℝ) - 1))) by ring, Real.cos_two_mul,
        show 2 * Real.pi * 1 / ((N : ℝ) - 1) = 2 * Real.pi * (1 / ((N : ℝ) - 1)) by ring]
      generalize Real.cos (2 * Real.pi * (1 / ((N : ℝ) - 1))) = c at h1 h2 ⊢
      have : 0.42 - 0.5 * c + 0.08 * (2 * c ^ 2 - 1) = (1 - c) * (0.34 - 0.16 * c) := by ring
      rw [this]
      exact mul_pos (by linarith) (by norm_num; linarith)

/-- **C93, deviation.** The third harmonic has the wrong sign in `blackman_harris` and `flattop`, so that the sample in the middle is not one
(it is 0.97664 and 0.832842…). -/
theorem C93_third_harmonic_deviation {m : Nat} (hm : 0 < m) :
    ∃ l r, blackmanHarris (2 * m) .asymmetric .full = .ok (some l) ∧ flattop (2 * m) .asymmetric .full = .ok (some r) ∧ l.getD m 0 = 0.97664 ∧ r.getD m 0 = 0.832842109 := by
  obtain ⟨-, -, -, -, h5, h6⟩ := C93_formulas (N := 2 * m) (flag := .asymmetric) (Or.inr (by simp)) (by simp)
  have h0 : (m : ℝ) ≠ 0 := by exact_mod_cast hm.ne'
  have hc : ∀ a : ℝ, a * Real.pi * m / period (2 * m) .asymmetric = a / 2 * Real.pi := by
    intro a
    simp only [period, reduceCtorEq, if_false]
    push_cast
    field_simp
  have c2 : Real.cos (4 / 2 * Real.pi) = 1 := by
    rw [show (4 : ℝ) / 2 * Real.pi = 2 * Real.pi by ring, Real.cos_two_pi]
  have c1 : Real.cos (2 / 2 * Real.pi) = -1 := by
    rw [show (2 : ℝ) / 2 * Real.pi = Real.pi by ring, Real.cos_pi]
  have c3 : Real.cos (6 / 2 * Real.pi) = -1 := by
    rw [show (6 : ℝ) / 2 * Real.pi = Real.pi + 2 * Real.pi by ring, Real.cos_add_two_pi, Real.cos_pi]
  have c4 : Real.cos (8 / 2 * Real.pi) = 1 := by
    rw [show (8 : ℝ) / 2 * Real.pi = 2 * Real.pi + 2 * Real.pi by ring, Real.cos_add_two_pi, Real.cos_two_pi]
  refine ⟨_, _, h5, h6, ?_, ?_⟩
  · rw [List.getD_eq_getElem _ _ (by simp; omega)]
    simp only [List.getElem_map, List.getElem_range, hc, c1, c2, c3]
    norm_num
  · rw [List.getD_eq_getElem _ _ (by simp; omega)]
    simp only [List.getElem_map, List.getElem_range, hc, c1, c2, c3, c4]
    norm_num

/-- **C93, deviation.** Windows of one sample: with the symmetric flag the sample is not a number; `bart` raises, `bohman` gives two samples, and
`blackman` and `kaiser` give no number with any flag. -/
theorem C93_one_sample_deviation (beta : ℝ) (flag : Flag) (hf : flag ≠ .mdct) (part : Part) :
    (∀ w ∈ [bartHann, blackman, blackmanHarris, cosine, flattop, hamming, hann, triang], w 1 .symmetric part = .ok none) ∧
    bart 1 flag part = .error .zeroDivision ∧ bohman 1 flag part = .ok (some [0, 0]) ∧ blackman 1 flag part = .ok none ∧ kaiser 1 beta flag part = .ok none := by
  refine ⟨fun w hw => ?_, by simp [bart], ?_, ?_, ?_⟩
  · simp only [List.mem_cons, List.not_mem_nil, or_false] at hw
    rcases hw with rfl | rfl | rfl | rfl | rfl | rfl | rfl | rfl <;>
      simp [bartHann, blackman, blackmanHarris, cosine, flattop, hamming, hann, triang, points, isSymmetric, mdct]
  · simp [bohman, mdct_ok hf]
  · simp [blackman, mdct_ok hf]
  · simp [kaiser, mdct_ok hf]

/-- Instances of the hypotheses. -/
example : ∃ l r, hann 512 .asymmetric .left = .ok (some l) ∧ hann 512 .asymmetric .right = .ok (some r) ∧ List.zipWith (· + ·) l r = List.replicate (512 / 2) 1 :=
  (C93_overlap (N := 512) (by norm_num)).1 hann (by simp)

example : ∃ l, hann (4 * 128) .asymmetric .full = .ok (some l) ∧ ∀ n, n < 128 → ∑ j ∈ Finset.range 4, l.getD (n + j * 128) 0 = ((4 : Nat) : ℝ) / 2 :=
  C93_hann_overlap (by norm_num) (by norm_num)

end Verif.Windows
