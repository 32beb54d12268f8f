import Mathlib.Analysis.SpecialFunctions.Log.Basic
import Mathlib.Algebra.Order.BigOperators.Ring.Finset
import Mathlib.Algebra.BigOperators.Field
import Mathlib.Analysis.SpecialFunctions.Pow.NNReal

/-!
# The multiplicative update

One lemma for all multiplicative updates: a square root of a quotient of the two parts of the gradient never makes the misfit larger.
-/

namespace Verif.FastMnmf

/-- What one power costs when another one is expected. -/
noncomputable def misfit (p y : ℝ) : ℝ := p / y + Real.log y

theorem coord {x u n d : ℝ} (hx : 0 ≤ x) (hn : 0 ≤ n) (hd : 0 < d) (hu : u = Real.sqrt (n / d)) : x ^ 2 / (x * u) * n + d * (x * u) ≤ x * n + d * x := by
  have hu0 : 0 ≤ u := by
    rw [hu]
    exact Real.sqrt_nonneg _
  have hn2 : n = u ^ 2 * d := by
    rw [hu, Real.sq_sqrt (div_nonneg hn hd.le), div_mul_cancel₀ _ hd.ne']
  rcases eq_or_lt_of_le hx with h0 | h0
  · simp [← h0]
  · rcases eq_or_lt_of_le hu0 with h1 | h1
    · rw [← h1]
      simp only [mul_zero, div_zero, zero_mul, zero_add]
      positivity
    · have h2 : x ^ 2 / (x * u) * n = x * u * d := by
        rw [hn2]
        field_simp
      rw [h2, hn2]
      nlinarith [mul_nonneg (mul_nonneg h0.le hd.le) (sq_nonneg (u - 1))]

theorem quotient {κ : Type} [Fintype κ] {a x y : κ → ℝ} {c p : ℝ} (ha : ∀ j, 0 ≤ a j) (hy : ∀ j, 0 ≤ y j) (hc : 0 ≤ c) (hx : ∀ j, 0 ≤ x j) (h0 : ∀ j, y j = 0 → a j * x j = 0)
    (hp : 0 ≤ p) (hY : 0 < c + ∑ j, a j * x j) (hY' : 0 < c + ∑ j, a j * y j) : p / (c + ∑ j, a j * y j) ≤ p / (c + ∑ j, a j * x j) ^ 2 * (c + ∑ j, a j * (x j ^ 2 / y j)) := by
  have h1 : (∑ j, a j * x j) ^ 2 ≤ (∑ j, a j * (x j ^ 2 / y j)) * ∑ j, a j * y j := by
    apply Finset.sum_sq_le_sum_mul_sum_of_sq_le_mul
    · intro j _
      exact mul_nonneg (ha j) (div_nonneg (sq_nonneg _) (hy j))
    · intro j _
      exact mul_nonneg (ha j) (hy j)
    · intro j _
      rcases eq_or_ne (y j) 0 with h | h
      · rw [h0 j h, h]
        simp
      · apply le_of_eq
        field_simp
  have hs0 : 0 ≤ ∑ j, a j * (x j ^ 2 / y j) := Finset.sum_nonneg fun j _ => mul_nonneg (ha j) (div_nonneg (sq_nonneg _) (hy j))
  have ht0 : 0 ≤ ∑ j, a j * y j := Finset.sum_nonneg fun j _ => mul_nonneg (ha j) (hy j)
  have hu0 : 0 ≤ ∑ j, a j * x j := Finset.sum_nonneg fun j _ => mul_nonneg (ha j) (hx j)
  set s := ∑ j, a j * (x j ^ 2 / y j)
  set t := ∑ j, a j * y j
  set u := ∑ j, a j * x j
  have h2 : 2 * u ≤ s + t := by
    apply le_of_sq_le_sq _ (add_nonneg hs0 ht0)
    nlinarith [sq_nonneg (s - t)]
  have h3 : (c + u) ^ 2 ≤ (c + s) * (c + t) := by nlinarith [mul_le_mul_of_nonneg_left h2 hc]
  rw [div_mul_eq_mul_div, div_le_div_iff₀ hY' (by positivity)]
  nlinarith [mul_le_mul_of_nonneg_left h3 hp]
where
  le_of_sq_le_sq {a b : ℝ} (h : a ^ 2 ≤ b ^ 2) (hb : 0 ≤ b) : a ≤ b := by
    by_contra hc
    rw [not_le] at hc
    nlinarith

/-- The misfit of a linear model, with a price `e` for the parameters, does not grow in a multiplicative update. -/
theorem mm {ι κ : Type} [Fintype ι] [Fintype κ] {a : ι → κ → ℝ} {c P : ι → ℝ} {x x' : κ → ℝ} {e : ℝ} (ha : ∀ i j, 0 ≤ a i j) (hc : ∀ i, 0 ≤ c i) (hP : ∀ i, 0 ≤ P i) (hx : ∀ j, 0 ≤ x j)
    (hY : ∀ i, 0 < c i + ∑ j, a i j * x j) (hd : ∀ j, 0 < ∑ i, a i j * (1 / (c i + ∑ j, a i j * x j)) + e)
    (hx' : ∀ j, x' j = x j * Real.sqrt ((∑ i, a i j * (P i / (c i + ∑ j, a i j * x j) ^ 2)) / (∑ i, a i j * (1 / (c i + ∑ j, a i j * x j)) + e)))
    (hY' : ∀ i, 0 < c i + ∑ j, a i j * x' j) :
    ∑ i, misfit (P i) (c i + ∑ j, a i j * x' j) + e * ∑ j, x' j ≤ ∑ i, misfit (P i) (c i + ∑ j, a i j * x j) + e * ∑ j, x j := by
  set Y : ι → ℝ := fun i => c i + ∑ j, a i j * x j with hYd
  set num : κ → ℝ := fun j => ∑ i, a i j * (P i / Y i ^ 2) with hnum
  set den : κ → ℝ := fun j => ∑ i, a i j * (1 / Y i) + e with hden
  have hnum0 : ∀ j, 0 ≤ num j := fun j => Finset.sum_nonneg fun i _ => mul_nonneg (ha i j) (div_nonneg (hP i) (sq_nonneg _))
  have hx0 : ∀ j, 0 ≤ x' j := by
    intro j
    rw [hx']
    exact mul_nonneg (hx j) (Real.sqrt_nonneg _)
  have hz : ∀ i j, x' j = 0 → P i * (a i j * x j) = 0 := by
    intro i j h
    rw [hx', mul_eq_zero] at h
    rcases h with h | h
    · rw [h, mul_zero, mul_zero]
    · rw [Real.sqrt_eq_zero (div_nonneg (hnum0 j) (hd j).le), div_eq_zero_iff] at h
      rcases h with h | h
      · rw [hnum, Finset.sum_eq_zero_iff_of_nonneg fun i _ => mul_nonneg (ha i j) (div_nonneg (hP i) (sq_nonneg _))] at h
        have h1 := h i (Finset.mem_univ i)
        rw [mul_eq_zero, div_eq_zero_iff] at h1
        rcases h1 with h1 | h1 | h1
        · rw [h1, zero_mul, mul_zero]
        · rw [h1, zero_mul]
        · exact absurd h1 (pow_ne_zero 2 (hY i).ne')
      · exact absurd h (hd j).ne'
  have h1 : ∀ i, misfit (P i) (c i + ∑ j, a i j * x' j) ≤ P i / Y i ^ 2 * (c i + ∑ j, a i j * (x j ^ 2 / x' j)) + (Real.log (Y i) + (c i + ∑ j, a i j * x' j) / Y i - 1) := by
    intro i
    unfold misfit
    apply add_le_add
    · rcases eq_or_lt_of_le (hP i) with h | h
      · rw [← h]
        simp
      · refine quotient (ha i) hx0 (hc i) hx (fun j hj => ?_) (hP i) (hY i) (hY' i)
        rcases mul_eq_zero.mp (hz i j hj) with h2 | h2
        · exact absurd h2 h.ne'
        · exact h2
    · have h2 := Real.log_le_sub_one_of_pos (div_pos (hY' i) (hY i))
      rw [Real.log_div (hY' i).ne' (hY i).ne'] at h2
      linarith
  have h2 : ∀ (z w : κ → ℝ), ∑ i, (P i / Y i ^ 2 * (c i + ∑ j, a i j * z j) + (Real.log (Y i) + (c i + ∑ j, a i j * w j) / Y i - 1)) + e * ∑ j, w j
      = ∑ i, (P i / Y i ^ 2 * c i + Real.log (Y i) + c i / Y i - 1) + ∑ j, (z j * num j + den j * w j) := by
    intro z w
    have h3 : ∀ v : κ → ℝ, ∑ j, v j * num j = ∑ i, P i / Y i ^ 2 * ∑ j, a i j * v j := by
      intro v
      simp only [hnum, Finset.mul_sum]
      rw [Finset.sum_comm]
      refine Finset.sum_congr rfl fun i _ => Finset.sum_congr rfl fun j _ => ?_
      ring
    have h4 : ∑ j, den j * w j = ∑ i, (∑ j, a i j * w j) / Y i + e * ∑ j, w j := by
      simp only [hden, add_mul, Finset.sum_add_distrib, Finset.mul_sum, Finset.sum_mul, Finset.sum_div]
      rw [Finset.sum_comm]
      congr 1
      refine Finset.sum_congr rfl fun i _ => Finset.sum_congr rfl fun j _ => ?_
      ring
    rw [Finset.sum_add_distrib (f := fun j => z j * num j), h3, h4, ← add_assoc, ← add_assoc, ← Finset.sum_add_distrib, ← Finset.sum_add_distrib]
    congr 1
    refine Finset.sum_congr rfl fun i _ => ?_
    ring
  have h3 : ∀ i, misfit (P i) (Y i) = P i / Y i ^ 2 * (c i + ∑ j, a i j * x j) + (Real.log (Y i) + (c i + ∑ j, a i j * x j) / Y i - 1) := by
    intro i
    have h4 : c i + ∑ j, a i j * x j = Y i := rfl
    have h5 := (hY i).ne'
    rw [h4]
    rw [h4] at h5
    unfold misfit
    rw [div_self h5]
    field_simp
    ring
  calc ∑ i, misfit (P i) (c i + ∑ j, a i j * x' j) + e * ∑ j, x' j
      ≤ ∑ i, (P i / Y i ^ 2 * (c i + ∑ j, a i j * (x j ^ 2 / x' j)) + (Real.log (Y i) + (c i + ∑ j, a i j * x' j) / Y i - 1)) + e * ∑ j, x' j := by
        gcongr with i
        exact h1 i
    _ = ∑ i, (P i / Y i ^ 2 * c i + Real.log (Y i) + c i / Y i - 1) + ∑ j, (x j ^ 2 / x' j * num j + den j * x' j) := h2 _ _
    _ ≤ ∑ i, (P i / Y i ^ 2 * c i + Real.log (Y i) + c i / Y i - 1) + ∑ j, (x j * num j + den j * x j) := by
        refine add_le_add_right (Finset.sum_le_sum fun j _ => ?_) _
        rw [hx' j]
        exact coord (hx j) (hnum0 j) (hd j) rfl
    _ = ∑ i, misfit (P i) (Y i) + e * ∑ j, x j := by
        rw [← h2]
        congr 1
        exact Finset.sum_congr rfl fun i _ => (h3 i).symm

/-- The same, with names for the model before and after. -/
theorem mm_named {ι κ : Type} [Fintype ι] [Fintype κ] {a : ι → κ → ℝ} {c P Y Y' : ι → ℝ} {x x' num den : κ → ℝ} {e : ℝ} (ha : ∀ i j, 0 ≤ a i j) (hc : ∀ i, 0 ≤ c i) (hP : ∀ i, 0 ≤ P i) (hx : ∀ j, 0 ≤ x j)
    (hYd : ∀ i, Y i = c i + ∑ j, a i j * x j) (hYd' : ∀ i, Y' i = c i + ∑ j, a i j * x' j) (hY : ∀ i, 0 < Y i) (hY' : ∀ i, 0 < Y' i) (hn : ∀ j, num j = ∑ i, a i j * (P i / Y i ^ 2))
    (hd : ∀ j, den j = ∑ i, a i j * (1 / Y i) + e) (hd0 : ∀ j, 0 < den j) (hx' : ∀ j, x' j = x j * Real.sqrt (num j / den j)) :
    ∑ i, misfit (P i) (Y' i) + e * ∑ j, x' j ≤ ∑ i, misfit (P i) (Y i) + e * ∑ j, x j := by
  obtain rfl : Y = fun i => c i + ∑ j, a i j * x j := funext hYd
  obtain rfl : Y' = fun i => c i + ∑ j, a i j * x' j := funext hYd'
  obtain rfl := funext hn
  obtain rfl := funext hd
  exact mm ha hc hP hx hY hd0 hx' hY'

end Verif.FastMnmf
