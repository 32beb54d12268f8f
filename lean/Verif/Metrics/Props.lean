import Verif.Metrics.Model
import Mathlib.Probability.Distributions.Gaussian.Real
import Mathlib.Probability.CDF
import Mathlib.MeasureTheory.Constructions.Pi
import Mathlib.Analysis.MeanInequalities
import Mathlib.Data.List.GetD
import Mathlib.Tactic.FieldSimp
import Mathlib.Tactic.Ring
import Mathlib.Tactic.Linarith
import Mathlib.Tactic.Positivity

/-!
# C94: medians with confidence intervals, and error measures

Small specification: `IsMedian` (at least half of the numbers on each side), the product measure of Mathlib for independent samples, the median of a
distribution as a number below which a sample lies with probability one half, sums and means as in textbooks.
-/

namespace Verif.Metrics

open Verif.Py MeasureTheory ProbabilityTheory

/-- At least half of the samples are at most `m` and at least half are at least `m`. -/
noncomputable def IsMedian (x : List ℝ) (m : ℝ) : Prop := x.length ≤ 2 * x.countP (· ≤ m) ∧ x.length ≤ 2 * x.countP (m ≤ ·)

theorem sorted_perm (x : List ℝ) : (sorted x).Perm x := List.perm_insertionSort _ _

theorem sorted_length (x : List ℝ) : (sorted x).length = x.length := (sorted_perm x).length_eq

theorem sorted_pairwise (x : List ℝ) : (sorted x).Pairwise (· ≤ ·) := List.pairwise_insertionSort _ _

theorem get_ok {l : List ℝ} {k : Nat} (h : k < l.length) : get l (k : Int) = .ok (l[k]) := by
  unfold Py.get normIdx
  rw [if_pos (by omega), if_pos (by omega)]
  simp [h]

/-- In a sorted list, entry `k` is at most `t` iff more than `k` entries are. -/
theorem get_le_iff {l : List ℝ} (hl : l.Pairwise (· ≤ ·)) (t : ℝ) {k : Nat} (hk : k < l.length) : l[k] ≤ t ↔ k < l.countP (· ≤ t) := by
  induction l generalizing k with
  | nil => simp at hk
  | cons a l ih =>
    rw [List.pairwise_cons] at hl
    cases k with
    | zero =>
      simp only [List.getElem_cons_zero, List.countP_cons, decide_eq_true_eq]
      constructor
      · intro h
        simp [h]
      · intro h
        by_contra hc
        have : l.countP (· ≤ t) = 0 := by
          rw [List.countP_eq_zero]
          intro b hb
          simp only [decide_eq_true_eq, not_le]
          exact lt_of_lt_of_le (not_le.mp hc) (hl.1 b hb)
        simp [this, hc] at h
    | succ k =>
      have hk' : k < l.length := by simpa using hk
      simp only [List.getElem_cons_succ, List.countP_cons, decide_eq_true_eq]
      rw [ih hl.2 hk']
      by_cases ha : a ≤ t
      · simp [ha]
      · have : l.countP (· ≤ t) = 0 := by
          rw [List.countP_eq_zero]
          intro b hb
          simp only [decide_eq_true_eq, not_le]
          exact lt_of_lt_of_le (not_le.mp ha) (hl.1 b hb)
        simp [this, ha]

theorem sorted_mono {l : List ℝ} (hl : l.Pairwise (· ≤ ·)) {i j : Nat} (h : i ≤ j) (hj : j < l.length) : l[i] ≤ l[j] := by
  rcases Nat.lt_or_ge i j with hlt | hge
  · exact List.pairwise_iff_getElem.mp hl i j (by omega) hj hlt
  · have : i = j := by omega
    subst this
    exact le_rfl

/-- Number of entries that are at least `t`: those from position `k` on, if entry `k` is. -/
theorem countP_ge {l : List ℝ} (hl : l.Pairwise (· ≤ ·)) (t : ℝ) {k : Nat} (hk : k < l.length) (ht : t ≤ l[k]) : l.length - k ≤ l.countP (t ≤ ·) := by
  have : (l.drop k).countP (t ≤ ·) ≤ l.countP (t ≤ ·) := List.Sublist.countP_le (List.drop_sublist k l)
  refine le_trans ?_ this
  rw [List.countP_eq_length.mpr]
  · simp
  · intro b hb
    obtain ⟨i, hi, rfl⟩ := List.mem_iff_getElem.mp hb
    simp only [List.getElem_drop, decide_eq_true_eq]
    have hi' : k + i < l.length := by
      rw [List.length_drop] at hi
      omega
    exact ht.trans (sorted_mono hl (by omega) hi')

theorem middle_ok {x : List ℝ} (hx : x ≠ []) : ∃ m, middle x = .ok m ∧ IsMedian x m := by
  have hn : 0 < x.length := List.length_pos_of_ne_nil hx
  have hs := sorted_pairwise x
  have hc1 : ∀ m, x.countP (· ≤ m) = (sorted x).countP (· ≤ m) := fun m => ((sorted_perm x).countP_eq _).symm
  have hc2 : ∀ m, x.countP (m ≤ ·) = (sorted x).countP (m ≤ ·) := fun m => ((sorted_perm x).countP_eq _).symm
  have hl := sorted_length x
  unfold middle
  simp only
  by_cases ho : x.length % 2 = 1
  · rw [if_pos ho]
    have hk : x.length / 2 < (sorted x).length := by omega
    refine ⟨_, get_ok hk, ?_⟩
    have h1 := (get_le_iff hs _ hk).mp le_rfl
    have h2 := countP_ge hs _ hk le_rfl
    unfold IsMedian
    rw [hc1, hc2]
    omega
  · rw [if_neg ho]
    have hk : x.length / 2 < (sorted x).length := by omega
    have hj : x.length / 2 - 1 < (sorted x).length := by omega
    have hcast : ((x.length / 2 : Nat) : Int) - 1 = ((x.length / 2 - 1 : Nat) : Int) := by omega
    rw [hcast, get_ok hj, get_ok hk]
    refine ⟨0.5 * ((sorted x)[x.length / 2 - 1] + (sorted x)[x.length / 2]), rfl, ?_⟩
    have hle := sorted_mono hs (show x.length / 2 - 1 ≤ x.length / 2 by omega) hk
    generalize he : 0.5 * ((sorted x)[x.length / 2 - 1] + (sorted x)[x.length / 2]) = m
    norm_num at he
    have h1 := (get_le_iff hs m hj).mp (by linarith)
    have h2 := countP_ge hs m hk (by linarith)
    unfold IsMedian
    rw [hc1, hc2]
    omega

/-- **C94, median.** The first number is a median; the order of the samples does not matter; no samples raise `IndexError`. -/
theorem C94_median {x : List ℝ} (hx : x ≠ []) :
    ∃ m, middle x = .ok m ∧ IsMedian x m ∧ (∀ y, y.Perm x → middle y = .ok m) ∧ ∀ P alpha r, median P x alpha = .ok r → r.1 = m := by
  obtain ⟨m, hm, hmed⟩ := middle_ok hx
  refine ⟨m, hm, hmed, fun y hy => ?_, fun P alpha r hr => ?_⟩
  · have hs : sorted y = sorted x := by
      have : (sorted y).Perm (sorted x) := (sorted_perm y).trans (hy.trans (sorted_perm x).symm)
      exact this.eq_of_pairwise (fun a b _ _ h1 h2 => le_antisymm h1 h2) (sorted_pairwise y) (sorted_pairwise x)
    unfold middle at hm ⊢
    rw [hs, hy.length_eq]
    exact hm
  · unfold median at hr
    rw [hm] at hr
    cases hp : positions P x.length alpha with
    | error e => rw [hp] at hr; cases hr
    | ok p =>
      rw [hp] at hr
      cases ha : get (sorted x) p.1 with
      | error e => simp only [Except.bind, ha] at hr; cases hr
      | ok a =>
        cases hb : get (sorted x) p.2 with
        | error e => simp only [Except.bind, ha, hb] at hr; cases hr
        | ok b =>
          simp only [Except.bind, ha, hb, Except.map, Except.ok.injEq] at hr
          rw [← hr]

theorem C94_median_empty (P : ℝ → ℝ) (alpha : ℝ) : median P [] alpha = .error .indexError := by
  simp [median, middle, sorted, Py.get, normIdx, Except.bind]

/-! ## The binomial distribution -/

theorem cdf_neg {n : Nat} {k : Int} (hk : k < 0) : cdf n k = 0 := by
  unfold cdf
  apply Finset.sum_eq_zero
  intro i _
  rw [if_neg (by omega)]

theorem cdf_full {n : Nat} {k : Int} (hk : (n : Int) ≤ k) : cdf n k = 1 := by
  unfold cdf
  rw [Finset.sum_congr rfl (g := fun i => (n.choose i : ℝ) / 2 ^ n)]
  · rw [← Finset.sum_div]
    have : ∑ i ∈ Finset.range (n + 1), (n.choose i : ℝ) = 2 ^ n := by exact_mod_cast Nat.sum_range_choose n
    rw [this]
    exact div_self (by positivity)
  · intro i hi
    rw [if_pos]
    have := Finset.mem_range.mp hi
    omega

theorem cdf_mono {n : Nat} {j k : Int} (h : j ≤ k) : cdf n j ≤ cdf n k := by
  unfold cdf
  apply Finset.sum_le_sum
  intro i _
  by_cases hi : (i : Int) ≤ j
  · rw [if_pos hi, if_pos (by omega)]
  · rw [if_neg hi]
    split
    · positivity
    · exact le_rfl

theorem cdf_zero (n : Nat) : cdf n 0 = 1 / 2 ^ n := by
  unfold cdf
  rw [Finset.sum_eq_single 0]
  · simp
  · intro i _ hi
    rw [if_neg (by omega)]
  · intro h
    simp at h

theorem cdf_pred (n : Nat) : cdf n ((n : Int) - 1) = 1 - 1 / 2 ^ n := by
  have h1 := cdf_full (n := n) (k := n) le_rfl
  have h2 : cdf n n = cdf n ((n : Int) - 1) + 1 / 2 ^ n := by
    unfold cdf
    rw [Finset.sum_range_succ, Finset.sum_range_succ _ n, if_pos le_rfl, if_neg (by omega)]
    simp only [Nat.choose_self, Nat.cast_one, add_zero]
    congr 1
    apply Finset.sum_congr rfl
    intro i hi
    have := Finset.mem_range.mp hi
    rw [if_pos (by omega), if_pos (by omega)]
  linarith

theorem ppf_spec {n : Nat} {q : ℝ} (h0 : 0 < q) (h1 : q ≤ 1) :
    ∃ k : Nat, ppf n q = .ok (k : Int) ∧ q ≤ cdf n k ∧ cdf n ((k : Int) - 1) < q ∧ k ≤ n := by
  have hne : {k : Nat | q ≤ cdf n k}.Nonempty := ⟨n, by simpa [cdf_full (n := n) (k := n) le_rfl] using h1⟩
  refine ⟨sInf {k : Nat | q ≤ cdf n k}, by unfold ppf; rw [if_pos ⟨h0, h1⟩], Nat.sInf_mem hne, ?_, ?_⟩
  · rcases Nat.eq_zero_or_pos (sInf {k : Nat | q ≤ cdf n k}) with hz | hp
    · rw [hz, cdf_neg (by simp)]
      exact h0
    · by_contra hc
      have hm : sInf {k : Nat | q ≤ cdf n k} - 1 ∈ {k : Nat | q ≤ cdf n k} := by
        change q ≤ cdf n ((sInf {k : Nat | q ≤ cdf n k} - 1 : Nat) : Int)
        rw [Nat.cast_sub hp]
        exact not_lt.mp hc
      have := Nat.sInf_le hm
      omega
  · exact Nat.sInf_le (by simpa [cdf_full (n := n) (k := n) le_rfl] using h1)

/-- **C94, interval in small samples.** The assertion in the code never fails. The sample is too small, and `ValueError` is raised, exactly if `2⁻ⁿ ≥ alpha / 2`;
otherwise the positions are inside the sample and the probabilities of the binomial distribution between them add up to at least `1 - alpha`. -/
theorem C94_small {n : Nat} {alpha : ℝ} (h0 : 0 < alpha) (h1 : alpha ≤ 1) :
    (alpha / 2 ≤ 1 / 2 ^ n → small n alpha = .error .valueError) ∧
    (1 / 2 ^ n < alpha / 2 → ∃ j k : Nat, small n alpha = .ok ((j : Int), (k : Int)) ∧ j < n ∧ k < n ∧ 1 - alpha ≤ cdf n k - cdf n j) := by
  obtain ⟨a, ha, ha1, ha2, ha3⟩ := ppf_spec (n := n) (q := alpha / 2) (by linarith) (by linarith)
  obtain ⟨b, hb, hb1, hb2, hb3⟩ := ppf_spec (n := n) (q := 1 - alpha / 2) (by linarith) (by linarith)
  have hsm : ∃ k : Int, (k = (b : Int) - 1 ∨ k = b) ∧ 1 - alpha ≤ cdf n k - cdf n ((a : Int) - 1) ∧
      small n alpha = if (a : Int) - 1 < 0 then .error .valueError else .ok ((a : Int) - 1, k) := by
    unfold small
    rw [ha, hb]
    simp only [Except.bind]
    by_cases hc : cdf n ((b : Int) - 1) - cdf n ((a : Int) - 1) < 1 - alpha
    · have hd : ¬ cdf n ((b : Int) - 1 + 1) - cdf n ((a : Int) - 1) < 1 - alpha := by
        rw [sub_add_cancel]
        linarith
      refine ⟨b, Or.inr rfl, by linarith, ?_⟩
      rw [if_pos hc, if_neg hd, sub_add_cancel]
    · refine ⟨(b : Int) - 1, Or.inl rfl, not_lt.mp hc, ?_⟩
      rw [if_neg hc, if_neg hc]
  obtain ⟨k, hk, hcov, hsm⟩ := hsm
  constructor
  · intro h
    have : a = 0 := by
      by_contra hc
      have : cdf n 0 ≤ cdf n ((a : Int) - 1) := cdf_mono (by omega)
      rw [cdf_zero] at this
      linarith
    rw [hsm, this]
    simp
  · intro h
    have ha0 : a ≠ 0 := by
      rintro rfl
      rw [Nat.cast_zero, cdf_zero] at ha1
      linarith
    have hbn : b < n := by
      rcases Nat.lt_or_ge b n with hlt | hge
      · exact hlt
      · have hb' : b = n := by omega
        rw [hb', cdf_pred n] at hb2
        linarith
    have hk0 : 0 ≤ k := by
      by_contra hc
      have hz : cdf n k = 0 := cdf_neg (by omega)
      have : cdf n 0 ≤ cdf n ((a : Int) - 1) := cdf_mono (by omega)
      rw [cdf_zero] at this
      have : (0 : ℝ) < 1 / 2 ^ n := by positivity
      linarith
    refine ⟨a - 1, k.toNat, ?_, by omega, by omega, ?_⟩
    · rw [hsm, if_neg (by omega), Nat.cast_sub (by omega), Int.toNat_of_nonneg hk0]
      rfl
    · rw [Int.toNat_of_nonneg hk0, Nat.cast_sub (by omega)]
      exact hcov

/-! ## Coverage -/

variable {n : Nat}

/-- Number of coordinates that are at most `t`. -/
noncomputable def below (t : ℝ) (x : Fin n → ℝ) : Nat := (Finset.univ.filter fun i => x i ≤ t).card

theorem countP_ofFn (t : ℝ) (x : Fin n → ℝ) : (List.ofFn x).countP (· ≤ t) = below t x := by
  have h : ((List.ofFn x : List ℝ) : Multiset ℝ) = (Finset.univ : Finset (Fin n)).val.map x := (Fin.univ_val_map x).symm
  have h2 : (List.ofFn x).countP (· ≤ t) = Multiset.countP (· ≤ t) ((List.ofFn x : List ℝ) : Multiset ℝ) := by
    rw [Multiset.coe_countP]
  rw [h2, h, Multiset.countP_map]
  rfl

theorem below_eq_iff (t : ℝ) (x : Fin n → ℝ) (A : Finset (Fin n)) :
    (Finset.univ.filter fun i => x i ≤ t) = A ↔ x ∈ Set.univ.pi fun i => if i ∈ A then Set.Iic t else Set.Ioi t := by
  simp only [Set.mem_pi, Set.mem_univ, true_implies]
  constructor
  · rintro rfl i
    by_cases h : x i ≤ t
    · simp [h]
    · simp [h, not_le.mp h]
  · intro h
    ext i
    have := h i
    by_cases hi : i ∈ A
    · rw [if_pos hi] at this
      simp [hi, Set.mem_Iic.mp this]
    · rw [if_neg hi] at this
      simp [hi, Set.mem_Ioi.mp this]

variable (μ : Measure ℝ) [IsProbabilityMeasure μ]

/-- The number of independent samples below the median has the binomial distribution. -/
theorem measure_below {t : ℝ} (ht : μ (Set.Iic t) = 2⁻¹) (s : Nat) :
    (Measure.pi fun _ : Fin n => μ) {x | below t x = s} = (n.choose s : ENNReal) * (2⁻¹) ^ n := by
  have hgt : μ (Set.Ioi t) = 2⁻¹ := by
    rw [← Set.compl_Iic, prob_compl_eq_one_sub measurableSet_Iic, ht]
    exact ENNReal.one_sub_inv_two
  have hset : {x : Fin n → ℝ | below t x = s} =
      ⋃ A ∈ Finset.powersetCard s (Finset.univ : Finset (Fin n)), Set.univ.pi fun i => if i ∈ A then Set.Iic t else Set.Ioi t := by
    ext x
    simp only [Set.mem_iUnion, exists_prop, Finset.mem_powersetCard, Finset.subset_univ, true_and, Set.mem_ofPred_eq]
    constructor
    · intro h
      exact ⟨_, h, (below_eq_iff t x _).mp rfl⟩
    · rintro ⟨A, hA, hx⟩
      rw [← hA, ← (below_eq_iff t x A).mpr hx]
      rfl
  rw [hset, measure_biUnion_finset]
  · rw [Finset.sum_congr rfl (g := fun _ => (2⁻¹ : ENNReal) ^ n)]
    · rw [Finset.sum_const, Finset.card_powersetCard, Finset.card_univ, Fintype.card_fin, nsmul_eq_mul]
    · intro A _
      rw [Measure.pi_pi, Finset.prod_congr rfl (g := fun _ => (2⁻¹ : ENNReal))]
      · rw [Finset.prod_const, Finset.card_univ, Fintype.card_fin]
      · intro i _
        split
        · exact ht
        · exact hgt
  · intro A _ B _ hAB
    rw [Function.onFun, Set.disjoint_left]
    intro x hA hB
    exact hAB (((below_eq_iff t x A).mpr hA).symm.trans ((below_eq_iff t x B).mpr hB))
  · intro A _
    refine MeasurableSet.univ_pi fun i => ?_
    split
    · exact measurableSet_Iic
    · exact measurableSet_Ioi

/-- Probability that the number of samples below the median is more than `j` and at most `k`. -/
theorem measure_between {t : ℝ} (ht : μ (Set.Iic t) = 2⁻¹) {j k : Nat} (hk : k ≤ n) :
    ENNReal.ofReal (cdf n k - cdf n j) ≤ (Measure.pi fun _ : Fin n => μ) {x | j < below t x ∧ below t x ≤ k} := by
  rcases Nat.lt_or_ge k j with hjk | hjk
  · rw [ENNReal.ofReal_of_nonpos (by linarith [cdf_mono (n := n) (show (k : Int) ≤ j by omega)])]
    exact zero_le
  have hset : {x : Fin n → ℝ | j < below t x ∧ below t x ≤ k} = ⋃ s ∈ Finset.Ioc j k, {x | below t x = s} := by
    ext x
    simp
  have hmeas : ∀ s, MeasurableSet {x : Fin n → ℝ | below t x = s} := by
    intro s
    have hset : {x : Fin n → ℝ | below t x = s} =
        ⋃ A ∈ Finset.powersetCard s (Finset.univ : Finset (Fin n)), Set.univ.pi fun i => if i ∈ A then Set.Iic t else Set.Ioi t := by
      ext x
      simp only [Set.mem_iUnion, exists_prop, Finset.mem_powersetCard, Finset.subset_univ, true_and, Set.mem_ofPred_eq]
      constructor
      · intro h
        exact ⟨_, h, (below_eq_iff t x _).mp rfl⟩
      · rintro ⟨A, hA, hx⟩
        rw [← hA, ← (below_eq_iff t x A).mpr hx]
        rfl
    rw [hset]
    refine Finset.measurableSet_biUnion _ fun A _ => MeasurableSet.univ_pi fun i => ?_
    split
    · exact measurableSet_Iic
    · exact measurableSet_Ioi
  rw [hset, measure_biUnion_finset]
  · rw [Finset.sum_congr rfl (fun s _ => measure_below μ ht s)]
    have hreal : cdf n k - cdf n j = ∑ s ∈ Finset.Ioc j k, (n.choose s : ℝ) / 2 ^ n := by
      have hsplit : ∀ m : Nat, m ≤ n → cdf n m = ∑ s ∈ Finset.range (m + 1), (n.choose s : ℝ) / 2 ^ n := by
        intro m hm
        unfold cdf
        rw [← Finset.sum_filter]
        apply Finset.sum_congr _ (fun _ _ => rfl)
        ext i
        simp only [Finset.mem_filter, Finset.mem_range]
        omega
      rw [hsplit k hk, hsplit j (by omega)]
      have : Finset.range (k + 1) = Finset.range (j + 1) ∪ Finset.Ioc j k := by
        ext i
        simp only [Finset.mem_union, Finset.mem_range, Finset.mem_Ioc]
        omega
      rw [this, Finset.sum_union]
      · ring
      · rw [Finset.disjoint_left]
        intro i hi
        simp only [Finset.mem_range] at hi
        simp only [Finset.mem_Ioc]
        omega
    rw [hreal, ENNReal.ofReal_sum_of_nonneg (fun s _ => by positivity)]
    apply le_of_eq
    apply Finset.sum_congr rfl
    intro s _
    rw [ENNReal.ofReal_div_of_pos (by positivity), ENNReal.ofReal_natCast, ENNReal.ofReal_pow (by norm_num), ENNReal.div_eq_inv_mul, mul_comm, ENNReal.inv_pow]
    norm_num
  · intro a _ b _ hab
    rw [Function.onFun, Set.disjoint_left]
    intro x hA hB
    exact hab (hA.symm.trans hB)
  · intro s _
    exact hmeas s

/-- **C94, confidence.** The interval from `m + ci[0]` to `m + ci[1]` returned for a small number of independent samples of a distribution contains the median of
the distribution with probability at least `1 - alpha`, whatever the distribution (samples lie below its median with probability one half). -/
theorem C94_confidence (P : ℝ → ℝ) (hn : 0 < n) {alpha : ℝ} (h0 : 0 < alpha) (h1 : alpha ≤ 1) (hs : (n : ℝ) < 10 / alpha) (h2 : 1 / 2 ^ n < alpha / 2)
    {t : ℝ} (ht : μ (Set.Iic t) = 2⁻¹) :
    ENNReal.ofReal (1 - alpha) ≤ (Measure.pi fun _ : Fin n => μ)
      {x | ∃ m lo hi, median P (List.ofFn x) alpha = .ok (m, lo, hi) ∧ m + lo ≤ t ∧ t ≤ m + hi} := by
  obtain ⟨j, k, hjk, hj, hk, hcov⟩ := (C94_small h0 h1).2 h2
  refine le_trans (ENNReal.ofReal_le_ofReal hcov) (le_trans (measure_between μ ht (by omega)) (measure_mono ?_))
  rintro x ⟨hx1, hx2⟩
  obtain ⟨m, hm, -⟩ := middle_ok (x := List.ofFn x) (by
    intro h
    have := congrArg List.length h
    simp at this
    omega)
  have hl : (sorted (List.ofFn x)).length = n := by rw [sorted_length, List.length_ofFn]
  have hj' : j < (sorted (List.ofFn x)).length := by omega
  have hk' : k < (sorted (List.ofFn x)).length := by omega
  have hc : (sorted (List.ofFn x)).countP (· ≤ t) = below t x := by
    rw [← countP_ofFn]
    exact (sorted_perm _).countP_eq _
  have ha := (get_le_iff (sorted_pairwise _) t hj').mpr (by rw [hc]; exact hx1)
  have hb : t < (sorted (List.ofFn x))[k] := by
    rw [← not_le, get_le_iff (sorted_pairwise _) t hk', hc]
    omega
  refine ⟨m, (sorted (List.ofFn x))[j] - m, (sorted (List.ofFn x))[k] - m, ?_, by linarith, by linarith⟩
  have hp : positions P (List.ofFn x).length alpha = .ok ((j : Int), (k : Int)) := by
    unfold positions
    rw [List.length_ofFn, if_neg (by intro h; rcases h with h | h <;> linarith), if_pos (lt_of_lt_of_le hs (le_max_left _ _)), hjk]
  unfold median
  rw [hm, hp]
  simp only [Except.bind, get_ok hj', get_ok hk', Except.map]

/-- **C94, deviation.** The documentation says that the interval is `[m - le, m + ue]`. The first number is not positive when the lower position is in the
lower half of the sample: that interval does not reach below the median. -/
theorem C94_sign_deviation (P : ℝ → ℝ) {x : List ℝ} {alpha m le ue : ℝ} (h : median P x alpha = .ok (m, le, ue)) {j k : Int}
    (hp : positions P x.length alpha = .ok (j, k)) (hj0 : 0 ≤ j) (hj : 2 * j + 2 ≤ x.length) : le ≤ 0 ∧ m ≤ m - le := by
  unfold median at h
  cases hm : middle x with
  | error e => rw [hm] at h; cases h
  | ok m' =>
    obtain ⟨i, rfl⟩ : ∃ i : Nat, j = i := ⟨j.toNat, by omega⟩
    have hi : i < (sorted x).length := by
      rw [sorted_length]
      omega
    rw [hm, hp] at h
    simp only [Except.bind, get_ok hi] at h
    cases hb : get (sorted x) k with
    | error e => simp only [hb, Except.map] at h; cases h
    | ok b =>
      simp only [hb, Except.map, Except.ok.injEq, Prod.mk.injEq] at h
      obtain ⟨rfl, rfl, -⟩ := h
      have hl := sorted_length x
      have key : (sorted x)[i] ≤ m' := by
        unfold middle at hm
        simp only at hm
        by_cases ho : x.length % 2 = 1
        · rw [if_pos ho, get_ok (show x.length / 2 < (sorted x).length by omega)] at hm
          cases hm
          exact sorted_mono (sorted_pairwise x) (by omega) _
        · rw [if_neg ho] at hm
          have hcast : ((x.length / 2 : Nat) : Int) - 1 = ((x.length / 2 - 1 : Nat) : Int) := by omega
          rw [hcast, get_ok (show x.length / 2 - 1 < (sorted x).length by omega), get_ok (show x.length / 2 < (sorted x).length by omega)] at hm
          cases hm
          have h1 := sorted_mono (sorted_pairwise x) (show i ≤ x.length / 2 - 1 by omega) (show x.length / 2 - 1 < (sorted x).length by omega)
          have h2 := sorted_mono (sorted_pairwise x) (show i ≤ x.length / 2 by omega) (show x.length / 2 < (sorted x).length by omega)
          norm_num
          linarith
      constructor <;> linarith

/-! ## Large samples -/

/-- What is known about the quantile function of the standard normal distribution. -/
def IsNormPpf (P : ℝ → ℝ) : Prop := ∀ q, 0 < q → q < 1 → gaussianReal 0 1 (Set.Iic (P q)) = ENNReal.ofReal q

theorem normal_quantile_bound {P : ℝ → ℝ} (hP : IsNormPpf P) {beta : ℝ} (h0 : 0 < beta) (h1 : beta < 2) :
    P (1 - beta / 2) ^ 2 ≤ 2 / min beta (2 - beta) := by
  set e := P (1 - beta / 2) with he
  have hmin : 0 < min beta (2 - beta) := lt_min h0 (by linarith)
  rcases eq_or_ne e 0 with hz | hne
  · rw [hz]
    have : (0 : ℝ) ≤ 2 / min beta (2 - beta) := by positivity
    linarith [show (0 : ℝ) ^ 2 = 0 by norm_num]
  have hq := hP (1 - beta / 2) (by linarith) (by linarith)
  rw [← he] at hq
  have hcheb := meas_ge_le_variance_div_sq (μ := gaussianReal 0 1) (X := id) (memLp_id_gaussianReal 2) (c := |e|) (abs_pos.mpr hne)
  rw [variance_id_gaussianReal, sq_abs] at hcheb
  have hmean : ∫ x, id x ∂(gaussianReal 0 1) = 0 := by
    simp
  rw [hmean] at hcheb
  simp only [id, sub_zero, NNReal.coe_one] at hcheb
  have hlow : ENNReal.ofReal (min beta (2 - beta) / 2) ≤ gaussianReal 0 1 {x | |e| ≤ |x|} := by
    rcases le_total e 0 with hn | hp
    · refine le_trans ?_ (measure_mono (s := Set.Iic e) ?_)
      · rw [hq]
        apply ENNReal.ofReal_le_ofReal
        linarith [min_le_right beta (2 - beta)]
      · intro x hx
        have hx : x ≤ e := hx
        change |e| ≤ |x|
        rw [abs_of_nonpos hn, abs_of_nonpos (hx.trans hn)]
        linarith
    · refine le_trans ?_ (measure_mono (s := Set.Ioi e) ?_)
      · rw [← Set.compl_Iic, prob_compl_eq_one_sub measurableSet_Iic, hq, ← ENNReal.ofReal_one, ← ENNReal.ofReal_sub _ (by linarith)]
        apply ENNReal.ofReal_le_ofReal
        linarith [min_le_left beta (2 - beta)]
      · intro x hx
        have hx : e < x := hx
        change |e| ≤ |x|
        rw [abs_of_nonneg hp, abs_of_nonneg (hp.trans hx.le)]
        exact hx.le
  have hfin := (hlow.trans hcheb)
  rw [ENNReal.ofReal_le_ofReal_iff (by positivity)] at hfin
  have he2 : 0 < e ^ 2 := by positivity
  rw [le_div_iff₀ he2] at hfin
  rw [le_div_iff₀ hmin]
  linarith

/-- **C94, interval in large samples.** The positions are always inside the sample. -/
theorem C94_large {P : ℝ → ℝ} (hP : IsNormPpf P) {n : Nat} {alpha : ℝ} (h0 : 0 < alpha) (h2 : alpha < 2)
    (hl : max (10 / alpha) (10 / (2 - alpha)) ≤ (n : ℝ)) :
    ∃ j k : Nat, positions P n alpha = .ok ((j : Int), (k : Int)) ∧ j < n ∧ k < n := by
  have h2' : 0 < 2 - alpha := by linarith
  have hb := normal_quantile_bound hP h0 h2
  set e := P (1 - alpha / 2) with he
  have h10 : (10 : ℝ) ≤ n := by
    rcases le_total alpha 1 with h | h
    · refine le_trans ?_ (le_trans (le_max_left _ _) hl)
      rw [le_div_iff₀ h0]
      linarith
    · refine le_trans ?_ (le_trans (le_max_right _ _) hl)
      rw [le_div_iff₀ h2']
      linarith
  have hmn : 2 / min alpha (2 - alpha) ≤ (n : ℝ) / 5 := by
    rcases le_total alpha (2 - alpha) with h | h
    · rw [min_eq_left h]
      have : 10 / alpha ≤ n := le_trans (le_max_left _ _) hl
      have h3 : 2 / alpha = 10 / alpha / 5 := by ring
      rw [h3]
      linarith
    · rw [min_eq_right h]
      have : 10 / (2 - alpha) ≤ n := le_trans (le_max_right _ _) hl
      have h3 : 2 / (2 - alpha) = 10 / (2 - alpha) / 5 := by ring
      rw [h3]
      linarith
  have hsq : (e * √n) ^ 2 ≤ (n / 2) ^ 2 := by
    rw [mul_pow, Real.sq_sqrt (by linarith)]
    nlinarith
  have habs := abs_le_of_sq_le_sq' hsq (by linarith)
  set y := e * √n with hy
  have e1 : 0.5 * (n : ℝ) - 0.5 * e * √n = 0.5 * n - 0.5 * y := by rw [hy]; ring
  have e2 : 0.5 * (n : ℝ) + 0.5 * e * √n = 0.5 * n + 0.5 * y := by rw [hy]; ring
  have hj1 : 1 ≤ ⌊0.5 * (n : ℝ) - 0.5 * y⌋ := by
    rw [Int.le_floor]
    norm_num
    linarith
  have hj2 : ⌊0.5 * (n : ℝ) - 0.5 * y⌋ < n := by
    rw [Int.floor_lt]
    norm_num
    linarith
  have hk1 : 0 ≤ ⌈0.5 * (n : ℝ) + 0.5 * y⌉ := by
    apply Int.ceil_nonneg
    norm_num
    linarith
  have hk2 : ⌈0.5 * (n : ℝ) + 0.5 * y⌉ ≤ (n : Int) - 1 := by
    rw [Int.ceil_le]
    push_cast
    norm_num
    linarith
  refine ⟨(⌊0.5 * (n : ℝ) - 0.5 * y⌋ - 1).toNat, ⌈0.5 * (n : ℝ) + 0.5 * y⌉.toNat, ?_, by omega, by omega⟩
  unfold positions
  rw [if_neg (by intro h; rcases h with h | h <;> linarith), if_neg (not_lt.mpr hl), if_pos ⟨h0, h2⟩]
  unfold large
  rw [← he, e1, e2, Int.toNat_of_nonneg (by omega), Int.toNat_of_nonneg hk1]

theorem gaussian_half : gaussianReal 0 1 (Set.Iic 0) = 2⁻¹ := by
  have hsym : gaussianReal 0 1 (Set.Ici 0) = gaussianReal 0 1 (Set.Iic 0) := by
    have h := gaussianReal_map_neg (μ := 0) (v := 1)
    rw [neg_zero] at h
    conv_lhs => rw [← h]
    rw [Measure.map_apply measurable_neg measurableSet_Ici]
    congr 1
    ext x
    simp
  have hat : NullSingletonClass (gaussianReal 0 1) := nullSingletonClass_gaussianReal one_ne_zero
  have hIoi : gaussianReal 0 1 (Set.Ioi 0) = gaussianReal 0 1 (Set.Iic 0) := by
    rw [← hsym]
    exact measure_congr Ioi_ae_eq_Ici
  have hsum : gaussianReal 0 1 (Set.Iic 0) + gaussianReal 0 1 (Set.Iic 0) = 1 := by
    nth_rw 2 [← hIoi]
    rw [← measure_union (Set.Iic_disjoint_Ioi le_rfl) measurableSet_Ioi, Set.Iic_union_Ioi, measure_univ]
  rw [← two_mul] at hsum
  exact ENNReal.eq_inv_of_mul_eq_one_left (by rw [mul_comm]; exact hsum)

theorem normPpf_nonneg {P : ℝ → ℝ} (hP : IsNormPpf P) {q : ℝ} (h0 : 1 / 2 < q) (h1 : q < 1) : 0 ≤ P q := by
  by_contra hc
  have hq := hP q (by linarith) h1
  have hle : gaussianReal 0 1 (Set.Iic (P q)) ≤ gaussianReal 0 1 (Set.Iic 0) := measure_mono (Set.Iic_subset_Iic.mpr (not_le.mp hc).le)
  rw [hq, gaussian_half, show (2⁻¹ : ENNReal) = ENNReal.ofReal (1 / 2) by rw [ENNReal.ofReal_div_of_pos (by norm_num)]; norm_num,
    ENNReal.ofReal_le_ofReal_iff (by norm_num)] at hle
  linarith

/-- **C94, width in large samples.** The numbers of samples counted by the two positions enclose `eta` standard deviations `√n / 2` of the binomial
distribution on both sides of its mean `n / 2`, and by less than one sample more than needed (two at the upper end, where positions start from zero). -/
theorem C94_large_width {P : ℝ → ℝ} (hP : IsNormPpf P) {n : Nat} {alpha : ℝ} (h0 : 0 < alpha) (h1 : alpha < 1) (hl : 10 / alpha ≤ (n : ℝ)) {j k : Int}
    (hp : positions P n alpha = .ok (j, k)) :
    0 ≤ P (1 - alpha / 2) ∧ (j : ℝ) + 1 ≤ n / 2 - P (1 - alpha / 2) * (√n / 2) ∧ n / 2 - P (1 - alpha / 2) * (√n / 2) < j + 2 ∧
    n / 2 + P (1 - alpha / 2) * (√n / 2) ≤ k ∧ (k : ℝ) - 1 < n / 2 + P (1 - alpha / 2) * (√n / 2) := by
  have hmax : max (10 / alpha) (10 / (2 - alpha)) ≤ (n : ℝ) := by
    refine max_le hl (le_trans ?_ hl)
    apply div_le_div_of_nonneg_left (by norm_num) h0 (by linarith)
  refine ⟨normPpf_nonneg hP (by linarith) (by linarith), ?_⟩
  unfold positions at hp
  rw [if_neg (by intro h; rcases h with h | h <;> linarith), if_neg (not_lt.mpr hmax), if_pos ⟨h0, by linarith⟩] at hp
  unfold large at hp
  simp only [Except.ok.injEq, Prod.mk.injEq] at hp
  set e := P (1 - alpha / 2) with he
  obtain ⟨rfl, rfl⟩ := hp
  have e1 : 0.5 * (n : ℝ) - 0.5 * e * √n = n / 2 - e * (√n / 2) := by ring
  have e2 : 0.5 * (n : ℝ) + 0.5 * e * √n = n / 2 + e * (√n / 2) := by ring
  rw [e1, e2]
  push_cast
  have f1 := Int.floor_le ((n : ℝ) / 2 - e * (√n / 2))
  have f2 := Int.lt_floor_add_one ((n : ℝ) / 2 - e * (√n / 2))
  have f3 := Int.le_ceil ((n : ℝ) / 2 + e * (√n / 2))
  have f4 := Int.ceil_lt_add_one ((n : ℝ) / 2 + e * (√n / 2))
  refine ⟨by linarith, by linarith, f3, by linarith⟩

/-- **C94, refusals.** Confidence levels outside of the interval from zero to two raise. -/
theorem C94_refused (P : ℝ → ℝ) {n : Nat} {alpha : ℝ} (h : alpha ≤ 0 ∨ 2 ≤ alpha) : ∃ e, positions P n alpha = .error e := by
  unfold positions
  by_cases hz : alpha = 0 ∨ alpha = 2
  · exact ⟨_, by rw [if_pos hz]⟩
  · rw [if_neg hz]
    push Not at hz
    have hout : ¬ (0 < alpha ∧ alpha < 2) := by
      rintro ⟨h1, h2⟩
      rcases h with h | h <;> linarith
    rw [if_neg hout]
    split
    · unfold small
      rcases h with h | h
      · have h' : alpha < 0 := lt_of_le_of_ne h hz.1
        have : ppf n (alpha / 2) = .error .valueError := by
          unfold ppf
          rw [if_neg (by intro hc; linarith [hc.1]), if_neg (by intro hc; linarith)]
        exact ⟨_, by rw [this]; rfl⟩
      · have h' : 2 < alpha := lt_of_le_of_ne h (Ne.symm hz.2)
        have : ppf n (alpha / 2) = .error .valueError := by
          unfold ppf
          rw [if_neg (by intro hc; linarith [hc.2]), if_neg (by intro hc; linarith)]
        exact ⟨_, by rw [this]; rfl⟩
    · exact ⟨_, rfl⟩

/-! ## Errors and flatness -/

/-- **C94, error.** `mse` is the mean of the squared differences. -/
theorem C94_mse_value {n : Nat} (hn : 0 < n) (x y : Fin n → ℝ) : mse (List.ofFn x) (List.ofFn y) = some ((∑ i, (x i - y i) ^ 2) / n) := by
  have hz : List.zipWith (fun a b => |a - b| ^ 2) (List.ofFn x) (List.ofFn y) = List.ofFn fun i => (x i - y i) ^ 2 := by
    apply List.ext_getElem
    · simp
    · intro i h1 h2
      simp [sq_abs]
  unfold mse
  rw [if_neg (by simpa using hn.ne'), hz, List.sum_ofFn, List.length_ofFn]

/-- **C94, error.** `mse` of signals of the same length is not negative, symmetric, and zero exactly for equal signals. -/
theorem C94_mse {x y : List ℝ} (h : x.length = y.length) (hx : x ≠ []) :
    ∃ e, mse x y = some e ∧ mse y x = some e ∧ 0 ≤ e ∧ (e = 0 ↔ x = y) := by
  have hy : y ≠ [] := by
    rintro rfl
    simp at h
    exact hx h
  have hl : (0 : ℝ) < x.length := by exact_mod_cast List.length_pos_of_ne_nil hx
  have hsym : ∀ (a b : List ℝ), (List.zipWith (fun a b => |a - b| ^ 2) b a).sum = (List.zipWith (fun a b => |a - b| ^ 2) a b).sum := by
    intro a
    induction a with
    | nil => intro b; simp
    | cons u a ih =>
      intro b
      cases b with
      | nil => simp
      | cons v b => rw [List.zipWith_cons_cons, List.zipWith_cons_cons, List.sum_cons, List.sum_cons, ih, abs_sub_comm]
  have hnn : ∀ (a b : List ℝ), 0 ≤ (List.zipWith (fun a b => |a - b| ^ 2) a b).sum := by
    intro a
    induction a with
    | nil => intro b; simp
    | cons u a ih =>
      intro b
      cases b with
      | nil => simp
      | cons v b =>
        simp only [List.zipWith_cons_cons, List.sum_cons]
        have := ih b
        positivity
  have hz : ∀ (a b : List ℝ), a.length = b.length → ((List.zipWith (fun a b => |a - b| ^ 2) a b).sum = 0 ↔ a = b) := by
    intro a
    induction a with
    | nil =>
      intro b hb
      simp at hb
      simp [List.length_eq_zero_iff.mp hb.symm]
    | cons u a ih =>
      intro b hb
      cases b with
      | nil => simp at hb
      | cons v b =>
        simp only [List.zipWith_cons_cons, List.sum_cons, List.cons.injEq]
        rw [add_eq_zero_iff_of_nonneg (by positivity) (hnn a b), ih b (by simpa using hb)]
        simp [sub_eq_zero]
  refine ⟨_, by unfold mse; rw [if_neg hx], ?_, div_nonneg (hnn x y) hl.le, ?_⟩
  · unfold mse
    rw [if_neg hy, hsym, h]
  · rw [div_eq_zero_iff, hz x y h]
    simp [hl.ne']

/-- **C94, ratio.** `snr` is the energy of the reference over the energy of the error. -/
theorem C94_snr_value {n : Nat} (x y : Fin n → ℝ) (h : x ≠ y) :
    snr (List.ofFn x) (List.ofFn y) = some ((∑ i, x i ^ 2) / ∑ i, (x i - y i) ^ 2) := by
  have hz : List.zipWith (fun a b => (a - b) ^ 2) (List.ofFn x) (List.ofFn y) = List.ofFn fun i => (x i - y i) ^ 2 := by
    apply List.ext_getElem
    · simp
    · intro i h1 h2
      simp
  have hne : ∑ i, (x i - y i) ^ 2 ≠ 0 := by
    rw [Ne, Finset.sum_eq_zero_iff_of_nonneg (fun i _ => sq_nonneg _)]
    intro hc
    apply h
    funext i
    have := hc i (Finset.mem_univ i)
    rwa [sq_eq_zero_iff, sub_eq_zero] at this
  unfold snr
  simp only
  rw [hz, List.sum_ofFn, if_neg hne, List.map_ofFn, List.sum_ofFn]
  rfl

/-- **C94, ratio.** Scaling both signals changes nothing; the ratio is not negative. -/
theorem C94_snr (x y : List ℝ) {c : ℝ} (hc : c ≠ 0) : snr (x.map (c * ·)) (y.map (c * ·)) = snr x y ∧
    ∀ (s : ℝ), snr x y = some s → 0 ≤ s := by
  have he : ∀ (x y : List ℝ), (List.zipWith (fun a b => (a - b) ^ 2) (x.map (c * ·)) (y.map (c * ·))).sum = c ^ 2 * (List.zipWith (fun a b => (a - b) ^ 2) x y).sum := by
    intro x
    induction x with
    | nil => intro y; simp
    | cons u x ih =>
      intro y
      cases y with
      | nil => simp
      | cons v y =>
        simp only [List.map_cons, List.zipWith_cons_cons, List.sum_cons, ih]
        ring
  have hx : ((x.map (c * ·)).map (· ^ 2)).sum = c ^ 2 * (x.map (· ^ 2)).sum := by
    rw [List.map_map, ← List.sum_map_mul_left]
    congr 1
    apply List.map_congr_left
    intro a _
    simp only [Function.comp_def]
    ring
  have hc2 : c ^ 2 ≠ 0 := pow_ne_zero 2 hc
  constructor
  · unfold snr
    simp only [he, hx]
    by_cases hz : (List.zipWith (fun a b => (a - b) ^ 2) x y).sum = 0
    · rw [if_pos hz, if_pos (by rw [hz, mul_zero])]
    · rw [if_neg hz, if_neg (mul_ne_zero hc2 hz), mul_div_mul_left _ _ hc2]
  · intro s hs
    unfold snr at hs
    simp only at hs
    split at hs
    · cases hs
    · cases hs
      apply div_nonneg
      · apply List.sum_nonneg
        intro a ha
        obtain ⟨b, -, rfl⟩ := List.mem_map.mp ha
        exact sq_nonneg b
      · apply List.sum_nonneg
        intro a ha
        rw [List.mem_iff_getElem] at ha
        obtain ⟨i, hi, rfl⟩ := ha
        rw [List.getElem_zipWith]
        exact sq_nonneg _

/-- **C94, flatness.** The flatness is a number as soon as one of the sizes is not zero. It is zero if another one is zero; otherwise it is positive and at most one,
and it is one if all have the same size. -/
theorem C94_flatness {ss : List ℝ} (hex : ∃ s ∈ ss, s ≠ 0) :
    ∃ f, flatness ss = some f ∧ 0 ≤ f ∧ f ≤ 1 ∧ (f = 0 ↔ (0 : ℝ) ∈ ss) ∧ ((∃ c, ∀ s ∈ ss, |s| = c) → f = 1) := by
  have hall : ¬ ∀ s ∈ ss, s = 0 := by
    push Not
    exact hex
  by_cases h0 : (0 : ℝ) ∈ ss
  · refine ⟨0, by unfold flatness; rw [if_neg hall, if_pos h0], le_rfl, zero_le_one, by simp [h0], ?_⟩
    rintro ⟨c, hc⟩
    obtain ⟨s, hs, hs0⟩ := hex
    have h1 := hc 0 h0
    have h2 := hc s hs
    rw [← h1, abs_zero, abs_eq_zero] at h2
    exact absurd h2 hs0
  have hne : ss ≠ [] := by
    obtain ⟨s, hs, -⟩ := hex
    exact List.ne_nil_of_mem hs
  suffices hmain : ∃ f, flatness ss = some f ∧ 0 < f ∧ f ≤ 1 ∧ ((∃ c, ∀ s ∈ ss, |s| = c) → f = 1) by
    obtain ⟨f, h1, h2, h3, h4⟩ := hmain
    exact ⟨f, h1, h2.le, h3, by simp [h0, h2.ne'], h4⟩
  have hl : (0 : ℝ) < ss.length := by exact_mod_cast List.length_pos_of_ne_nil hne
  have hpos : ∀ s ∈ ss, 0 < |s| := fun s hs => abs_pos.mpr (fun h => h0 (h ▸ hs))
  have hsum : 0 < (ss.map fun s => |s|).sum := by
    obtain ⟨a, l, rfl⟩ := List.exists_cons_of_ne_nil hne
    simp only [List.map_cons, List.sum_cons]
    have h1 := hpos a (by simp)
    have h2 : 0 ≤ (l.map fun s => |s|).sum := List.sum_nonneg (fun x hx => by
      obtain ⟨b, -, rfl⟩ := List.mem_map.mp hx
      exact abs_nonneg b)
    linarith
  refine ⟨_, by unfold flatness; rw [if_neg hall, if_neg h0], by positivity, ?_, ?_⟩
  · rw [div_le_one (by positivity)]
    set A := (ss.map fun s => |s|).sum / ss.length with hA
    have hApos : 0 < A := by positivity
    have hlog : ∀ l : List ℝ, (∀ s ∈ l, 0 < |s|) → (l.map fun s => Real.log |s|).sum ≤ (l.map fun s => |s|).sum / A - l.length + l.length * Real.log A := by
      intro l
      induction l with
      | nil => intro _; simp
      | cons a l ih =>
        intro hp
        have ha := hp a (by simp)
        have := ih (fun s hs => hp s (by simp [hs]))
        have h1 := Real.log_le_sub_one_of_pos (show 0 < |a| / A by positivity)
        rw [Real.log_div ha.ne' hApos.ne'] at h1
        simp only [List.map_cons, List.sum_cons, List.length_cons, add_div]
        push_cast
        linarith
    have h1 := hlog ss hpos
    have h2 : (ss.map fun s => |s|).sum / A = ss.length := by
      rw [hA]
      field_simp
    rw [h2] at h1
    have h3 : (ss.map fun s => Real.log |s|).sum / ss.length ≤ Real.log A := by
      rw [div_le_iff₀ hl]
      linarith
    calc Real.exp ((ss.map fun s => Real.log |s|).sum / ss.length) ≤ Real.exp (Real.log A) := Real.exp_le_exp.mpr h3
      _ = A := Real.exp_log hApos
  · rintro ⟨c, hc⟩
    have hcpos : 0 < c := by
      obtain ⟨a, l, rfl⟩ := List.exists_cons_of_ne_nil hne
      rw [← hc a (by simp)]
      exact hpos a (by simp)
    have h1 : (ss.map fun s => |s|) = List.replicate ss.length c := by
      rw [List.eq_replicate_iff]
      simpa using hc
    have h2 : (ss.map fun s => Real.log |s|) = List.replicate ss.length (Real.log c) := by
      rw [List.eq_replicate_iff]
      refine ⟨by simp, fun b hb => ?_⟩
      obtain ⟨s, hs, rfl⟩ := List.mem_map.mp hb
      rw [hc s hs]
    rw [h1, h2, List.sum_replicate, List.sum_replicate, nsmul_eq_mul, nsmul_eq_mul, mul_div_cancel_left₀ _ hl.ne', mul_div_cancel_left₀ _ hl.ne', Real.exp_log hcpos]
    exact div_self hcpos.ne'

/-- **C94, deviation.** The bins of a transform of length `2 * M` of a real signal, of which there are `M + 1`, are taken for bins of both signs and their upper half is
dropped; the label of a bin is then about twice its frequency `i * fs / (2 * M)`. -/
theorem C94_bin_labels_deviation {M : Nat} (hM : 4 ≤ M) {fs : ℝ} (hfs : 0 < fs) {i : Nat} (hi : 0 < i) :
    2 * ((i : ℝ) * fs / (2 * M)) ≤ binLabel (M + 1) fs i := by
  unfold binLabel
  have hM' : (4 : ℝ) ≤ M := by exact_mod_cast hM
  have h1 : (((M + 1) / 2 : Nat) : ℝ) ≤ ((M : ℝ) + 1) / 2 := by
    have := Nat.cast_div_le (α := ℝ) (m := M + 1) (n := 2)
    push_cast at this
    exact this
  have h2 : (2 : ℝ) ≤ (((M + 1) / 2 : Nat) : ℝ) := by
    have : 2 ≤ (M + 1) / 2 := by omega
    exact_mod_cast this
  generalize (((M + 1) / 2 : Nat) : ℝ) = r at h1 h2
  have hi' : (0 : ℝ) < i := by exact_mod_cast hi
  have e1 : 2 * ((i : ℝ) * fs / (2 * M)) = i * fs * (1 / M) := by
    field_simp
  have e2 : (i : ℝ) * (fs / 2) / (r - 1) = i * fs * (1 / (2 * (r - 1))) := by
    have : r - 1 ≠ 0 := by
      intro h
      linarith
    field_simp
  rw [e1, e2]
  apply mul_le_mul_of_nonneg_left _ (by positivity)
  apply one_div_le_one_div_of_le (by linarith)
  linarith

/-- Seven samples and 95 % meet the hypotheses of `C94_confidence`, for the normal distribution. -/
example : ∃ t : ℝ, gaussianReal 0 1 (Set.Iic t) = 2⁻¹ ∧ (0 : ℝ) < 0.05 ∧ (0.05 : ℝ) ≤ 1 ∧ ((7 : Nat) : ℝ) < 10 / 0.05 ∧ (1 : ℝ) / 2 ^ 7 < 0.05 / 2 := by
  exact ⟨0, gaussian_half, by norm_num, by norm_num, by norm_num, by norm_num⟩

/-- There is a quantile function of the normal distribution. -/
example : ∃ P, IsNormPpf P := by
  have hat : NullSingletonClass (gaussianReal 0 1) := nullSingletonClass_gaussianReal one_ne_zero
  have : ∀ q : ℝ, 0 < q → q < 1 → ∃ t, gaussianReal 0 1 (Set.Iic t) = ENNReal.ofReal q := by
    intro q h0 h1
    have hc : Continuous (ProbabilityTheory.cdf (gaussianReal 0 1)) := by
      rw [continuous_iff_continuousAt]
      intro a
      rw [(ProbabilityTheory.cdf (gaussianReal 0 1)).mono.continuousAt_iff_leftLim_eq_rightLim, StieltjesFunction.rightLim_eq]
      have h := StieltjesFunction.measure_singleton (ProbabilityTheory.cdf (gaussianReal 0 1)) a
      rw [measure_cdf, measure_singleton] at h
      have h' := ENNReal.ofReal_eq_zero.mp h.symm
      have := (ProbabilityTheory.cdf (gaussianReal 0 1)).mono.leftLim_le (le_refl a)
      linarith
    have hb := (tendsto_cdf_atBot (gaussianReal 0 1)).eventually (gt_mem_nhds h0)
    have ht := (tendsto_cdf_atTop (gaussianReal 0 1)).eventually (lt_mem_nhds h1)
    obtain ⟨a, ha⟩ := hb.exists
    obtain ⟨b, hb⟩ := ht.exists
    obtain ⟨t, ht⟩ := mem_range_of_exists_le_of_exists_ge hc ⟨a, ha.le⟩ ⟨b, hb.le⟩
    exact ⟨t, by rw [← ofReal_cdf, ht]⟩
  choose! P hP using this
  exact ⟨P, hP⟩

end Verif.Metrics
