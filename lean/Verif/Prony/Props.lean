import Verif.Prony.Model
import Mathlib.Data.List.GetD
import Mathlib.Analysis.InnerProductSpace.Projection.Minimal
import Mathlib.Analysis.InnerProductSpace.PiL2
import Mathlib.LinearAlgebra.Matrix.ToLin
import Mathlib.Algebra.BigOperators.Field
import Mathlib.Tactic.FieldSimp
import Mathlib.Tactic.Ring
import Mathlib.Tactic.Linarith
import Mathlib.Tactic.Positivity

/-!
# C96: the methods of Prony and Shanks

Small specification: `past` (a signal that is zero before its start and after its end), `Responds` (the impulse response of a rational filter, by its
difference equation), and sums of squares.
-/

namespace Verif.Prony

open Verif.Py Verif.LinPred Finset

/-- `x[n - k]`, zero outside of the signal. -/
noncomputable def past (x : List ℝ) (n k : Nat) : ℝ := if k ≤ n then x.getD (n - k) 0 else 0

/-- `h` is the impulse response of the filter with numerator `b` and denominator `a`: `∑ₖ aₖ h[n - k] = b[n]`. -/
def Responds (a b : List ℝ) (h : Nat → ℝ) : Prop :=
  ∀ n, ∑ k ∈ range a.length, a.getD k 0 * (if k ≤ n then h (n - k) else 0) = b.getD n 0

/-- The squared error of the prediction of the samples after number `q` by `a`. -/
noncomputable def predictionError (x a : List ℝ) (p q : Nat) : ℝ :=
  ∑ i ∈ range (x.length + p - 1 - q), (∑ k ∈ range (p + 1), a.getD k 0 * past x (q + 1 + i) k) ^ 2

/-- The squared error of a model on the samples of the signal. -/
noncomputable def modelError (x : List ℝ) (h : Nat → ℝ) : ℝ := ∑ n ∈ range x.length, (x.getD n 0 - h n) ^ 2

/-- The least squares routine minimises. -/
def IsLstsq (lstsq : Lstsq) : Prop := ∀ rows cols F w (h : Nat → ℝ),
  ∑ i ∈ range rows, (∑ j ∈ range cols, F i j * lstsq rows cols F w j - w i) ^ 2 ≤ ∑ i ∈ range rows, (∑ j ∈ range cols, F i j * h j - w i) ^ 2

/-! ## Lemmas -/

/-- The residual is orthogonal to the columns. -/
theorem lstsq_orth {lstsq : Lstsq} (hl : IsLstsq lstsq) (rows cols : Nat) (F : Nat → Nat → ℝ) (w : Nat → ℝ) {j : Nat} (hj : j < cols) :
    ∑ i ∈ range rows, (∑ j ∈ range cols, F i j * lstsq rows cols F w j - w i) * F i j = 0 := by
  set s := lstsq rows cols F w with hs
  set r : Nat → ℝ := fun i => ∑ j ∈ range cols, F i j * s j - w i with hr
  set B := ∑ i ∈ range rows, r i * F i j with hB
  set C := ∑ i ∈ range rows, F i j ^ 2 with hC
  have hC0 : 0 ≤ C := sum_nonneg fun _ _ => sq_nonneg _
  have key : ∀ t : ℝ, 0 ≤ 2 * t * B + t ^ 2 * C := by
    intro t
    have h := hl rows cols F w (fun k => s k + if k = j then t else 0)
    have e : ∀ i, ∑ k ∈ range cols, F i k * (s k + if k = j then t else 0) - w i = r i + t * F i j := by
      intro i
      simp only [mul_add, sum_add_distrib, mul_ite, mul_zero]
      rw [sum_ite_eq' (range cols) j, if_pos (mem_range.mpr hj)]
      simp only [hr]
      ring
    rw [sum_congr (s₁ := range rows) (f := fun i => (∑ k ∈ range cols, F i k * (s k + if k = j then t else 0) - w i) ^ 2) rfl (fun i _ => by rw [e i])] at h
    change ∑ i ∈ range rows, r i ^ 2 ≤ _ at h
    have e2 : ∑ i ∈ range rows, (r i + t * F i j) ^ 2 = ∑ i ∈ range rows, r i ^ 2 + (2 * t * B + t ^ 2 * C) := by
      rw [hB, hC, mul_sum, mul_sum, ← sum_add_distrib, ← sum_add_distrib]
      apply sum_congr rfl
      intro i _
      ring
    rw [e2] at h
    linarith
  have h := key (-B / (C + 1))
  have hpos : (0 : ℝ) < C + 1 := by linarith
  have e : 2 * (-B / (C + 1)) * B + (-B / (C + 1)) ^ 2 * C = -(B ^ 2 * (C + 2)) / (C + 1) ^ 2 := by
    field_simp
    ring
  rw [e, div_nonneg_iff] at h
  rcases h with ⟨h, -⟩ | ⟨-, h⟩
  · have h2 : B ^ 2 * (C + 2) = 0 := le_antisymm (by linarith) (by positivity)
    rcases mul_eq_zero.mp h2 with h3 | h3
    · exact pow_eq_zero_iff (two_ne_zero) |>.mp h3
    · linarith
  · have : 0 < (C + 1) ^ 2 := by positivity
    linarith

theorem convmtx_ok (x : List ℝ) (n : Nat) : ∃ X, convmtx x (n + 1) = .ok X ∧ ∀ i j, X.val i j = past x i j := by
  refine ⟨_, by unfold convmtx; rw [if_neg (by omega)], fun i j => ?_⟩
  simp only
  unfold past
  split
  · rw [show n + 1 - 1 = n by omega]
    rcases Nat.lt_or_ge (i - j) x.length with h | h
    · rw [List.getD_append _ _ _ _ h]
    · rw [List.getD_append_right _ _ _ _ h, List.getD_eq_default x _ h]
      rcases Nat.lt_or_ge (i - j - x.length) n with h2 | h2
      · rw [List.getD_replicate _ h2]
      · rw [List.getD_eq_default _ _ (by simpa using h2)]
  · rcases Nat.lt_or_ge (j - i) (n + 1) with h2 | h2
    · rw [List.getD_replicate _ h2]
    · rw [List.getD_eq_default _ _ (by simpa using h2)]

/-- The solution of the least squares problem of `prony`. -/
noncomputable def pronySol (lstsq : Lstsq) (x : List ℝ) (p q : Nat) : Nat → ℝ :=
  lstsq (x.length + p - 1 - q) p (fun i j => past x (q + i) j) (fun i => past x (q + 1 + i) 0)

noncomputable def pronyA (lstsq : Lstsq) (x : List ℝ) (p q : Nat) : List ℝ := 1 :: (List.range p).map fun j => -pronySol lstsq x p q j

theorem prony_ok (lstsq : Lstsq) {x : List ℝ} {p q : Nat} (h : p + q < x.length) :
    prony lstsq x p q = .ok (pronyA lstsq x p q, (List.range (q + 1)).map fun (i : Nat) => ∑ j ∈ range (p + 1), past x i j * (pronyA lstsq x p q).getD j 0,
      ∑ n ∈ range (x.length - (q + 1)), x.getD (q + 1 + n) 0 * ∑ j ∈ range (p + 1), past x (q + 1 + n) j * (pronyA lstsq x p q).getD j 0) := by
  obtain ⟨X, hX, hv⟩ := convmtx_ok x p
  have hval : X.val = past x := by
    funext i j
    exact hv i j
  unfold prony
  simp only
  rw [if_neg (by omega), hX]
  simp only [Except.map, hval]
  rfl

theorem pronyA_length (lstsq : Lstsq) (x : List ℝ) (p q : Nat) : (pronyA lstsq x p q).length = p + 1 := by simp [pronyA]

theorem pronyA_zero (lstsq : Lstsq) (x : List ℝ) (p q : Nat) : (pronyA lstsq x p q).getD 0 0 = 1 := by simp [pronyA]

theorem pronyA_succ (lstsq : Lstsq) (x : List ℝ) {p : Nat} (q : Nat) {j : Nat} (hj : j < p) : (pronyA lstsq x p q).getD (j + 1) 0 = -pronySol lstsq x p q j := by
  unfold pronyA
  rw [List.getD_cons_succ, List.getD_eq_getElem _ _ (by simpa using hj)]
  simp

theorem past_succ (x : List ℝ) (n k : Nat) : past x (n + 1) (k + 1) = past x n k := by
  unfold past
  by_cases h : k ≤ n
  · rw [if_pos h, if_pos (by omega), show n + 1 - (k + 1) = n - k by omega]
  · rw [if_neg h, if_neg (by omega)]

/-- The prediction with `a = (1, -s)` is the residual of the least squares problem. -/
theorem predict_eq (x : List ℝ) {p : Nat} (q : Nat) (a : List ℝ) (s : Nat → ℝ) (h0 : a.getD 0 0 = 1) (hs : ∀ j, j < p → a.getD (j + 1) 0 = -s j) (i : Nat) :
    ∑ k ∈ range (p + 1), a.getD k 0 * past x (q + 1 + i) k = -(∑ j ∈ range p, past x (q + i) j * s j - past x (q + 1 + i) 0) := by
  rw [sum_range_succ', h0]
  have : ∑ k ∈ range p, a.getD (k + 1) 0 * past x (q + 1 + i) (k + 1) = -∑ j ∈ range p, past x (q + i) j * s j := by
    rw [← sum_neg_distrib]
    apply sum_congr rfl
    intro j hj
    rw [hs j (mem_range.mp hj), show q + 1 + i = (q + i) + 1 by omega, past_succ]
    ring
  rw [this]
  ring

theorem past_zero (x : List ℝ) (n : Nat) : past x n 0 = x.getD n 0 := by simp [past]

/-! ## Prony -/

/-- **C96, Prony.** A model order that is not smaller than the signal raises `NameError`. Otherwise `a` has `p + 1` coefficients of which the first is one, `b` has `q + 1`; among all such
`a`, the one returned predicts the samples after number `q` with the smallest squared error, and `err` is this error. -/
theorem C96_prony {lstsq : Lstsq} (hl : IsLstsq lstsq) (x : List ℝ) (p q : Nat) :
    (x.length ≤ p + q → prony lstsq x p q = .error .nameError) ∧
    (p + q < x.length → ∃ a b err, prony lstsq x p q = .ok (a, b, err) ∧ a.length = p + 1 ∧ a.getD 0 0 = 1 ∧ b.length = q + 1 ∧
      (∀ a' : List ℝ, a'.getD 0 0 = 1 → predictionError x a p q ≤ predictionError x a' p q) ∧ err = predictionError x a p q) := by
  constructor
  · intro h
    unfold prony
    simp only
    rw [if_pos (by omega)]
  intro h
  refine ⟨_, _, _, prony_ok lstsq h, pronyA_length _ _ _ _, pronyA_zero _ _ _ _, by simp, ?_, ?_⟩
  · intro a' h0
    have hmin := hl (x.length + p - 1 - q) p (fun i j => past x (q + i) j) (fun i => past x (q + 1 + i) 0) (fun j => -a'.getD (j + 1) 0)
    unfold predictionError
    have e1 : ∀ i, (∑ k ∈ range (p + 1), (pronyA lstsq x p q).getD k 0 * past x (q + 1 + i) k) ^ 2 =
        (∑ j ∈ range p, past x (q + i) j * pronySol lstsq x p q j - past x (q + 1 + i) 0) ^ 2 := fun i => by
      rw [predict_eq x q _ (pronySol lstsq x p q) (pronyA_zero _ _ _ _) (fun j hj => pronyA_succ lstsq x q hj), neg_sq]
    have e2 : ∀ i, (∑ k ∈ range (p + 1), a'.getD k 0 * past x (q + 1 + i) k) ^ 2 =
        (∑ j ∈ range p, past x (q + i) j * -a'.getD (j + 1) 0 - past x (q + 1 + i) 0) ^ 2 := fun i => by
      rw [predict_eq x q a' (fun j => -a'.getD (j + 1) 0) h0 (fun j _ => by simp), neg_sq]
    rw [sum_congr rfl (fun i _ => e1 i), sum_congr rfl (fun i _ => e2 i)]
    exact hmin
  · set a := pronyA lstsq x p q with ha
    set s := pronySol lstsq x p q with hs
    set e : Nat → ℝ := fun i => ∑ j ∈ range p, past x (q + i) j * s j - past x (q + 1 + i) 0 with he
    have hpe : ∀ i, ∑ k ∈ range (p + 1), a.getD k 0 * past x (q + 1 + i) k = -e i := fun i =>
      predict_eq x q _ s (pronyA_zero _ _ _ _) (fun j hj => pronyA_succ lstsq x q hj) i
    have hpe' : ∀ i, ∑ k ∈ range (p + 1), past x (q + 1 + i) k * a.getD k 0 = -e i := fun i => by
      rw [← hpe]
      exact sum_congr rfl fun _ _ => mul_comm _ _
    have horth : ∀ j, j < p → ∑ i ∈ range (x.length + p - 1 - q), e i * past x (q + i) j = 0 := fun j hj =>
      lstsq_orth hl _ p (fun i j => past x (q + i) j) (fun i => past x (q + 1 + i) 0) hj
    unfold predictionError
    rw [sum_congr rfl (fun i _ => by rw [hpe' i]), sum_congr (s₁ := range (x.length + p - 1 - q)) rfl (fun i _ => by rw [hpe i, neg_sq])]
    have h1 : ∑ i ∈ range (x.length + p - 1 - q), e i ^ 2 = -∑ i ∈ range (x.length + p - 1 - q), e i * past x (q + 1 + i) 0 := by
      have : ∀ i, e i ^ 2 = ∑ j ∈ range p, s j * (e i * past x (q + i) j) - e i * past x (q + 1 + i) 0 := by
        intro i
        have : e i ^ 2 = e i * (∑ j ∈ range p, past x (q + i) j * s j - past x (q + 1 + i) 0) := by rw [pow_two]
        rw [this, mul_sub, mul_sum]
        congr 1
        apply sum_congr rfl
        intro j _
        ring
      rw [sum_congr rfl (fun i _ => this i), sum_sub_distrib, sum_comm]
      rw [sum_eq_zero (fun j hj => by rw [← mul_sum, horth j (mem_range.mp hj), mul_zero]), zero_sub]
    rw [h1, ← sum_neg_distrib]
    have hsub : range (x.length - (q + 1)) ⊆ range (x.length + p - 1 - q) := by
      intro i hi
      rw [mem_range] at hi ⊢
      omega
    rw [← sum_subset hsub]
    · apply sum_congr rfl
      intro i _
      rw [past_zero]
      ring
    · intro i _ hi
      rw [mem_range, not_lt] at hi
      rw [past_zero, List.getD_eq_default x _ (by omega)]
      ring

/-- **C96, Prony, first samples.** The impulse response of the model has the first `q + 1` samples of the signal. -/
theorem C96_prony_matches {lstsq : Lstsq} {x : List ℝ} {p q : Nat} {a b : List ℝ} {err : ℝ} (h : prony lstsq x p q = .ok (a, b, err)) {g : Nat → ℝ}
    (hg : Responds a b g) : ∀ n, n ≤ q → g n = x.getD n 0 := by
  have hlen : p + q < x.length := by
    by_contra hc
    unfold prony at h
    simp only at h
    rw [if_pos (by omega)] at h
    cases h
  rw [prony_ok lstsq hlen] at h
  cases h
  intro n
  induction n using Nat.strong_induction_on with
  | _ n ih =>
    intro hn
    have h1 := hg n
    rw [pronyA_length, List.getD_eq_getElem _ _ (by simp; omega), List.getElem_map, List.getElem_range,
      sum_range_succ', sum_range_succ' (fun j => past x n j * _), pronyA_zero, if_pos (Nat.zero_le n), Nat.sub_zero, past_zero, one_mul, mul_one] at h1
    have h2 : ∑ k ∈ range p, (pronyA lstsq x p q).getD (k + 1) 0 * (if k + 1 ≤ n then g (n - (k + 1)) else 0) =
        ∑ k ∈ range p, past x n (k + 1) * (pronyA lstsq x p q).getD (k + 1) 0 := by
      apply sum_congr rfl
      intro k _
      rw [mul_comm]
      congr 1
      unfold past
      split
      · exact ih _ (by omega) (by omega)
      · rfl
    rw [h2] at h1
    linarith

/-- **C96, deviation.** The equations of `prony` also ask for the prediction of zeros after the end of the signal: the beginning of the impulse response of a filter with one pole
`r` is not recognised. -/
theorem C96_truncation_deviation {lstsq : Lstsq} (hl : IsLstsq lstsq) {r : ℝ} (hr : r ≠ 0) {n : Nat} (hn : 2 ≤ n) :
    ∃ a b err, prony lstsq ((List.range n).map fun i => r ^ i) 1 0 = .ok (a, b, err) ∧ a ≠ [1, -r] := by
  set x := (List.range n).map fun i => r ^ i with hx
  have hlen : x.length = n := by simp [hx]
  have hget : ∀ i, i < n → x.getD i 0 = r ^ i := by
    intro i hi
    rw [List.getD_eq_getElem _ _ (by omega)]
    simp [hx]
  refine ⟨_, _, _, prony_ok lstsq (by omega), fun hc => ?_⟩
  have hs : pronySol lstsq x 1 0 0 = r := by
    have := pronyA_succ lstsq x 0 (show 0 < 1 by omega)
    rw [hc] at this
    simp at this
    linarith
  have horth := lstsq_orth hl (x.length + 1 - 1 - 0) 1 (fun i j => past x (0 + i) j) (fun i => past x (0 + 1 + i) 0) (show 0 < 1 by omega)
  change ∑ i ∈ range (x.length + 1 - 1 - 0), (∑ j ∈ range 1, past x (0 + i) j * pronySol lstsq x 1 0 j - past x (0 + 1 + i) 0) * past x (0 + i) 0 = 0 at horth
  simp only [sum_range_one, hs, past_zero, Nat.zero_add, hlen] at horth
  rw [show n + 1 - 1 - 0 = (n - 1) + 1 by omega, sum_range_succ, sum_eq_zero, zero_add] at horth
  · rw [hget (n - 1) (by omega), List.getD_eq_default x 0 (show x.length ≤ 1 + (n - 1) by omega)] at horth
    have : r ^ (n - 1) ≠ 0 := pow_ne_zero _ hr
    simp [this, hr] at horth
  · intro i hi
    have hi := mem_range.mp hi
    rw [hget i (by omega), hget (1 + i) (by omega), pow_add]
    ring

/-! ## Shanks -/

theorem allPole_length (a : List ℝ) (n : Nat) : (allPole a n).length = n := by
  induction n with
  | zero => rfl
  | succ n ih => simp [allPole, ih]

theorem allPole_prefix (a : List ℝ) {n m : Nat} (h : n ≤ m) {i : Nat} (hi : i < n) : (allPole a m).getD i 0 = (allPole a n).getD i 0 := by
  induction m with
  | zero => omega
  | succ m ih =>
    rcases Nat.lt_or_ge n (m + 1) with h1 | h1
    · rw [← ih (by omega)]
      unfold allPole
      simp only
      rw [List.getD_append _ _ _ _ (by rw [allPole_length]; omega)]
      cases m with
      | zero => omega
      | succ m => rfl
    · have : n = m + 1 := by omega
      rw [this]

/-- The impulse response of the filter without zeros. -/
noncomputable def pole (a : List ℝ) (n : Nat) : ℝ := (allPole a (n + 1)).getD n 0

theorem pole_eq (a : List ℝ) (n : Nat) :
    pole a n = (if n = 0 then 1 else 0) - ∑ k ∈ range (a.length - 1), a.getD (k + 1) 0 * (if k + 1 ≤ n then pole a (n - (k + 1)) else 0) := by
  have h1 : pole a n = (if n = 0 then 1 else 0) - ∑ k ∈ range (a.length - 1), a.getD (k + 1) 0 * (if k < n then (allPole a n).getD (n - 1 - k) 0 else 0) := by
    unfold pole
    conv_lhs => unfold allPole
    simp only
    rw [List.getD_append_right _ _ _ _ (by rw [allPole_length]), allPole_length, Nat.sub_self, List.getD_cons_zero]
  rw [h1]
  congr 1
  apply sum_congr rfl
  intro k _
  by_cases h : k < n
  · rw [if_pos h, if_pos (by omega)]
    congr 1
    unfold pole
    rw [allPole_prefix a (show n - (k + 1) + 1 ≤ n by omega) (by omega), show n - 1 - k = n - (k + 1) by omega]
  · rw [if_neg h, if_neg (by omega)]

theorem pole_responds {a : List ℝ} (h0 : a.getD 0 0 = 1) (n : Nat) :
    ∑ k ∈ range a.length, a.getD k 0 * (if k ≤ n then pole a (n - k) else 0) = if n = 0 then 1 else 0 := by
  cases ha : a with
  | nil => simp [ha] at h0
  | cons c l =>
    rw [← ha]
    have hl : a.length = l.length + 1 := by simp [ha]
    have hp := pole_eq a n
    rw [hl, show l.length + 1 - 1 = l.length by omega] at hp
    rw [hl, sum_range_succ', h0, if_pos (Nat.zero_le n), Nat.sub_zero, one_mul, hp]
    ring

/-- A response is determined by its filter. -/
theorem responds_unique {a b : List ℝ} (h0 : a.getD 0 0 = 1) {g h : Nat → ℝ} (hg : Responds a b g) (hh : Responds a b h) : g = h := by
  cases ha : a with
  | nil => simp [ha] at h0
  | cons c l =>
    funext n
    induction n using Nat.strong_induction_on with
    | _ n ih =>
      have h1 := hg n
      have h2 := hh n
      have hl : a.length = l.length + 1 := by simp [ha]
      rw [hl, sum_range_succ', h0, if_pos (Nat.zero_le n), Nat.sub_zero, one_mul] at h1 h2
      have : ∑ k ∈ range l.length, a.getD (k + 1) 0 * (if k + 1 ≤ n then g (n - (k + 1)) else 0) =
          ∑ k ∈ range l.length, a.getD (k + 1) 0 * (if k + 1 ≤ n then h (n - (k + 1)) else 0) := by
        apply sum_congr rfl
        intro k _
        congr 1
        split
        · exact ih _ (by omega)
        · rfl
      linarith

/-- Zeros after poles: the response is the numerator convolved with the response of the poles. -/
theorem responds_conv {a : List ℝ} (h0 : a.getD 0 0 = 1) (b : List ℝ) :
    Responds a b fun n => ∑ j ∈ range b.length, b.getD j 0 * if j ≤ n then pole a (n - j) else 0 := by
  intro n
  have h1 : ∀ k, a.getD k 0 * (if k ≤ n then ∑ j ∈ range b.length, b.getD j 0 * (if j ≤ n - k then pole a (n - k - j) else 0) else 0) =
      ∑ j ∈ range b.length, b.getD j 0 * (a.getD k 0 * if k ≤ n ∧ j ≤ n - k then pole a (n - k - j) else 0) := by
    intro k
    by_cases hk : k ≤ n
    · rw [if_pos hk, mul_sum]
      apply sum_congr rfl
      intro j _
      simp only [hk, true_and]
      ring
    · rw [if_neg hk, mul_zero, sum_eq_zero]
      intro j _
      simp [hk]
  rw [sum_congr rfl (fun k _ => h1 k), sum_comm]
  have h2 : ∀ j, ∑ k ∈ range a.length, b.getD j 0 * (a.getD k 0 * if k ≤ n ∧ j ≤ n - k then pole a (n - k - j) else 0) =
      b.getD j 0 * if n = j then 1 else 0 := by
    intro j
    rw [← mul_sum]
    congr 1
    by_cases hj : j ≤ n
    · have := pole_responds h0 (n - j)
      rw [show (if n = j then (1 : ℝ) else 0) = if n - j = 0 then 1 else 0 by
        by_cases h : n = j
        · simp [h]
        · rw [if_neg h, if_neg (by omega)], ← this]
      apply sum_congr rfl
      intro k _
      congr 1
      by_cases h : k ≤ n - j
      · rw [if_pos h, if_pos ⟨by omega, by omega⟩, show n - k - j = n - j - k by omega]
      · rw [if_neg h, if_neg (by omega)]
    · rw [if_neg (by omega), sum_eq_zero]
      intro k _
      rw [if_neg (by omega), mul_zero]
  rw [sum_congr rfl (fun j _ => h2 j)]
  simp only [mul_ite, mul_one, mul_zero]
  rw [sum_ite_eq (range b.length) n]
  split
  · rfl
  · rename_i h
    rw [mem_range, not_lt] at h
    rw [List.getD_eq_default b _ h]

/-- **C96, Shanks.** `shanks` takes the denominator of `prony` and the numerator with `q + 1` coefficients for which the impulse response has the smallest squared error on the signal;
`err` is this error. -/
theorem C96_shanks {lstsq : Lstsq} (hl : IsLstsq lstsq) (x : List ℝ) (p q : Nat) :
    (x.length ≤ p + q → shanks lstsq x p q = .error .nameError) ∧
    (p + q < x.length → ∃ a b b' e' err h, prony lstsq x p q = .ok (a, b', e') ∧ shanks lstsq x p q = .ok (a, b, err) ∧ b.length = q + 1 ∧ Responds a b h ∧
      err = modelError x h ∧ ∀ (c : List ℝ) (g : Nat → ℝ), c.length = q + 1 → Responds a c g → modelError x h ≤ modelError x g) := by
  constructor
  · intro h
    unfold shanks
    simp only
    rw [if_pos (by omega)]
  intro hlen
  set a := pronyA lstsq x p q with ha
  have ha0 : a.getD 0 0 = 1 := pronyA_zero _ _ _ _
  set g := allPole a x.length with hg
  obtain ⟨G, hG, hGv⟩ := convmtx_ok g q
  have hG' : ∀ n, n < x.length → ∀ j, G.val n j = if j ≤ n then pole a (n - j) else 0 := by
    intro n hn j
    rw [hGv]
    unfold past
    split
    · unfold pole
      rw [hg, allPole_prefix a (show n - j + 1 ≤ x.length by omega) (by omega)]
    · rfl
  set sol := lstsq x.length (q + 1) G.val (fun n => x.getD n 0) with hsol
  set b := (List.range (q + 1)).map sol with hb
  have hbl : b.length = q + 1 := by simp [hb]
  have hbget : ∀ j, j < q + 1 → b.getD j 0 = sol j := by
    intro j hj
    rw [List.getD_eq_getElem _ _ (by omega)]
    simp [hb]
  have hval : ∀ n, n < x.length → ∀ c : List ℝ, c.length = q + 1 → ∑ j ∈ range c.length, c.getD j 0 * (if j ≤ n then pole a (n - j) else 0) =
      ∑ j ∈ range (q + 1), G.val n j * c.getD j 0 := by
    intro n hn c hc
    rw [hc]
    apply sum_congr rfl
    intro j _
    rw [hG' n hn, mul_comm]
  have hsh : shanks lstsq x p q = .ok (a, b, ∑ n ∈ range x.length, x.getD n 0 * x.getD n 0 -
      ∑ n ∈ range x.length, x.getD n 0 * ∑ j ∈ range (q + 1), G.val n j * b.getD j 0) := by
    unfold shanks
    simp only
    rw [if_neg (by omega), prony_ok lstsq hlen]
    simp only [Except.bind]
    rw [← ha, ← hg, hG]
    rfl
  refine ⟨a, b, _, _, _, _, prony_ok lstsq hlen, hsh, hbl, responds_conv ha0 b, ?_, ?_⟩
  · unfold modelError
    have e1 : ∀ n ∈ range x.length, (x.getD n 0 - ∑ j ∈ range b.length, b.getD j 0 * (if j ≤ n then pole a (n - j) else 0)) ^ 2 =
        x.getD n 0 * x.getD n 0 - x.getD n 0 * ∑ j ∈ range (q + 1), G.val n j * b.getD j 0 +
        ∑ j ∈ range (q + 1), sol j * ((∑ j ∈ range (q + 1), G.val n j * sol j - x.getD n 0) * G.val n j) := by
      intro n hn
      rw [hval n (mem_range.mp hn) b hbl]
      have e2 : ∑ j ∈ range (q + 1), G.val n j * b.getD j 0 = ∑ j ∈ range (q + 1), G.val n j * sol j :=
        sum_congr rfl fun j hj => by rw [hbget j (mem_range.mp hj)]
      have e3 : ∑ j ∈ range (q + 1), sol j * ((∑ j ∈ range (q + 1), G.val n j * sol j - x.getD n 0) * G.val n j) =
          (∑ j ∈ range (q + 1), G.val n j * sol j - x.getD n 0) * ∑ j ∈ range (q + 1), G.val n j * sol j := by
        rw [mul_sum]
        apply sum_congr rfl
        intro j _
        ring
      rw [e2, e3]
      ring
    rw [sum_congr rfl e1, sum_add_distrib, sum_sub_distrib, sum_comm (s := range x.length) (t := range (q + 1))]
    rw [sum_eq_zero (s := range (q + 1)) (fun j hj => by
      rw [← mul_sum, lstsq_orth hl x.length (q + 1) G.val (fun n => x.getD n 0) (mem_range.mp hj), mul_zero]), add_zero]
  · intro c gg hc hgg
    have hge := responds_unique ha0 hgg (responds_conv ha0 c)
    rw [hge]
    unfold modelError
    have hmin := hl x.length (q + 1) G.val (fun n => x.getD n 0) (fun j => c.getD j 0)
    have f1 : ∀ n ∈ range x.length, (x.getD n 0 - ∑ j ∈ range b.length, b.getD j 0 * (if j ≤ n then pole a (n - j) else 0)) ^ 2 =
        (∑ j ∈ range (q + 1), G.val n j * sol j - x.getD n 0) ^ 2 := by
      intro n hn
      rw [hval n (mem_range.mp hn) b hbl, sum_congr rfl (fun j hj => by rw [hbget j (mem_range.mp hj)])]
      ring
    have f2 : ∀ n ∈ range x.length, (x.getD n 0 - ∑ j ∈ range c.length, c.getD j 0 * (if j ≤ n then pole a (n - j) else 0)) ^ 2 =
        (∑ j ∈ range (q + 1), G.val n j * c.getD j 0 - x.getD n 0) ^ 2 := by
      intro n hn
      rw [hval n (mem_range.mp hn) c hc]
      ring
    rw [sum_congr rfl f1, sum_congr rfl f2]
    exact hmin

/-- **C96, comparison.** On the samples of the signal, the model of `shanks` is never worse than the model of `prony`. -/
theorem C96_shanks_better {lstsq : Lstsq} (hl : IsLstsq lstsq) {x : List ℝ} {p q : Nat} {a b a' b' : List ℝ} {e e' : ℝ} (hs : shanks lstsq x p q = .ok (a, b, e))
    (hp : prony lstsq x p q = .ok (a', b', e')) {h g : Nat → ℝ} (hh : Responds a b h) (hg : Responds a' b' g) : a = a' ∧ modelError x h ≤ modelError x g := by
  have hlen : p + q < x.length := by
    by_contra hc
    rw [(C96_prony hl x p q).1 (by omega)] at hp
    cases hp
  obtain ⟨a1, b1, b2, e1, e2, h1, hp1, hs1, hb1, hr1, -, hmin⟩ := (C96_shanks hl x p q).2 hlen
  obtain ⟨a3, b3, e3, hp3, -, ha0, hb3, -, -⟩ := (C96_prony hl x p q).2 hlen
  rw [hs] at hs1
  rw [hp] at hp1 hp3
  cases hs1
  cases hp1
  cases hp3
  refine ⟨rfl, ?_⟩
  have : h = h1 := responds_unique ha0 hh hr1
  rw [this]
  exact hmin b' g hb3 hg

/-- There is a routine that minimises: a closest point of the range, which is closed. -/
example : ∃ lstsq, IsLstsq lstsq := by
  have key : ∀ (rows cols : Nat) (F : Nat → Nat → ℝ) (w : Nat → ℝ), ∃ s : Nat → ℝ, ∀ h : Nat → ℝ,
      ∑ i ∈ range rows, (∑ j ∈ range cols, F i j * s j - w i) ^ 2 ≤ ∑ i ∈ range rows, (∑ j ∈ range cols, F i j * h j - w i) ^ 2 := by
    intro rows cols F w
    let M : Matrix (Fin rows) (Fin cols) ℝ := Matrix.of fun i j => F i j
    let T : (Fin cols → ℝ) →ₗ[ℝ] EuclideanSpace ℝ (Fin rows) := (WithLp.linearEquiv 2 ℝ (Fin rows → ℝ)).symm.toLinearMap.comp M.mulVecLin
    let u : EuclideanSpace ℝ (Fin rows) := WithLp.toLp 2 fun i => w i
    have hcomp : IsComplete (T.range : Set (EuclideanSpace ℝ (Fin rows))) := Submodule.complete_of_finiteDimensional T.range
    obtain ⟨v, ⟨s, rfl⟩, hv⟩ := T.range.exists_norm_eq_iInf_of_complete_subspace hcomp u
    have hmin : ∀ h : Fin cols → ℝ, ‖u - T s‖ ≤ ‖u - T h‖ := by
      intro h
      rw [hv]
      exact ciInf_le ⟨0, by rintro _ ⟨y, rfl⟩; exact norm_nonneg _⟩ (⟨T h, ⟨h, rfl⟩⟩ : (T.range : Set (EuclideanSpace ℝ (Fin rows))))
    have hnorm : ∀ h : Nat → ℝ, ‖u - T fun j => h j‖ ^ 2 = ∑ i ∈ range rows, (∑ j ∈ range cols, F i j * h j - w i) ^ 2 := by
      intro h
      rw [EuclideanSpace.norm_sq_eq, ← Fin.sum_univ_eq_sum_range (fun i => (∑ j ∈ range cols, F i j * h j - w i) ^ 2)]
      apply sum_congr rfl
      intro i _
      rw [← Fin.sum_univ_eq_sum_range (fun j => F i j * h j), Real.norm_eq_abs, sq_abs]
      change (w i - ∑ j : Fin cols, F i j * h j) ^ 2 = _
      ring
    refine ⟨fun j => if hj : j < cols then s ⟨j, hj⟩ else 0, fun h => ?_⟩
    rw [← hnorm, ← hnorm]
    have : (fun j : Fin cols => (fun j => if hj : j < cols then s ⟨j, hj⟩ else 0 : Nat → ℝ) j) = s := by
      funext j
      simp
    rw [this]
    exact pow_le_pow_left₀ (norm_nonneg _) (hmin _) 2
  choose lstsq hl using key
  exact ⟨lstsq, fun rows cols F w h => hl rows cols F w h⟩

end Verif.Prony
