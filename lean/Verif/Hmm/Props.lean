import Verif.Hmm.Model
import Mathlib.Algebra.Order.BigOperators.Ring.Finset
import Mathlib.Algebra.BigOperators.Field

/-!
# Hidden Markov models, inference: property C75
-/

namespace Verif.Hmm

open Finset

variable {K O : Nat}

/-! ## Specification -/

/-- The probability (density) of the states `z` and the `N + 1` observations. -/
noncomputable def joint (h : Chain K) (b : Nat → Fin K → ℝ) (N : Nat) (z : Fin (N + 1) → Fin K) : ℝ :=
  h.pi (z 0) * (∏ n : Fin N, h.A (z n.castSucc) (z n.succ)) * ∏ n : Fin (N + 1), b n (z n)

/-- The probability of the observations: the sum over all sequences of states. -/
noncomputable def evidence (h : Chain K) (b : Nat → Fin K → ℝ) (N : Nat) : ℝ := ∑ z, joint h b N z

/-- The probability of the event `E` given the observations. -/
noncomputable def posterior (h : Chain K) (b : Nat → Fin K → ℝ) (N : Nat) (E : (Fin (N + 1) → Fin K) → Prop) [DecidablePred E] : ℝ :=
  (∑ z with E z, joint h b N z) / evidence h b N

/-- Entries that are not negative. -/
def Nonneg (h : Chain K) : Prop := (∀ i j, 0 ≤ h.A i j) ∧ ∀ k, 0 ≤ h.pi k

/-! ## Recursions without scaling -/

/-- Forward recursion without scaling. -/
noncomputable def fwd (h : Chain K) (b : Nat → Fin K → ℝ) : Nat → Fin K → ℝ
  | 0 => fun k => b 0 k * h.pi k
  | n + 1 => fun k => b (n + 1) k * ∑ i, h.A i k * fwd h b n i

/-- Backward recursion without scaling, `m` steps from `n`. -/
noncomputable def bwd (h : Chain K) (b : Nat → Fin K → ℝ) : Nat → Nat → Fin K → ℝ
  | 0, _ => fun _ => 1
  | m + 1, n => fun k => ∑ j, h.A k j * (b (n + 1) j * bwd h b m (n + 1) j)

theorem joint_snoc (h : Chain K) (b : Nat → Fin K → ℝ) (N : Nat) (z : Fin (N + 1) → Fin K) (k : Fin K) :
    joint h b (N + 1) (Fin.snoc z k : Fin (N + 2) → Fin K) = joint h b N z * (h.A (z (Fin.last N)) k * b (N + 1) k) := by
  unfold joint
  rw [Fin.prod_univ_castSucc (n := N), Fin.prod_univ_castSucc (n := N + 1)]
  have h0 : (Fin.snoc z k : Fin (N + 2) → Fin K) 0 = z 0 := by
    rw [show (0 : Fin (N + 2)) = Fin.castSucc 0 from rfl, Fin.snoc_castSucc]
  have h1 : ∀ n : Fin N, (Fin.snoc z k : Fin (N + 2) → Fin K) n.castSucc.castSucc = z n.castSucc := fun n => Fin.snoc_castSucc _ _ _
  have h2 : ∀ n : Fin N, (Fin.snoc z k : Fin (N + 2) → Fin K) n.castSucc.succ = z n.succ := fun n => by
    rw [Fin.succ_castSucc]; exact Fin.snoc_castSucc _ _ _
  have h3 : (Fin.snoc z k : Fin (N + 2) → Fin K) (Fin.last N).castSucc = z (Fin.last N) := Fin.snoc_castSucc _ _ _
  have h4 : (Fin.snoc z k : Fin (N + 2) → Fin K) (Fin.last N).succ = k := by
    rw [Fin.succ_last]; exact Fin.snoc_last _ _
  have h5 : ∀ n : Fin (N + 1), (Fin.snoc z k : Fin (N + 2) → Fin K) n.castSucc = z n := fun n => Fin.snoc_castSucc _ _ _
  have h6 : (Fin.snoc z k : Fin (N + 2) → Fin K) (Fin.last (N + 1)) = k := Fin.snoc_last _ _
  simp only [h0, h1, h2, h3, h4, h5, h6, Fin.val_castSucc, Fin.val_last]
  ring

/-- Sum over all paths by the last state. -/
theorem sum_joint (h : Chain K) (b : Nat → Fin K → ℝ) (N : Nat) (f : Fin K → ℝ) :
    ∑ z : Fin (N + 1) → Fin K, joint h b N z * f (z (Fin.last N)) = ∑ k, fwd h b N k * f k := by
  induction N generalizing f with
  | zero =>
    rw [← (Equiv.funUnique (Fin 1) (Fin K)).symm.sum_comp]
    apply Finset.sum_congr rfl
    intro k _
    simp [joint, fwd, Equiv.funUnique]
    left; ring
  | succ N ih =>
    rw [← (Fin.snocEquiv fun _ : Fin (N + 2) => Fin K).sum_comp, Fintype.sum_prod_type]
    apply Finset.sum_congr rfl
    intro k _
    have : ∀ z : Fin (N + 1) → Fin K, joint h b (N + 1) (Fin.snocEquiv (fun _ : Fin (N + 2) => Fin K) (k, z)) *
        f (Fin.snocEquiv (fun _ : Fin (N + 2) => Fin K) (k, z) (Fin.last (N + 1))) =
        joint h b N z * (h.A (z (Fin.last N)) k * b (N + 1) k * f k) := by
      intro z
      have e1 : Fin.snocEquiv (fun _ : Fin (N + 2) => Fin K) (k, z) = (Fin.snoc z k : Fin (N + 2) → Fin K) := rfl
      rw [e1, joint_snoc, show (Fin.snoc z k : Fin (N + 2) → Fin K) (Fin.last (N + 1)) = k from Fin.snoc_last _ _]
      ring
    rw [Finset.sum_congr rfl fun z _ => this z, ih (fun i => h.A i k * b (N + 1) k * f k)]
    simp only [fwd, Finset.mul_sum, Finset.sum_mul]
    apply Finset.sum_congr rfl
    intro i _
    ring

theorem evidence_eq (h : Chain K) (b : Nat → Fin K → ℝ) (N : Nat) : evidence h b N = ∑ k, fwd h b N k := by
  have := sum_joint h b N fun _ => 1
  simpa [evidence] using this

/-- Forward times backward. -/
theorem fwd_bwd (h : Chain K) (b : Nat → Fin K → ℝ) (m n : Nat) : ∑ k, fwd h b n k * bwd h b m n k = ∑ k, fwd h b (n + m) k := by
  induction m generalizing n with
  | zero => simp [bwd]
  | succ m ih =>
    rw [show n + (m + 1) = n + 1 + m by omega, ← ih (n + 1)]
    simp only [bwd, fwd, Finset.mul_sum, Finset.sum_mul]
    rw [Finset.sum_comm]
    apply Finset.sum_congr rfl
    intro j _
    apply Finset.sum_congr rfl
    intro i _
    ring

/-- Only the observations up to `n` count. -/
theorem fwd_congr (h : Chain K) {b b' : Nat → Fin K → ℝ} (n : Nat) (e : ∀ m ≤ n, b m = b' m) : fwd h b n = fwd h b' n := by
  induction n with
  | zero => unfold fwd; rw [e 0 (le_refl _)]
  | succ n ih =>
    have := ih fun m hm => e m (by omega)
    simp only [fwd, this, e (n + 1) (le_refl _)]

theorem bwd_congr (h : Chain K) {b b' : Nat → Fin K → ℝ} (m n : Nat) (e : ∀ l, n < l → b l = b' l) : bwd h b m n = bwd h b' m n := by
  induction m generalizing n with
  | zero => rfl
  | succ m ih =>
    have := ih (n + 1) fun l hl => e l (by omega)
    simp only [bwd, this, e (n + 1) (by omega)]

open Classical in
/-- The observations with a condition on the state at time `n`. -/
noncomputable def restrict (b : Nat → Fin K → ℝ) (n : Nat) (k : Fin K) : Nat → Fin K → ℝ :=
  fun m j => if m = n then (if j = k then b m j else 0) else b m j

open Classical in
theorem joint_restrict (h : Chain K) (b : Nat → Fin K → ℝ) (N : Nat) (n : Fin (N + 1)) (k : Fin K) (z : Fin (N + 1) → Fin K) :
    joint h (restrict b n k) N z = if z n = k then joint h b N z else 0 := by
  unfold joint
  by_cases hz : z n = k
  · rw [if_pos hz]
    congr 1
    apply Finset.prod_congr rfl
    intro m _
    unfold restrict
    by_cases hm : (m : Nat) = n
    · rw [if_pos hm]
      have : m = n := Fin.ext hm
      rw [this, if_pos hz]
    · rw [if_neg hm]
  · rw [if_neg hz]
    have : ∏ m : Fin (N + 1), restrict b n k m (z m) = 0 := by
      apply Finset.prod_eq_zero (Finset.mem_univ n)
      unfold restrict
      rw [if_pos rfl, if_neg hz]
    rw [this, mul_zero]

open Classical in
theorem fwd_restrict (h : Chain K) (b : Nat → Fin K → ℝ) (n : Nat) (k j : Fin K) : fwd h (restrict b n k) n j = if j = k then fwd h b n j else 0 := by
  cases n with
  | zero =>
    simp only [fwd, restrict, if_true]
    split_ifs
    · rfl
    · rw [zero_mul]
  | succ n =>
    have e : fwd h (restrict b (n + 1) k) n = fwd h b n := fwd_congr h n fun m hm => by
      funext j; unfold restrict; rw [if_neg (by omega)]
    simp only [fwd, e]
    unfold restrict
    rw [if_pos rfl]
    split_ifs
    · rfl
    · rw [zero_mul]

open Classical in
/-- Sum over the paths through `k` at time `n`. -/
theorem sum_through (h : Chain K) (b : Nat → Fin K → ℝ) (N n : Nat) (hn : n < N + 1) (k : Fin K) :
    ∑ z with z (⟨n, hn⟩ : Fin (N + 1)) = k, joint h b N z = fwd h b n k * bwd h b (N - n) n k := by
  have h1 : evidence h (restrict b n k) N = ∑ z with z (⟨n, hn⟩ : Fin (N + 1)) = k, joint h b N z := by
    unfold evidence
    rw [Finset.sum_filter]
    apply Finset.sum_congr rfl
    intro z _
    exact joint_restrict h b N ⟨n, hn⟩ k z
  rw [← h1, evidence_eq, show N = n + (N - n) by omega, ← fwd_bwd, show n + (N - n) - n = N - n by omega,
    bwd_congr h (b' := b) (N - n) n fun l hl => by funext j; unfold restrict; rw [if_neg (by omega)]]
  simp only [fwd_restrict, ite_mul, zero_mul]
  rw [Finset.sum_ite_eq' Finset.univ k]
  simp

open Classical in
/-- Sum over the paths through `i` at time `n` and `j` at time `n + 1`. -/
theorem sum_through2 (h : Chain K) (b : Nat → Fin K → ℝ) (N n : Nat) (hn : n < N) (i j : Fin K) :
    ∑ z with z (⟨n, by omega⟩ : Fin (N + 1)) = i ∧ z (⟨n + 1, by omega⟩ : Fin (N + 1)) = j, joint h b N z =
      fwd h b n i * h.A i j * (b (n + 1) j * bwd h b (N - (n + 1)) (n + 1) j) := by
  have h1 : ∑ z with z (⟨n + 1, by omega⟩ : Fin (N + 1)) = j, joint h (restrict b n i) N z =
      ∑ z with z (⟨n, by omega⟩ : Fin (N + 1)) = i ∧ z (⟨n + 1, by omega⟩ : Fin (N + 1)) = j, joint h b N z := by
    rw [Finset.sum_filter, Finset.sum_filter]
    apply Finset.sum_congr rfl
    intro z _
    rw [show joint h (restrict b n i) N z = _ from joint_restrict h b N ⟨n, by omega⟩ i z]
    by_cases h2 : z (⟨n, by omega⟩ : Fin (N + 1)) = i <;> by_cases h3 : z (⟨n + 1, by omega⟩ : Fin (N + 1)) = j <;> simp [h2, h3]
  rw [← h1, sum_through h (restrict b n i) N (n + 1) (by omega) j,
    bwd_congr h (b' := b) (N - (n + 1)) (n + 1) fun l hl => by funext j; unfold restrict; rw [if_neg (by omega)]]
  have h2 : restrict b n i (n + 1) j = b (n + 1) j := by unfold restrict; rw [if_neg (by omega)]
  simp only [fwd, h2, fwd_restrict, mul_ite, mul_zero]
  rw [Finset.sum_ite_eq' Finset.univ i]
  simp
  ring

/-! ## Scaling -/

theorem fwd_nonneg {h : Chain K} (hh : Nonneg h) {b : Nat → Fin K → ℝ} (hb : ∀ n k, 0 ≤ b n k) (n : Nat) (k : Fin K) : 0 ≤ fwd h b n k := by
  induction n generalizing k with
  | zero => exact mul_nonneg (hb 0 k) (hh.2 k)
  | succ n ih => exact mul_nonneg (hb _ k) (Finset.sum_nonneg fun i _ => mul_nonneg (hh.1 i k) (ih i))

theorem bwd_nonneg {h : Chain K} (hh : Nonneg h) {b : Nat → Fin K → ℝ} (hb : ∀ n k, 0 ≤ b n k) (m n : Nat) (k : Fin K) : 0 ≤ bwd h b m n k := by
  induction m generalizing n k with
  | zero => exact zero_le_one
  | succ m ih => exact Finset.sum_nonneg fun j _ => mul_nonneg (hh.1 k j) (mul_nonneg (hb _ j) (ih (n + 1) j))

/-- The evidence of the first observations is positive if that of all is. -/
theorem prefix_pos {h : Chain K} (hh : Nonneg h) {b : Nat → Fin K → ℝ} (hb : ∀ n k, 0 ≤ b n k) {N : Nat} (hpos : 0 < evidence h b N) {n : Nat} (hn : n ≤ N) :
    0 < ∑ k, fwd h b n k := by
  rw [evidence_eq, show N = n + (N - n) by omega, ← fwd_bwd] at hpos
  rcases (Finset.sum_nonneg fun k (_ : k ∈ Finset.univ) => fwd_nonneg hh hb n k).lt_or_eq with h1 | h1
  · exact h1
  · exfalso
    have := (Finset.sum_eq_zero_iff_of_nonneg fun k _ => fwd_nonneg hh hb n k).mp h1.symm
    have h0 : ∑ k, fwd h b n k * bwd h b (N - n) n k = 0 := Finset.sum_eq_zero fun k hk => by rw [this k hk, zero_mul]
    linarith

/-- The scaled recursion. -/
theorem forward_eq {h : Chain K} (hh : Nonneg h) {b : Nat → Fin K → ℝ} (hb : ∀ n k, 0 ≤ b n k) {N : Nat} (hpos : 0 < evidence h b N) (n : Nat) (hn : n ≤ N) :
    (∀ k, (forward h b n).1 k = fwd h b n k / ∑ j, fwd h b n j) ∧ 0 < (forward h b n).2 ∧
    (∏ m ∈ range (n + 1), (forward h b m).2) = ∑ j, fwd h b n j := by
  induction n with
  | zero =>
    have := prefix_pos hh hb hpos hn
    refine ⟨fun k => rfl, this, ?_⟩
    simp [forward, scaled, fwd]
  | succ n ih =>
    obtain ⟨h1, h2, h3⟩ := ih (by omega)
    have p1 := prefix_pos hh hb hpos hn
    have p0 := prefix_pos hh hb hpos (show n ≤ N by omega)
    have hv : (fun k => b (n + 1) k * ∑ i, h.A i k * (forward h b n).1 i) = fun k => fwd h b (n + 1) k / ∑ j, fwd h b n j := by
      funext k
      simp only [fwd, h1, mul_div_assoc', Finset.mul_sum, Finset.sum_div]
    have hs : ∑ k, fwd h b (n + 1) k / ∑ j, fwd h b n j = (∑ k, fwd h b (n + 1) k) / ∑ j, fwd h b n j := (Finset.sum_div _ _ _).symm
    have h2' : (forward h b (n + 1)).2 = (∑ k, fwd h b (n + 1) k) / ∑ j, fwd h b n j := by
      rw [forward, scaled, hv]
      exact hs
    refine ⟨fun k => ?_, ?_, ?_⟩
    · have hk := congrFun hv k
      rw [forward, scaled, hv]
      simp only
      rw [hk, hs, div_div_div_cancel_right₀ p0.ne']
    · rw [h2']; exact div_pos p1 p0
    · rw [Finset.prod_range_succ, h3, h2', mul_div_cancel₀ _ p0.ne']

theorem backward_eq {h : Chain K} (hh : Nonneg h) {b : Nat → Fin K → ℝ} (hb : ∀ n k, 0 ≤ b n k) {N : Nat} (hpos : 0 < evidence h b N) (m : Nat) (hm : m ≤ N) :
    ∀ k, backwardFrom h b (fun n => (forward h b n).2) (N + 1) m k = bwd h b m (N - m) k * (∑ j, fwd h b (N - m) j) / ∑ j, fwd h b N j := by
  induction m with
  | zero =>
    intro k
    have := prefix_pos hh hb hpos (le_refl N)
    simp [backwardFrom, bwd, div_self this.ne']
  | succ m ih =>
    intro k
    have p0 := prefix_pos hh hb hpos (show N - (m + 1) ≤ N by omega)
    have p1 := prefix_pos hh hb hpos (show N - m ≤ N by omega)
    have p2 := prefix_pos hh hb hpos (le_refl N)
    have e1 : N + 1 - 1 - m = N - m := by omega
    have e2 : N - (m + 1) + 1 = N - m := by omega
    have h2 : (forward h b (N - m)).2 = (∑ k, fwd h b (N - m) k) / ∑ j, fwd h b (N - (m + 1)) j := by
      have f1 := (forward_eq hh hb hpos (N - m) (by omega)).2.2
      have f0 := (forward_eq hh hb hpos (N - (m + 1)) (by omega)).2.2
      rw [Finset.prod_range_succ] at f1
      rw [e2] at f0
      rw [f0] at f1
      rw [eq_div_iff p0.ne', mul_comm]; exact f1
    simp only [backwardFrom, e1, bwd, e2, h2, ih (by omega)]
    have e3 : ∑ j, h.A k j * (b (N - m) j * (bwd h b m (N - m) j * (∑ j, fwd h b (N - m) j) / ∑ j, fwd h b N j)) =
        (∑ j, h.A k j * (b (N - m) j * bwd h b m (N - m) j)) * ((∑ j, fwd h b (N - m) j) / ∑ j, fwd h b N j) := by
      rw [Finset.sum_mul]
      apply Finset.sum_congr rfl
      intro j _
      ring
    rw [e3]
    field_simp

theorem gamma_eq {h : Chain K} (hh : Nonneg h) {b : Nat → Fin K → ℝ} (hb : ∀ n k, 0 ≤ b n k) {N : Nat} (hpos : 0 < evidence h b N) {n : Nat} (hn : n ≤ N) (k : Fin K) :
    gamma h b (N + 1) n k = fwd h b n k * bwd h b (N - n) n k / ∑ j, fwd h b N j := by
  have p0 := prefix_pos hh hb hpos hn
  have p2 := prefix_pos hh hb hpos (le_refl N)
  unfold gamma backward
  rw [(forward_eq hh hb hpos n hn).1, show N + 1 - 1 - n = N - n by omega, backward_eq hh hb hpos (N - n) (by omega), show N - (N - n) = n by omega]
  field_simp

theorem xhi_eq {h : Chain K} (hh : Nonneg h) {b : Nat → Fin K → ℝ} (hb : ∀ n k, 0 ≤ b n k) {N : Nat} (hpos : 0 < evidence h b N) {n : Nat} (hn : n < N) (i j : Fin K) :
    xhi h b (N + 1) n i j = fwd h b n i * h.A i j * (b (n + 1) j * bwd h b (N - (n + 1)) (n + 1) j) / ∑ j, fwd h b N j := by
  have p0 := prefix_pos hh hb hpos (show n ≤ N by omega)
  have p1 := prefix_pos hh hb hpos (show n + 1 ≤ N by omega)
  have p2 := prefix_pos hh hb hpos (le_refl N)
  have h2 : (forward h b (n + 1)).2 = (∑ k, fwd h b (n + 1) k) / ∑ j, fwd h b n j := by
    have f1 := (forward_eq hh hb hpos (n + 1) (by omega)).2.2
    have f0 := (forward_eq hh hb hpos n (by omega)).2.2
    rw [Finset.prod_range_succ, f0] at f1
    rw [eq_div_iff p0.ne', mul_comm]; exact f1
  unfold xhi backward
  rw [(forward_eq hh hb hpos n (by omega)).1, show N + 1 - 1 - (n + 1) = N - (n + 1) by omega, backward_eq hh hb hpos (N - (n + 1)) (by omega),
    show N - (N - (n + 1)) = n + 1 by omega, h2]
  field_simp

/-! ## C75 -/

/-- **C75** `loglikelihood` is the logarithm of the probability of the observations. -/
theorem C75_loglikelihood {h : Chain K} (hh : Nonneg h) {b : Nat → Fin K → ℝ} (hb : ∀ n k, 0 ≤ b n k) {N : Nat} (hpos : 0 < evidence h b N) :
    loglikelihood h b (N + 1) = Real.log (evidence h b N) := by
  unfold loglikelihood
  rw [← Real.log_prod fun n hn => (forward_eq hh hb hpos n (by have := Finset.mem_range.mp hn; omega)).2.1.ne', (forward_eq hh hb hpos N (le_refl N)).2.2, evidence_eq]

/-- **C75** The scaled forward variables are the probabilities of the states given the observations so far. -/
theorem C75_filter {h : Chain K} (hh : Nonneg h) {b : Nat → Fin K → ℝ} (hb : ∀ n k, 0 ≤ b n k) {N : Nat} (hpos : 0 < evidence h b N) {n : Nat} (hn : n ≤ N) (k : Fin K) :
    (forward h b n).1 k = posterior h b n (fun z => z (Fin.last n) = k) := by
  rw [(forward_eq hh hb hpos n hn).1]
  unfold posterior
  rw [evidence_eq]
  have := sum_through h b n n (by omega) k
  rw [Nat.sub_self] at this
  simp only [bwd, mul_one] at this
  rw [← this]
  rfl

/-- **C75** `gamma` is the probability of the state given all observations. -/
theorem C75_gamma {h : Chain K} (hh : Nonneg h) {b : Nat → Fin K → ℝ} (hb : ∀ n k, 0 ≤ b n k) {N : Nat} (hpos : 0 < evidence h b N) (n : Fin (N + 1)) (k : Fin K) :
    gamma h b (N + 1) n k = posterior h b N (fun z => z n = k) := by
  classical
  rw [gamma_eq hh hb hpos (by omega)]
  unfold posterior
  rw [evidence_eq, ← sum_through h b N n n.isLt k]

/-- **C75** `xhi` is the probability of two consecutive states given all observations. -/
theorem C75_xhi {h : Chain K} (hh : Nonneg h) {b : Nat → Fin K → ℝ} (hb : ∀ n k, 0 ≤ b n k) {N : Nat} (hpos : 0 < evidence h b N) (n : Fin N) (i j : Fin K) :
    xhi h b (N + 1) n i j = posterior h b N (fun z => z n.castSucc = i ∧ z n.succ = j) := by
  classical
  rw [xhi_eq hh hb hpos n.isLt]
  unfold posterior
  rw [evidence_eq, ← sum_through2 h b N n n.isLt i j]
  rfl

theorem posterior_total (h : Chain K) (b : Nat → Fin K → ℝ) (N : Nat) {ι : Type} [Fintype ι] [DecidableEq ι] (f : (Fin (N + 1) → Fin K) → ι)
    (E : (Fin (N + 1) → Fin K) → Prop) [DecidablePred E] : ∑ i, posterior h b N (fun z => E z ∧ f z = i) = posterior h b N E := by
  unfold posterior
  rw [← Finset.sum_div]
  congr 1
  rw [← Finset.sum_fiberwise (Finset.univ.filter E) f]
  apply Finset.sum_congr rfl
  intro i _
  rw [Finset.filter_filter]

/-- **C75** The probabilities of the states add up to one at every time, and the pairs have the states as marginals. -/
theorem C75_marginals {h : Chain K} (hh : Nonneg h) {b : Nat → Fin K → ℝ} (hb : ∀ n k, 0 ≤ b n k) {N : Nat} (hpos : 0 < evidence h b N) :
    (∀ n : Fin (N + 1), ∑ k, gamma h b (N + 1) n k = 1) ∧
    (∀ (n : Fin N) i, ∑ j, xhi h b (N + 1) n i j = gamma h b (N + 1) n i) ∧
    (∀ (n : Fin N) j, ∑ i, xhi h b (N + 1) n i j = gamma h b (N + 1) (n + 1) j) := by
  refine ⟨fun n => ?_, fun n i => ?_, fun n j => ?_⟩
  · have := posterior_total h b N (fun z => z n) (fun _ => True)
    simp only [true_and] at this
    rw [Finset.sum_congr rfl fun k _ => C75_gamma hh hb hpos n k, this]
    unfold posterior
    rw [Finset.filter_true]
    exact div_self hpos.ne'
  · have := posterior_total h b N (fun z => z n.succ) (fun z => z n.castSucc = i)
    rw [Finset.sum_congr rfl fun j _ => C75_xhi hh hb hpos n i j, this]
    exact (C75_gamma hh hb hpos n.castSucc i).symm
  · have := posterior_total h b N (fun z => z n.castSucc) (fun z => z n.succ = j)
    rw [Finset.sum_congr rfl fun i _ => show xhi h b (N + 1) n i j = posterior h b N (fun z => z n.succ = j ∧ z n.castSucc = i) by
      rw [C75_xhi hh hb hpos n i j]
      unfold posterior
      simp only [and_comm], this]
    exact (C75_gamma hh hb hpos n.succ j).symm

/-- A chain of two states and four observations that meet the hypotheses. -/
example : Nonneg (K := 2) ⟨fun i j => if i = j then 2 / 3 else 1 / 3, fun k => if k = 0 then 1 else 0⟩ ∧ (∀ (n : Nat) (k : Fin 2), (0 : ℝ) ≤ n + (k : Nat) + 1) ∧
    0 < evidence (K := 2) ⟨fun i j => if i = j then 2 / 3 else 1 / 3, fun k => if k = 0 then 1 else 0⟩ (fun n k => n + (k : Nat) + 1) 3 := by
  have hnn : Nonneg (K := 2) ⟨fun i j => if i = j then 2 / 3 else 1 / 3, fun k => if k = 0 then 1 else 0⟩ :=
    ⟨fun i j => by dsimp only; split <;> norm_num, fun k => by dsimp only; split <;> norm_num⟩
  have hb : ∀ (n : Nat) (k : Fin 2), (0 : ℝ) ≤ n + (k : Nat) + 1 := fun n k => by positivity
  refine ⟨hnn, hb, ?_⟩
  refine lt_of_lt_of_le ?_ (Finset.single_le_sum (f := fun z => joint _ _ 3 z) (fun z _ => ?_) (Finset.mem_univ (fun _ => (0 : Fin 2))))
  · unfold joint
    refine mul_pos (mul_pos (by simp) (Finset.prod_pos fun n _ => by simp)) (Finset.prod_pos fun n _ => by positivity)
  · exact mul_nonneg (mul_nonneg (hnn.2 _) (Finset.prod_nonneg fun _ _ => hnn.1 _ _)) (Finset.prod_nonneg fun _ _ => hb _ _)

end Verif.Hmm
