import Verif.Hmm.Props

/-!
# Hidden Markov models, training: property C76
-/

namespace Verif.Hmm

open Finset

variable {K O : Nat}

/-! ## Inequalities -/

theorem gibbs {G p : Fin K → ℝ} (hG : ∀ k, 0 ≤ G k) (hS : 0 < ∑ k, G k) (hp : ∀ k, 0 ≤ p k) (hp1 : ∑ k, p k ≤ 1) (hpos : ∀ k, 0 < G k → 0 < p k) :
    0 ≤ ∑ k, G k * (Real.log (G k / ∑ j, G j) - Real.log (p k)) := by
  set S := ∑ j, G j with hSd
  have key : ∀ k, G k - S * p k ≤ G k * (Real.log (G k / S) - Real.log (p k)) := by
    intro k
    rcases (hG k).lt_or_eq with h | h
    · have hpk := hpos k h
      have h1 : 0 < G k / S := div_pos h hS
      have h2 := Real.log_le_sub_one_of_pos (div_pos hpk h1)
      rw [Real.log_div hpk.ne' h1.ne'] at h2
      have h3 : G k * (p k / (G k / S)) = S * p k := by field_simp
      nlinarith
    · rw [← h]
      have := mul_nonneg hS.le (hp k)
      simp only [zero_sub, zero_mul]
      linarith
  have hsum := Finset.sum_le_sum fun k (_ : k ∈ Finset.univ) => key k
  rw [Finset.sum_sub_distrib, ← Finset.mul_sum, ← hSd] at hsum
  nlinarith

/-! ## Sums over all rows of all examples -/

section Total

variable {α : Type}

theorem total_add (ex : List (Nat × α)) (f g : Nat × α → Nat → ℝ) : (total ex fun e n => f e n + g e n) = total ex f + total ex g := by
  unfold total
  rw [← List.sum_map_add]
  simp only [Finset.sum_add_distrib]

theorem total_mul (ex : List (Nat × α)) (c : ℝ) (f : Nat × α → Nat → ℝ) : (total ex fun e n => c * f e n) = c * total ex f := by
  unfold total
  rw [← List.sum_map_mul_left]
  simp only [Finset.mul_sum]

theorem listSum_finset {β : Type} {ι : Type} (l : List β) (s : Finset ι) (f : β → ι → ℝ) :
    (l.map fun e => ∑ i ∈ s, f e i).sum = ∑ i ∈ s, (l.map fun e => f e i).sum := by
  induction l with
  | nil => simp
  | cons a l ih => simp only [List.map_cons, List.sum_cons, ih, Finset.sum_add_distrib]

theorem total_sum {ι : Type} [Fintype ι] (ex : List (Nat × α)) (f : ι → Nat × α → Nat → ℝ) : (total ex fun e n => ∑ i, f i e n) = ∑ i, total ex (f i) := by
  unfold total
  rw [← listSum_finset]
  congr 1
  apply List.map_congr_left
  intro e _
  exact Finset.sum_comm

theorem total_nonneg {ex : List (Nat × α)} {f : Nat × α → Nat → ℝ} (hf : ∀ e ∈ ex, ∀ n < e.1, 0 ≤ f e n) : 0 ≤ total ex f := by
  unfold total
  apply List.sum_nonneg
  intro x hx
  rw [List.mem_map] at hx
  obtain ⟨e, he, rfl⟩ := hx
  exact Finset.sum_nonneg fun n hn => hf e he n (Finset.mem_range.mp hn)

theorem total_congr {ex : List (Nat × α)} {f g : Nat × α → Nat → ℝ} (hf : ∀ e ∈ ex, ∀ n < e.1, f e n = g e n) : total ex f = total ex g := by
  unfold total
  congr 1
  apply List.map_congr_left
  intro e he
  exact Finset.sum_congr rfl fun n hn => hf e he n (Finset.mem_range.mp hn)

end Total

/-- The weighted mean and variance are the best parameters of a normal distribution. -/
theorem gauss {α : Type} {ex : List (Nat × α)} {g x : Nat × α → Nat → ℝ} (hZ : 0 < total ex g)
    {m v : ℝ} (hm : m = (total ex fun e n => x e n * g e n) / total ex g) (hv : v = (total ex fun e n => (x e n - m) ^ 2 * g e n) / total ex g) (hv0 : 0 < v)
    {μ σ : ℝ} (hσ : 0 < σ) :
    0 ≤ total ex fun e n => g e n * ((-(1 / 2) * Real.log (2 * Real.pi * v) - (x e n - m) ^ 2 / (2 * v)) -
      (-(1 / 2) * Real.log (2 * Real.pi * σ) - (x e n - μ) ^ 2 / (2 * σ))) := by
  have h1 : (total ex fun e n => (x e n - m) ^ 2 * g e n) = v * total ex g := by rw [hv]; field_simp
  have h2 : (total ex fun e n => x e n * g e n) = m * total ex g := by rw [hm]; field_simp
  have h3 : (total ex fun e n => (x e n - μ) ^ 2 * g e n) = (v + (m - μ) ^ 2) * total ex g := by
    have : (fun (e : Nat × α) (n : Nat) => (x e n - μ) ^ 2 * g e n) =
        fun e n => (x e n - m) ^ 2 * g e n + (2 * (m - μ) * (x e n * g e n) + (-2 * (m - μ) * m + (m - μ) ^ 2) * g e n) := by
      funext e n; ring
    rw [this, total_add, total_add, total_mul, total_mul, h1, h2]
    ring
  have h4 : (fun (e : Nat × α) (n : Nat) => g e n * ((-(1 / 2) * Real.log (2 * Real.pi * v) - (x e n - m) ^ 2 / (2 * v)) -
      (-(1 / 2) * Real.log (2 * Real.pi * σ) - (x e n - μ) ^ 2 / (2 * σ)))) =
      fun e n => (-(1 / 2) * Real.log (2 * Real.pi * v) + 1 / 2 * Real.log (2 * Real.pi * σ)) * g e n +
        ((-(1 / (2 * v))) * ((x e n - m) ^ 2 * g e n) + (1 / (2 * σ)) * ((x e n - μ) ^ 2 * g e n)) := by
    funext e n; ring
  rw [h4, total_add, total_add, total_mul, total_mul, total_mul, h1, h3]
  have hpi := Real.pi_pos
  have hl := Real.log_le_sub_one_of_pos (div_pos hv0 hσ)
  rw [Real.log_div hv0.ne' hσ.ne'] at hl
  rw [Real.log_mul (by positivity) hv0.ne', Real.log_mul (by positivity) hσ.ne']
  have e1 : -(1 / (2 * v)) * (v * total ex g) = -(1 / 2) * total ex g := by field_simp
  have e2 : 1 / (2 * σ) * ((v + (m - μ) ^ 2) * total ex g) = (1 / 2) * (v / σ + (m - μ) ^ 2 / σ) * total ex g := by field_simp
  rw [e1, e2]
  have h5 : 0 ≤ (m - μ) ^ 2 / σ := div_nonneg (sq_nonneg _) hσ.le
  nlinarith

/-! ## One example -/

/-- Probability of the path given the observations. -/
noncomputable def weight (h : Chain K) (b : Nat → Fin K → ℝ) (N : Nat) (z : Fin (N + 1) → Fin K) : ℝ := joint h b N z / evidence h b N

theorem joint_nonneg {h : Chain K} (hh : Nonneg h) {b : Nat → Fin K → ℝ} (hb : ∀ n k, 0 ≤ b n k) (N : Nat) (z : Fin (N + 1) → Fin K) : 0 ≤ joint h b N z :=
  mul_nonneg (mul_nonneg (hh.2 _) (Finset.prod_nonneg fun _ _ => hh.1 _ _)) (Finset.prod_nonneg fun _ _ => hb _ _)

theorem sum_weight_state {h : Chain K} (hh : Nonneg h) {b : Nat → Fin K → ℝ} (hb : ∀ n k, 0 ≤ b n k) {N : Nat} (hpos : 0 < evidence h b N) (n : Fin (N + 1)) (f : Fin K → ℝ) :
    ∑ z, weight h b N z * f (z n) = ∑ k, gamma h b (N + 1) n k * f k := by
  rw [← Finset.sum_fiberwise Finset.univ (fun z : Fin (N + 1) → Fin K => z n)]
  apply Finset.sum_congr rfl
  intro k _
  rw [C75_gamma hh hb hpos]
  unfold posterior weight
  rw [Finset.sum_div, Finset.sum_mul]
  apply Finset.sum_congr rfl
  intro z hz
  rw [Finset.mem_filter] at hz
  rw [hz.2]

theorem sum_weight_pair {h : Chain K} (hh : Nonneg h) {b : Nat → Fin K → ℝ} (hb : ∀ n k, 0 ≤ b n k) {N : Nat} (hpos : 0 < evidence h b N) (n : Fin N) (f : Fin K → Fin K → ℝ) :
    ∑ z, weight h b N z * f (z n.castSucc) (z n.succ) = ∑ i, ∑ j, xhi h b (N + 1) n i j * f i j := by
  rw [← Fintype.sum_prod_type' (f := fun i j => xhi h b (N + 1) n i j * f i j),
    ← Finset.sum_fiberwise Finset.univ (fun z : Fin (N + 1) → Fin K => (z n.castSucc, z n.succ))]
  apply Finset.sum_congr rfl
  rintro ⟨i, j⟩ _
  rw [C75_xhi hh hb hpos]
  unfold posterior weight
  rw [Finset.sum_div, Finset.sum_mul]
  have : (Finset.univ.filter fun z : Fin (N + 1) → Fin K => (z n.castSucc, z n.succ) = (i, j)) =
      Finset.univ.filter fun z : Fin (N + 1) → Fin K => z n.castSucc = i ∧ z n.succ = j := by
    ext z; simp
  rw [this]
  apply Finset.sum_congr rfl
  intro z hz
  rw [Finset.mem_filter] at hz
  rw [hz.2.1, hz.2.2]

/-- A path of positive weight: all factors are positive. -/
theorem factors_pos {h : Chain K} (hh : Nonneg h) {b : Nat → Fin K → ℝ} (hb : ∀ n k, 0 ≤ b n k) {N : Nat} {z : Fin (N + 1) → Fin K} (hz : 0 < joint h b N z) :
    0 < h.pi (z 0) ∧ (∀ n : Fin N, 0 < h.A (z n.castSucc) (z n.succ)) ∧ ∀ n : Fin (N + 1), 0 < b n (z n) := by
  unfold joint at hz
  refine ⟨?_, ?_, ?_⟩
  · apply lt_of_le_of_ne (hh.2 _)
    intro h0; rw [← h0] at hz; simp at hz
  · intro n
    apply lt_of_le_of_ne (hh.1 _ _)
    intro h0
    rw [Finset.prod_eq_zero (Finset.mem_univ n) h0.symm] at hz
    simp at hz
  · intro n
    apply lt_of_le_of_ne (hb _ _)
    intro h0
    rw [Finset.prod_eq_zero (Finset.mem_univ n) h0.symm, mul_zero] at hz
    simp at hz

theorem log_joint {h : Chain K} (hh : Nonneg h) {b : Nat → Fin K → ℝ} (hb : ∀ n k, 0 ≤ b n k) {N : Nat} {z : Fin (N + 1) → Fin K} (hz : 0 < joint h b N z) :
    Real.log (joint h b N z) = Real.log (h.pi (z 0)) + ∑ n : Fin N, Real.log (h.A (z n.castSucc) (z n.succ)) + ∑ n : Fin (N + 1), Real.log (b n (z n)) := by
  obtain ⟨h1, h2, h3⟩ := factors_pos hh hb hz
  unfold joint
  have p2 : 0 < ∏ n : Fin N, h.A (z n.castSucc) (z n.succ) := Finset.prod_pos fun n _ => h2 n
  have p3 : 0 < ∏ n : Fin (N + 1), b n (z n) := Finset.prod_pos fun n _ => h3 n
  rw [Real.log_mul (mul_pos h1 p2).ne' p3.ne', Real.log_mul h1.ne' p2.ne', Real.log_prod fun n _ => (h2 n).ne', Real.log_prod fun n _ => (h3 n).ne']

/-- The step of the expectation maximisation, for one example. -/
theorem em_example {h h' : Chain K} (hh : Nonneg h) (hh' : Nonneg h') {b b' : Nat → Fin K → ℝ} (hb : ∀ n k, 0 ≤ b n k) (hb' : ∀ n k, 0 ≤ b' n k) {N : Nat}
    (hpos : 0 < evidence h b N) (hsupp : ∀ z, 0 < joint h b N z → 0 < joint h' b' N z) :
    0 < evidence h' b' N ∧
    (∑ k, gamma h b (N + 1) 0 k * (Real.log (h'.pi k) - Real.log (h.pi k))) +
      (∑ n ∈ range N, ∑ i, ∑ j, xhi h b (N + 1) n i j * (Real.log (h'.A i j) - Real.log (h.A i j))) +
      (∑ n ∈ range (N + 1), ∑ k, gamma h b (N + 1) n k * (Real.log (b' n k) - Real.log (b n k))) ≤
    Real.log (evidence h' b' N) - Real.log (evidence h b N) := by
  have hj := joint_nonneg hh hb N
  have hj' := joint_nonneg hh' hb' N
  have hex : ∃ z, 0 < joint h b N z := by
    by_contra hn
    push Not at hn
    have : evidence h b N = 0 := Finset.sum_eq_zero fun z _ => le_antisymm (hn z) (hj z)
    linarith
  have hpos' : 0 < evidence h' b' N := by
    obtain ⟨z, hz⟩ := hex
    exact lt_of_lt_of_le (hsupp z hz) (Finset.single_le_sum (fun z _ => hj' z) (Finset.mem_univ z))
  refine ⟨hpos', ?_⟩
  have hw : ∑ z, weight h b N z = 1 := by
    unfold weight
    rw [← Finset.sum_div]
    exact div_self hpos.ne'
  have hw0 : ∀ z, 0 ≤ weight h b N z := fun z => div_nonneg (hj z) hpos.le
  set R := evidence h' b' N / evidence h b N with hR
  have hR0 : 0 < R := div_pos hpos' hpos
  have hbound : ∑ z, weight h b N z * (Real.log (joint h' b' N z) - Real.log (joint h b N z)) ≤ Real.log R := by
    have hterm : ∀ z, weight h b N z * (Real.log (joint h' b' N z) - Real.log (joint h b N z)) ≤
        weight h b N z * (Real.log R - 1) + joint h' b' N z / evidence h' b' N := by
      intro z
      rcases (hj z).lt_or_eq with hz | hz
      · have hz' := hsupp z hz
        have h1 : 0 < joint h' b' N z / joint h b N z / R := div_pos (div_pos hz' hz) hR0
        have h2 := Real.log_le_sub_one_of_pos h1
        rw [Real.log_div (div_pos hz' hz).ne' hR0.ne', Real.log_div hz'.ne' hz.ne'] at h2
        have h3 : weight h b N z * (joint h' b' N z / joint h b N z / R) = joint h' b' N z / evidence h' b' N := by
          unfold weight
          rw [hR]
          field_simp
        rw [← h3, ← mul_add]
        apply mul_le_mul_of_nonneg_left _ (hw0 z)
        linarith
      · have : weight h b N z = 0 := by unfold weight; rw [← hz, zero_div]
        rw [this, zero_mul, zero_mul, zero_add]
        exact div_nonneg (hj' z) hpos'.le
    have := Finset.sum_le_sum fun z (_ : z ∈ Finset.univ) => hterm z
    rw [Finset.sum_add_distrib, ← Finset.sum_mul, hw, ← Finset.sum_div, show ∑ z, joint h' b' N z = evidence h' b' N from rfl, div_self hpos'.ne'] at this
    linarith
  have hexpand : ∑ z, weight h b N z * (Real.log (joint h' b' N z) - Real.log (joint h b N z)) =
      ∑ z, weight h b N z * ((Real.log (h'.pi (z 0)) - Real.log (h.pi (z 0))) +
        (∑ n : Fin N, (Real.log (h'.A (z n.castSucc) (z n.succ)) - Real.log (h.A (z n.castSucc) (z n.succ)))) +
        ∑ n : Fin (N + 1), (Real.log (b' n (z n)) - Real.log (b n (z n)))) := by
    apply Finset.sum_congr rfl
    intro z _
    rcases (hj z).lt_or_eq with hz | hz
    · rw [log_joint hh hb hz, log_joint hh' hb' (hsupp z hz), Finset.sum_sub_distrib, Finset.sum_sub_distrib]
      ring
    · have : weight h b N z = 0 := by unfold weight; rw [← hz, zero_div]
      rw [this, zero_mul, zero_mul]
  rw [hexpand] at hbound
  rw [hR, Real.log_div hpos'.ne' hpos.ne'] at hbound
  refine le_trans (le_of_eq ?_) hbound
  simp only [mul_add, Finset.mul_sum, Finset.sum_add_distrib]
  congr 1
  · congr 1
    · exact (sum_weight_state hh hb hpos 0 fun k => Real.log (h'.pi k) - Real.log (h.pi k)).symm
    · rw [Finset.sum_comm (s := Finset.univ), Finset.sum_range]
      apply Finset.sum_congr rfl
      intro n _
      exact (sum_weight_pair hh hb hpos n fun i j => Real.log (h'.A i j) - Real.log (h.A i j)).symm
  · rw [Finset.sum_comm (s := Finset.univ), Finset.sum_range]
    apply Finset.sum_congr rfl
    intro n _
    exact (sum_weight_state hh hb hpos n fun k => Real.log (b' n k) - Real.log (b n k)).symm

/-! ## The densities -/

theorem density_pos {mu sigma x : Fin O → ℝ} (hs : ∀ o, 0 < sigma o) : 0 < density mu sigma x := by
  unfold density
  apply Finset.prod_pos
  intro o _
  have := hs o
  have hpi := Real.pi_pos
  positivity

theorem log_density {mu sigma x : Fin O → ℝ} (hs : ∀ o, 0 < sigma o) :
    Real.log (density mu sigma x) = ∑ o, (-(1 / 2) * Real.log (2 * Real.pi * sigma o) - (x o - mu o) ^ 2 / (2 * sigma o)) := by
  unfold density
  have hpi := Real.pi_pos
  have hp : ∀ o, 0 < 2 * Real.pi * sigma o := fun o => by have := hs o; positivity
  rw [Real.log_prod fun o _ => by have := Real.sqrt_pos.mpr (hp o); positivity]
  apply Finset.sum_congr rfl
  intro o _
  have h1 := Real.sqrt_pos.mpr (hp o)
  rw [Real.log_mul (inv_pos.mpr h1).ne' (Real.exp_pos _).ne', Real.log_inv, Real.log_exp, Real.log_sqrt (hp o).le]
  ring

/-! ## Weights -/

theorem posterior_nonneg {h : Chain K} (hh : Nonneg h) {b : Nat → Fin K → ℝ} (hb : ∀ n k, 0 ≤ b n k) {N : Nat} (hpos : 0 < evidence h b N)
    (E : (Fin (N + 1) → Fin K) → Prop) [DecidablePred E] : 0 ≤ posterior h b N E :=
  div_nonneg (Finset.sum_nonneg fun z _ => joint_nonneg hh hb N z) hpos.le

theorem posterior_pos {h : Chain K} (hh : Nonneg h) {b : Nat → Fin K → ℝ} (hb : ∀ n k, 0 ≤ b n k) {N : Nat} (hpos : 0 < evidence h b N)
    (E : (Fin (N + 1) → Fin K) → Prop) [DecidablePred E] {z : Fin (N + 1) → Fin K} (hz : 0 < joint h b N z) (hE : E z) : 0 < posterior h b N E := by
  apply div_pos _ hpos
  exact lt_of_lt_of_le hz (Finset.single_le_sum (f := fun z => joint h b N z) (fun z _ => joint_nonneg hh hb N z) (Finset.mem_filter.mpr ⟨Finset.mem_univ z, hE⟩))

theorem le_listSum {β : Type} {l : List β} {f : β → ℝ} (hf : ∀ e ∈ l, 0 ≤ f e) {e : β} (he : e ∈ l) : f e ≤ (l.map f).sum :=
  List.single_le_sum (by intro x hx; rw [List.mem_map] at hx; obtain ⟨a, ha, rfl⟩ := hx; exact hf a ha) _ (List.mem_map_of_mem he)

/-! ## Specification -/

/-- Each example has at least one observation, and a positive probability under the model. -/
def Explains (h : Chain K) (b : Example O → Nat → Fin K → ℝ) (ex : List (Example O)) : Prop :=
  ∀ e ∈ ex, ∃ N, e.1 = N + 1 ∧ 0 < evidence h (b e) N

/-- The expected number of transitions from `i` to `j` given the observations. -/
noncomputable def transitions (h : Chain K) (b : Example O → Nat → Fin K → ℝ) (ex : List (Example O)) (i j : Fin K) : ℝ :=
  (ex.map fun e => ∑ n ∈ range (e.1 - 1), xhi h (b e) e.1 n i j).sum

/-- The expected number of visits of the state `k` given the observations. -/
noncomputable def visits (h : Chain K) (b : Example O → Nat → Fin K → ℝ) (ex : List (Example O)) (k : Fin K) : ℝ :=
  total ex fun e n => gamma h (b e) e.1 n k

/-- The expected number of examples that begin in the state `k`. -/
noncomputable def starts (h : Chain K) (b : Example O → Nat → Fin K → ℝ) (ex : List (Example O)) (k : Fin K) : ℝ :=
  (ex.map fun e => gamma h (b e) e.1 0 k).sum

theorem emStep_pi (s : Params K O) (ex : List (Example O)) (k : Fin K) :
    (emStep s ex).1.pi k = starts s.1 (fun e => prob s.2 e.2) ex k / ∑ j, starts s.1 (fun e => prob s.2 e.2) ex j := by
  simp only [emStep, updateChain, starts, List.map_map, Function.comp_def]

theorem emStep_A (s : Params K O) (ex : List (Example O)) (i j : Fin K) :
    (emStep s ex).1.A i j = if ∑ j, transitions s.1 (fun e => prob s.2 e.2) ex i j < 1e-15 then 0
      else transitions s.1 (fun e => prob s.2 e.2) ex i j / ∑ j, transitions s.1 (fun e => prob s.2 e.2) ex i j := by
  simp only [emStep, updateChain, transitions, List.map_map, Function.comp_def]

section Counts

variable {h : Chain K} (hh : Nonneg h) {b : Example O → Nat → Fin K → ℝ} (hb : ∀ e n k, 0 ≤ b e n k) {ex : List (Example O)} (hex : Explains h b ex)

include hh hb hex

theorem gamma_nonneg {e : Example O} (he : e ∈ ex) {n : Nat} (hn : n < e.1) (k : Fin K) : 0 ≤ gamma h (b e) e.1 n k := by
  obtain ⟨N, hN, hpos⟩ := hex e he
  rw [hN] at hn ⊢
  rw [C75_gamma hh (hb e) hpos ⟨n, hn⟩]
  exact posterior_nonneg hh (hb e) hpos _

theorem xhi_nonneg {e : Example O} (he : e ∈ ex) {n : Nat} (hn : n < e.1 - 1) (i j : Fin K) : 0 ≤ xhi h (b e) e.1 n i j := by
  obtain ⟨N, hN, hpos⟩ := hex e he
  rw [hN] at hn ⊢
  rw [C75_xhi hh (hb e) hpos ⟨n, by omega⟩]
  exact posterior_nonneg hh (hb e) hpos _

theorem transitions_nonneg (i j : Fin K) : 0 ≤ transitions h b ex i j := by
  apply List.sum_nonneg
  intro x hx
  rw [List.mem_map] at hx
  obtain ⟨e, he, rfl⟩ := hx
  exact Finset.sum_nonneg fun n hn => xhi_nonneg hh hb hex he (Finset.mem_range.mp hn) i j

theorem starts_nonneg (k : Fin K) : 0 ≤ starts h b ex k := by
  apply List.sum_nonneg
  intro x hx
  rw [List.mem_map] at hx
  obtain ⟨e, he, rfl⟩ := hx
  obtain ⟨N, hN, _⟩ := hex e he
  exact gamma_nonneg hh hb hex he (by omega) k

theorem sum_starts : ∑ k, starts h b ex k = ex.length := by
  unfold starts
  rw [← listSum_finset]
  have : (ex.map fun e => ∑ k, gamma h (b e) e.1 0 k) = ex.map fun _ => (1 : ℝ) := by
    apply List.map_congr_left
    intro e he
    obtain ⟨N, hN, hpos⟩ := hex e he
    rw [hN]
    exact (C75_marginals hh (hb e) hpos).1 0
  rw [this]
  simp

/-- The paths of positive probability are counted. -/
theorem counts_pos {e : Example O} (he : e ∈ ex) {N : Nat} (hN : e.1 = N + 1) {z : Fin (N + 1) → Fin K} (hz : 0 < joint h (b e) N z) :
    0 < starts h b ex (z 0) ∧ ∀ n : Fin N, 0 < transitions h b ex (z n.castSucc) (z n.succ) := by
  obtain ⟨N', hN', hpos⟩ := hex e he
  obtain rfl : N' = N := by omega
  refine ⟨?_, fun n => ?_⟩
  · refine lt_of_lt_of_le ?_ (le_listSum (fun e he => ?_) he)
    · have hg := C75_gamma hh (hb e) hpos 0 (z 0)
      rw [Fin.val_zero] at hg
      rw [hN, hg]
      exact posterior_pos hh (hb e) hpos _ hz rfl
    · obtain ⟨N, hN, _⟩ := hex e he
      exact gamma_nonneg hh hb hex he (by omega) _
  · refine lt_of_lt_of_le ?_ (le_listSum (f := fun e => ∑ m ∈ range (e.1 - 1), xhi h (b e) e.1 m (z n.castSucc) (z n.succ)) (fun e he => ?_) he)
    · refine lt_of_lt_of_le ?_ (Finset.single_le_sum (f := fun m => xhi h (b e) e.1 m (z n.castSucc) (z n.succ)) (fun m hm => xhi_nonneg hh hb hex he (Finset.mem_range.mp hm) _ _)
        (Finset.mem_range.mpr (by omega : (n : Nat) < e.1 - 1)))
      rw [hN, C75_xhi hh (hb e) hpos n]
      exact posterior_pos hh (hb e) hpos _ hz ⟨rfl, rfl⟩
    · exact Finset.sum_nonneg fun m hm => xhi_nonneg hh hb hex he (Finset.mem_range.mp hm) _ _

end Counts

/-! ## C76 -/

/-- What the training keeps: the entries are not negative, the initial distribution and the rows of the transition matrix sum up to at most one, the variances are
positive. -/
structure Valid (s : Params K O) : Prop where
  nonneg : Nonneg s.1
  pi_le : ∑ k, s.1.pi k ≤ 1
  A_le : ∀ i, ∑ j, s.1.A i j ≤ 1
  sigma_pos : ∀ k o, 0 < s.2.sigma k o

theorem prob_nonneg {em : Emission K O} (hs : ∀ k o, 0 < em.sigma k o) (x : Nat → Fin O → ℝ) (n : Nat) (k : Fin K) : 0 ≤ prob em x n k :=
  (density_pos (hs k)).le

/-- **C76** One iteration gives distributions. -/
theorem C76_distributions {s : Params K O} (hs : Valid s) {ex : List (Example O)} (hne : ex ≠ []) (hex : Explains s.1 (fun e => prob s.2 e.2) ex) :
    Nonneg (emStep s ex).1 ∧ ∑ k, (emStep s ex).1.pi k = 1 ∧
    ∀ i, (∑ j, (emStep s ex).1.A i j = 1) ∨
      (∑ j, transitions s.1 (fun e => prob s.2 e.2) ex i j < 1e-15 ∧ ∀ j, (emStep s ex).1.A i j = 0) := by
  have hb := fun e : Example O => prob_nonneg hs.sigma_pos e.2
  refine ⟨⟨fun i j => ?_, fun k => ?_⟩, ?_, fun i => ?_⟩
  · rw [emStep_A]
    split
    · exact le_refl _
    · exact div_nonneg (transitions_nonneg hs.nonneg hb hex i j) (Finset.sum_nonneg fun j _ => transitions_nonneg hs.nonneg hb hex i j)
  · rw [emStep_pi]
    exact div_nonneg (starts_nonneg hs.nonneg hb hex k) (Finset.sum_nonneg fun k _ => starts_nonneg hs.nonneg hb hex k)
  · simp only [emStep_pi]
    rw [← Finset.sum_div, sum_starts hs.nonneg hb hex]
    have : 0 < ex.length := List.length_pos_of_ne_nil hne
    exact div_self (by exact_mod_cast this.ne')
  · simp only [emStep_A]
    split
    · rename_i hlt
      exact Or.inr ⟨hlt, fun _ => rfl⟩
    · rename_i hge
      left
      rw [← Finset.sum_div]
      exact div_self (by intro h0; rw [h0] at hge; norm_num at hge)

/-- **C76** One iteration of the training does not decrease the likelihood of the examples, and keeps their probabilities positive. -/
theorem C76_monotone {s : Params K O} (hs : Valid s) {ex : List (Example O)} (hne : ex ≠ []) (hex : Explains s.1 (fun e => prob s.2 e.2) ex)
    (hvis : ∀ k, 0 < visits s.1 (fun e => prob s.2 e.2) ex k) (hsig : ∀ k o, 0 < (emStep s ex).2.sigma k o)
    (htr : ∀ i, ∑ j, transitions s.1 (fun e => prob s.2 e.2) ex i j = 0 ∨ 1e-15 ≤ ∑ j, transitions s.1 (fun e => prob s.2 e.2) ex i j) :
    logLik s ex ≤ logLik (emStep s ex) ex ∧ Valid (emStep s ex) ∧ Explains (emStep s ex).1 (fun e => prob (emStep s ex).2 e.2) ex := by
  have hb := fun e : Example O => prob_nonneg hs.sigma_pos e.2
  have hb' := fun e : Example O => prob_nonneg hsig e.2
  obtain ⟨hnn', hpi', hA'⟩ := C76_distributions hs hne hex
  set s' := emStep s ex with hs'
  have hvalid : Valid s' := ⟨hnn', hpi'.le, fun i => by
    rcases hA' i with h | ⟨_, h⟩
    · exact h.le
    · simp [h], hsig⟩
  have htn := fun i j => transitions_nonneg hs.nonneg hb hex i j
  have hApos : ∀ i j, 0 < transitions s.1 (fun e => prob s.2 e.2) ex i j → 0 < s'.1.A i j := by
    intro i j hij
    have hsum : 0 < ∑ j, transitions s.1 (fun e => prob s.2 e.2) ex i j :=
      lt_of_lt_of_le hij (Finset.single_le_sum (f := fun j => transitions s.1 (fun e => prob s.2 e.2) ex i j) (fun j _ => htn i j) (Finset.mem_univ j))
    rw [hs', emStep_A, if_neg (by rcases htr i with h | h <;> linarith)]
    exact div_pos hij hsum
  have hstart : 0 < ∑ k, starts s.1 (fun e => prob s.2 e.2) ex k := by
    rw [sum_starts hs.nonneg hb hex]
    exact_mod_cast List.length_pos_of_ne_nil hne
  have hpipos : ∀ k, 0 < starts s.1 (fun e => prob s.2 e.2) ex k → 0 < s'.1.pi k := by
    intro k hk
    rw [hs', emStep_pi]
    exact div_pos hk hstart
  have hstep : ∀ e ∈ ex, ∀ N, e.1 = N + 1 → 0 < evidence s.1 (prob s.2 e.2) N →
      0 < evidence s'.1 (prob s'.2 e.2) N ∧ _ := fun e he N hN hpos =>
    em_example hs.nonneg hnn' (hb e) (hb' e) hpos fun z hz => by
      obtain ⟨h1, h2⟩ := counts_pos hs.nonneg hb hex he hN hz
      unfold joint
      exact mul_pos (mul_pos (hpipos _ h1) (Finset.prod_pos fun n _ => hApos _ _ (h2 n))) (Finset.prod_pos fun n _ => density_pos (hsig _))
  have hex' : Explains s'.1 (fun e => prob s'.2 e.2) ex := by
    intro e he
    obtain ⟨N, hN, hpos⟩ := hex e he
    exact ⟨N, hN, (hstep e he N hN hpos).1⟩
  refine ⟨?_, hvalid, hex'⟩
  -- the sum of the lower bounds
  have hlower : (ex.map fun e => (∑ k, gamma s.1 (prob s.2 e.2) e.1 0 k * (Real.log (s'.1.pi k) - Real.log (s.1.pi k))) +
      (∑ n ∈ range (e.1 - 1), ∑ i, ∑ j, xhi s.1 (prob s.2 e.2) e.1 n i j * (Real.log (s'.1.A i j) - Real.log (s.1.A i j))) +
      (∑ n ∈ range e.1, ∑ k, gamma s.1 (prob s.2 e.2) e.1 n k * (Real.log (prob s'.2 e.2 n k) - Real.log (prob s.2 e.2 n k)))).sum ≤
      (ex.map fun e => loglikelihood s'.1 (prob s'.2 e.2) e.1 + -1 * loglikelihood s.1 (prob s.2 e.2) e.1).sum := by
    apply List.sum_le_sum
    intro e he
    obtain ⟨N, hN, hpos⟩ := hex e he
    obtain ⟨hp', hle⟩ := hstep e he N hN hpos
    rw [hN, C75_loglikelihood hs.nonneg (hb e) hpos, C75_loglikelihood hnn' (hb' e) hp', neg_one_mul, ← sub_eq_add_neg]
    exact hle
  rw [List.sum_map_add, List.sum_map_add, List.sum_map_add, List.sum_map_mul_left] at hlower
  have hrhs : (ex.map fun e => loglikelihood s'.1 (prob s'.2 e.2) e.1).sum - (ex.map fun e => loglikelihood s.1 (prob s.2 e.2) e.1).sum = logLik s' ex - logLik s ex := rfl
  -- initial distribution
  have h1 : 0 ≤ (ex.map fun e => ∑ k, gamma s.1 (prob s.2 e.2) e.1 0 k * (Real.log (s'.1.pi k) - Real.log (s.1.pi k))).sum := by
    rw [listSum_finset]
    have : ∀ k, (ex.map fun e => gamma s.1 (prob s.2 e.2) e.1 0 k * (Real.log (s'.1.pi k) - Real.log (s.1.pi k))).sum =
        starts s.1 (fun e => prob s.2 e.2) ex k * (Real.log (starts s.1 (fun e => prob s.2 e.2) ex k / ∑ j, starts s.1 (fun e => prob s.2 e.2) ex j) - Real.log (s.1.pi k)) := by
      intro k
      rw [List.sum_map_mul_right, hs', emStep_pi]
      rfl
    simp only [this]
    refine gibbs (fun k => starts_nonneg hs.nonneg hb hex k) hstart hs.nonneg.2 hs.pi_le fun k hk => ?_
    apply lt_of_le_of_ne (hs.nonneg.2 k)
    intro h0
    apply hk.ne'
    unfold starts
    apply List.sum_eq_zero
    intro x hx
    rw [List.mem_map] at hx
    obtain ⟨e, he, rfl⟩ := hx
    simp [gamma, forward, scaled, ← h0]
  -- transition matrix
  have h2 : 0 ≤ (ex.map fun e => ∑ n ∈ range (e.1 - 1), ∑ i, ∑ j, xhi s.1 (prob s.2 e.2) e.1 n i j * (Real.log (s'.1.A i j) - Real.log (s.1.A i j))).sum := by
    have : (ex.map fun e => ∑ n ∈ range (e.1 - 1), ∑ i, ∑ j, xhi s.1 (prob s.2 e.2) e.1 n i j * (Real.log (s'.1.A i j) - Real.log (s.1.A i j))).sum =
        ∑ i, ∑ j, transitions s.1 (fun e => prob s.2 e.2) ex i j * (Real.log (s'.1.A i j) - Real.log (s.1.A i j)) := by
      unfold transitions
      simp only [← List.sum_map_mul_right, ← listSum_finset]
      congr 1
      apply List.map_congr_left
      intro e _
      rw [Finset.sum_comm]
      apply Finset.sum_congr rfl
      intro i _
      rw [Finset.sum_comm]
      apply Finset.sum_congr rfl
      intro j _
      rw [Finset.sum_mul]
    rw [this]
    apply Finset.sum_nonneg
    intro i _
    rcases htr i with h0 | h0
    · have hz : ∀ j, transitions s.1 (fun e => prob s.2 e.2) ex i j = 0 := fun j =>
        (Finset.sum_eq_zero_iff_of_nonneg fun j _ => htn i j).mp h0 j (Finset.mem_univ j)
      simp [hz]
    · simp only [hs', emStep_A, if_neg (not_lt.mpr h0)]
      refine gibbs (fun j => htn i j) (lt_of_lt_of_le (by norm_num) h0) (hs.nonneg.1 i) (hs.A_le i) fun j hj => ?_
      apply lt_of_le_of_ne (hs.nonneg.1 i j)
      intro hz
      apply hj.ne'
      unfold transitions
      apply List.sum_eq_zero
      intro x hx
      rw [List.mem_map] at hx
      obtain ⟨e, he, rfl⟩ := hx
      simp [xhi, ← hz]
  -- emission
  have h3 : 0 ≤ (ex.map fun e => ∑ n ∈ range e.1, ∑ k, gamma s.1 (prob s.2 e.2) e.1 n k * (Real.log (prob s'.2 e.2 n k) - Real.log (prob s.2 e.2 n k))).sum := by
    change 0 ≤ total ex fun e n => ∑ k, gamma s.1 (prob s.2 e.2) e.1 n k * (Real.log (prob s'.2 e.2 n k) - Real.log (prob s.2 e.2 n k))
    rw [total_sum]
    apply Finset.sum_nonneg
    intro k _
    unfold prob
    simp only [log_density (hs.sigma_pos k), log_density (hsig k), ← Finset.sum_sub_distrib, Finset.mul_sum]
    rw [total_sum]
    apply Finset.sum_nonneg
    intro o _
    exact gauss (g := fun e n => gamma s.1 (prob s.2 e.2) e.1 n k) (x := fun e n => e.2 n o) (hvis k) rfl rfl (hsig k o) (hs.sigma_pos k o)
  linarith

/-- **C76** Transitions and initial states that are impossible stay impossible. -/
theorem C76_zeros (s : Params K O) (ex : List (Example O)) :
    (∀ i j, s.1.A i j = 0 → (emStep s ex).1.A i j = 0) ∧ ∀ k, s.1.pi k = 0 → (emStep s ex).1.pi k = 0 := by
  refine ⟨fun i j h0 => ?_, fun k h0 => ?_⟩
  · rw [emStep_A]
    have : transitions s.1 (fun e => prob s.2 e.2) ex i j = 0 := by
      unfold transitions
      apply List.sum_eq_zero
      intro x hx
      rw [List.mem_map] at hx
      obtain ⟨e, he, rfl⟩ := hx
      simp [xhi, h0]
    rw [this, zero_div, ite_self]
  · rw [emStep_pi]
    have : starts s.1 (fun e => prob s.2 e.2) ex k = 0 := by
      unfold starts
      apply List.sum_eq_zero
      intro x hx
      rw [List.mem_map] at hx
      obtain ⟨e, he, rfl⟩ := hx
      simp [gamma, forward, scaled, h0]
    rw [this, zero_div]

/-- `n` iterations. -/
noncomputable def iterate (ex : List (Example O)) : Nat → Params K O → Params K O
  | 0, s => s
  | n + 1, s => iterate ex n (emStep s ex)

theorem iterate_succ (ex : List (Example O)) (n : Nat) (s : Params K O) : iterate ex (n + 1) s = emStep (iterate ex n s) ex := by
  induction n generalizing s with
  | zero => rfl
  | succ n ih => exact ih (emStep s ex)

/-- The loop makes iterations until the progress is less than `tol` or their number is `max_iter`. -/
theorem fitLoop_spec {ex : List (Example O)} {tol : ℝ} {max_iter : Int} {fuel : Nat} {s : Params K O} {old : Option ℝ} {n0 n : Nat} {r : Params K O}
    (h : fitLoop ex tol max_iter fuel s old n0 = some (n, r)) :
    ∃ m, n = n0 + (m + 1) ∧ r = iterate ex (m + 1) s ∧
      ((m = 0 ∧ ∃ o, old = some o ∧ logLik s ex - o < tol) ∨ (∃ p, m = p + 1 ∧ logLik (iterate ex m s) ex - logLik (iterate ex p s) ex < tol) ∨ (n : Int) = max_iter) := by
  induction fuel generalizing s old n0 with
  | zero => simp [fitLoop] at h
  | succ fuel ih =>
    simp only [fitLoop] at h
    split at h
    · rename_i hc
      simp only [Option.some.injEq, Prod.mk.injEq] at h
      exact ⟨0, by omega, h.2.symm, Or.inl ⟨rfl, hc⟩⟩
    · split at h
      · rename_i hc
        simp only [Option.some.injEq, Prod.mk.injEq] at h
        exact ⟨0, by omega, h.2.symm, Or.inr (Or.inr (by rw [← h.1]; exact hc))⟩
      · obtain ⟨m, h1, h2, h3⟩ := ih h
        refine ⟨m + 1, by omega, h2, ?_⟩
        rcases h3 with ⟨hm, o, ho, hlt⟩ | ⟨p, hp, hlt⟩ | h3
        · subst hm
          right; left
          refine ⟨0, rfl, ?_⟩
          simp only [Option.some.injEq] at ho
          rw [← ho] at hlt
          exact hlt
        · exact Or.inr (Or.inl ⟨p + 1, by omega, hlt⟩)
        · exact Or.inr (Or.inr h3)

theorem fitLoop_ends (ex : List (Example O)) (tol : ℝ) (max_iter : Nat) (fuel : Nat) (s : Params K O) (old : Option ℝ) (n0 : Nat) (h0 : n0 < max_iter) (hf : max_iter ≤ n0 + fuel) :
    ∃ n r, fitLoop ex tol max_iter fuel s old n0 = some (n, r) ∧ n ≤ max_iter := by
  induction fuel generalizing s old n0 with
  | zero => omega
  | succ fuel ih =>
    simp only [fitLoop]
    split
    · exact ⟨_, _, rfl, by omega⟩
    · split
      · exact ⟨_, _, rfl, by omega⟩
      · rename_i hne
        exact ih _ _ _ (by omega) (by omega)

/-- **C76** With `max_iter ≥ 1` the training ends, after at most `max_iter` iterations. -/
theorem C76_ends (ex : List (Example O)) (tol : ℝ) {max_iter : Nat} (hm : 1 ≤ max_iter) (s : Params K O) :
    ∃ n r, fit ex tol max_iter max_iter s = some (n, r) ∧ n ≤ max_iter :=
  fitLoop_ends ex tol max_iter max_iter _ none 0 hm (by omega)

/-- **C76** The result of the training: `n ≥ 1` iterations have been made on the normalised chain, and either `n` is `max_iter` or the likelihood before the last
iteration is less than `tol` larger than before the last but one. -/
theorem C76_result {ex : List (Example O)} {tol : ℝ} {max_iter : Int} {fuel : Nat} {s : Params K O} {n : Nat} {r : Params K O} (h : fit ex tol max_iter fuel s = some (n, r)) :
    1 ≤ n ∧ r = iterate ex n (normalise s.1, s.2) ∧
    ((n : Int) = max_iter ∨ ∃ p, n = p + 2 ∧ logLik (iterate ex (p + 1) (normalise s.1, s.2)) ex - logLik (iterate ex p (normalise s.1, s.2)) ex < tol) := by
  obtain ⟨m, h1, h2, h3⟩ := fitLoop_spec h
  refine ⟨by omega, by rw [h2, h1, Nat.zero_add], ?_⟩
  rcases h3 with ⟨_, o, ho, _⟩ | ⟨p, hp, hlt⟩ | h3
  · exact nomatch ho
  · exact Or.inr ⟨p, by omega, by rw [hp] at hlt; exact hlt⟩
  · exact Or.inl h3

/-- **C76** The zeros of the chain are kept by the whole training. -/
theorem C76_fit_zeros {ex : List (Example O)} {tol : ℝ} {max_iter : Int} {fuel : Nat} {s : Params K O} {n : Nat} {r : Params K O} (h : fit ex tol max_iter fuel s = some (n, r)) :
    (∀ i j, s.1.A i j = 0 → r.1.A i j = 0) ∧ ∀ k, s.1.pi k = 0 → r.1.pi k = 0 := by
  have hit : ∀ n (s : Params K O), (∀ i j, s.1.A i j = 0 → (iterate ex n s).1.A i j = 0) ∧ ∀ k, s.1.pi k = 0 → (iterate ex n s).1.pi k = 0 := by
    intro n
    induction n with
    | zero => exact fun s => ⟨fun _ _ h => h, fun _ h => h⟩
    | succ n ih =>
      intro s
      exact ⟨fun i j h0 => (ih _).1 i j ((C76_zeros s ex).1 i j h0), fun k h0 => (ih _).2 k ((C76_zeros s ex).2 k h0)⟩
  rw [(C76_result h).2.1]
  exact ⟨fun i j h0 => (hit n _).1 i j (by simp [normalise, h0]), fun k h0 => (hit n _).2 k (by simp [normalise, h0])⟩

/-- **C76** A left-right model stays a left-right model: no transition to the left, none further than the maximum jump, and the first state is state 0. -/
theorem C76_leftright {ex : List (Example O)} {tol : ℝ} {max_iter : Int} {fuel : Nat} {u : Fin K → Fin K → ℝ} {jump : Nat} {em : Emission K O} {n : Nat} {r : Params K O}
    (h : fit ex tol max_iter fuel (normalise (leftRight u jump), em) = some (n, r)) (i j : Fin K) :
    (j < i → r.1.A i j = 0) ∧ ((i : Nat) + jump < j → r.1.A i j = 0) ∧ (0 < (i : Nat) → r.1.pi i = 0) := by
  obtain ⟨h1, h2⟩ := C76_fit_zeros h
  refine ⟨fun hji => h1 i j ?_, fun hij => h1 i j ?_, fun hi => h2 i ?_⟩
  · have hne : i ≠ j := fun h => by rw [h] at hji; exact lt_irrefl _ hji
    simp [normalise, leftRight, not_le.mpr hji, hne]
  · have hne : i ≠ j := fun h => by rw [h] at hij; omega
    simp [normalise, leftRight, hne]
    left
    intro _ hle
    omega
  · simp [normalise, leftRight]
    left
    intro h0
    omega

/-- **C76** The training with a progress that satisfies the hypotheses of `C76_monotone` at each iteration: the result is at least as likely as the start. -/
theorem C76_fit {ex : List (Example O)} (hne : ex ≠ []) {tol : ℝ} {max_iter : Int} {fuel : Nat} {s : Params K O} {n : Nat} {r : Params K O} (h : fit ex tol max_iter fuel s = some (n, r))
    (hs : Valid (normalise s.1, s.2)) (hex : Explains (normalise s.1) (fun e => prob s.2 e.2) ex)
    (hreg : ∀ m, m < n → (∀ k, 0 < visits (iterate ex m (normalise s.1, s.2)).1 (fun e => prob (iterate ex m (normalise s.1, s.2)).2 e.2) ex k) ∧
      (∀ k o, 0 < (iterate ex (m + 1) (normalise s.1, s.2)).2.sigma k o) ∧
      ∀ i, ∑ j, transitions (iterate ex m (normalise s.1, s.2)).1 (fun e => prob (iterate ex m (normalise s.1, s.2)).2 e.2) ex i j = 0 ∨
        1e-15 ≤ ∑ j, transitions (iterate ex m (normalise s.1, s.2)).1 (fun e => prob (iterate ex m (normalise s.1, s.2)).2 e.2) ex i j) :
    logLik (normalise s.1, s.2) ex ≤ logLik r ex ∧ Valid r := by
  rw [(C76_result h).2.1]
  set t : Params K O := (normalise s.1, s.2) with ht
  have key : ∀ m, m ≤ n → logLik t ex ≤ logLik (iterate ex m t) ex ∧ Valid (iterate ex m t) ∧
      Explains (iterate ex m t).1 (fun e => prob (iterate ex m t).2 e.2) ex := by
    intro m
    induction m with
    | zero => exact fun _ => ⟨le_refl _, hs, hex⟩
    | succ m ih =>
      intro hm
      obtain ⟨h1, h2, h3⟩ := ih (by omega)
      obtain ⟨r1, r2, r3⟩ := hreg m (by omega)
      rw [iterate_succ] at r2 ⊢
      obtain ⟨g1, g2, g3⟩ := C76_monotone h2 hne h3 r1 r2 r3
      exact ⟨h1.trans g1, g2, g3⟩
  exact ⟨(key n (le_refl n)).1, (key n (le_refl n)).2.1⟩

/-- **C76** Deviation: `max_iter = 0` (or a negative number) is not a limit; at least two iterations are made and only the tolerance ends the training. -/
theorem C76_no_limit_deviation {ex : List (Example O)} {tol : ℝ} {max_iter : Int} (hm : max_iter ≤ 0) {fuel : Nat} {s : Params K O} {n : Nat} {r : Params K O}
    (h : fit ex tol max_iter fuel s = some (n, r)) : 2 ≤ n := by
  obtain ⟨h1, _, h3⟩ := C76_result h
  rcases h3 with h3 | ⟨p, hp, _⟩ <;> omega

/-- **C76** Deviation: after a training on examples of one observation, the transition matrix is zero, so that the next call of `fit` divides zero by zero. -/
theorem C76_short_deviation (s : Params K O) {ex : List (Example O)} (hlen : ∀ e ∈ ex, e.1 = 1) (i : Fin K) :
    (∀ j, (emStep s ex).1.A i j = 0) ∧ ∑ j, (emStep s ex).1.A i j = 0 := by
  have h : ∀ j, (emStep s ex).1.A i j = 0 := by
    intro j
    have h0 : ∀ j, transitions s.1 (fun e => prob s.2 e.2) ex i j = 0 := by
      intro j
      unfold transitions
      apply List.sum_eq_zero
      intro x hx
      rw [List.mem_map] at hx
      obtain ⟨e, he, rfl⟩ := hx
      rw [hlen e he]
      simp
    rw [emStep_A, h0 j, zero_div, ite_self]
  exact ⟨h, Finset.sum_eq_zero fun j _ => h j⟩

/-! ## The hypotheses can be met -/

/-- Two states alike. -/
noncomputable def start : Params 2 1 := (⟨fun _ _ => 1 / 2, fun _ => 1 / 2⟩, ⟨fun _ _ => 0, fun _ _ => 1⟩)

/-- Two observations, 0 and 1. -/
def data : List (Example 1) := [(2, fun n _ => n)]

theorem data_prob (x : Nat → Fin 1 → ℝ) (n : Nat) (k : Fin 2) : prob start.2 x n k = prob start.2 x n 0 := rfl

theorem data_forward (x : Nat → Fin 1 → ℝ) (n : Nat) : forward start.1 (prob start.2 x) n = (fun _ => 1 / 2, prob start.2 x n 0) := by
  have hp : prob start.2 x n 0 ≠ 0 := (density_pos fun _ => by simp [start]).ne'
  cases n with
  | zero =>
    simp only [forward, scaled, Fin.sum_univ_two, data_prob x 0 1]
    ext k
    · dsimp only
      rw [data_prob x 0 k]
      simp only [start]
      have : prob start.2 x 0 0 * (1 / 2) + prob start.2 x 0 0 * (1 / 2) = prob start.2 x 0 0 := by ring
      simp only [start] at this hp
      rw [this]
      field_simp
    · simp only [start]; ring
  | succ n =>
    simp only [forward, scaled, Fin.sum_univ_two, data_prob x (n + 1) 1, data_forward x n]
    ext k
    · dsimp only
      rw [data_prob x (n + 1) k]
      simp only [start] at hp ⊢
      field_simp
      norm_num
    · simp only [start]; ring

theorem data_gamma (x : Nat → Fin 1 → ℝ) (n : Nat) (hn : n < 2) (k : Fin 2) : gamma start.1 (prob start.2 x) 2 n k = 1 / 2 := by
  have hp : prob start.2 x 1 0 ≠ 0 := (density_pos fun _ => by simp [start]).ne'
  unfold gamma
  rw [data_forward]
  obtain rfl | rfl : n = 0 ∨ n = 1 := by omega
  · simp only [backward, backwardFrom, Fin.sum_univ_two, data_forward, data_prob x _ 1]
    simp only [start] at hp ⊢
    field_simp
    norm_num
  · simp [backward, backwardFrom]

theorem data_xhi (x : Nat → Fin 1 → ℝ) (i j : Fin 2) : xhi start.1 (prob start.2 x) 2 0 i j = 1 / 4 := by
  have hp : prob start.2 x 1 0 ≠ 0 := (density_pos fun _ => by simp [start]).ne'
  simp only [xhi, data_forward, backward, data_prob x _ j]
  rw [show backwardFrom start.1 (prob start.2 x) (fun n => prob start.2 x n 0) 2 (2 - 1 - (0 + 1)) j = 1 from rfl]
  simp only [start] at hp ⊢
  field_simp
  norm_num

/-- The hypotheses of `C76_monotone`. -/
theorem start_ok : Valid start ∧ data ≠ [] ∧ Explains start.1 (fun e => prob start.2 e.2) data ∧ (∀ k, 0 < visits start.1 (fun e => prob start.2 e.2) data k) ∧
    (∀ k o, 0 < (emStep start data).2.sigma k o) ∧
    ∀ i, ∑ j, transitions start.1 (fun e => prob start.2 e.2) data i j = 0 ∨ 1e-15 ≤ ∑ j, transitions start.1 (fun e => prob start.2 e.2) data i j := by
  refine ⟨⟨⟨fun _ _ => ?_, fun _ => ?_⟩, ?_, fun _ => ?_, fun _ _ => ?_⟩, ?_, ?_, fun k => ?_, fun k o => ?_, fun i => Or.inr ?_⟩
  · simp [start]
  · simp [start]
  · simp [start]
  · simp [start]
  · simp [start]
  · simp [data]
  · intro e he
    simp only [data, List.mem_singleton] at he
    subst he
    refine ⟨1, rfl, ?_⟩
    apply Finset.sum_pos _ Finset.univ_nonempty
    intro z _
    unfold joint
    refine mul_pos (mul_pos ?_ (Finset.prod_pos fun _ _ => ?_)) (Finset.prod_pos fun _ _ => density_pos fun _ => ?_) <;> simp [start]
  · simp [visits, total, data, Finset.sum_range_succ, data_gamma]
  · simp [emStep, updateEmission, total, data, Finset.sum_range_succ, data_gamma]
    norm_num
  · simp [transitions, data, data_xhi]
    norm_num

example : logLik start data ≤ logLik (emStep start data) data := by
  obtain ⟨h1, h2, h3, h4, h5, h6⟩ := start_ok
  exact (C76_monotone h1 h2 h3 h4 h5 h6).1

example : ∃ r, fit data 0 1 1 start = some (1, r) ∧ logLik start data ≤ logLik r data := by
  obtain ⟨h1, h2, h3, h4, h5, h6⟩ := start_ok
  obtain ⟨n, r, h, hn⟩ := C76_ends data 0 (max_iter := 1) (le_refl 1) start
  have hnorm : ((normalise start.1, start.2) : Params 2 1) = start := by
    simp [normalise, start]
  have hn1 : n = 1 := le_antisymm hn (C76_result h).1
  subst hn1
  refine ⟨r, h, ?_⟩
  have := C76_fit h2 h (by rw [hnorm]; exact h1) (by rw [show normalise start.1 = start.1 from congrArg Prod.fst hnorm]; exact h3) (fun m hm => by
    obtain rfl : m = 0 := by omega
    rw [hnorm]
    exact ⟨h4, h5, h6⟩)
  rw [hnorm] at this
  exact this.1

example : ∃ n r, fit data 0 3 3 start = some (n, r) ∧ n ≤ 3 := C76_ends data 0 (max_iter := 3) (by norm_num) start

end Verif.Hmm
