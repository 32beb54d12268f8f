import Verif.Srp.Model
import Mathlib.Data.Complex.BigOperators
import Mathlib.Algebra.Order.BigOperators.Group.List
import Mathlib.Tactic.Linarith
import Mathlib.Tactic.FieldSimp

/-!
# C79: the steered response power
-/

namespace Verif.Srp

open Finset Complex
open scoped ComplexConjugate

/-! ## The sum over pairs is a quadratic form -/

theorem sum_sym (M : Nat) (f : Nat → Nat → ℝ) (hf : ∀ i j, f i j = f j i) :
    ∑ i ∈ range M, ∑ j ∈ range M, f i j = ∑ i ∈ range M, f i i + 2 * ∑ q ∈ (range M ×ˢ range M).filter (fun q => q.1 < q.2), f q.1 q.2 := by
  rw [← Finset.sum_product', ← Finset.sum_filter_add_sum_filter_not (range M ×ˢ range M) (fun q => q.1 < q.2)]
  have h1 : ∑ q ∈ (range M ×ˢ range M).filter (fun q => ¬ q.1 < q.2), f q.1 q.2 = ∑ q ∈ (range M ×ˢ range M).filter (fun q => q.1 ≤ q.2), f q.1 q.2 := by
    apply Finset.sum_nbij' Prod.swap Prod.swap
    · intro q hq; simp only [mem_filter, mem_product, Prod.fst_swap, Prod.snd_swap, not_lt] at hq ⊢; exact ⟨⟨hq.1.2, hq.1.1⟩, hq.2⟩
    · intro q hq; simp only [mem_filter, mem_product, Prod.fst_swap, Prod.snd_swap, not_lt] at hq ⊢; exact ⟨⟨hq.1.2, hq.1.1⟩, hq.2⟩
    · simp
    · simp
    · intro q _; exact hf _ _
  have h2 : ∑ q ∈ (range M ×ˢ range M).filter (fun q => q.1 ≤ q.2), f q.1 q.2 =
      ∑ i ∈ range M, f i i + ∑ q ∈ (range M ×ˢ range M).filter (fun q => q.1 < q.2), f q.1 q.2 := by
    have hsplit : (range M ×ˢ range M).filter (fun q => q.1 ≤ q.2) = (range M ×ˢ range M).filter (fun q => q.1 = q.2) ∪ (range M ×ˢ range M).filter (fun q => q.1 < q.2) := by
      ext q
      simp only [mem_filter, mem_union]
      constructor
      · rintro ⟨h, hle⟩
        rcases eq_or_lt_of_le hle with h' | h'
        · exact Or.inl ⟨h, h'⟩
        · exact Or.inr ⟨h, h'⟩
      · rintro (⟨h, h'⟩ | ⟨h, h'⟩)
        · exact ⟨h, h'.le⟩
        · exact ⟨h, h'.le⟩
    rw [hsplit, Finset.sum_union]
    · congr 1
      apply Finset.sum_nbij' (fun q => q.1) (fun i => (i, i))
      · intro q hq; simp only [mem_filter, mem_product] at hq; exact hq.1.1
      · intro i hi; simp only [mem_filter, mem_product]; exact ⟨⟨hi, hi⟩, trivial⟩
      · intro q hq; simp only [mem_filter] at hq; ext <;> simp [hq.2]
      · simp
      · intro q hq; simp only [mem_filter] at hq; rw [hq.2]
    · rw [Finset.disjoint_left]
      intro q h1 h2
      simp only [mem_filter] at h1 h2
      omega
  rw [h1, h2]
  ring

/-- Squared absolute value of a sum. -/
theorem normSq_sum (M : Nat) (z : Nat → ℂ) : normSq (∑ i ∈ range M, z i) = ∑ i ∈ range M, ∑ j ∈ range M, (z i * conj (z j)).re := by
  have h : (normSq (∑ i ∈ range M, z i) : ℂ) = ∑ i ∈ range M, ∑ j ∈ range M, z i * conj (z j) := by
    rw [← Complex.mul_conj, map_sum, Finset.sum_mul_sum]
  have h2 := congrArg Complex.re h
  rw [Complex.ofReal_re] at h2
  rw [h2, Complex.re_sum]
  apply Finset.sum_congr rfl
  intro i _
  rw [Complex.re_sum]

theorem steer_norm (p : Finder) (k i n : Nat) : normSq (p.steer k i n) = 1 := by
  unfold Finder.steer
  rw [mul_comm, Complex.normSq_eq_norm_sq, Complex.norm_exp_ofReal_mul_I, one_pow]

theorem tol_pos : 0 < tol := by unfold tol; norm_num

theorem phat_norm {x : ℂ} (h : tol ≤ ‖x‖) : normSq (phat x) = 1 := by
  have hx : 0 < ‖x‖ := lt_of_lt_of_le tol_pos h
  unfold phat
  rw [if_neg (not_lt.mpr h), Complex.normSq_eq_norm_sq, norm_div, Complex.norm_real, norm_norm, div_self hx.ne', one_pow]

theorem phat_norm_le (x : ℂ) : normSq (phat x) ≤ 1 := by
  rcases le_or_gt tol ‖x‖ with h | h
  · exact (phat_norm h).le
  · unfold phat
    rw [if_pos h, Complex.normSq_eq_norm_sq, norm_div, Complex.norm_real, Real.norm_of_nonneg tol_pos.le]
    have h1 : ‖x‖ / tol ≤ 1 := by rw [div_le_one tol_pos]; exact h.le
    have h0 : 0 ≤ ‖x‖ / tol := div_nonneg (norm_nonneg _) tol_pos.le
    nlinarith

/-- The array steered to a direction: the sum of the inputs after their delays are undone (specification). -/
noncomputable def beam (p : Finder) (Y : Nat → ℂ) (k n : Nat) : ℂ := ∑ i ∈ range p.M, conj (p.steer k i n) * Y i

/-- The sum for one bin. -/
theorem term_sum (p : Finder) (X : Nat → Nat → Nat → ℂ) (n k : Nat) :
    2 * ∑ q ∈ p.upper, p.term X n k q.1 q.2 + ∑ s ∈ range p.numSnap, ∑ i ∈ range p.M, normSq (phat (X i k s)) =
      ∑ s ∈ range p.numSnap, normSq (beam p (fun i => phat (X i k s)) k n) := by
  set z : Nat → Nat → ℂ := fun s i => conj (p.steer k i n) * phat (X i k s) with hz
  have hterm : ∀ i j, p.term X n k i j = ∑ s ∈ range p.numSnap, (z s i * conj (z s j)).re := by
    intro i j
    unfold Finder.term
    dsimp only
    rw [← Complex.mul_re]
    unfold Finder.cc
    rw [Finset.sum_mul, Complex.re_sum]
    apply Finset.sum_congr rfl
    intro s _
    rw [hz]
    simp only [map_mul, Complex.conj_conj]
    congr 1
    ring
  have hdiag : ∀ s i, (z s i * conj (z s i)).re = normSq (phat (X i k s)) := by
    intro s i
    rw [Complex.mul_conj, Complex.ofReal_re, hz]
    simp only [map_mul, Complex.normSq_conj, steer_norm, one_mul]
  have hsum : ∀ s, normSq (beam p (fun i => phat (X i k s)) k n) = ∑ i ∈ range p.M, normSq (phat (X i k s)) + 2 * ∑ q ∈ p.upper, (z s q.1 * conj (z s q.2)).re := by
    intro s
    have h1 : beam p (fun i => phat (X i k s)) k n = ∑ i ∈ range p.M, z s i := rfl
    rw [h1, normSq_sum, sum_sym]
    · congr 1
      apply Finset.sum_congr rfl
      intro i _
      exact hdiag s i
    · intro i j
      rw [← Complex.conj_re]
      congr 1
      rw [map_mul, Complex.conj_conj, mul_comm]
  rw [Finset.sum_congr rfl fun s _ => hsum s, Finset.sum_add_distrib, ← Finset.mul_sum, Finset.sum_comm (s := range p.numSnap) (t := p.upper)]
  rw [Finset.sum_congr rfl fun q _ => hterm q.1 q.2]
  ring

theorem list_sum_map_add (l : List Nat) (f g : Nat → ℝ) : (l.map fun k => f k + g k).sum = (l.map f).sum + (l.map g).sum := by
  induction l with
  | nil => simp
  | cons a l ih => simp only [List.map_cons, List.sum_cons, ih]; ring

theorem list_sum_map_mul (l : List Nat) (c : ℝ) (f : Nat → ℝ) : (l.map fun k => c * f k).sum = c * (l.map f).sum := by
  induction l with
  | nil => simp
  | cons a l ih => simp only [List.map_cons, List.sum_cons, ih]; ring

theorem list_sum_const (l : List Nat) (c : ℝ) : (l.map fun _ => c).sum = c * l.length := by
  induction l with
  | nil => simp
  | cons a l ih => simp only [List.map_cons, List.sum_cons, ih, List.length_cons]; push_cast; ring

theorem list_sum_le (l : List Nat) (f g : Nat → ℝ) (h : ∀ k ∈ l, f k ≤ g k) : (l.map f).sum ≤ (l.map g).sum := List.sum_le_sum h

/-- The sum before the normalisation is the power of the steered array, and what the small values lack. -/
theorem sumVal_eq (p : Finder) (X : Nat → Nat → Nat → ℂ) (n : Nat) :
    p.sumVal X n = (p.bins.map fun k => ∑ s ∈ range p.numSnap, normSq (beam p (fun i => phat (X i k s)) k n)).sum +
      (p.bins.map fun k => ∑ s ∈ range p.numSnap, ∑ i ∈ range p.M, (1 - normSq (phat (X i k s)))).sum := by
  have h1 : (p.numSnap * p.M * p.bins.length : ℝ) = (p.bins.map fun _ => (p.numSnap * p.M : ℝ)).sum := by rw [list_sum_const]
  unfold Finder.sumVal
  rw [h1, ← list_sum_map_mul, ← list_sum_map_add, ← list_sum_map_add]
  congr 1
  apply List.map_congr_left
  intro k _
  rw [← term_sum]
  have h2 : ∑ s ∈ range p.numSnap, ∑ i ∈ range p.M, (1 - normSq (phat (X i k s))) = (p.numSnap * p.M : ℝ) - ∑ s ∈ range p.numSnap, ∑ i ∈ range p.M, normSq (phat (X i k s)) := by
    simp only [Finset.sum_sub_distrib, Finset.sum_const, card_range, nsmul_eq_mul, mul_one]
  rw [h2]
  ring

/-! ## The claims -/

/-- The object has something to work on: bins, snapshots and at least two microphones. -/
def Ready (p : Finder) : Prop := p.bins ≠ [] ∧ 0 < p.numSnap ∧ 2 ≤ p.M

/-- All used values are large enough for the phase transform. -/
def Loud (p : Finder) (X : Nat → Nat → Nat → ℂ) : Prop := ∀ i, i < p.M → ∀ k ∈ p.bins, ∀ s, s < p.numSnap → tol ≤ ‖X i k s‖

/-- Only the phase of a value. -/
noncomputable def phase (x : ℂ) : ℂ := x / (‖x‖ : ℝ)

theorem numPairs_pos {p : Finder} (h : 2 ≤ p.M) : 0 < p.numPairs := by
  unfold Finder.numPairs
  have : (2 : ℝ) ≤ p.M := by exact_mod_cast h
  apply div_pos (mul_pos _ _) <;> linarith

theorem cost_ready {p : Finder} (h : Ready p) (X : Nat → Nat → Nat → ℂ) (n : Nat) :
    p.cost X n = .ok (some (p.sumVal X n / (p.numSnap * p.bins.length * p.numPairs))) := by
  unfold Finder.cost
  have hs : p.numSnap ≠ 0 := by have := h.2.1; omega
  rw [if_neg h.1, if_neg]
  · rw [div_div, div_div]
    congr 3
    ring
  · rintro (h1 | h1)
    · exact hs h1
    · exact (numPairs_pos h.2.2).ne' h1

theorem scale_pos {p : Finder} (h : Ready p) : 0 < (p.numSnap * p.bins.length * p.numPairs : ℝ) := by
  have h1 : (0 : ℝ) < p.numSnap := by exact_mod_cast h.2.1
  have h2 : (0 : ℝ) < p.bins.length := by exact_mod_cast List.length_pos_iff.mpr h.1
  exact mul_pos (mul_pos h1 h2) (numPairs_pos h.2.2)

/-- **C79** The value at a point is the power of the array steered to it with the amplitudes taken out, summed over bins and snapshots and divided by their numbers and by the
number of pairs. -/
theorem C79_power {p : Finder} (h : Ready p) {X : Nat → Nat → Nat → ℂ} (hX : Loud p X) (n : Nat) :
    p.cost X n = .ok (some ((p.bins.map fun k => ∑ s ∈ range p.numSnap, normSq (∑ i ∈ range p.M, conj (p.steer k i n) * phase (X i k s))).sum /
      (p.numSnap * p.bins.length * (p.M * (p.M - 1) / 2)))) := by
  rw [cost_ready h, sumVal_eq]
  have h1 : (p.bins.map fun k => ∑ s ∈ range p.numSnap, ∑ i ∈ range p.M, (1 - normSq (phat (X i k s)))).sum = 0 := by
    apply List.sum_eq_zero
    intro x hx
    obtain ⟨k, hk, rfl⟩ := List.mem_map.mp hx
    apply Finset.sum_eq_zero
    intro s hs
    apply Finset.sum_eq_zero
    intro i hi
    rw [phat_norm (hX i (mem_range.mp hi) k hk s (mem_range.mp hs)), sub_self]
  have h2 : (p.bins.map fun k => ∑ s ∈ range p.numSnap, normSq (beam p (fun i => phat (X i k s)) k n)) =
      p.bins.map fun k => ∑ s ∈ range p.numSnap, normSq (∑ i ∈ range p.M, conj (p.steer k i n) * phase (X i k s)) := by
    apply List.map_congr_left
    intro k hk
    apply Finset.sum_congr rfl
    intro s hs
    unfold beam
    congr 1
    apply Finset.sum_congr rfl
    intro i hi
    have := hX i (mem_range.mp hi) k hk s (mem_range.mp hs)
    dsimp only
    unfold phat phase
    rw [if_neg (not_lt.mpr this)]
  rw [h1, h2, add_zero]
  rfl

theorem beam_le (p : Finder) (Y : Nat → ℂ) (k n : Nat) (hY : ∀ i, i < p.M → normSq (Y i) ≤ 1) : normSq (beam p Y k n) ≤ p.M ^ 2 := by
  have h1 : ‖beam p Y k n‖ ≤ p.M := by
    unfold beam
    refine (norm_sum_le _ _).trans ?_
    have : ∀ i ∈ range p.M, ‖conj (p.steer k i n) * Y i‖ ≤ 1 := by
      intro i hi
      have h2 := hY i (mem_range.mp hi)
      have h3 := steer_norm p k i n
      rw [Complex.normSq_eq_norm_sq] at h2 h3
      rw [norm_mul, Complex.norm_conj]
      have h4 : ‖p.steer k i n‖ = 1 := by nlinarith [norm_nonneg (p.steer k i n)]
      rw [h4, one_mul]
      nlinarith [norm_nonneg (Y i)]
    refine (Finset.sum_le_sum this).trans ?_
    simp
  rw [Complex.normSq_eq_norm_sq]
  exact pow_le_pow_left₀ (norm_nonneg _) h1 2

theorem list_sum_nonneg (l : List Nat) (f : Nat → ℝ) (h : ∀ k ∈ l, 0 ≤ f k) : 0 ≤ (l.map f).sum := by
  have := list_sum_le l (fun _ => 0) f h
  rw [list_sum_const, zero_mul] at this
  exact this

/-- **C79** No value is negative, for any signals. -/
theorem C79_nonneg {p : Finder} (h : Ready p) (X : Nat → Nat → Nat → ℂ) (n : Nat) : ∃ v, p.cost X n = .ok (some v) ∧ 0 ≤ v := by
  refine ⟨_, cost_ready h X n, div_nonneg ?_ (scale_pos h).le⟩
  rw [sumVal_eq]
  apply add_nonneg
  · exact list_sum_nonneg _ _ fun k _ => Finset.sum_nonneg fun s _ => normSq_nonneg _
  · exact list_sum_nonneg _ _ fun k _ => Finset.sum_nonneg fun s _ => Finset.sum_nonneg fun i _ => by have := phat_norm_le (X i k s); linarith

theorem phase_norm {x : ℂ} (h : tol ≤ ‖x‖) : normSq (phase x) = 1 := by
  have h1 := phat_norm h
  unfold phat at h1
  rwa [if_neg (not_lt.mpr h)] at h1

/-- The greatest value there can be. -/
theorem top_eq {p : Finder} (h : Ready p) : (p.numSnap * p.bins.length * p.M ^ 2 : ℝ) / (p.numSnap * p.bins.length * (p.M * (p.M - 1) / 2)) = 2 * p.M / (p.M - 1) := by
  have h1 : (0 : ℝ) < p.numSnap := by exact_mod_cast h.2.1
  have h2 : (0 : ℝ) < p.bins.length := by exact_mod_cast List.length_pos_iff.mpr h.1
  have h3 : (2 : ℝ) ≤ p.M := by exact_mod_cast h.2.2
  have h4 : (p.M : ℝ) - 1 ≠ 0 := by linarith
  have h5 : (p.M : ℝ) ≠ 0 := by linarith
  field_simp

theorem power_le {p : Finder} {X : Nat → Nat → Nat → ℂ} (hX : Loud p X) (n : Nat) :
    ∀ k ∈ p.bins, ∀ s ∈ range p.numSnap, normSq (∑ i ∈ range p.M, conj (p.steer k i n) * phase (X i k s)) ≤ (p.M : ℝ) ^ 2 := by
  intro k hk s hs
  exact beam_le p (fun i => phase (X i k s)) k n fun i hi => (phase_norm (hX i hi k hk s (mem_range.mp hs))).le

theorem sum_power_le {p : Finder} {X : Nat → Nat → Nat → ℂ} (hX : Loud p X) (n : Nat) :
    (p.bins.map fun k => ∑ s ∈ range p.numSnap, normSq (∑ i ∈ range p.M, conj (p.steer k i n) * phase (X i k s))).sum ≤ p.numSnap * p.bins.length * (p.M : ℝ) ^ 2 := by
  refine (list_sum_le _ _ (fun _ => p.numSnap * (p.M : ℝ) ^ 2) fun k hk => ?_).trans ?_
  · refine (Finset.sum_le_sum (power_le hX n k hk)).trans ?_
    simp
  · rw [list_sum_const]
    exact le_of_eq (by ring)

/-- **C79** No value is greater than `2 M / (M - 1)`, for any signals that are not too small. -/
theorem C79_bounds {p : Finder} (h : Ready p) {X : Nat → Nat → Nat → ℂ} (hX : Loud p X) (n : Nat) :
    ∃ v, p.cost X n = .ok (some v) ∧ 0 ≤ v ∧ v ≤ 2 * p.M / (p.M - 1) := by
  obtain ⟨v, hv, h0⟩ := C79_nonneg h X n
  refine ⟨v, hv, h0, ?_⟩
  rw [C79_power h hX n, Except.ok.injEq, Option.some.injEq] at hv
  rw [← hv, ← top_eq h]
  exact div_le_div_of_nonneg_right (sum_power_le hX n) (by have := scale_pos h; unfold Finder.numPairs at this; exact this.le)

/-- The signals of one plane wave: from the direction number `n0`, with an own spectrum in every snapshot, and with an own gain of every microphone. -/
def Wave (p : Finder) (n0 : Nat) (W : Nat → Nat → ℂ) (g : Nat → Nat → Nat → ℝ) (X : Nat → Nat → Nat → ℂ) : Prop :=
  ∀ i, i < p.M → ∀ k ∈ p.bins, ∀ s, s < p.numSnap → X i k s = g i k s * W k s *
    Complex.exp (I * (2 * Real.pi * (k * p.fs / p.nfft) * (((p.dir n0).1 * (p.mic i).1 + (p.dir n0).2.1 * (p.mic i).2.1 + (p.dir n0).2.2 * (p.mic i).2.2) / p.c) : ℝ))

theorem phase_scale {x : ℂ} {g : ℝ} (hg : 0 < g) (w : ℂ) (hw : w ≠ 0) : phase (g * w * x) = phase w * phase x := by
  unfold phase
  have h1 : ‖(g : ℂ) * w * x‖ = g * (‖w‖ * ‖x‖) := by
    rw [norm_mul, norm_mul, Complex.norm_real, Real.norm_of_nonneg hg.le]; ring
  have h2 : (g : ℂ) ≠ 0 := by exact_mod_cast hg.ne'
  have h3 : ((‖w‖ : ℝ) : ℂ) ≠ 0 := by exact_mod_cast norm_ne_zero_iff.mpr hw
  rw [h1]
  push_cast
  rcases eq_or_ne x 0 with rfl | hx
  · simp
  · have h4 : ((‖x‖ : ℝ) : ℂ) ≠ 0 := by exact_mod_cast norm_ne_zero_iff.mpr hx
    field_simp

theorem phase_steer (p : Finder) (k i n : Nat) : phase (p.steer k i n) = p.steer k i n := by
  unfold phase
  have h := steer_norm p k i n
  rw [Complex.normSq_eq_norm_sq] at h
  have h4 : ‖p.steer k i n‖ = 1 := by nlinarith [norm_nonneg (p.steer k i n)]
  rw [h4]
  simp

theorem wave_eq {p : Finder} {n0 : Nat} {W : Nat → Nat → ℂ} {g : Nat → Nat → Nat → ℝ} {X : Nat → Nat → Nat → ℂ} (hw : Wave p n0 W g X) :
    ∀ i, i < p.M → ∀ k ∈ p.bins, ∀ s, s < p.numSnap → X i k s = g i k s * W k s * p.steer k i n0 := by
  intro i hi k hk s hs
  rw [hw i hi k hk s hs]
  unfold Finder.steer Finder.omega Finder.tau
  congr 4
  ring

theorem normSq_phase {w : ℂ} (hw : w ≠ 0) : normSq (phase w) = 1 := by
  unfold phase
  rw [Complex.normSq_eq_norm_sq, norm_div, Complex.norm_real, norm_norm, div_self (norm_ne_zero_iff.mpr hw), one_pow]

/-- The power for one plane wave: how well the steering vectors agree. -/
theorem wave_power {p : Finder} {n0 : Nat} {W : Nat → Nat → ℂ} {g : Nat → Nat → Nat → ℝ} {X : Nat → Nat → Nat → ℂ} (hw : Wave p n0 W g X)
    (hg : ∀ i k s, 0 < g i k s) (hW : ∀ k s, W k s ≠ 0) (n : Nat) {k : Nat} (hk : k ∈ p.bins) {s : Nat} (hs : s < p.numSnap) :
    normSq (∑ i ∈ range p.M, conj (p.steer k i n) * phase (X i k s)) = normSq (∑ i ∈ range p.M, conj (p.steer k i n) * p.steer k i n0) := by
  have h1 : ∑ i ∈ range p.M, conj (p.steer k i n) * phase (X i k s) = phase (W k s) * ∑ i ∈ range p.M, conj (p.steer k i n) * p.steer k i n0 := by
    rw [Finset.mul_sum]
    apply Finset.sum_congr rfl
    intro i hi
    rw [wave_eq hw i (mem_range.mp hi) k hk s hs, phase_scale (hg i k s) _ (hW k s), phase_steer]
    ring
  rw [h1, map_mul, normSq_phase (hW k s), one_mul]

theorem self_power (p : Finder) (k n : Nat) : normSq (∑ i ∈ range p.M, conj (p.steer k i n) * p.steer k i n) = (p.M : ℝ) ^ 2 := by
  have h1 : ∑ i ∈ range p.M, conj (p.steer k i n) * p.steer k i n = (p.M : ℂ) := by
    rw [Finset.sum_congr rfl fun i _ => show conj (p.steer k i n) * p.steer k i n = 1 by
      rw [mul_comm, Complex.mul_conj, steer_norm]; simp]
    simp
  rw [h1]
  simp [Complex.normSq_natCast, sq]

/-- **C79** One plane wave from a point of the grid, any spectra and any gains of the microphones: the value at that point is the greatest that there can be. -/
theorem C79_wave {p : Finder} (h : Ready p) {n0 : Nat} {W : Nat → Nat → ℂ} {g : Nat → Nat → Nat → ℝ} {X : Nat → Nat → Nat → ℂ} (hw : Wave p n0 W g X)
    (hg : ∀ i k s, 0 < g i k s) (hW : ∀ k s, W k s ≠ 0) (hX : Loud p X) :
    p.cost X n0 = .ok (some (2 * p.M / (p.M - 1))) ∧ ∀ n, ∃ v, p.cost X n = .ok (some v) ∧ v ≤ 2 * p.M / (p.M - 1) := by
  refine ⟨?_, fun n => ?_⟩
  · rw [C79_power h hX, ← top_eq h]
    congr 3
    rw [show p.numSnap * p.bins.length * (p.M : ℝ) ^ 2 = (p.numSnap * (p.M : ℝ) ^ 2) * p.bins.length by ring, ← list_sum_const]
    congr 1
    apply List.map_congr_left
    intro k hk
    rw [Finset.sum_congr rfl fun s hs => (wave_power hw hg hW n0 hk (mem_range.mp hs)).trans (self_power p k n0)]
    simp
  · obtain ⟨v, h1, _, h2⟩ := C79_bounds h hX n
    exact ⟨v, h1, h2⟩

/-- Numbers on the unit circle with a sum as great as their number are all equal. -/
theorem unit_eq {M : Nat} {z : Nat → ℂ} (hz : ∀ i, i < M → normSq (z i) = 1) (h : normSq (∑ i ∈ range M, z i) = (M : ℝ) ^ 2) :
    ∀ i, i < M → ∀ j, j < M → z i = z j := by
  rw [normSq_sum] at h
  have hle : ∀ i, i < M → ∀ j, j < M → (z i * conj (z j)).re ≤ 1 := by
    intro i hi j hj
    have h1 := Complex.re_le_norm (z i * conj (z j))
    have h2 := hz i hi
    have h3 := hz j hj
    rw [Complex.normSq_eq_norm_sq] at h2 h3
    rw [norm_mul, Complex.norm_conj] at h1
    have h4 : ‖z i‖ = 1 := by nlinarith [norm_nonneg (z i)]
    have h5 : ‖z j‖ = 1 := by nlinarith [norm_nonneg (z j)]
    rw [h4, h5] at h1
    linarith
  have hall : ∀ i ∈ range M, ∑ j ∈ range M, (z i * conj (z j)).re = ∑ j ∈ range M, (1 : ℝ) := by
    rw [← Finset.sum_eq_sum_iff_of_le]
    · rw [h]; simp [sq]
    · intro i hi
      exact Finset.sum_le_sum fun j hj => hle i (mem_range.mp hi) j (mem_range.mp hj)
  intro i hi j hj
  have h1 := hall i (mem_range.mpr hi)
  rw [Finset.sum_eq_sum_iff_of_le fun j hj => hle i hi j (mem_range.mp hj)] at h1
  have h2 := h1 j (mem_range.mpr hj)
  have h3 := hz i hi
  have h4 := hz j hj
  rw [Complex.normSq_apply] at h3 h4
  simp only [Complex.mul_re, Complex.conj_re, Complex.conj_im] at h2
  apply Complex.ext
  · nlinarith [sq_nonneg ((z i).re - (z j).re), sq_nonneg ((z i).im - (z j).im)]
  · nlinarith [sq_nonneg ((z i).re - (z j).re), sq_nonneg ((z i).im - (z j).im)]

/-- **C79** Another point has the same value as the point of the wave only if its steering vectors agree with those of the wave up to a common factor, in every bin. -/
theorem C79_unique {p : Finder} (h : Ready p) {n0 : Nat} {W : Nat → Nat → ℂ} {g : Nat → Nat → Nat → ℝ} {X : Nat → Nat → Nat → ℂ} (hw : Wave p n0 W g X)
    (hg : ∀ i k s, 0 < g i k s) (hW : ∀ k s, W k s ≠ 0) (hX : Loud p X) (n : Nat) :
    p.cost X n = p.cost X n0 ↔ ∀ k ∈ p.bins, ∃ w : ℂ, ∀ i, i < p.M → p.steer k i n0 = w * p.steer k i n := by
  have hunit : ∀ k i, normSq (conj (p.steer k i n) * p.steer k i n0) = 1 := by
    intro k i
    rw [map_mul, Complex.normSq_conj, steer_norm, steer_norm, one_mul]
  have hinv : ∀ k i, p.steer k i n0 = (conj (p.steer k i n) * p.steer k i n0) * p.steer k i n := by
    intro k i
    have : p.steer k i n * conj (p.steer k i n) = 1 := by rw [Complex.mul_conj, steer_norm]; simp
    linear_combination (-p.steer k i n0) * this
  rw [(C79_wave h hw hg hW hX).1, C79_power h hX, ← top_eq h, Except.ok.injEq, Option.some.injEq]
  have hs := scale_pos h
  unfold Finder.numPairs at hs
  rw [div_left_inj' hs.ne']
  have hS : (0 : ℝ) < p.numSnap := by exact_mod_cast h.2.1
  have hle : ∀ k ∈ p.bins, normSq (∑ i ∈ range p.M, conj (p.steer k i n) * p.steer k i n0) ≤ (p.M : ℝ) ^ 2 := fun k _ =>
    beam_le p (fun i => p.steer k i n0) k n fun i _ => (steer_norm p k i n0).le
  have hpow : (p.bins.map fun k => ∑ s ∈ range p.numSnap, normSq (∑ i ∈ range p.M, conj (p.steer k i n) * phase (X i k s))) =
      p.bins.map fun k => p.numSnap * normSq (∑ i ∈ range p.M, conj (p.steer k i n) * p.steer k i n0) := by
    apply List.map_congr_left
    intro k hk
    rw [Finset.sum_congr rfl fun s hs => wave_power hw hg hW n hk (mem_range.mp hs)]
    simp
  rw [hpow]
  constructor
  · intro heq k hk
    have hmax : normSq (∑ i ∈ range p.M, conj (p.steer k i n) * p.steer k i n0) = (p.M : ℝ) ^ 2 := by
      by_contra hne
      have hlt := lt_of_le_of_ne (hle k hk) hne
      have : (p.bins.map fun k => p.numSnap * normSq (∑ i ∈ range p.M, conj (p.steer k i n) * p.steer k i n0)).sum < (p.bins.map fun _ => p.numSnap * (p.M : ℝ) ^ 2).sum := by
        apply List.sum_lt_sum
        · intro k hk; exact mul_le_mul_of_nonneg_left (hle k hk) hS.le
        · exact ⟨k, hk, mul_lt_mul_of_pos_left hlt hS⟩
      rw [heq, list_sum_const] at this
      nlinarith
    refine ⟨conj (p.steer k 0 n) * p.steer k 0 n0, fun i hi => ?_⟩
    have := unit_eq (fun i _ => hunit k i) hmax i hi 0 (by have := h.2.2; omega)
    rw [← this]
    exact hinv k i
  · intro hall
    rw [show p.numSnap * p.bins.length * (p.M : ℝ) ^ 2 = (p.numSnap * (p.M : ℝ) ^ 2) * p.bins.length by ring, ← list_sum_const]
    congr 1
    apply List.map_congr_left
    intro k hk
    obtain ⟨w, hw'⟩ := hall k hk
    congr 1
    have h1 : ∑ i ∈ range p.M, conj (p.steer k i n) * p.steer k i n0 = w * ∑ i ∈ range p.M, conj (p.steer k i n) * p.steer k i n := by
      rw [Finset.mul_sum]
      apply Finset.sum_congr rfl
      intro i hi
      rw [hw' i (mem_range.mp hi)]
      ring
    have h2 : normSq w = 1 := by
      have h3 := steer_norm p k 0 n0
      rw [hw' 0 (by have := h.2.2; omega), map_mul, steer_norm, mul_one] at h3
      exact h3
    rw [h1, map_mul, h2, one_mul, self_power]

/-- **C79** The spectrum of the source and the gains of the microphones do not matter: a common complex factor in every bin and snapshot, and a positive factor for every value. -/
theorem C79_gain {p : Finder} (h : Ready p) {X Y : Nat → Nat → Nat → ℂ} {W : Nat → Nat → ℂ} {g : Nat → Nat → Nat → ℝ} (hg : ∀ i k s, 0 < g i k s) (hW : ∀ k s, W k s ≠ 0)
    (hX : Loud p X) (hY : Loud p Y) (hXY : ∀ i, i < p.M → ∀ k ∈ p.bins, ∀ s, s < p.numSnap → Y i k s = g i k s * W k s * X i k s) (n : Nat) : p.cost Y n = p.cost X n := by
  rw [C79_power h hX, C79_power h hY]
  congr 4
  apply List.map_congr_left
  intro k hk
  apply Finset.sum_congr rfl
  intro s hs
  have h1 : ∑ i ∈ range p.M, conj (p.steer k i n) * phase (Y i k s) = phase (W k s) * ∑ i ∈ range p.M, conj (p.steer k i n) * phase (X i k s) := by
    rw [Finset.mul_sum]
    apply Finset.sum_congr rfl
    intro i hi
    rw [hXY i (mem_range.mp hi) k hk s (mem_range.mp hs), phase_scale (hg i k s) _ (hW k s)]
    ring
  rw [h1, map_mul, normSq_phase (hW k s), one_mul]

/-- **C79** Silence: all values are `2 / (M - 1)`. -/
theorem C79_silence {p : Finder} (h : Ready p) {X : Nat → Nat → Nat → ℂ} (hX : ∀ i, i < p.M → ∀ k ∈ p.bins, ∀ s, s < p.numSnap → X i k s = 0) (n : Nat) :
    p.cost X n = .ok (some (2 / (p.M - 1))) := by
  have hp : phat 0 = 0 := by simp [phat]
  rw [cost_ready h]
  have h0 : (p.bins.map fun k => ∑ q ∈ p.upper, p.term X n k q.1 q.2).sum = 0 := by
    apply List.sum_eq_zero
    intro x hx
    obtain ⟨k, hk, rfl⟩ := List.mem_map.mp hx
    apply Finset.sum_eq_zero
    intro q hq
    unfold Finder.upper at hq
    have hq' := (mem_product.mp (mem_filter.mp hq).1).1
    have hcc : p.cc X k q.1 q.2 = 0 := by
      unfold Finder.cc
      apply Finset.sum_eq_zero
      intro s hs
      rw [hX _ (mem_range.mp hq') k hk s (mem_range.mp hs), hp, zero_mul]
    unfold Finder.term
    simp [hcc]
  unfold Finder.sumVal Finder.numPairs
  rw [h0]
  have h1 : (0 : ℝ) < p.numSnap := by exact_mod_cast h.2.1
  have h2 : (0 : ℝ) < p.bins.length := by exact_mod_cast List.length_pos_iff.mpr h.1
  have h3 : (2 : ℝ) ≤ p.M := by exact_mod_cast h.2.2
  have h4 : (p.M : ℝ) - 1 ≠ 0 := by linarith
  have h5 : (p.M : ℝ) ≠ 0 := by linarith
  congr 2
  field_simp
  ring

/-- **C79** Deviation: with one microphone every value is a division by zero. -/
theorem C79_single_deviation {p : Finder} (hM : p.M = 1) (hb : p.bins ≠ []) (X : Nat → Nat → Nat → ℂ) (n : Nat) : p.cost X n = .ok none := by
  unfold Finder.cost
  rw [if_neg hb, if_pos]
  right
  unfold Finder.numPairs
  rw [hM]
  simp

/-- **C79** Deviation: without any bin in the range the search raises `IndexError`. -/
theorem C79_empty_deviation {p : Finder} (hb : p.bins = []) (X : Nat → Nat → Nat → ℂ) (n : Nat) : p.cost X n = .error .indexError := by
  unfold Finder.cost
  rw [if_pos hb]

/-! ## The hypotheses can be met -/

/-- Two microphones, four directions, one bin. -/
noncomputable def pair : Finder :=
  { M := 2, mic := fun i => (i / 10, 0, 0), dir := fun n => (Real.cos (n * Real.pi / 4), Real.sin (n * Real.pi / 4), 0), fs := 16000, nfft := 512, c := 343, bins := [16], numSnap := 1 }

example : pair.cost (fun i k _ => pair.steer k i 1) 1 = .ok (some 4) ∧ ∀ n, ∃ v, pair.cost (fun i k _ => pair.steer k i 1) n = .ok (some v) ∧ v ≤ 4 := by
  have hready : Ready pair := ⟨by simp [pair], by simp [pair], by simp [pair]⟩
  have hloud : Loud pair (fun i k _ => pair.steer k i 1) := by
    intro i _ k _ s _
    have h := steer_norm pair k i 1
    rw [Complex.normSq_eq_norm_sq] at h
    have h4 : ‖pair.steer k i 1‖ = 1 := by nlinarith [norm_nonneg (pair.steer k i 1)]
    dsimp only
    rw [h4]
    unfold tol
    norm_num
  have hwave : Wave pair 1 (fun _ _ => 1) (fun _ _ _ => 1) (fun i k _ => pair.steer k i 1) := by
    intro i _ k _ s _
    unfold Finder.steer Finder.omega Finder.tau
    push_cast
    rw [one_mul, one_mul]
    congr 2
    ring
  have := C79_wave hready hwave (by simp) (by simp) hloud
  have e : (2 * (pair.M : ℝ) / (pair.M - 1)) = 4 := by
    change (2 * ((2 : Nat) : ℝ) / (((2 : Nat) : ℝ) - 1)) = 4
    norm_num
  rwa [e] at this

end Verif.Srp
