import Verif.Subband.Model
import Mathlib.Data.List.GetD
import Mathlib.Tactic.FieldSimp
import Mathlib.Tactic.Linarith
import Mathlib.Algebra.Order.BigOperators.Ring.Finset

/-!
# C100: adaptive filters in the subbands

Small specification: the energy of a column, the output of a filter, the misalignment with an unknown system.
-/

namespace Verif.Subband

open Verif.Py Finset

/-- The energy of a column. -/
noncomputable def power {T B : Nat} (A : Fin T → Fin B → ℂ) (b : Fin B) : ℝ := ∑ i, Complex.normSq (A i b)

/-- The output of the filter `h` for the last blocks `X` in a band. -/
def output {T B : Nat} (h X : Fin T → Fin B → ℂ) (b : Fin B) : ℂ := ∑ i, (starRingEnd ℂ) (h i b) * X i b

/-- The squared distance of two filters in a band. -/
noncomputable def misalign {T B : Nat} (h W : Fin T → Fin B → ℂ) (b : Fin B) : ℝ := ∑ i, Complex.normSq (h i b - W i b)

theorem power_nonneg {T B : Nat} (A : Fin T → Fin B → ℂ) (b : Fin B) : 0 ≤ power A b := sum_nonneg fun _ _ => Complex.normSq_nonneg _

theorem misalign_nonneg {T B : Nat} (h W : Fin T → Fin B → ℂ) (b : Fin B) : 0 ≤ misalign h W b := sum_nonneg fun _ _ => Complex.normSq_nonneg _

theorem gram_self {T B : Nat} (X : Fin T → Fin B → ℂ) (b : Fin B) : diag (gram X X) b = (power X b : ℂ) := by
  unfold diag gram power
  push_cast
  exact sum_congr rfl fun i _ => by rw [mul_comm, Complex.mul_conj]

/-- The step actually taken in a band. -/
noncomputable def stepSize {T B : Nat} (mu : ℝ) (nlms : Bool) (X : Fin T → Fin B → ℂ) (b : Fin B) : ℝ := if nlms then mu / (power X b + 1e-6) else mu

/-- **C100, one block.** The a priori error of every band, and the move of its filter along the conjugate error times the buffer. -/
theorem C100_update {T B : Nat} (hT : T ≠ 0) (mu : ℝ) (nlms : Bool) (s : Sub T B) (x d : Fin B → ℂ) :
    ∃ s', s.update mu nlms x d = .ok s' ∧ s'.D = d ∧ (∀ i b, s'.X i b = if i.1 = 0 then x b else s.X ⟨i.1 - 1, by omega⟩ b) ∧
      (∀ b, s'.E b = d b - output s.W s'.X b) ∧ ∀ i b, s'.W i b = s.W i b + stepSize mu nlms s'.X b * (starRingEnd ℂ) (s'.E b) * s'.X i b := by
  unfold Sub.update
  rw [if_neg hT]
  refine ⟨_, rfl, rfl, fun i b => rfl, fun b => rfl, fun i b => ?_⟩
  unfold stepSize
  cases nlms with
  | false => simp
  | true =>
    simp only [if_true]
    rw [gram_self]
    push_cast
    ring

/-- **C100, no taps.** Without taps the first block raises `IndexError`. -/
theorem C100_no_taps {B : Nat} (mu : ℝ) (nlms : Bool) (s : Sub 0 B) (x d : Fin B → ℂ) : s.update mu nlms x d = .error .indexError := by
  unfold Sub.update
  rw [if_pos rfl]

theorem output_add {T B : Nat} (h X : Fin T → Fin B → ℂ) (b : Fin B) (c : ℂ) :
    output (fun i b => h i b + c * X i b) X b = output h X b + (starRingEnd ℂ) c * (power X b : ℂ) := by
  unfold output power
  push_cast
  rw [mul_sum, ← sum_add_distrib]
  apply sum_congr rfl
  intro i _
  rw [map_add, map_mul, ← Complex.mul_conj]
  ring

/-- **C100, a posteriori error.** With the filter after the block the error is the a priori error times one minus the step times the energy of the buffer: for NLMS and `0 ≤ μ ≤ 2` it is not larger. -/
theorem C100_posterior {T B : Nat} (hT : T ≠ 0) (mu : ℝ) (nlms : Bool) (s : Sub T B) (x d : Fin B → ℂ) :
    ∃ s', s.update mu nlms x d = .ok s' ∧ ∀ b, d b - output s'.W s'.X b = (1 - stepSize mu nlms s'.X b * power s'.X b : ℝ) * s'.E b ∧
      (nlms = true → 0 ≤ mu → mu ≤ 2 → ‖d b - output s'.W s'.X b‖ ≤ ‖s'.E b‖) := by
  obtain ⟨s', h1, -, -, hE, hW⟩ := C100_update hT mu nlms s x d
  refine ⟨s', h1, fun b => ?_⟩
  have heq : d b - output s'.W s'.X b = (1 - stepSize mu nlms s'.X b * power s'.X b : ℝ) * s'.E b := by
    have hWb : output s'.W s'.X b = output (fun i b => s.W i b + (stepSize mu nlms s'.X b * (starRingEnd ℂ) (s'.E b)) * s'.X i b) s'.X b := by
      unfold output
      exact sum_congr rfl fun i _ => by rw [hW]
    have h2 : output s'.W s'.X b = output s.W s'.X b + (stepSize mu nlms s'.X b : ℂ) * s'.E b * (power s'.X b : ℂ) := by
      have := output_add s.W s'.X b ((stepSize mu nlms s'.X b : ℂ) * (starRingEnd ℂ) (s'.E b))
      rw [map_mul, Complex.conj_ofReal, Complex.conj_conj] at this
      rw [← this]
      unfold output
      exact sum_congr rfl fun i _ => by rw [hW]
    rw [h2]
    have h3 := hE b
    rw [h3]
    push_cast
    ring
  refine ⟨heq, fun hn h0 h2 => ?_⟩
  rw [heq, norm_mul, Complex.norm_real]
  have hp := power_nonneg s'.X b
  have hq : stepSize mu nlms s'.X b * power s'.X b = mu * (power s'.X b / (power s'.X b + 1e-6)) := by
    rw [hn]
    unfold stepSize
    simp only [if_true]
    ring
  have hr0 : 0 ≤ power s'.X b / (power s'.X b + 1e-6) := by positivity
  have hr1 : power s'.X b / (power s'.X b + 1e-6) ≤ 1 := by
    rw [div_le_one (by positivity)]
    norm_num
  rw [hq, Real.norm_eq_abs]
  have : |1 - mu * (power s'.X b / (power s'.X b + 1e-6))| ≤ 1 := by
    rw [abs_le]
    constructor <;> nlinarith
  calc _ ≤ 1 * ‖s'.E b‖ := mul_le_mul_of_nonneg_right this (norm_nonneg _)
    _ = _ := one_mul _

theorem misalign_step {T B : Nat} (h W X : Fin T → Fin B → ℂ) (b : Fin B) (c : ℝ) (e : ℂ) (he : e = output h X b - output W X b) :
    misalign h (fun i b => W i b + c * (starRingEnd ℂ) e * X i b) b = misalign h W b - c * (2 - c * power X b) * Complex.normSq e := by
  have key : ∀ i, Complex.normSq (h i b - (W i b + c * (starRingEnd ℂ) e * X i b)) =
      Complex.normSq (h i b - W i b) - 2 * c * ((starRingEnd ℂ) e * ((starRingEnd ℂ) (h i b - W i b) * X i b)).re + c ^ 2 * Complex.normSq e * Complex.normSq (X i b) := by
    intro i
    simp only [Complex.normSq_apply, Complex.sub_re, Complex.sub_im, Complex.add_re, Complex.add_im, Complex.mul_re, Complex.mul_im, Complex.conj_re, Complex.conj_im, Complex.ofReal_re, Complex.ofReal_im]
    ring
  unfold misalign
  rw [sum_congr rfl fun i _ => key i, sum_add_distrib, sum_sub_distrib]
  have h1 : ∑ i, 2 * c * ((starRingEnd ℂ) e * ((starRingEnd ℂ) (h i b - W i b) * X i b)).re = 2 * c * Complex.normSq e := by
    rw [← mul_sum, ← Complex.re_sum, ← mul_sum]
    have : ∑ i, (starRingEnd ℂ) (h i b - W i b) * X i b = e := by
      rw [he]
      unfold output
      rw [← sum_sub_distrib]
      exact sum_congr rfl fun i _ => by rw [map_sub]; ring
    rw [this, ← Complex.normSq_eq_conj_mul_self, Complex.ofReal_re]
  have h2 : ∑ i, c ^ 2 * Complex.normSq e * Complex.normSq (X i b) = c ^ 2 * Complex.normSq e * power X b := by
    rw [← mul_sum]
    rfl
  rw [h1, h2]
  ring

/-- The buffer after some blocks, newest first. -/
def bufferOf {B : Nat} (T : Nat) (xs : List (Fin B → ℂ)) : Fin T → Fin B → ℂ := fun i b => xs.getD i.1 (fun _ => 0) b

theorem shift_buffer {T B : Nat} (xs : List (Fin B → ℂ)) (x : Fin B → ℂ) : shift (bufferOf T xs) x = bufferOf T (x :: xs) := by
  funext i b
  unfold shift bufferOf
  by_cases h : i.1 = 0
  · rw [if_pos h, h]
    rfl
  · rw [if_neg h]
    obtain ⟨k, hk⟩ := Nat.exists_eq_succ_of_ne_zero h
    simp only [hk]
    rfl

/-- **C100, all blocks.** One state for each block; in each of them the buffer holds the last `num_taps` blocks, zero before the first, newest first, and the error is that of the filter before the block. -/
theorem C100_run {T B : Nat} (hT : T ≠ 0) (mu : ℝ) (nlms : Bool) (ps : List ((Fin B → ℂ) × (Fin B → ℂ))) :
    ∃ ss, (Sub.reset T B).run mu nlms ps = .ok ss ∧ ss.length = ps.length ∧
      ∀ n, n < ps.length → ∃ p s s', ps[n]? = some p ∧ (Sub.reset T B :: ss)[n]? = some s ∧ ss[n]? = some s' ∧ s.update mu nlms p.1 p.2 = .ok s' ∧
        s'.X = bufferOf T ((ps.take (n + 1)).map Prod.fst).reverse := by
  have key : ∀ (ps : List ((Fin B → ℂ) × (Fin B → ℂ))) (s0 : Sub T B) (xs : List (Fin B → ℂ)), s0.X = bufferOf T xs →
      ∃ ss, s0.run mu nlms ps = .ok ss ∧ ss.length = ps.length ∧
        ∀ n, n < ps.length → ∃ p s s', ps[n]? = some p ∧ (s0 :: ss)[n]? = some s ∧ ss[n]? = some s' ∧ s.update mu nlms p.1 p.2 = .ok s' ∧
          s'.X = bufferOf T (((ps.take (n + 1)).map Prod.fst).reverse ++ xs) := by
    intro ps
    induction ps with
    | nil => intro s0 xs _; exact ⟨[], rfl, rfl, fun n hn => by simp at hn⟩
    | cons p ps ih =>
      intro s0 xs hs0
      obtain ⟨s', h1, -, hX, -⟩ := C100_update hT mu nlms s0 p.1 p.2
      have hX' : s'.X = bufferOf T (p.1 :: xs) := by
        rw [← shift_buffer, ← hs0]
        funext i b
        exact hX i b
      obtain ⟨ss, g1, g2, g3⟩ := ih s' (p.1 :: xs) hX'
      refine ⟨s' :: ss, ?_, by simp [g2], ?_⟩
      · simp only [Sub.run]
        rw [h1]
        simp only
        rw [g1]
        rfl
      · intro n hn
        cases n with
        | zero => exact ⟨p, s0, s', rfl, rfl, rfl, h1, by simpa using hX'⟩
        | succ n =>
          obtain ⟨p', s, t, k1, k2, k3, k4, k5⟩ := g3 n (by simpa using hn)
          refine ⟨p', s, t, k1, k2, k3, k4, ?_⟩
          rw [k5]
          simp
  obtain ⟨ss, h1, h2, h3⟩ := key ps (Sub.reset T B) [] (by funext i b; simp [Sub.reset, bufferOf])
  refine ⟨ss, h1, h2, fun n hn => ?_⟩
  obtain ⟨p, s, s', k1, k2, k3, k4, k5⟩ := h3 n hn
  exact ⟨p, s, s', k1, k2, k3, k4, by simpa using k5⟩

/-- The references are those of the system `h`. -/
def FromSystem {T B : Nat} (h : Fin T → Fin B → ℂ) (ps : List ((Fin B → ℂ) × (Fin B → ℂ))) : Prop :=
  ∀ n p, ps[n]? = some p → ∀ b, p.2 b = output h (bufferOf T ((ps.take (n + 1)).map Prod.fst).reverse) b

/-- **C100, identification.** If the references come from a system with `num_taps` taps per band, then, in every band, the misalignment goes down by an exact amount at each block. For NLMS with `0 ≤ μ ≤ 2`
it never grows, and the errors, over the energy of the buffer, are summable: their sum over any number of blocks is at most the energy of the unknown filter. -/
theorem C100_identification {T B : Nat} (hT : T ≠ 0) {mu : ℝ} (h0 : 0 ≤ mu) (h2 : mu ≤ 2) (h : Fin T → Fin B → ℂ) (ps : List ((Fin B → ℂ) × (Fin B → ℂ))) (hps : FromSystem h ps) :
    ∃ ss, (Sub.reset T B).run mu true ps = .ok ss ∧ ∀ b,
      (∀ n, n < ps.length → ∃ s s', (Sub.reset T B :: ss)[n]? = some s ∧ ss[n]? = some s' ∧ misalign h s'.W b ≤ misalign h s.W b) ∧
      (ss.map fun s => mu * (2 - mu) * Complex.normSq (s.E b) / (power s.X b + 1e-6)).sum ≤ power h b := by
  obtain ⟨ss, h1, hl, hn⟩ := C100_run hT mu true ps
  have step : ∀ n, n < ps.length → ∃ s s', (Sub.reset T B :: ss)[n]? = some s ∧ ss[n]? = some s' ∧
      ∀ b, misalign h s'.W b + mu * (2 - mu) * Complex.normSq (s'.E b) / (power s'.X b + 1e-6) ≤ misalign h s.W b := by
    intro n hlt
    obtain ⟨p, s, s', k1, k2, k3, k4, k5⟩ := hn n hlt
    refine ⟨s, s', k2, k3, fun b => ?_⟩
    obtain ⟨t, ht, -, -, hE, hW⟩ := C100_update hT mu true s p.1 p.2
    rw [k4] at ht
    cases ht
    have he : s'.E b = output h s'.X b - output s.W s'.X b := by
      rw [hE b, hps n p k1 b, k5]
    have hm := misalign_step h s.W s'.X b (stepSize mu true s'.X b) (s'.E b) he
    have hme : misalign h s'.W b = misalign h (fun i b => s.W i b + stepSize mu true s'.X b * (starRingEnd ℂ) (s'.E b) * s'.X i b) b := by
      unfold misalign
      exact sum_congr rfl fun i _ => by rw [hW]
    have hme2 : misalign h (fun i b' => s.W i b' + stepSize mu true s'.X b * (starRingEnd ℂ) (s'.E b) * s'.X i b') b = misalign h (fun i b => s.W i b + stepSize mu true s'.X b * (starRingEnd ℂ) (s'.E b) * s'.X i b) b := rfl
    rw [hme, ← hme2, hm]
    have hp := power_nonneg s'.X b
    have hD : 0 < power s'.X b + 1e-6 := by positivity
    have hq := Complex.normSq_nonneg (s'.E b)
    unfold stepSize
    simp only [if_true]
    have hineq : mu * (2 - mu) * Complex.normSq (s'.E b) / (power s'.X b + 1e-6) ≤ mu / (power s'.X b + 1e-6) * (2 - mu / (power s'.X b + 1e-6) * power s'.X b) * Complex.normSq (s'.E b) := by
      have hr : mu / (power s'.X b + 1e-6) * power s'.X b ≤ mu := by
        rw [div_mul_eq_mul_div, div_le_iff₀ hD]
        have : 0 ≤ mu * 1e-6 := by positivity
        linarith
      have h3 : mu * (2 - mu) * Complex.normSq (s'.E b) / (power s'.X b + 1e-6) = mu / (power s'.X b + 1e-6) * (2 - mu) * Complex.normSq (s'.E b) := by ring
      rw [h3]
      apply mul_le_mul_of_nonneg_right _ hq
      apply mul_le_mul_of_nonneg_left _ (by positivity)
      linarith
    linarith
  refine ⟨ss, h1, fun b => ⟨?_, ?_⟩⟩
  · intro n hlt
    obtain ⟨s, s', k1, k2, k3⟩ := step n hlt
    refine ⟨s, s', k1, k2, ?_⟩
    have h4 := k3 b
    have : 0 ≤ mu * (2 - mu) * Complex.normSq (s'.E b) / (power s'.X b + 1e-6) :=
      div_nonneg (mul_nonneg (mul_nonneg h0 (by linarith)) (Complex.normSq_nonneg _)) (by have := power_nonneg s'.X b; positivity)
    linarith
  · have tele : ∀ (ss : List (Sub T B)) (s0 : Sub T B), (∀ n, n < ss.length → ∃ s s', (s0 :: ss)[n]? = some s ∧ ss[n]? = some s' ∧
        misalign h s'.W b + mu * (2 - mu) * Complex.normSq (s'.E b) / (power s'.X b + 1e-6) ≤ misalign h s.W b) →
        (ss.map fun s => mu * (2 - mu) * Complex.normSq (s.E b) / (power s.X b + 1e-6)).sum ≤ misalign h s0.W b := by
      intro ss
      induction ss with
      | nil => intro s0 _; simpa using misalign_nonneg h s0.W b
      | cons s' ss ih =>
        intro s0 hall
        obtain ⟨a, a', e1, e2, e3⟩ := hall 0 (by simp)
        simp only [List.getElem?_cons_zero, Option.some.injEq] at e1 e2
        subst e1 e2
        have := ih s' (fun n hn => by
          obtain ⟨a, a', e1, e2, e3⟩ := hall (n + 1) (by simpa using hn)
          exact ⟨a, a', by simpa using e1, by simpa using e2, e3⟩)
        rw [List.map_cons, List.sum_cons]
        linarith
    have := tele ss (Sub.reset T B) (fun n hlt => by
      obtain ⟨s, s', k1, k2, k3⟩ := step n (by omega)
      exact ⟨s, s', k1, k2, k3 b⟩)
    refine this.trans (le_of_eq ?_)
    unfold misalign power Sub.reset
    simp

/-- **C100, LMS.** Without the normalisation, the same holds at any block for which the step times the energy of the buffer is at most two. -/
theorem C100_lms {T B : Nat} (hT : T ≠ 0) (mu : ℝ) (nlms : Bool) (h : Fin T → Fin B → ℂ) (s : Sub T B) (x d : Fin B → ℂ) :
    ∃ s', s.update mu nlms x d = .ok s' ∧ ∀ b, d b = output h s'.X b →
      misalign h s'.W b = misalign h s.W b - stepSize mu nlms s'.X b * (2 - stepSize mu nlms s'.X b * power s'.X b) * Complex.normSq (s'.E b) ∧
      (nlms = false → 0 ≤ mu → mu * power s'.X b ≤ 2 → misalign h s'.W b ≤ misalign h s.W b) := by
  obtain ⟨s', h1, -, -, hE, hW⟩ := C100_update hT mu nlms s x d
  refine ⟨s', h1, fun b hd => ?_⟩
  have he : s'.E b = output h s'.X b - output s.W s'.X b := by rw [hE b, hd]
  have hm := misalign_step h s.W s'.X b (stepSize mu nlms s'.X b) (s'.E b) he
  have heq : misalign h s'.W b = misalign h s.W b - stepSize mu nlms s'.X b * (2 - stepSize mu nlms s'.X b * power s'.X b) * Complex.normSq (s'.E b) := by
    rw [← hm]
    unfold misalign
    exact sum_congr rfl fun i _ => by rw [hW]
  refine ⟨heq, fun hn h0 h2 => ?_⟩
  rw [heq, hn]
  unfold stepSize
  simp only [Bool.false_eq_true, if_false]
  have := mul_nonneg (mul_nonneg h0 (by linarith : 0 ≤ 2 - mu * power s'.X b)) (Complex.normSq_nonneg (s'.E b))
  linarith

/-- **C100, bands.** What happens in a band depends on the blocks in this band only. -/
theorem C100_bands {T B : Nat} (hT : T ≠ 0) (mu : ℝ) (nlms : Bool) (b : Fin B) (ps qs : List ((Fin B → ℂ) × (Fin B → ℂ))) (hl : ps.length = qs.length)
    (hb : ∀ (n : Nat) (p q : (Fin B → ℂ) × (Fin B → ℂ)), ps[n]? = some p → qs[n]? = some q → p.1 b = q.1 b ∧ p.2 b = q.2 b) :
    ∃ ss ts, (Sub.reset T B).run mu nlms ps = .ok ss ∧ (Sub.reset T B).run mu nlms qs = .ok ts ∧
      ∀ (n : Nat) (s t : Sub T B), ss[n]? = some s → ts[n]? = some t → s.E b = t.E b ∧ ∀ i, s.W i b = t.W i b ∧ s.X i b = t.X i b := by
  have key : ∀ (ps qs : List ((Fin B → ℂ) × (Fin B → ℂ))) (s0 t0 : Sub T B), ps.length = qs.length →
      (∀ (n : Nat) (p q : (Fin B → ℂ) × (Fin B → ℂ)), ps[n]? = some p → qs[n]? = some q → p.1 b = q.1 b ∧ p.2 b = q.2 b) → (∀ i, s0.W i b = t0.W i b ∧ s0.X i b = t0.X i b) →
      ∃ ss ts, s0.run mu nlms ps = .ok ss ∧ t0.run mu nlms qs = .ok ts ∧
        ∀ (n : Nat) (s t : Sub T B), ss[n]? = some s → ts[n]? = some t → s.E b = t.E b ∧ ∀ i, s.W i b = t.W i b ∧ s.X i b = t.X i b := by
    intro ps
    induction ps with
    | nil =>
      intro qs s0 t0 hl _ _
      obtain rfl : qs = [] := by
        cases qs with
        | nil => rfl
        | cons q qs => simp at hl
      exact ⟨[], [], rfl, rfl, fun n s t hs => by simp at hs⟩
    | cons p ps ih =>
      intro qs s0 t0 hl hb h0
      cases qs with
      | nil => simp at hl
      | cons q qs =>
        obtain ⟨e1, e2⟩ := hb 0 p q rfl rfl
        obtain ⟨s', a1, -, aX, aE, aW⟩ := C100_update hT mu nlms s0 p.1 p.2
        obtain ⟨t', b1, -, bX, bE, bW⟩ := C100_update hT mu nlms t0 q.1 q.2
        have hX : ∀ i, s'.X i b = t'.X i b := by
          intro i
          rw [aX, bX]
          split
          · exact e1
          · exact (h0 _).2
        have hE : s'.E b = t'.E b := by
          rw [aE, bE, e2]
          congr 1
          unfold output
          exact sum_congr rfl fun i _ => by rw [(h0 i).1, hX]
        have hstep : stepSize mu nlms s'.X b = stepSize mu nlms t'.X b := by
          unfold stepSize power
          simp only [hX]
        have hW : ∀ i, s'.W i b = t'.W i b := by
          intro i
          rw [aW, bW, (h0 i).1, hE, hX, hstep]
        obtain ⟨ss, ts, g1, g2, g3⟩ := ih qs s' t' (by simpa using hl) (fun n p q hp hq => hb (n + 1) p q (by simpa using hp) (by simpa using hq)) (fun i => ⟨hW i, hX i⟩)
        refine ⟨s' :: ss, t' :: ts, ?_, ?_, ?_⟩
        · simp only [Sub.run]
          rw [a1]
          simp only
          rw [g1]
          rfl
        · simp only [Sub.run]
          rw [b1]
          simp only
          rw [g2]
          rfl
        · intro n s t hs ht
          cases n with
          | zero =>
            simp only [List.getElem?_cons_zero, Option.some.injEq] at hs ht
            subst hs ht
            exact ⟨hE, fun i => ⟨hW i, hX i⟩⟩
          | succ n => exact g3 n s t (by simpa using hs) (by simpa using ht)
  exact key ps qs _ _ hl hb (fun i => ⟨rfl, rfl⟩)

/-- One tap, one band, the system is the multiplication with two. -/
example : FromSystem (T := 1) (B := 1) (fun _ _ => 2) [(fun _ => 1, fun _ => 2), (fun _ => Complex.I, fun _ => 2 * Complex.I)] := by
  intro n p hp b
  match n with
  | 0 =>
    simp only [List.getElem?_cons_zero, Option.some.injEq] at hp
    subst hp
    simp [output, bufferOf, Complex.ext_iff]
  | 1 =>
    simp only [List.getElem?_cons_succ, List.getElem?_cons_zero, Option.some.injEq] at hp
    subst hp
    simp [output, bufferOf, Complex.ext_iff]
  | n + 2 => simp at hp

end Verif.Subband
