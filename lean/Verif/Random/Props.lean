import Verif.Random.Model
import Mathlib.Tactic.Linarith
import Mathlib.Tactic.NormNum
import Mathlib.Tactic.Positivity

/-!
# Properties of the rejection sampler (C54)
-/

namespace Verif.Random

open Verif.Py (Err)

variable {P R : Type}

/-! ## Specification -/

/-- A generator that draws as many as asked. -/
def Draws (draw : Nat → R → List (P × ℝ) × R) : Prop := ∀ n rng, (draw n rng).1.length = n

/-- Number of proposals of the next round after the given accepted ones. -/
def missing (flatSize : Nat) (samples : List P) : Nat := flatSize - samples.length

/-- `Rounds ... rng batches` : what the generator gives from `rng` on, a batch per round, when each round asks for what is still missing and no round
is begun when nothing is missing. -/
def Rounds (accept : P × ℝ → Prop) [DecidablePred accept] (draw : Nat → R → List (P × ℝ) × R) : Nat → R → List (List (P × ℝ)) → Prop
  | _, _, [] => True
  | n, rng, b :: t => 0 < n ∧ b = (draw n rng).1 ∧ Rounds accept draw (n - (b.filter accept).length) (draw n rng).2 t

/-- All accepted proposals of the batches, in the order in which they were drawn. -/
def accepted (accept : P × ℝ → Prop) [DecidablePred accept] (batches : List (List (P × ℝ))) : List P := (batches.flatten.filter accept).map Prod.fst

/-! ## The loop -/

/-- Acceptance of a proposal with a uniform value. -/
def Accept (s : Sampler P) (p : P × ℝ) : Prop := p.2 * s.pdf p.1 * s.scale < s.desired p.1

open Classical in
theorem accepts_eq (s : Sampler P) (p : P × ℝ) : s.accepts p.1 p.2 = decide (Accept s p) := by
  unfold Sampler.accepts Accept
  congr

open Classical in
theorem loop_ok {s : Sampler P} {draw : Nat → R → List (P × ℝ) × R} (hd : Draws draw) {flatSize fuel : Nat} {rng : R} {samples : List P} {pr ac : Nat}
    (hs : samples.length ≤ flatSize) {r : List P × R × Nat × Nat} (h : s.loop draw flatSize fuel rng samples pr ac = some r) :
    ∃ batches, Rounds (Accept s) draw (missing flatSize samples) rng batches ∧ r.1 = samples ++ accepted (Accept s) batches ∧ r.1.length = flatSize ∧
      r.2.2.1 = pr + batches.flatten.length ∧ r.2.2.2 = ac + (accepted (Accept s) batches).length := by
  induction fuel generalizing rng samples pr ac with
  | zero => simp [Sampler.loop] at h
  | succ fuel ih =>
    simp only [Sampler.loop] at h
    split at h
    · rename_i hlt
      have hfun : (fun p : P × ℝ => s.accepts p.1 p.2) = fun p => decide (Accept s p) := by
        funext p; exact accepts_eq s p
      rw [hfun] at h
      generalize hdr : draw (flatSize - samples.length) rng = d at h
      have hlen : d.1.length = flatSize - samples.length := by rw [← hdr]; exact hd _ _
      have hle : ((d.1.filter fun p => decide (Accept s p)).map Prod.fst).length ≤ d.1.length := by
        rw [List.length_map]; exact List.length_filter_le _ _
      obtain ⟨batches, h1, h2, h3, h4, h5⟩ := ih (by rw [List.length_append]; omega) h
      refine ⟨d.1 :: batches, ⟨?_, ?_, ?_⟩, ?_, h3, ?_, ?_⟩
      · unfold missing; omega
      · unfold missing; rw [hdr]
      · unfold missing at h1 ⊢
        rw [hdr]
        rw [List.length_append, List.length_map] at h1
        rw [show flatSize - samples.length - (d.1.filter fun p => decide (Accept s p)).length = flatSize - (samples.length + (d.1.filter fun p => decide (Accept s p)).length) by omega]
        exact h1
      · rw [h2]
        simp [accepted]
      · rw [h4, List.flatten_cons, List.length_append, hlen]; omega
      · rw [h5]
        simp [accepted]
        omega
    · rename_i hge
      cases h
      exact ⟨[], trivial, by simp [accepted], by simp only; omega, by simp, by simp [accepted]⟩

theorem flat_pos_of_int {size : Size} {n : Nat} (h : size.orOne = .int n) : 0 < n := by
  cases size with
  | none => cases h; norm_num
  | int k => cases k with
    | zero => cases h; norm_num
    | succ k => cases h; omega
  | npInt k => cases k with
    | zero => cases h; norm_num
    | succ k => cases h
  | tuple l => cases l with
    | nil => cases h; norm_num
    | cons a t => cases h

open Classical in
/-- **C54, samples.** Whenever the sampler returns, for whatever was drawn: the samples are exactly the accepted ones of all proposals that were drawn, in order of drawing; there are
exactly as many as asked for; and the statistics count proposals and accepted ones. -/
theorem C54_samples {s s' : Sampler P} {draw : Nat → R → List (P × ℝ) × R} (hd : Draws draw) {fuel : Nat} {size : Size} {rng : R} {out : Except Err (List Nat × List P)}
    (h : s.call draw fuel size rng = some (s', out)) :
    ∃ batches, Rounds (Accept s) draw size.orOne.flat rng batches ∧ (accepted (Accept s) batches).length = size.orOne.flat ∧
      s'.nProposed = s.nProposed + batches.flatten.length ∧ s'.nAccepted = s.nAccepted + size.orOne.flat ∧
      ((∀ n, size ≠ .npInt (n + 1)) → ∃ sh, out = .ok (sh, accepted (Accept s) batches) ∧
        (∀ n, size.orOne = .int n → sh = [n, s.dim]) ∧ ∀ l, size.orOne = .tuple l → sh = l ++ [s.dim]) ∧
      ∀ n, size = .npInt (n + 1) → out = .error .typeError := by
  unfold Sampler.call at h
  simp only [Option.map_eq_some_iff] at h
  obtain ⟨r, hr, he⟩ := h
  obtain ⟨batches, h1, h2, h3, h4, h5⟩ := loop_ok hd (by simp) hr
  simp only [Prod.mk.injEq] at he
  obtain ⟨rfl, rfl⟩ := he
  rw [List.nil_append] at h2
  refine ⟨batches, h1, h2 ▸ h3, h4, by rw [← h3, h2]; exact h5, ?_, ?_⟩
  · intro hn
    have hcase : (∃ n, size.orOne = .int n) ∨ ∃ l, size.orOne = .tuple l := by
      cases size with
      | none => exact Or.inl ⟨1, rfl⟩
      | int k => cases k with
        | zero => exact Or.inl ⟨1, rfl⟩
        | succ k => exact Or.inl ⟨k + 1, rfl⟩
      | npInt k => cases k with
        | zero => exact Or.inl ⟨1, rfl⟩
        | succ k => exact absurd rfl (hn k)
      | tuple l => cases l with
        | nil => exact Or.inl ⟨1, rfl⟩
        | cons a t => exact Or.inr ⟨a :: t, rfl⟩
    rcases hcase with ⟨n, e⟩ | ⟨l, e⟩
    · rw [e]
      refine ⟨[n, s.dim], by rw [h2]; rfl, ?_, ?_⟩
      · intro m hm; cases hm; rfl
      · intro l hl; cases hl
    · rw [e]
      refine ⟨l ++ [s.dim], by rw [h2]; rfl, ?_, ?_⟩
      · intro m hm; cases hm
      · intro m hm; cases hm; rfl
  · rintro n rfl
    rfl

/-- **C54, efficiency.** After the first call of a new sampler the efficiency is the quotient of the numbers of samples and of proposals, which is at most 1. -/
theorem C54_efficiency {desired pdf : P → ℝ} {dim : Nat} {scale : Option ℝ} {s' : Sampler P} {draw : Nat → R → List (P × ℝ) × R} (hd : Draws draw) {fuel : Nat} {size : Size}
    {rng : R} {out : Except Err (List Nat × List P)} (hsize : 0 < size.orOne.flat)
    (h : (Sampler.init desired pdf dim scale).call draw fuel size rng = some (s', out)) :
    (Sampler.init desired pdf dim scale).efficiency = 1 ∧ ∃ proposed : Nat, size.orOne.flat ≤ proposed ∧ s'.efficiency = size.orOne.flat / proposed ∧ s'.efficiency ≤ 1 := by
  classical
  obtain ⟨batches, _, h2, h3, h4, _⟩ := C54_samples hd h
  refine ⟨by simp [Sampler.efficiency, Sampler.init], batches.flatten.length, ?_, ?_, ?_⟩
  · rw [← h2]
    unfold accepted
    rw [List.length_map]
    exact List.length_filter_le _ _
  all_goals
    have hle : size.orOne.flat ≤ batches.flatten.length := by
      rw [← h2]
      unfold accepted
      rw [List.length_map]
      exact List.length_filter_le _ _
    have e3 : s'.nProposed = batches.flatten.length := by rw [h3]; simp [Sampler.init]
    have e4 : s'.nAccepted = size.orOne.flat := by rw [h4]; simp [Sampler.init]
    unfold Sampler.efficiency
    rw [if_neg (by omega), e3, e4]
  rw [div_le_one (by exact_mod_cast lt_of_lt_of_le hsize hle)]
  exact_mod_cast hle

open Classical in
/-- **C54, end.** If every round accepts at least one proposal the sampler returns after at most as many rounds as samples. -/
theorem C54_ends (s : Sampler P) {draw : Nat → R → List (P × ℝ) × R} (h : ∀ n rng, 0 < n → ∃ p ∈ (draw n rng).1, Accept s p) (size : Size) (rng : R) {fuel : Nat}
    (hf : size.orOne.flat < fuel) : (s.call draw fuel size rng).isSome := by
  unfold Sampler.call
  simp only [Option.isSome_map]
  have key : ∀ (fuel : Nat) (flatSize : Nat) (samples : List P) (rng : R) (pr ac : Nat), flatSize - samples.length < fuel →
      (s.loop draw flatSize fuel rng samples pr ac).isSome := by
    intro fuel
    induction fuel with
    | zero => intro f s _ _ _ h; omega
    | succ fuel ih =>
      intro flatSize samples rng pr ac hlt
      simp only [Sampler.loop]
      split
      · rename_i hc
        apply ih
        obtain ⟨p, hp, ha⟩ := h (flatSize - samples.length) rng (by omega)
        have : 0 < (((draw (flatSize - samples.length) rng).1.filter fun p => s.accepts p.1 p.2).map Prod.fst).length := by
          rw [List.length_map]
          apply List.length_pos_of_mem (a := p)
          rw [List.mem_filter]
          exact ⟨hp, by rw [accepts_eq]; simpa using ha⟩
        rw [List.length_append]
        omega
      · rfl
  exact key fuel _ _ _ _ _ (by simpa using hf)

/-- **C54, deviation.** If the desired function is nowhere positive the sampler never returns, as uniform values are not negative. A cardioid source with gain zero is such a
case. -/
theorem C54_endless_deviation (s : Sampler P) {draw : Nat → R → List (P × ℝ) × R} (hu : ∀ n rng, ∀ p ∈ (draw n rng).1, 0 ≤ p.2) (hp : ∀ x, 0 ≤ s.pdf x) (hs : 0 ≤ s.scale)
    (h0 : ∀ x, s.desired x ≤ 0) {size : Size} (hsize : 0 < size.orOne.flat) (rng : R) (fuel : Nat) : s.call draw fuel size rng = none := by
  classical
  unfold Sampler.call
  simp only [Option.map_eq_none_iff]
  have key : ∀ (fuel : Nat) (rng : R) (pr ac : Nat), s.loop draw size.orOne.flat fuel rng [] pr ac = none := by
    intro fuel
    induction fuel with
    | zero => intro _ _ _; rfl
    | succ fuel ih =>
      intro rng pr ac
      simp only [Sampler.loop]
      rw [if_pos (by simpa using hsize)]
      have hnil : (draw (size.orOne.flat - ([] : List P).length) rng).1.filter (fun p => s.accepts p.1 p.2) = [] := by
        rw [List.filter_eq_nil_iff]
        intro p hpm
        rw [accepts_eq]
        simp only [decide_eq_true_eq]
        unfold Accept
        have := hu _ _ p hpm
        have h1 : 0 ≤ p.2 * s.pdf p.1 * s.scale := mul_nonneg (mul_nonneg this (hp _)) hs
        exact not_lt.mpr ((h0 _).trans h1)
      rw [hnil]
      exact ih _ _ _
  exact key fuel rng _ _

/-- **C54, saturation (deviation).** Where the desired function is not below the scaled proposal density every proposal is accepted, so that there the samples do not follow the desired
function. -/
theorem C54_saturation_deviation (s : Sampler P) {x : P} (hs : 0 < s.pdf x * s.scale) (h : s.pdf x * s.scale ≤ s.desired x) {u : ℝ} (h1 : u < 1) :
    Accept s (x, u) := by
  unfold Accept
  simp only
  rw [mul_assoc]
  nlinarith

/-- **C54, size (deviation).** Asked for zero samples the sampler returns one. -/
theorem C54_zero_deviation {s s' : Sampler P} {draw : Nat → R → List (P × ℝ) × R} (hd : Draws draw) {fuel : Nat} {rng : R} {out : Except Err (List Nat × List P)}
    (h : s.call draw fuel (.int 0) rng = some (s', out)) : ∃ l, out = .ok ([1, s.dim], l) ∧ l.length = 1 := by
  classical
  obtain ⟨batches, _, h2, _, _, h5, _⟩ := C54_samples hd h
  obtain ⟨sh, e, h6, _⟩ := h5 (by simp)
  refine ⟨accepted (Accept s) batches, ?_, h2⟩
  rw [e, h6 1 rfl]

/-! ## The hypotheses can be met -/

/-- A generator of growing uniform values, and proposals of which every other one is accepted. -/
noncomputable def sawtooth : Nat → Nat → List (Nat × ℝ) × Nat := fun n rng => ((List.range n).map fun i => (rng + i, 0), rng + n)

example : Draws sawtooth ∧ ((Sampler.init (fun x : Nat => if x % 2 = 0 then (1 : ℝ) else 0) (fun _ => 1) 3 none).call sawtooth 3 (.int 2) 0).map Prod.snd =
    some (.ok ([2, 3], [0, 2])) := by
  classical
  refine ⟨fun n rng => by simp [sawtooth], ?_⟩
  have ha : ∀ x : Nat, (Sampler.init (fun x : Nat => if x % 2 = 0 then (1 : ℝ) else 0) (fun _ => 1) 3 none).accepts x 0 = decide (x % 2 = 0) := by
    intro x
    unfold Sampler.accepts Sampler.init
    simp only
    split <;> rename_i h <;> simp [h]
  unfold Sampler.call
  simp [Sampler.loop, Size.orOne, Size.flat, Size.shape, sawtooth, List.range_succ, List.filter, ha, Except.map]
  rfl

end Verif.Random
