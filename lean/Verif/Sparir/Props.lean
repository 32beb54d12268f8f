import Verif.Sparir.Model
import Verif.Sync.Lemmas
import Mathlib.Tactic.Linarith
import Mathlib.Tactic.FieldSimp
import Mathlib.Tactic.LinearCombination

namespace Verif.Sparir

variable {n k : ℕ}

/-! ## Specification -/

/-- The value at bin `f` of the transform of a real vector. -/
noncomputable def spectrum (g : Fin n → ℝ) (f : ℕ) : ℂ := ∑ t : Fin n, (g t : ℂ) * Complex.exp (-(2 * Real.pi * Complex.I * (t : ℕ) * f / n))

/-- The squared error of the transform of `g` at the bins `S`. -/
noncomputable def error (S : Fin k → Fin n) (y : Fin k → ℂ) (g : Fin n → ℝ) : ℝ := ∑ s, Complex.normSq (spectrum g (S s) - y s)

/-- Soft thresholding of a number. -/
noncomputable def threshold (x T : ℝ) : ℝ := if |x| ≤ T then 0 else SignType.sign x * (|x| - T)

/-! ## Lemmas -/

open DFT

theorem forward_eq (S : Fin k → Fin n) (g : Fin n → ℝ) (s : Fin k) : forward S g s = spectrum g (S s) := by
  unfold forward spectrum dft
  rw [← Fin.sum_univ_eq_sum_range (fun t => (if h : t < n then (g ⟨t, h⟩ : ℂ) else 0) * tw n (-((t : ℤ) * (S s : ℕ)))) n]
  refine Finset.sum_congr rfl fun t _ => ?_
  rw [dif_pos t.2]
  unfold tw
  congr 2
  push_cast
  ring

theorem spectrum_add (g h : Fin n → ℝ) (f : ℕ) : spectrum (fun i => g i + h i) f = spectrum g f + spectrum h f := by
  unfold spectrum
  rw [← Finset.sum_add_distrib]
  refine Finset.sum_congr rfl fun t _ => ?_
  push_cast
  ring

theorem spectrum_sub (g h : Fin n → ℝ) (f : ℕ) : spectrum (fun i => g i - h i) f = spectrum g f - spectrum h f := by
  unfold spectrum
  rw [← Finset.sum_sub_distrib]
  refine Finset.sum_congr rfl fun t _ => ?_
  push_cast
  ring

theorem spectrum_single (t : Fin n) (e : ℝ) (f : ℕ) : spectrum (Pi.single t e) f = (e : ℂ) * tw n (-((t : ℕ) * f : ℤ)) := by
  unfold spectrum
  rw [Finset.sum_eq_single t]
  · rw [Pi.single_eq_same]
    unfold tw
    congr 2
    push_cast
    ring
  · intro i _ hi
    rw [Pi.single_eq_of_ne hi]
    simp
  · simp

/-- How often a bin counts in the inverse transform of half a spectrum. -/
noncomputable def count (n f : ℕ) : ℝ := (if 2 * f ≤ n then 1 else 0) + (if 0 < f ∧ 2 * f < n then 1 else 0)

theorem irfft_count (hn : 0 < n) (X : ℕ → ℂ) (t : ℕ) : n * irfft n X t = ∑ f ∈ Finset.range n, count n f * (X f * tw n (f * t)).re := by
  have hn' : (n : ℂ) ≠ 0 := by exact_mod_cast hn.ne'
  have hsplit : ∑ f ∈ Finset.range n, hermExt n X f * tw n (f * t) =
      ∑ f ∈ Finset.range n, ((if 2 * f ≤ n then X f * tw n (f * t) else 0) + (if 0 < f ∧ 2 * f < n then (starRingEnd ℂ) (X f * tw n (f * t)) else 0)) := by
    rw [Finset.sum_add_distrib]
    have hrev := Sync.neg_mod_bij n hn (fun f => if 0 < f ∧ 2 * f < n then (starRingEnd ℂ) (X f * tw n (f * t)) else 0)
    rw [← hrev, ← Finset.sum_add_distrib]
    refine Finset.sum_congr rfl fun f hf => ?_
    rw [Finset.mem_range] at hf
    unfold hermExt
    by_cases h : f ≤ n / 2
    · rw [if_pos h, if_pos (show 2 * f ≤ n by omega), if_neg, add_zero]
      rintro ⟨h1, h2⟩
      rcases Nat.eq_zero_or_pos f with h0 | h0
      · subst h0
        simp at h1
      · rw [Nat.mod_eq_of_lt (by omega)] at h1 h2
        omega
    · rw [if_neg h, if_neg (show ¬2 * f ≤ n by omega), Nat.mod_eq_of_lt (by omega), if_pos ⟨by omega, by omega⟩, zero_add, map_mul, tw_conj]
      congr 1
      apply Sync.tw_congr hn
      rw [Nat.cast_sub hf.le]
      exact ⟨t, by ring⟩
  have h1 : n * irfft n X t = (∑ f ∈ Finset.range n, hermExt n X f * tw n (f * t)).re := by
    unfold irfft idft
    rw [← Complex.re_ofReal_mul]
    congr 1
    push_cast
    field_simp
    exact Finset.sum_congr rfl fun f _ => by rw [mul_comm (t : ℤ)]
  rw [h1, hsplit, Complex.re_sum]
  refine Finset.sum_congr rfl fun f _ => ?_
  unfold count
  split <;> split <;> simp [add_mul]

theorem spread_at {S : Fin k → Fin n} (hS : Function.Injective S) (r : Fin k → ℂ) (s : Fin k) : spread S r (S s) = r s := by
  unfold spread
  cases hf : (List.finRange k).reverse.find? fun i => decide ((S i : ℕ) = (S s : ℕ)) with
  | none =>
    exfalso
    rw [List.find?_eq_none] at hf
    have := hf s (List.mem_reverse.mpr (List.mem_finRange s))
    simp at this
  | some i =>
    have h1 := List.find?_some hf
    simp only [decide_eq_true_eq] at h1
    have := hS (Fin.ext h1)
    subst this
    rfl

theorem spread_off {S : Fin k → Fin n} (r : Fin k → ℂ) {f : ℕ} (h : ∀ s, (S s : ℕ) ≠ f) : spread S r f = 0 := by
  unfold spread
  cases hf : (List.finRange k).reverse.find? fun i => decide ((S i : ℕ) = f) with
  | none => rfl
  | some i =>
    have h1 := List.find?_some hf
    simp only [decide_eq_true_eq] at h1
    exact absurd h1 (h i)

theorem grad_eq {S : Fin k → Fin n} (hS : Function.Injective S) (r : Fin k → ℂ) (t : Fin n) : grad S r t = ∑ s, count n (S s) * (r s * tw n ((S s : ℕ) * (t : ℕ))).re := by
  have hn : 0 < n := t.pos
  unfold grad
  rw [irfft_count hn]
  have h1 : ∑ f ∈ Finset.range n, count n f * (spread S r f * tw n (f * (t : ℕ))).re = ∑ f ∈ Finset.univ.image (fun s => (S s : ℕ)), count n f * (spread S r f * tw n (f * (t : ℕ))).re := by
    symm
    apply Finset.sum_subset
    · intro f hf
      obtain ⟨s, _, rfl⟩ := Finset.mem_image.mp hf
      exact Finset.mem_range.mpr (S s).2
    · intro f _ hf
      rw [spread_off r (fun s hs => hf (Finset.mem_image.mpr ⟨s, Finset.mem_univ _, hs⟩))]
      simp
  rw [h1, Finset.sum_image (fun a _ b _ h => hS (Fin.ext h))]
  refine Finset.sum_congr rfl fun s _ => ?_
  rw [spread_at hS]

/-! ## Theorems -/

/-- The residual, updated from step to step, is the difference between the bins of the transform of the current vector and the measurements, however long the loop runs. -/
theorem C116_residual (S : Fin k → Fin n) (y : Fin k → ℂ) (ta : Fin n → ℝ) (tol alphamax alphamin : ℝ) (fuel : ℕ) (crit alpha : ℝ) {st : State n k}
    (h : loop S ta tol alphamax alphamin fuel crit (start S y alpha) = some st) (s : Fin k) : st.r s = spectrum st.g (S s) - y s := by
  have key : ∀ (fuel : ℕ) (crit : ℝ) (a : State n k), (∀ s, a.r s = spectrum a.g (S s) - y s) → ∀ b, loop S ta tol alphamax alphamin fuel crit a = some b → ∀ s, b.r s = spectrum b.g (S s) - y s := by
    intro fuel
    induction fuel with
    | zero =>
      intro crit a ha b hb
      rw [← Option.some.inj hb]
      exact ha
    | succ fuel ih =>
      intro crit a ha b hb
      unfold loop at hb
      split at hb
      · obtain ⟨c, hc, hb⟩ := Option.bind_eq_some_iff.mp hb
        refine ih _ c ?_ b hb
        unfold step at hc
        split at hc
        · simp at hc
        · obtain ⟨g, _, rfl⟩ := Option.map_eq_some_iff.mp hc
          intro s
          simp only
          rw [ha s, forward_eq, spectrum_sub]
          ring
      · rw [← Option.some.inj hb]
        exact ha
  refine key fuel crit _ ?_ st h s
  intro s
  simp only [start, forward_eq]

/-- The gradient: for different bins strictly between zero and the middle of the range, the change of the squared error along every coordinate is `gradq` to first order, exactly. -/
theorem C116_gradient {S : Fin k → Fin n} (hS : Function.Injective S) (hlow : ∀ s, 0 < (S s : ℕ) ∧ 2 * (S s : ℕ) < n) (y : Fin k → ℂ) (g : Fin n → ℝ) {r : Fin k → ℂ}
    (hr : ∀ s, r s = spectrum g (S s) - y s) (t : Fin n) (e : ℝ) : error S y (fun i => g i + if i = t then e else 0) = error S y g + e * grad S r t + e ^ 2 * k := by
  unfold error
  rw [grad_eq hS, Finset.mul_sum, ← Finset.sum_add_distrib]
  have hk : e ^ 2 * (k : ℝ) = ∑ _s : Fin k, e ^ 2 := by simp [mul_comm]
  rw [hk, ← Finset.sum_add_distrib]
  have hsingle : (fun i => g i + if i = t then e else 0) = fun i => g i + (Pi.single t e : Fin n → ℝ) i := by
    funext i
    rw [Pi.single_apply]
  rw [hsingle]
  refine Finset.sum_congr rfl fun s _ => ?_
  rw [spectrum_add, ← hr s, show spectrum g (S s) + spectrum (Pi.single t e) (S s) - y s = r s + spectrum (Pi.single t e) (S s) by rw [hr s]; ring, spectrum_single]
  have hc : count n (S s) = 2 := by
    unfold count
    rw [if_pos (hlow s).2.le, if_pos (hlow s)]
    norm_num
  rw [hc, Complex.normSq_add]
  have h1 : Complex.normSq ((e : ℂ) * tw n (-((t : ℕ) * (S s : ℕ) : ℤ))) = e ^ 2 := by
    have : Complex.normSq (tw n (-((t : ℕ) * (S s : ℕ) : ℤ))) = 1 := by
      have h2 := Complex.normSq_eq_conj_mul_self (z := tw n (-((t : ℕ) * (S s : ℕ) : ℤ)))
      rw [tw_conj, ← tw_add, neg_neg, add_neg_cancel, tw_zero] at h2
      exact_mod_cast h2
    rw [map_mul, this, Complex.normSq_ofReal]
    ring
  have h2 : (r s * (starRingEnd ℂ) ((e : ℂ) * tw n (-((t : ℕ) * (S s : ℕ) : ℤ)))).re = e * (r s * tw n ((S s : ℕ) * (t : ℕ))).re := by
    rw [map_mul, Complex.conj_ofReal, tw_conj, neg_neg, mul_left_comm, Complex.re_ofReal_mul, mul_comm ((t : ℕ) : ℤ)]
  rw [h1, h2]
  ring

/-- Bins above the middle of the range do not count: with such bins only, the gradient is zero, whatever the error. -/
theorem C116_upper_deviation {S : Fin k → Fin n} (hS : Function.Injective S) (hup : ∀ s, n < 2 * (S s : ℕ)) (r : Fin k → ℂ) (t : Fin n) : grad S r t = 0 := by
  rw [grad_eq hS]
  refine Finset.sum_eq_zero fun s _ => ?_
  have := hup s
  unfold count
  rw [if_neg (by omega), if_neg (by omega)]
  ring

/-- The thresholding does not threshold: with `u` the largest excess of a modulus over its threshold, the entries are scaled by `u / (u + T)`, so that none becomes zero (unless `u`
is zero), also those below their threshold. -/
theorem C116_soft_deviation {x T g : Fin n → ℝ} (hT : ∃ i, T i ≠ 0) (h : soft x T = some g) :
    ∃ u : ℝ, (∀ i, |x i| - T i ≤ u) ∧ (∃ i, u = |x i| - T i) ∧ (∀ i, g i = u / (u + T i) * x i) ∧ (u ≠ 0 → ∀ i, x i ≠ 0 → g i ≠ 0) := by
  obtain ⟨i0, hi0⟩ := hT
  have : Nonempty (Fin n) := ⟨i0⟩
  unfold soft at h
  rw [if_neg] at h
  · simp only at h
    split at h
    · rename_i hne
      obtain ⟨j, hj⟩ := exists_eq_ciSup_of_finite (f := fun i => |x i| - T i)
      refine ⟨⨆ i, (|x i| - T i), fun i => le_ciSup (f := fun i => |x i| - T i) (Set.finite_range _).bddAbove i, ⟨j, hj.symm⟩, ?_, ?_⟩
      · intro i
        rw [← Option.some.inj h]
      · intro hu i hi
        rw [← Option.some.inj h]
        exact mul_ne_zero (div_ne_zero hu (hne i)) hi
    · simp at h
  · intro hz
    have := (Finset.sum_eq_zero_iff_of_nonneg (fun i _ => abs_nonneg (T i))).mp hz i0 (Finset.mem_univ _)
    exact hi0 (abs_eq_zero.mp this)

/-- The thresholding is right for one entry above its threshold. -/
theorem C116_soft_single {x T : ℝ} (hT : 0 < T) (hx : T < |x|) : soft (fun _ : Fin 1 => x) (fun _ => T) = some fun _ => threshold x T := by
  have hu : (⨆ _ : Fin 1, (|x| - T)) = |x| - T := ciSup_const
  unfold soft
  rw [if_neg (by simp [hT.ne'])]
  simp only [hu]
  rw [if_pos (by intro _; rw [sub_add_cancel]; linarith)]
  congr 1
  funext _
  unfold threshold
  rw [if_neg (not_le.mpr hx), sub_add_cancel]
  have h0 : |x| ≠ 0 := by linarith
  rw [div_mul_eq_mul_div, div_eq_iff h0]
  have := sign_mul_abs x
  rcases lt_trichotomy x 0 with hneg | hz | hpos
  · rw [sign_neg hneg, abs_of_neg hneg]
    simp
    ring
  · rw [hz] at h0; simp at h0
  · rw [sign_pos hpos, abs_of_pos hpos]
    simp

/-- If the first criterion is within the tolerance (or only one iteration is allowed), the result is the unit impulse. -/
theorem C116_start (S : Fin k → Fin n) (y : Fin k → ℂ) (maxiter : ℕ) (tol alpha alphamax alphamin : ℝ) (hy : ∃ s, y s ≠ 0)
    (h : maxiter ≤ 1 ∨ ∀ i : Fin n, (i : ℕ) = 0 → (tau n (power y) i + grad S (fun s => spectrum (fun (i : Fin n) => if (i : ℕ) = 0 then 1 else 0) (S s) - y s) i) ^ 2 ≤ tol) :
    sparir S y maxiter tol alpha alphamax alphamin = some fun (i : Fin n) => if (i : ℕ) = 0 then 1 else 0 := by
  have hp : power y ≠ 0 := by
    obtain ⟨s, hs⟩ := hy
    have : 0 < power y := Finset.sum_pos' (fun _ _ => Complex.normSq_nonneg _) ⟨s, Finset.mem_univ _, Complex.normSq_pos.mpr hs⟩
    exact this.ne'
  unfold sparir
  rw [if_neg hp]
  simp only
  have hloop : loop S (tau n (power y)) tol alphamax alphamin (maxiter - 1) (critOn S (tau n (power y)) (start S y alpha)) (start S y alpha) = some (start S y alpha) := by
    rcases h with h | h
    · rw [show maxiter - 1 = 0 by omega]
      rfl
    · cases maxiter - 1 with
      | zero => rfl
      | succ m =>
        unfold loop
        by_cases hn : 0 < n
        · rw [if_neg]
          rw [not_lt]
          have h1 := h ⟨0, hn⟩ rfl
          unfold critOn
          rw [Finset.sum_eq_single ⟨0, hn⟩]
          · have hg : (start S y alpha).g ⟨0, hn⟩ = 1 := by simp [start]
            have hr : (start S y alpha).r = fun s => spectrum (fun (i : Fin n) => if (i : ℕ) = 0 then 1 else 0) (S s) - y s := by
              funext s
              simp only [start, forward_eq]
            rw [hg, hr, if_pos one_ne_zero, sign_one]
            refine le_trans (le_of_eq ?_) h1
            simp
            ring
          · intro i _ hi
            have : (start S y alpha).g i = 0 := by
              simp only [start]
              rw [if_neg]
              intro h0
              exact hi (Fin.ext h0)
            simp [this]
          · simp
        · obtain ⟨s, _⟩ := hy
          exact absurd (S s).pos hn
  rw [hloop]
  rfl

/-! ## Examples -/

/-- One bin, one step: from 1 to 4 with the measurement 5 and the threshold 1. -/
theorem one_step : ∃ st, loop (fun _ : Fin 1 => (0 : Fin 1)) (fun _ => 1) 0 10 1 1 1 (start (fun _ : Fin 1 => (0 : Fin 1)) (fun _ => 5) 1) = some st ∧ st.g 0 = 4 := by
  have hs : ∀ g : Fin 1 → ℝ, ∀ f, spectrum g f = g 0 := by
    intro g f
    simp [spectrum]
  have hg : ∀ t, grad (fun _ : Fin 1 => (0 : Fin 1)) (start (fun _ : Fin 1 => (0 : Fin 1)) (fun _ => 5) 1).r t = -4 := by
    intro t
    rw [grad_eq (fun a b _ => Subsingleton.elim a b), Subsingleton.elim t 0]
    simp only [start, forward_eq, hs]
    norm_num [count, tw_zero]
  have hsoft : soft (fun i => (start (fun _ : Fin 1 => (0 : Fin 1)) (fun _ => 5) 1).g i - grad (fun _ : Fin 1 => (0 : Fin 1)) (start (fun _ : Fin 1 => (0 : Fin 1)) (fun _ => 5) 1).r i * (1 / 1)) (fun _ => 1 / 1) =
      some fun _ => 4 := by
    have h1 : (fun i => (start (fun _ : Fin 1 => (0 : Fin 1)) (fun _ => 5) 1).g i - grad (fun _ : Fin 1 => (0 : Fin 1)) (start (fun _ : Fin 1 => (0 : Fin 1)) (fun _ => 5) 1).r i * (1 / 1)) = fun _ => (5 : ℝ) := by
      funext i
      rw [hg, Subsingleton.elim i 0]
      norm_num [start]
    rw [h1, show (fun _ : Fin 1 => (1 : ℝ) / 1) = fun _ => 1 by norm_num, C116_soft_single (by norm_num) (by norm_num)]
    congr 1
    funext _
    unfold threshold
    rw [if_neg (by norm_num), sign_pos (by norm_num)]
    norm_num
  unfold loop
  rw [if_pos (by norm_num)]
  unfold step
  rw [if_neg (by simp [start])]
  rw [show (start (fun _ : Fin 1 => (0 : Fin 1)) (fun _ => 5) 1).alpha = 1 from rfl, hsoft]
  exact ⟨_, rfl, rfl⟩

example : ∃ st, loop (fun _ : Fin 1 => (0 : Fin 1)) (fun _ => 1) 0 10 1 1 1 (start (fun _ : Fin 1 => (0 : Fin 1)) (fun _ => 5) 1) = some st ∧ st.r 0 = spectrum (fun _ : Fin 1 => 4) 0 - 5 := by
  obtain ⟨st, h1, h2⟩ := one_step
  refine ⟨st, h1, ?_⟩
  rw [C116_residual _ _ _ _ _ _ _ _ _ h1 0]
  congr 2
  funext i
  rw [Subsingleton.elim i 0, h2]

example (e : ℝ) : error (fun _ : Fin 1 => (1 : Fin 3)) (fun _ => 2) (fun i => 0 + if i = 1 then e else 0) =
    error (fun _ : Fin 1 => (1 : Fin 3)) (fun _ => 2) (fun _ => 0) + e * grad (fun _ : Fin 1 => (1 : Fin 3)) (fun _ => -2) 1 + e ^ 2 * (1 : ℕ) :=
  C116_gradient (fun a b _ => Subsingleton.elim a b) (by intro s; norm_num) (fun _ => 2) (fun _ => 0) (by intro s; simp [spectrum]) 1 e

example : grad (fun _ : Fin 1 => (2 : Fin 3)) (fun _ => -2) 1 = 0 := C116_upper_deviation (fun a b _ => Subsingleton.elim a b) (by intro s; norm_num) _ _

/-- The second entry is below its threshold, but not set to zero. -/
example : threshold 1 2 = 0 ∧ ∀ g, soft ![3, 1] ![1, 2] = some g → g 1 ≠ 0 := by
  refine ⟨by unfold threshold; rw [if_pos (by norm_num)], ?_⟩
  intro g hg
  obtain ⟨u, h1, _, _, h4⟩ := C116_soft_deviation ⟨0, by norm_num⟩ hg
  refine h4 ?_ 1 (by norm_num)
  have := h1 0
  norm_num at this
  linarith

example : soft ![3, 1] ![1, 2] ≠ none := by
  have hu : ⨆ i, (|(![3, 1] : Fin 2 → ℝ) i| - (![1, 2] : Fin 2 → ℝ) i) = 2 := by
    apply le_antisymm
    · apply ciSup_le
      intro i
      fin_cases i <;> norm_num
    · refine le_trans ?_ (le_ciSup (f := fun i => |(![3, 1] : Fin 2 → ℝ) i| - (![1, 2] : Fin 2 → ℝ) i) (Set.finite_range _).bddAbove 0)
      norm_num
  unfold soft
  rw [if_neg (by norm_num [Fin.sum_univ_two])]
  simp only [hu]
  rw [if_pos (by intro i; fin_cases i <;> norm_num)]
  simp

example : sparir (fun _ : Fin 1 => (1 : Fin 3)) (fun _ => 2) 1 10 10 100000 1 = some fun (i : Fin 3) => if (i : ℕ) = 0 then 1 else 0 :=
  C116_start _ _ _ _ _ _ _ ⟨0, by norm_num⟩ (Or.inl le_rfl)

end Verif.Sparir
