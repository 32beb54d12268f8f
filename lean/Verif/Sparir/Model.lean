import Verif.DFT
import Mathlib.Analysis.SpecialFunctions.Pow.Real

/-!
# Sparse approximation of relative impulse responses (`bss/common.py` 87-212)

With the default `weights` and `gini` (any other initialisation than the number 0 makes the test on line 151 raise ValueError). `n` is `n_freq` and `S` the selected bins; the vectors
of `2 k` real numbers `y`, `r`, `Adg` of the code are `k` complex numbers. `none` stands for values that are not numbers after a division by zero
(for `y = 0` only if there is an iteration).
-/

namespace Verif.Sparir

variable {n k : ℕ}

/-- `A * g`: the bins `S` of the transform of `g` (175-176, 195-196). -/
noncomputable def forward (S : Fin k → Fin n) (g : Fin n → ℝ) (s : Fin k) : ℂ :=
  DFT.dft n (fun t => if h : t < n then (g ⟨t, h⟩ : ℂ) else 0) (S s)

/-- `y.conj().T.dot(y)` and the like for vectors of complex numbers. -/
noncomputable def power (r : Fin k → ℂ) : ℝ := ∑ s, Complex.normSq (r s)

/-- `tau` (157-160). -/
noncomputable def tau (n : ℕ) (py : ℝ) (i : Fin n) : ℝ := Real.sqrt n / py * Real.exp (11 / 100 * |(i : ℝ) + 1| ^ (3 / 10 : ℝ))

open Classical in
/-- `soft` (166-172): `np.max(., 0)` is the maximum along the first axis. -/
noncomputable def soft (x T : Fin n → ℝ) : Option (Fin n → ℝ) :=
  if ∑ i, |T i| = 0 then some x
  else
    let u := ⨆ i, (|x i| - T i)
    if ∀ i, u + T i ≠ 0 then some fun i => u / (u + T i) * x i else none

open Classical in
/-- `aux[S] = ...` (178, 203) on an array of zeros: the last of several equal bins counts. -/
noncomputable def spread (S : Fin k → Fin n) (r : Fin k → ℂ) (f : ℕ) : ℂ :=
  match (List.finRange k).reverse.find? fun s => decide ((S s : ℕ) = f) with
  | some s => r s
  | none => 0

/-- `gradq` (179, 204). -/
noncomputable def grad (S : Fin k → Fin n) (r : Fin k → ℂ) (t : Fin n) : ℝ := n * DFT.irfft n (spread S r) t

/-- What the loop changes; `gradq`, `support` and the criterion follow from it. -/
structure State (n k : ℕ) where
  g : Fin n → ℝ
  r : Fin k → ℂ
  alpha : ℝ

open Classical in
/-- The sum of squares of `criterion` (186-187, 207-208). -/
noncomputable def critOn (S : Fin k → Fin n) (ta : Fin n → ℝ) (st : State n k) : ℝ :=
  ∑ i, if st.g i ≠ 0 then (-(ta i) * SignType.sign (st.g i) - grad S st.r i) ^ 2 else 0

open Classical in
/-- The number of violations outside the support (208-210). -/
noncomputable def critOff (S : Fin k → Fin n) (ta : Fin n → ℝ) (tol : ℝ) (st : State n k) : ℝ :=
  ∑ i, if st.g i = 0 ∧ tol < |grad S st.r i| - ta i then 1 else 0

/-- The machine precision of single precision. -/
noncomputable def eps32 : ℝ := 1 / 2 ^ 23

open Classical in
/-- The body of the loop (190-200). -/
noncomputable def step (S : Fin k → Fin n) (ta : Fin n → ℝ) (alphamax alphamin : ℝ) (st : State n k) : Option (State n k) :=
  if st.alpha = 0 then none
  else (soft (fun i => st.g i - grad S st.r i * (1 / st.alpha)) (fun i => ta i / st.alpha)).map fun g =>
    let dg : Fin n → ℝ := fun i => g i - st.g i
    let Adg := forward S dg
    ⟨g, fun s => st.r s + Adg s, min alphamax (max alphamin (power Adg / (eps32 + ∑ i, dg i ^ 2)))⟩

open Classical in
/-- The loop (189-210): `crit` is the criterion of the state, `fuel` the number of iterations left, `maxiter - 1 - iter_`. -/
noncomputable def loop (S : Fin k → Fin n) (ta : Fin n → ℝ) (tol alphamax alphamin : ℝ) : ℕ → ℝ → State n k → Option (State n k)
  | 0, _, st => some st
  | fuel + 1, crit, st =>
    if tol < crit then
      (step S ta alphamax alphamin st).bind fun st' => loop S ta tol alphamax alphamin fuel (critOn S ta st' + critOff S ta tol st') st'
    else some st

/-- The initialisation (151-153, 175-177). -/
noncomputable def start (S : Fin k → Fin n) (y : Fin k → ℂ) (alpha : ℝ) : State n k :=
  let g : Fin n → ℝ := fun i => if (i : ℕ) = 0 then 1 else 0
  ⟨g, fun s => forward S g s - y s, alpha⟩

open Classical in
/-- `sparir` (87-212) for `maxiter ≥ 1`; `y` are the entries `G[S]`. -/
noncomputable def sparir (S : Fin k → Fin n) (y : Fin k → ℂ) (maxiter : ℕ) (tol alpha alphamax alphamin : ℝ) : Option (Fin n → ℝ) :=
  if power y = 0 then none
  else
    let ta := tau n (power y)
    (loop S ta tol alphamax alphamin (maxiter - 1) (critOn S ta (start S y alpha)) (start S y alpha)).map State.g

end Verif.Sparir
