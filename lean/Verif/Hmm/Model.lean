import Mathlib.Analysis.SpecialFunctions.Log.Basic
import Mathlib.Analysis.SpecialFunctions.Trigonometric.Basic
import Mathlib.Algebra.BigOperators.Fin

/-!
# Model of the hidden Markov models

`pyroomacoustics/recognition.py`. Real numbers without rounding. An array of shape `(N, K)` is a function of the row
number and the state; the number of rows is explicit. Division by zero (NaN in numpy) is excluded in the theorems.
`HMM.viterbi` (recognition.py:381-382) does nothing and is not modelled.
-/

namespace Verif.Hmm

open Finset

variable {K O : Nat}

/-- Transition matrix and initial distribution (recognition.py:179-180). -/
structure Chain (K : Nat) where
  A : Fin K → Fin K → ℝ
  pi : Fin K → ℝ

/-- Sum, and the vector divided by it (recognition.py:355-356, 361-362). -/
noncomputable def scaled (v : Fin K → ℝ) : (Fin K → ℝ) × ℝ := (fun k => v k / ∑ j, v j, ∑ j, v j)

/-- `HMM.forward` (recognition.py:345-364): row `n` of `alpha` and `c[n]`; `b` is `p_x_given_z`. -/
noncomputable def forward (h : Chain K) (b : Nat → Fin K → ℝ) : Nat → (Fin K → ℝ) × ℝ
  | 0 => scaled fun k => b 0 k * h.pi k
  | n + 1 => scaled fun k => b (n + 1) k * ∑ i, h.A i k * (forward h b n).1 i

/-- `HMM.backward` (recognition.py:366-379): row `N - 1 - m` of `beta`. -/
noncomputable def backwardFrom (h : Chain K) (b : Nat → Fin K → ℝ) (c : Nat → ℝ) (N : Nat) : Nat → Fin K → ℝ
  | 0 => fun _ => 1
  | m + 1 => fun k => (∑ j, h.A k j * (b (N - 1 - m) j * backwardFrom h b c N m j)) / c (N - 1 - m)

/-- Row `n` of `beta` for `n < N`. -/
noncomputable def backward (h : Chain K) (b : Nat → Fin K → ℝ) (c : Nat → ℝ) (N n : Nat) : Fin K → ℝ := backwardFrom h b c N (N - 1 - n)

/-- `HMM.loglikelihood` (recognition.py:336-343) for `N` observations. -/
noncomputable def loglikelihood (h : Chain K) (b : Nat → Fin K → ℝ) (N : Nat) : ℝ := ∑ n ∈ range N, Real.log (forward h b n).2

/-- `gamma` (recognition.py:261). -/
noncomputable def gamma (h : Chain K) (b : Nat → Fin K → ℝ) (N n : Nat) (k : Fin K) : ℝ :=
  (forward h b n).1 k * backward h b (fun n => (forward h b n).2) N n k

/-- `xhi[n]` (recognition.py:262-266), `n + 1 < N`. -/
noncomputable def xhi (h : Chain K) (b : Nat → Fin K → ℝ) (N n : Nat) (i j : Fin K) : ℝ :=
  (forward h b n).1 i * (backward h b (fun n => (forward h b n).2) N (n + 1) j * b (n + 1) j) * h.A i j / (forward h b (n + 1)).2

/-- An example: number of observations and observations. -/
abbrev Example (O : Nat) := Nat × (Nat → Fin O → ℝ)

/-- `HMM.update_parameters` (recognition.py:301-317) for the chain `h` and the emission probabilities `b` of each of the examples. -/
noncomputable def updateChain (h : Chain K) (ex : List (Nat × (Nat → Fin K → ℝ))) : Chain K :=
  let pi := fun k => (ex.map fun e => gamma h e.2 e.1 0 k).sum
  let A := fun i j => (ex.map fun e => ∑ n ∈ range (e.1 - 1), xhi h e.2 e.1 n i j).sum
  ⟨fun i j => if ∑ j, A i j < 1e-15 then 0 else A i j / ∑ j, A i j, fun k => pi k / ∑ j, pi j⟩

/-- Parameters of `CircularGaussianEmission` (recognition.py:21-41). -/
structure Emission (K O : Nat) where
  mu : Fin K → Fin O → ℝ
  sigma : Fin K → Fin O → ℝ

/-- Density of `multivariate_normal` with a diagonal covariance (recognition.py:65-75). -/
noncomputable def density (mu sigma x : Fin O → ℝ) : ℝ :=
  ∏ o, ((Real.sqrt (2 * Real.pi * sigma o))⁻¹ * Real.exp (-(x o - mu o) ^ 2 / (2 * sigma o)))

/-- `CircularGaussianEmission.prob_x_given_state` (recognition.py:60-76) of one example. -/
noncomputable def prob (em : Emission K O) (x : Nat → Fin O → ℝ) (n : Nat) (k : Fin K) : ℝ := density (em.mu k) (em.sigma k) (x n)

/-- Sum over the rows of all examples (`np.concatenate` and `sum(axis=0)`). -/
def total {α : Type} (ex : List (Nat × α)) (f : Nat × α → Nat → ℝ) : ℝ := (ex.map fun e => ∑ n ∈ range e.1, f e n).sum

/-- `CircularGaussianEmission.update_parameters` (recognition.py:43-51); `g` is `gamma` of each of the examples. -/
noncomputable def updateEmission (ex : List (Example O)) (g : Example O → Nat → Fin K → ℝ) : Emission K O :=
  let Z := fun k => total ex fun e n => g e n k
  let mu := fun k o => (total ex fun e n => e.2 n o * g e n k) / Z k
  ⟨mu, fun k o => (total ex fun e n => (e.2 n o - mu k o) ^ 2 * g e n k) / Z k⟩

/-- The state of the training: chain and emission. -/
abbrev Params (K O : Nat) := Chain K × Emission K O

/-- Log-likelihood of the examples (recognition.py:256). -/
noncomputable def logLik (s : Params K O) (ex : List (Example O)) : ℝ := (ex.map fun e => loglikelihood s.1 (prob s.2 e.2) e.1).sum

/-- One iteration of the loop of `fit` (recognition.py:231-276). -/
noncomputable def emStep (s : Params K O) (ex : List (Example O)) : Params K O :=
  (updateChain s.1 (ex.map fun e => (e.1, prob s.2 e.2)), updateEmission ex fun e => gamma s.1 (prob s.2 e.2) e.1)

/-- Normalisation of the chain (recognition.py:197-200, 222-225). -/
noncomputable def normalise (h : Chain K) : Chain K := ⟨fun i j => h.A i j / ∑ j, h.A i j, fun k => h.pi k / ∑ j, h.pi j⟩

open Classical in
/-- The loop of `fit` (recognition.py:227-299): number of iterations and final parameters; `old` is `loglikelihood_old` (`none` for minus
infinity) and the result `none` stands for a loop that has not ended after `fuel` iterations. -/
noncomputable def fitLoop (ex : List (Example O)) (tol : ℝ) (max_iter : Int) : Nat → Params K O → Option ℝ → Nat → Option (Nat × Params K O)
  | 0, _, _, _ => none
  | fuel + 1, s, old, n_iter =>
    let ll := logLik s ex
    let s' := emStep s ex
    let n_iter := n_iter + 1
    if ∃ o, old = some o ∧ ll - o < tol then some (n_iter, s')
    else if (n_iter : Int) = max_iter then some (n_iter, s')
    else fitLoop ex tol max_iter fuel s' (some ll) n_iter

/-- `HMM.fit` (recognition.py:202-299). -/
noncomputable def fit (ex : List (Example O)) (tol : ℝ) (max_iter : Int) (fuel : Nat) (s : Params K O) : Option (Nat × Params K O) :=
  fitLoop ex tol max_iter fuel (normalise s.1, s.2) none 0

/-- The transition matrix of a left-right model before the normalisation (recognition.py:187-195), with the random numbers `u`; the initial distribution
is one in state 0. -/
noncomputable def leftRight (u : Fin K → Fin K → ℝ) (jump : Nat) : Chain K :=
  let A := fun i j : Fin K => if i ≤ j ∧ (j : Nat) ≤ (i : Nat) + jump then u i j else 0
  ⟨fun i j => A i j + if i = j then (∑ l, A i l) * 2 else 0, fun k => if (k : Nat) = 0 then 1 else 0⟩

end Verif.Hmm
