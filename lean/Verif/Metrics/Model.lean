import Verif.Py
import Mathlib.Data.List.Sort
import Mathlib.Analysis.Real.Sqrt
import Mathlib.Algebra.Order.Floor.Ring
import Mathlib.Algebra.BigOperators.Ring.Finset
import Mathlib.Analysis.SpecialFunctions.Log.Basic

/-!
# Metrics

`/repo/pyroomacoustics/metrics.py` 17-125 (`median`), 128-143 (`mse`), 164-165 (`snr`), 273-328 (`sweeping_echo_measure`, the frequency labels and the
flatness). Numbers are exact. `median` is modelled for one-dimensional arrays: for others, it does the same along one axis. The binomial distribution of
`scipy.stats` is exact; the quantile function of the normal distribution is an argument. `itakura_saito` (it calls a module) and the call of the program
PESQ are left out.
-/

namespace Verif.Metrics

open Verif.Py

/-- `np.sort`. -/
noncomputable def sorted (x : List ℝ) : List ℝ := x.insertionSort (· ≤ ·)

/-- The median (40-49). -/
noncomputable def middle (x : List ℝ) : Except Err ℝ :=
  let n := x.length
  if n % 2 = 1 then get (sorted x) (n / 2 : Nat)
  else (get (sorted x) ((n / 2 : Nat) - 1 : Int)).bind fun a => (get (sorted x) (n / 2 : Nat)).map fun b => 0.5 * (a + b)

/-- `scipy.stats.binom(n, 0.5).cdf(k)`. -/
noncomputable def cdf (n : Nat) (k : Int) : ℝ := ∑ i ∈ Finset.range (n + 1), if (i : Int) ≤ k then (n.choose i : ℝ) / 2 ^ n else 0

open Classical in
/-- `int(scipy.stats.binom(n, 0.5).ppf(q))`: the smallest number of successes with a probability of at least `q`; -1 for `q = 0`, and not a number,
which cannot be converted, for other `q`. -/
noncomputable def ppf (n : Nat) (q : ℝ) : Except Err Int :=
  if 0 < q ∧ q ≤ 1 then .ok (sInf {k : Nat | q ≤ cdf n k} : Nat)
  else if q = 0 then .ok (-1) else .error .valueError

/-- Positions of the interval in small samples (64-79). -/
noncomputable def small (n : Nat) (alpha : ℝ) : Except Err (Int × Int) :=
  (ppf n (alpha / 2)).bind fun a => (ppf n (1 - alpha / 2)).bind fun b =>
    let j := a - 1
    let k := b - 1
    let k := if cdf n k - cdf n j < 1 - alpha then k + 1 else k
    if cdf n k - cdf n j < 1 - alpha then .error .assertionError
    else if j < 0 then .error .valueError else .ok (j, k)

/-- Positions of the interval in large samples (87-92); `eta` is the quantile of the normal distribution. -/
noncomputable def large (n : Nat) (eta : ℝ) : Int × Int :=
  (⌊0.5 * (n : ℝ) - 0.5 * eta * √n⌋ - 1, ⌈0.5 * (n : ℝ) + 0.5 * eta * √n⌉)

/-- Positions of the interval (60-92). `10 / alpha` and `10 / (2 - alpha)` are divisions of Python; the quantile of the normal distribution is not a number outside
of the interval from zero to one. -/
noncomputable def positions (normPpf : ℝ → ℝ) (n : Nat) (alpha : ℝ) : Except Err (Int × Int) :=
  if alpha = 0 ∨ alpha = 2 then .error .zeroDivision
  else if (n : ℝ) < max (10 / alpha) (10 / (2 - alpha)) then small n alpha
  else if 0 < alpha ∧ alpha < 2 then .ok (large n (normPpf (1 - alpha / 2))) else .error .valueError

/-- `median(x, alpha)` (17-125): the median and the two numbers of the interval. -/
noncomputable def median (normPpf : ℝ → ℝ) (x : List ℝ) (alpha : ℝ) : Except Err (ℝ × ℝ × ℝ) :=
  (middle x).bind fun m => (positions normPpf x.length alpha).bind fun p =>
    (get (sorted x) p.1).bind fun a => (get (sorted x) p.2).map fun b => (m, a - m, b - m)

/-- `mse(x1, x2)` (128-143) of signals of the same length; no number for empty signals. -/
noncomputable def mse (x1 x2 : List ℝ) : Option ℝ :=
  if x1 = [] then none else some ((List.zipWith (fun a b => |a - b| ^ 2) x1 x2).sum / x1.length)

/-- `snr(ref, deg)` (164-165); not finite if the signals are the same. -/
noncomputable def snr (ref deg : List ℝ) : Option ℝ :=
  let e := (List.zipWith (fun a b => (a - b) ^ 2) ref deg).sum
  if e = 0 then none else some ((ref.map (· ^ 2)).sum / e)

open Classical in
/-- The last line of `sweeping_echo_measure` (326): geometric mean over arithmetic mean; no number if there is none or all are zero. The logarithm of zero is
minus infinity, of which the exponential is zero. -/
noncomputable def flatness (ss : List ℝ) : Option ℝ :=
  if ∀ s ∈ ss, s = 0 then none
  else if (0 : ℝ) ∈ ss then some 0
  else some (Real.exp ((ss.map fun s => Real.log |s|).sum / ss.length) / ((ss.map fun s => |s|).sum / ss.length))

/-- The label of bin `i` in `sweeping_echo_measure` (282-292): `numpy.linspace(0, fs / 2, nFreqs)` where `nFreqs` is half of the number of bins of the transform. -/
noncomputable def binLabel (bins : Nat) (fs : ℝ) (i : Nat) : ℝ := (i : ℝ) * (fs / 2) / (((bins / 2 : Nat) : ℝ) - 1)

end Verif.Metrics
