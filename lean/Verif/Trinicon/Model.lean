import Verif.Py
import Mathlib.Analysis.SpecialFunctions.Exp
import Mathlib.Algebra.BigOperators.Fin
import Mathlib.Data.List.GetD

/-!
# TRINICON (`bss/trinicon.py` 25-191)

Arrays of a fixed shape are functions on `Fin`, arrays that are cut are lists. Numbers are exact; `scipy.signal.fftconvolve` is the convolution. A division by zero is an error (numpy gives `nan`).
-/

namespace Verif.Trinicon

open Py

variable {P L : ℕ}

/-- The assignment of a list to an array of length `n` (or the addition to it): a list of length one is broadcast. -/
def toArr (n : ℕ) (l : List ℝ) : Except Err (Fin n → ℝ) :=
  if l.length = n then .ok fun i => l.getD i 0 else if l.length = 1 then .ok fun _ => l.getD 0 0 else .error .valueError

/-- A loop that fills an array. -/
def allFin {α : Type} : {n : ℕ} → (Fin n → Except Err α) → Except Err (Fin n → α)
  | 0, _ => .ok Fin.elim0
  | _ + 1, f => do
    let a ← f 0
    let r ← allFin fun i => f i.succ
    return Fin.cons a r

/-- A loop `acc += f(i)` over arrays of length `n`. -/
def sumFin {m n : ℕ} (f : Fin m → Except Err (Fin n → ℝ)) : Except Err (Fin n → ℝ) := do
  let c ← allFin f
  return fun k => ∑ i, c i k

/-- `fftconvolve(a, b, mode="full")`. -/
noncomputable def conv (a b : List ℝ) : List ℝ :=
  (List.range (a.length + b.length - 1)).map fun k => ∑ i ∈ Finset.range a.length, ∑ j ∈ Finset.range b.length, if i + j = k then a.getD i 0 * b.getD j 0 else 0

/-- `fftconvolve(a, b, mode="valid")`: the centred part without any influence of the borders. -/
noncomputable def convValid (a b : List ℝ) : List ℝ := ((conv a b).drop (min a.length b.length - 1)).take (max a.length b.length - min a.length b.length + 1)

/-- The parameters. -/
structure Par where
  /-- `n_blocks`. -/
  K : ℕ
  /-- `N` (84-87). -/
  N : ℕ
  /-- `alpha_on`. -/
  alpha : ℕ
  /-- `j_max`. -/
  jMax : ℕ
  /-- `delta_max`. -/
  deltaMax : ℝ
  /-- `sigma2_0`. -/
  sigma0 : ℝ
  /-- `mu`. -/
  mu : ℝ
  /-- `lambd_a`. -/
  lam : ℝ

/-- The demixing filters. -/
abbrev Filters (P L : ℕ) := Fin P → Fin 2 → Fin L → ℝ

/-- `y_c[q, :]` (131-136). -/
noncomputable def chunkOut (par : Par) (x : Fin P → List ℝ) (w : Filters P L) (q : Fin 2) : Except Err (Fin (par.K * L + par.N - L) → ℝ) :=
  sumFin fun p => toArr _ (slice (convValid (x p) (List.ofFn (w p q))) (some 1) none)

/-- `y_c[q, i * L : i * L + N]` (140, 149, 150). -/
def block (par : Par) (L : ℕ) {n : ℕ} (y : Fin n → ℝ) (i : Fin par.K) : List ℝ := slice (List.ofFn y) (some ((i : ℕ) * L : ℕ)) (some ((i : ℕ) * L + par.N : ℕ))

/-- `r_cross[0, i, :]` (149-152). -/
noncomputable def cross0 (par : Par) (L : ℕ) (b0 b1 : List ℝ) : Except Err (Fin (2 * L - 1) → ℝ) :=
  toArr _ (slice (conv b1 b0.reverse) (some ((par.N : ℤ) - L)) (some ((par.N : ℤ) + L - 1)))

/-- `r_cross[q, i, :]` (152-155). -/
def crossOf {n : ℕ} (c : Fin n → ℝ) (q : Fin 2) : Fin n → ℝ := if q = 0 then c else fun s => c s.rev

/-- The denominator `sigma2[q, i] + delta[q, i]` (143, 158, 167). -/
noncomputable def denom (par : Par) (b : Fin par.N → ℝ) : Except Err ℝ :=
  if par.sigma0 = 0 then .error .zeroDivision
  else if ∑ n, b n ^ 2 + par.deltaMax * Real.exp (-(∑ n, b n ^ 2) / par.sigma0) = 0 then .error .zeroDivision
  else .ok (∑ n, b n ^ 2 + par.deltaMax * Real.exp (-(∑ n, b n ^ 2) / par.sigma0))

/-- A term of `delta_w[p, q, :]` (166-170). -/
noncomputable def term (c : Fin (2 * L - 1) → ℝ) (d : ℝ) (w : Fin L → ℝ) : Except Err (Fin L → ℝ) :=
  toArr _ (convValid (List.ofFn fun s => c s / d) (List.ofFn w).reverse).reverse

/-- A turn of the offline loop (126-173). -/
noncomputable def offline (par : Par) (x : Fin P → List ℝ) (w : Filters P L) : Except Err (Filters P L) := do
  let y ← allFin (chunkOut par x w)
  let b ← allFin fun q => allFin fun i => toArr par.N (block par L (y q) i)
  let c ← allFin fun i => cross0 par L (block par L (y 0) i) (block par L (y 1) i)
  let d ← allFin fun q => allFin fun i => denom par (b q i)
  let dw ← allFin fun p => allFin fun q => sumFin fun i => term (crossOf (c i) q) (d q i) (w p (1 - q))
  return fun p q k => w p q k - par.mu * (dw p q k / par.K)

/-- `j_max` turns. -/
noncomputable def offlines (par : Par) (x : Fin P → List ℝ) : ℕ → Filters P L → Except Err (Filters P L)
  | 0, w => .ok w
  | n + 1, w => do
    let w' ← offline par x w
    offlines par x n w'

/-- The new chunk (110-121). The branch `m * hop > S` (111-114) is not modelled; it is an error here. -/
def chunk (par : Par) (L : ℕ) (sig : Fin P → List ℝ) (S hop m : ℕ) : Except Err (Fin P → List ℝ) :=
  if S < m * hop then .error .valueError
  else if par.K * L + par.N ≤ m * hop then .ok fun p => slice (sig p) (some ((m * hop : ℕ) - par.K * L - par.N : ℤ)) (some (m * hop : ℕ))
  else .ok fun p => List.replicate (par.K * L + par.N - m * hop) 0 ++ slice (sig p) none (some (m * hop : ℕ))

/-- The outputs of a block (179-183). -/
noncomputable def outputs (hop : ℕ) (x : Fin P → List ℝ) (w : Filters P L) : Except Err (Fin 2 → Fin hop → ℝ) :=
  allFin fun q => sumFin fun p => toArr hop (convValid (slice (x p) (some (-(hop : ℤ) - L + 1)) none) (List.ofFn (w p q)))

/-- A pass of the online loop (107-186) for the block `m`; the state is the filters and the output signals. -/
noncomputable def online (par : Par) (sig : Fin P → List ℝ) (S hop : ℕ) (st : Filters P L × (Fin 2 → Fin S → ℝ)) (m : ℕ) : Except Err (Filters P L × (Fin 2 → Fin S → ℝ)) := do
  let x ← chunk par L sig S hop m
  let wNew ← offlines par x par.jMax st.1
  let w : Filters P L := fun p q l => par.lam * st.1 p q l + (1 - par.lam) * wNew p q l
  let v ← outputs hop x w
  return (w, fun q t => if h : (m - 1) * hop ≤ t ∧ (t : ℕ) - (m - 1) * hop < hop then st.2 q t + v q ⟨t - (m - 1) * hop, h.2⟩ else st.2 q t)

/-- The initial filters (73-76). -/
def initial (P L : ℕ) : Filters P L := fun p q l => if (l : ℕ) = L / 2 ∧ ((p : ℕ) < P / 2 ↔ q = 0) then 1 else 0

/-- The length of the padded signals (94-100): `signals.shape[0]` is the number of microphones. -/
def padded (P S0 hop : ℕ) : ℕ := if S0 % hop ≠ 0 then S0 + (hop - P % hop) else S0

/-- `trinicon` (25-191). -/
noncomputable def trinicon (par : Par) (w0 : Option (Filters P L)) {S0 : ℕ} (signals : Fin P → Fin S0 → ℝ) :
    Except Err ((Fin 2 → Fin (padded P S0 (par.K * L / par.alpha)) → ℝ) × Filters P L) := do
  if L = 0 then throw .indexError
  if par.alpha = 0 then throw .zeroDivision
  if par.K * L / par.alpha = 0 then throw .zeroDivision
  let hop := par.K * L / par.alpha
  let sig := fun p => List.ofFn (signals p) ++ List.replicate (padded P S0 hop - S0) 0
  let st ← (List.range (padded P S0 hop / hop)).foldlM (fun st m => online par sig (padded P S0 hop) hop st (m + 1)) (w0.getD (initial P L), fun _ _ => 0)
  return (st.2, st.1)

end Verif.Trinicon
