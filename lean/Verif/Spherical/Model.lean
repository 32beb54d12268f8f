import Mathlib.MeasureTheory.Measure.Lebesgue.Basic
import Mathlib.Analysis.SpecialFunctions.Gamma.Basic
import Mathlib.Analysis.SpecialFunctions.Pow.Real
import Verif.Py

/-!
# Random directions and the seeds of the package

Model of the package `pyroomacoustics/random` (except the rejection sampler, which is in
`Verif.Random`): `uniform_spherical` and `power_spherical`, the distributions
`UniformSpherical` and `PowerSpherical`, and the generator shared by the package.

Vectors are functions from the coordinates to the reals. Arrays of samples are drawn in one
call of the generator; the functions below are what is done with the numbers drawn for one
sample, the shapes being in `shape`.
-/

namespace Verif.Spherical

open Verif.Py

/-- The argument `size`: absent, one number, or a tuple. -/
inductive Size where
  | none
  | num (n : ℕ)
  | tuple (s : List ℕ)

/-- The shape of the array of the samples (random/spherical.py:27-32 and 80-85). -/
def shape (dim : ℕ) : Size → List ℕ
  | .none => [dim]
  | .num n => [n, dim]
  | .tuple s => s ++ [dim]

/-- The shape with which the samples of the first coordinate are drawn, `size[:-1]`
(random/spherical.py:93). -/
def betaShape (dim : ℕ) (s : Size) : List ℕ := (shape dim s).dropLast

/-- The shape with which the other coordinates are drawn: a call of `uniform_spherical`
with the list `size[:-1]` and one dimension less (random/spherical.py:94). -/
def restShape (dim : ℕ) (s : Size) : List ℕ := shape (dim - 1) (.tuple (betaShape dim s))

/-- The euclidean norm, `np.linalg.norm`. -/
noncomputable def nrm {d : ℕ} (x : Fin d → ℝ) : ℝ := √(∑ i, x i ^ 2)

/-- `uniform_spherical` on the normal numbers `x` drawn for one sample
(random/spherical.py:37-38). When they all are zero the code gives NaN; this has probability
zero and the division by zero here gives zero. -/
noncomputable def uniform {d : ℕ} (x : Fin d → ℝ) : Fin d → ℝ := fun i => x i / nrm x

/-- The first vector of the canonical basis (random/spherical.py:76-77). -/
def e1 {n : ℕ} : Fin (n + 1) → ℝ := Fin.cons 1 fun _ => 0

/-- `power_spherical` on the numbers drawn for one sample: `z` from the beta distribution and
`v` from `uniform_spherical` in one dimension less (random/spherical.py:96-107). `eps` is the
constant `_eps` (random/spherical.py:5). -/
noncomputable def power (eps : ℝ) {n : ℕ} (loc : Fin (n + 1) → ℝ) (z : ℝ) (v : Fin n → ℝ) :
    Fin (n + 1) → ℝ :=
  let t := 2 * z - 1
  let y : Fin (n + 1) → ℝ := Fin.cons t fun i => √(1 - t ^ 2) * v i
  let uHat : Fin (n + 1) → ℝ := fun i => e1 i - loc i
  let u : Fin (n + 1) → ℝ := fun i => uHat i / (nrm uHat + eps)
  fun i => y i - 2 * u i * ∑ j, u j * y j

/-- The parameters of the beta distribution (random/spherical.py:93); `dim` is the
dimension of the location. -/
noncomputable def betaParams (dim : ℕ) (scale : ℝ) : ℝ × ℝ :=
  (((dim : ℝ) - 1) / 2 + scale, ((dim : ℝ) - 1) / 2)

/-- The constant `_eps` of the module (random/spherical.py:5). -/
noncomputable def epsConst : ℝ := 1 / 10 ^ 7

/-- The area kept by `UniformSpherical` (random/distributions.py:66-70). -/
noncomputable def area (dim : ℕ) : ℝ :=
  dim * Real.pi ^ ((dim : ℝ) / 2) / Real.Gamma ((dim : ℝ) / 2 + 1)

/-- `UniformSpherical.pdf` (random/distributions.py:76-78); constant. -/
noncomputable def uniformPdf (dim : ℕ) : ℝ := 1 / area dim

/-- An object `PowerSpherical` (random/distributions.py:94-132). -/
structure Dist (d : ℕ) where
  loc : Fin d → ℝ
  scale : ℝ
  zInv : ℝ

/-- The normalising constant (random/distributions.py:125-132). -/
noncomputable def invZ (dim : ℕ) (scale : ℝ) : ℝ :=
  let a := ((dim : ℝ) - 1) / 2 + scale
  let b := ((dim : ℝ) - 1) / 2
  1 / (2 ^ (a + b) * Real.pi ^ b * Real.Gamma a / Real.Gamma (a + b))

/-- `PowerSpherical.__init__` (random/distributions.py:95-132). `ndim` is the number of axes
of the array given as the location. -/
noncomputable def Dist.new {d : ℕ} (ndim : ℕ) (loc : Fin d → ℝ) (scale : Option ℝ) :
    Except Err (Dist d) :=
  if ndim ≠ 1 then .error .valueError
  else
    match scale with
    | some s =>
      if 0 < s then
        if 1 / 10 ^ 5 < |nrm loc - 1| then .error .valueError
        else .ok { loc := loc, scale := s, zInv := invZ d s }
      else .error .valueError
    | none =>
      if 1 / 10 ^ 5 < |nrm loc - 1| then .error .valueError
      else .ok { loc := loc, scale := 1, zInv := invZ d 1 }

/-- `PowerSpherical.pdf` at one point (random/distributions.py:147-151). -/
noncomputable def Dist.pdf {d : ℕ} (D : Dist d) {k : ℕ} (x : Fin k → ℝ) : Except Err ℝ :=
  if h : k = d then .ok (D.zInv * (1 + ∑ i, x (Fin.cast h.symm i) * D.loc i) ^ D.scale)
  else .error .assertionError

/-! ## The generator shared by the package -/

/-- What is used of the numpy generators (type `Gen`, seeds of type `Seed`) and of the C++
engine (type `Eng`): creation from a seed, the draw of an integer below `2 ** 64 - 1`, and
the state in which the engine starts (libroom_src/random.hpp:35-38). -/
structure Lib (Gen Eng Seed : Type) where
  ofSeed : Seed → Gen
  integers : Gen → ℕ × Gen
  engine : ℕ → Eng
  start : Eng

/-- The state: the variable `_rng` of the module (random/generator.py:43), the engine of the
C++ code, and the generators that `default_rng()` will give, made from the entropy of the
system. -/
structure World (Gen Eng : Type) where
  rng : Option Gen
  eng : Eng
  fresh : ℕ → Gen

variable {Gen Eng Seed : Type}

/-- `default_rng()` without a seed. -/
def World.take (w : World Gen Eng) : Gen × World Gen Eng :=
  (w.fresh 0, { w with fresh := fun i => w.fresh (i + 1) })

/-- `_set_libroom_seed` once the generator exists (random/generator.py:53-56). -/
def setLibroom (L : Lib Gen Eng Seed) (libroom : Option ℕ) (g : Gen) (w : World Gen Eng) :
    World Gen Eng :=
  match libroom with
  | some l => { w with rng := some g, eng := L.engine l }
  | none => { w with rng := some (L.integers g).2, eng := L.engine (L.integers g).1 }

/-- `seed` (random/generator.py:67-84). -/
def seed (L : Lib Gen Eng Seed) (numpy : Option Seed) (libroom : Option ℕ) (w : World Gen Eng) :
    World Gen Eng :=
  match numpy with
  | some s => setLibroom L libroom (L.ofSeed s) w
  | none => setLibroom L libroom w.take.1 w.take.2

/-- `get_rng` (random/generator.py:59-64): the generator, after which the state has it. -/
def getRng (L : Lib Gen Eng Seed) (w : World Gen Eng) : Gen × World Gen Eng :=
  match w.rng with
  | some g => (g, w)
  | none =>
    let w' := seed L none none w
    match w'.rng with
    | some g => (g, w')
    | none => (w.take.1, w')

/-- A draw from the generator of the package, by any of its methods. -/
def draw {α : Type} (L : Lib Gen Eng Seed) (f : Gen → α × Gen) (w : World Gen Eng) :
    α × World Gen Eng :=
  let (g, w') := getRng L w
  ((f g).1, { w' with rng := some (f g).2 })

/-- A draw of the C++ engine (libroom_src/random.hpp:45-48, wall.cpp:343-344). -/
def engDraw {α : Type} (f : Eng → α × Eng) (w : World Gen Eng) : α × World Gen Eng :=
  ((f w.eng).1, { w with eng := (f w.eng).2 })

/-- What a program does with random numbers. -/
inductive Op (Gen Eng Seed : Type) where
  | seed (numpy : Option Seed) (libroom : Option ℕ)
  | numpy (f : Gen → ℝ × Gen)
  | libroom (f : Eng → ℝ × Eng)

/-- One step, with the number it gives. -/
def step (L : Lib Gen Eng Seed) (w : World Gen Eng) : Op Gen Eng Seed → Option ℝ × World Gen Eng
  | .seed n l => (none, seed L n l w)
  | .numpy f => let r := draw L f w; (some r.1, r.2)
  | .libroom f => let r := engDraw f w; (some r.1, r.2)

/-- A program: the numbers it gives and the state at its end. -/
def run (L : Lib Gen Eng Seed) : List (Op Gen Eng Seed) → World Gen Eng → List (Option ℝ) × World Gen Eng
  | [], w => ([], w)
  | o :: os, w =>
    let r := step L w o
    let q := run L os r.2
    (r.1 :: q.1, q.2)

/-- The draws `power_spherical` makes for one sample: `z` from the generator it is given (or
that of the package), and `v` always from that of the package, because the call of
`uniform_spherical` is without the argument `rng` (random/spherical.py:90-94). The state of a
generator that was given comes back. -/
def powerDraws {n : ℕ} (L : Lib Gen Eng Seed) (beta : Gen → ℝ × Gen)
    (normal : Gen → (Fin n → ℝ) × Gen) (rng : Option Gen) (w : World Gen Eng) :
    (ℝ × (Fin n → ℝ)) × Option Gen × World Gen Eng :=
  match rng with
  | some g =>
    let r := draw L normal w
    (((beta g).1, r.1), some (beta g).2, r.2)
  | none =>
    let q := draw L beta w
    let r := draw L normal q.2
    ((q.1, r.1), none, r.2)

end Verif.Spherical
