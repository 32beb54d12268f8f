import Verif.FastMnmf.Model

/-!
# Model of FastMNMF2

`fastmnmf2` (`pyroomacoustics/bss/fastmnmf2.py:30-197`) is FastMNMF with diagonals that are the same for all frequencies. What is written in the same way in both files is taken from the model of
`fastmnmf`; `wide` turns the diagonals into an array over the frequencies.

Simplifications: as for `fastmnmf`. A singular matrix raises `LinAlgError` here, which is `none` like a division by zero.
-/

namespace Verif.FastMnmf2

open Matrix Verif.AuxIva Verif.FastMnmf

variable {N F T M K : ℕ}

/-- The arrays. -/
structure State (N F T M K : ℕ) where
  /-- `Q_FMM`. -/
  Q : Fin F → Matrix (Fin M) (Fin M) ℂ
  /-- `g_NM`. -/
  g : Fin N → Fin M → ℝ
  /-- `W_NFK`. -/
  W : Fin N → Fin F → Fin K → ℝ
  /-- `H_NKT`. -/
  H : Fin N → Fin K → Fin T → ℝ
  /-- `lambda_NFT`. -/
  lam : Fin N → Fin F → Fin T → ℝ
  /-- `Qx_power_FTM`. -/
  P : Fin F → Fin T → Fin M → ℝ
  /-- `Y_FTM`. -/
  Y : Fin F → Fin T → Fin M → ℝ

/-- The diagonals for every frequency. -/
def wide (g : Fin N → Fin M → ℝ) : Fin N → Fin F → Fin M → ℝ := fun n _ m => g n m

/-- `np.einsum("nft, nm -> ftm", lambda_NFT, g_NM) + eps` (fastmnmf2.py:147, 154, 160, 195; without `eps` in line 109). -/
def yOf2 (e : ℝ) (lam : Fin N → Fin F → Fin T → ℝ) (g : Fin N → Fin M → ℝ) (f : Fin F) (t : Fin T) (m : Fin M) : ℝ := ∑ n, lam n f t * g n m + e

/-- The update of the basis, with the two products that belong to it (fastmnmf2.py:135-141). -/
noncomputable def basis (st : State N F T M K) : Option (State N F T M K) := do
  check (Fine st.Y)
  check (∀ n f k, denW 0 st.H (tmp2 (wide st.g) st.Y) n f k ≠ 0)
  some { st with W := stepW 0 st.W st.H (tmp1 (wide st.g) st.P st.Y) (tmp2 (wide st.g) st.Y) }

/-- What is recomputed unless `accelerate` is set: first `tmp1_NFT` and `tmp2_NFT`, and then what they depend on (fastmnmf2.py:143-147). -/
noncomputable def refresh (e : ℝ) (acc : Bool) (st : State N F T M K) : State N F T M K × (Fin N → Fin F → Fin T → ℝ) × (Fin N → Fin F → Fin T → ℝ) :=
  if acc then (st, tmp1 (wide st.g) st.P st.Y, tmp2 (wide st.g) st.Y)
  else ({ st with lam := lamOf e st.W st.H, Y := yOf2 e (lamOf e st.W st.H) st.g }, tmp1 (wide st.g) st.P st.Y, tmp2 (wide st.g) st.Y)

/-- The update of the activations (fastmnmf2.py:149-154). -/
noncomputable def activations (e : ℝ) (st : State N F T M K) (t1 t2 : Fin N → Fin F → Fin T → ℝ) : Option (State N F T M K) := do
  check (∀ n k t, denH 0 st.W t2 n k t ≠ 0)
  let H := stepH 0 st.W st.H t1 t2
  some { st with H := H, lam := lamOf e st.W H, Y := yOf2 e (lamOf e st.W H) st.g }

/-- The denominator for the diagonals (fastmnmf2.py:158). -/
noncomputable def den (lam : Fin N → Fin F → Fin T → ℝ) (Y : Fin F → Fin T → Fin M → ℝ) (n : Fin N) (m : Fin M) : ℝ := ∑ f, ∑ t, lam n f t * (1 / Y f t m)

/-- The new diagonals (fastmnmf2.py:157-159). -/
noncomputable def stepg (g : Fin N → Fin M → ℝ) (lam : Fin N → Fin F → Fin T → ℝ) (P Y : Fin F → Fin T → Fin M → ℝ) (n : Fin N) (m : Fin M) : ℝ :=
  g n m * Real.sqrt ((∑ f, ∑ t, lam n f t * (P f t m / Y f t m ^ 2)) / den lam Y n m)

/-- The update of the diagonals (fastmnmf2.py:156-160). -/
noncomputable def diagonals (e : ℝ) (st : State N F T M K) : Option (State N F T M K) := do
  check (Fine st.Y)
  check (∀ n m, den st.lam st.Y n m ≠ 0)
  let g := stepg st.g st.lam st.P st.Y
  some { st with g := g, Y := yOf2 e st.lam g }

/-- The solution of one system (fastmnmf2.py:168-170). -/
noncomputable def sol (A V : Matrix (Fin M) (Fin M) ℂ) (m : Fin M) : Fin M → ℂ := (A * V)⁻¹ *ᵥ Pi.single m 1

/-- The update of one row of the diagonalizer (fastmnmf2.py:164-177). -/
noncomputable def qRow (X : Fin T → Fin F → Fin M → ℂ) (st : State N F T M K) (m : Fin M) : Option (State N F T M K) := do
  check (∀ f t, st.Y f t m ≠ 0)
  check (∀ f, IsUnit (st.Q f * covOf X st.Y m f).det)
  check (∀ f, scaleOf 0 (covOf X st.Y m f) (sol (st.Q f) (covOf X st.Y m f) m) ≠ 0)
  let Q : Fin F → Matrix (Fin M) (Fin M) ℂ := fun f => (st.Q f).updateRow m fun c =>
    star (sol (st.Q f) (covOf X st.Y m f) m c / scaleOf 0 (covOf X st.Y m f) (sol (st.Q f) (covOf X st.Y m f) m))
  some { st with Q := Q, P := powOf Q X }

/-- The normalization of the diagonalizer (fastmnmf2.py:181-183). -/
noncomputable def normQ (st : State N F T M K) : Option (State N F T M K) := do
  check (∀ f, phiOf st.Q f ≠ 0)
  some { st with Q := fun f => .of fun i j => st.Q f i j / (Real.sqrt (phiOf st.Q f) : ℂ), W := fun n f k => st.W n f k / phiOf st.Q f }

/-- The normalization of the diagonals (fastmnmf2.py:185-187). -/
noncomputable def normg (st : State N F T M K) : Option (State N F T M K) := do
  check (∀ n, ∑ m, st.g n m ≠ 0)
  some { st with g := fun n m => st.g n m / ∑ m, st.g n m, W := fun n f k => st.W n f k * ∑ m, st.g n m }

/-- The normalization of the basis (fastmnmf2.py:189-191). -/
noncomputable def normW (st : State N F T M K) : Option (State N F T M K) := do
  check (∀ n k, ∑ f, st.W n f k ≠ 0)
  some { st with W := fun n f k => st.W n f k / ∑ f, st.W n f k, H := fun n k t => st.H n k t * ∑ f, st.W n f k }

/-- The derived arrays (fastmnmf2.py:107-109, where `eps` is zero, and 193-195). -/
noncomputable def derive (e : ℝ) (X : Fin T → Fin F → Fin M → ℂ) (st : State N F T M K) : State N F T M K :=
  { st with lam := lamOf e st.W st.H, P := powOf st.Q X, Y := yOf2 e (lamOf e st.W st.H) st.g }

/-- The normalization (fastmnmf2.py:179-195). -/
noncomputable def normalize (e : ℝ) (X : Fin T → Fin F → Fin M → ℂ) (st : State N F T M K) : Option (State N F T M K) := do
  let a ← normQ st
  let b ← normg a
  let c ← normW b
  some (derive e X c)

/-- The normalization takes place in every tenth epoch (fastmnmf2.py:180). -/
noncomputable def normalizeAt (e : ℝ) (X : Fin T → Fin F → Fin M → ℂ) (epoch : ℕ) (st : State N F T M K) : Option (State N F T M K) := if epoch % 10 = 0 then normalize e X st else some st

/-- One epoch (fastmnmf2.py:131-195). -/
noncomputable def epoch (e : ℝ) (acc : Bool) (X : Fin T → Fin F → Fin M → ℂ) (st : State N F T M K) (i : ℕ) : Option (State N F T M K) := do
  let a ← basis st
  let b ← activations e (refresh e acc a).1 (refresh e acc a).2.1 (refresh e acc a).2.2
  let c ← diagonals e b
  let d ← (List.finRange M).foldlM (qRow X) c
  normalizeAt e X i d

/-- The epochs before the given one (fastmnmf2.py:131-195). -/
noncomputable def epochs (e : ℝ) (acc : Bool) (X : Fin T → Fin F → Fin M → ℂ) (st : State N F T M K) : ℕ → Option (State N F T M K)
  | 0 => some st
  | i + 1 => do
    let a ← epochs e acc X st i
    epoch e acc X a i

/-- The first diagonals (fastmnmf2.py:97-99). -/
noncomputable def gInit2 (ge : ℝ) (n : Fin N) (m : Fin M) : ℝ := if n.val = m.val % N then 1 else ge

/-- The state before the first epoch (fastmnmf2.py:92-109). -/
noncomputable def start (ge : ℝ) (X : Fin T → Fin F → Fin M → ℂ) (W0 : Option (Fin F → Matrix (Fin M) (Fin M) ℂ)) (rW : Fin N → Fin F → Fin K → ℝ) (rH : Fin N → Fin K → Fin T → ℝ) :
    Option (State N F T M K) := do
  let Q ← unitRows (W0.getD fun _ => 1)
  some (derive 0 X { Q := Q, g := gInit2 ge, W := rW, H := rH, lam := fun _ _ _ => 0, P := fun _ _ _ => 0, Y := fun _ _ _ => 0 })

/-- The images for all microphones (fastmnmf2.py:112, 114-119). -/
noncomputable def imagesOf2 (X : Fin T → Fin F → Fin M → ℂ) (st : State N F T M K) (i : Fin M) (t : Fin T) (f : Fin F) (n : Fin N) : ℂ :=
  ∑ j, (st.Q f)⁻¹ i j * ((∑ c, st.Q f j c * X t f c) / ((∑ n, st.lam n f t * st.g n j : ℝ) : ℂ)) * ((st.lam n f t * st.g n j : ℝ) : ℂ)

/-- `separate` after the inversion, which raises for a singular matrix (fastmnmf2.py:111-128). -/
noncomputable def separate (X : Fin T → Fin F → Fin M → ℂ) (mic : Mic) (st : State N F T M K) : Option (Except Py.Err (Images N F T M)) := do
  check (∀ f, IsUnit (st.Q f).det)
  match mic with
  | .all => some (.ok (.all (imagesOf2 X st)))
  | .int i =>
    match Py.normIdx M i with
    | none => some (.error .indexError)
    | some k => if h : k < M then some (.ok (.one (imagesOf2 X st ⟨k, h⟩))) else some (.error .indexError)
  | .other => some (.error .valueError)

/-- `eps` (fastmnmf2.py:78). -/
noncomputable def eps2 : ℝ := 1 / 10000000000

/-- `fastmnmf2` with `W0`: what is returned and what the array of the caller holds afterwards (fastmnmf2.py:30-197). -/
noncomputable def fastmnmf2 (acc : Bool) (mic : Mic) (X : Fin T → Fin F → Fin M → ℂ) (W0 : Option (Fin F → Matrix (Fin M) (Fin M) ℂ)) (rW : Fin N → Fin F → Fin K → ℝ)
    (rH : Fin N → Fin K → Fin T → ℝ) (iters : ℕ) : Option (Except Py.Err (Images N F T M) × (Fin F → Matrix (Fin M) (Fin M) ℂ)) := do
  let a ← start gEps X W0 rW rH
  let b ← epochs eps2 acc X a iters
  let z ← separate X mic b
  some (z, b.Q)

end Verif.FastMnmf2
