import Verif.Py
import Verif.AuxIva.Model

/-!
# Model of FastMNMF

`fastmnmf` (`pyroomacoustics/bss/fastmnmf.py:30-225`) models every source image by a covariance matrix that becomes diagonal under a matrix common to all sources, the spectrogram of every source
by a product of non-negative matrices, and estimates the images by a Wiener filter.

The state has a component for every array that lives from one epoch to the next, the derived ones (`lambda_NFT`, `Qx_power_FTM`, `Y_FTM`) too, because which of them are up to date matters.

Simplifications: arithmetic is exact; a division by zero, which gives NaN or infinity in the code, is `none`; the values of `np.random.rand` are parameters; `np.linalg.pinv` is a parameter; warnings
and the callback, which is given the images of the moment every ten epochs, are left out.
-/

namespace Verif.FastMnmf

open Matrix Verif.AuxIva

variable {N F T M K : ℕ}

open Classical in
/-- Stop when the condition does not hold. -/
noncomputable def check (p : Prop) : Option Unit := if p then some () else none

/-- The arrays. -/
structure State (N F T M K : ℕ) where
  /-- `Q_FMM`. -/
  Q : Fin F → Matrix (Fin M) (Fin M) ℂ
  /-- `G_NFM`. -/
  G : Fin N → Fin F → Fin M → ℝ
  /-- `W_NFK`. -/
  W : Fin N → Fin F → Fin K → ℝ
  /-- `H_NKT`. -/
  H : Fin N → Fin K → Fin T → ℝ
  /-- `lambda_NFT`. -/
  lam : Fin N → Fin F → Fin T → ℝ
  /-- `Qx_power_FTM`. -/
  P : Fin F → Fin T → Fin M → ℝ
  /-- `Y_FTM`. -/
  Y : Fin F → Fin T → Fin M → ℝ

/-- `W_NFK @ H_NKT + eps` (fastmnmf.py:105, 152, 161, 221). -/
def lamOf (e : ℝ) (W : Fin N → Fin F → Fin K → ℝ) (H : Fin N → Fin K → Fin T → ℝ) (n : Fin N) (f : Fin F) (t : Fin T) : ℝ := ∑ k, W n f k * H n k t + e

/-- `np.abs(np.einsum("fij, ftj -> fti", Q_FMM, X_FTM)) ** 2` (fastmnmf.py:106, 205, 222). -/
noncomputable def powOf (Q : Fin F → Matrix (Fin M) (Fin M) ℂ) (X : Fin T → Fin F → Fin M → ℂ) (f : Fin F) (t : Fin T) (m : Fin M) : ℝ := ‖∑ j, Q f m j * X t f j‖ ^ 2

/-- `np.einsum("nft, nfm -> ftm", lambda_NFT, G_NFM)` (fastmnmf.py:107, 153, 162, 168, 223). -/
def yOf (lam : Fin N → Fin F → Fin T → ℝ) (G : Fin N → Fin F → Fin M → ℝ) (f : Fin F) (t : Fin T) (m : Fin M) : ℝ := ∑ n, lam n f t * G n f m

/-- `tmp1_NFT` (fastmnmf.py:144, 155). -/
noncomputable def tmp1 (G : Fin N → Fin F → Fin M → ℝ) (P Y : Fin F → Fin T → Fin M → ℝ) (n : Fin N) (f : Fin F) (t : Fin T) : ℝ := ∑ m, G n f m * (P f t m / Y f t m ^ 2)

/-- `tmp2_NFT` (fastmnmf.py:145, 156). -/
noncomputable def tmp2 (G : Fin N → Fin F → Fin M → ℝ) (Y : Fin F → Fin T → Fin M → ℝ) (n : Fin N) (f : Fin F) (t : Fin T) : ℝ := ∑ m, G n f m * (1 / Y f t m)

/-- The denominator for the basis (fastmnmf.py:148). -/
def denW (e : ℝ) (H : Fin N → Fin K → Fin T → ℝ) (t2 : Fin N → Fin F → Fin T → ℝ) (n : Fin N) (f : Fin F) (k : Fin K) : ℝ := ∑ t, H n k t * t2 n f t + e

/-- The new basis (fastmnmf.py:147-149). -/
noncomputable def stepW (e : ℝ) (W : Fin N → Fin F → Fin K → ℝ) (H : Fin N → Fin K → Fin T → ℝ) (t1 t2 : Fin N → Fin F → Fin T → ℝ) (n : Fin N) (f : Fin F) (k : Fin K) : ℝ :=
  W n f k * Real.sqrt ((∑ t, H n k t * t1 n f t) / denW e H t2 n f k)

/-- The denominator for the activations (fastmnmf.py:158). -/
def denH (e : ℝ) (W : Fin N → Fin F → Fin K → ℝ) (t2 : Fin N → Fin F → Fin T → ℝ) (n : Fin N) (k : Fin K) (t : Fin T) : ℝ := ∑ f, W n f k * t2 n f t + e

/-- The new activations (fastmnmf.py:157-159). -/
noncomputable def stepH (e : ℝ) (W : Fin N → Fin F → Fin K → ℝ) (H : Fin N → Fin K → Fin T → ℝ) (t1 t2 : Fin N → Fin F → Fin T → ℝ) (n : Fin N) (k : Fin K) (t : Fin T) : ℝ :=
  H n k t * Real.sqrt ((∑ f, W n f k * t1 n f t) / denH e W t2 n k t)

/-- The denominator for the diagonals (fastmnmf.py:166). -/
noncomputable def denG (e : ℝ) (lam : Fin N → Fin F → Fin T → ℝ) (Y : Fin F → Fin T → Fin M → ℝ) (n : Fin N) (f : Fin F) (m : Fin M) : ℝ := ∑ t, lam n f t * (1 / Y f t m) + e

/-- The new diagonals (fastmnmf.py:165-167). -/
noncomputable def stepG (e : ℝ) (G : Fin N → Fin F → Fin M → ℝ) (lam : Fin N → Fin F → Fin T → ℝ) (P Y : Fin F → Fin T → Fin M → ℝ) (n : Fin N) (f : Fin F) (m : Fin M) : ℝ :=
  G n f m * Real.sqrt ((∑ t, lam n f t * (P f t m / Y f t m ^ 2)) / denG e lam Y n f m)

/-- No entry is zero. -/
def Fine (Y : Fin F → Fin T → Fin M → ℝ) : Prop := ∀ f t m, Y f t m ≠ 0

/-- The update of the basis (fastmnmf.py:143-149). -/
noncomputable def basis (e : ℝ) (st : State N F T M K) : Option (State N F T M K) := do
  check (Fine st.Y)
  check (∀ n f k, denW e st.H (tmp2 st.G st.Y) n f k ≠ 0)
  some { st with W := stepW e st.W st.H (tmp1 st.G st.P st.Y) (tmp2 st.G st.Y) }

/-- What is recomputed between the basis and the activations unless `accelerate` is set (fastmnmf.py:151-156; the products `tmp1_NFT` and `tmp2_NFT` are always those of the `Y_FTM` in the state). -/
def refresh (e : ℝ) (acc : Bool) (st : State N F T M K) : State N F T M K := if acc then st else { st with lam := lamOf e st.W st.H, Y := yOf (lamOf e st.W st.H) st.G }

/-- The update of the activations (fastmnmf.py:155-162). -/
noncomputable def activations (e : ℝ) (st : State N F T M K) : Option (State N F T M K) := do
  check (Fine st.Y)
  check (∀ n k t, denH e st.W (tmp2 st.G st.Y) n k t ≠ 0)
  let H := stepH e st.W st.H (tmp1 st.G st.P st.Y) (tmp2 st.G st.Y)
  some { st with H := H, lam := lamOf e st.W H, Y := yOf (lamOf e st.W H) st.G }

/-- The update of the diagonals (fastmnmf.py:164-168). -/
noncomputable def diagonals (e : ℝ) (st : State N F T M K) : Option (State N F T M K) := do
  check (Fine st.Y)
  check (∀ n f m, denG e st.lam st.Y n f m ≠ 0)
  let G := stepG e st.G st.lam st.P st.Y
  some { st with G := G, Y := yOf st.lam G }

/-- `V_FMM` (fastmnmf.py:173-175). -/
noncomputable def covOf (X : Fin T → Fin F → Fin M → ℂ) (Y : Fin F → Fin T → Fin M → ℝ) (m : Fin M) (f : Fin F) : Matrix (Fin M) (Fin M) ℂ := weighted (fun j t => X t f j) fun t => Y f t m

open Classical in
/-- `tmp_FM`: the solutions, or those of the pseudo-inverses as soon as one frequency has none (fastmnmf.py:177-194). -/
noncomputable def tmpOf (pinv : Matrix (Fin M) (Fin M) ℂ → Matrix (Fin M) (Fin M) ℂ) (Q V : Fin F → Matrix (Fin M) (Fin M) ℂ) (m : Fin M) (f : Fin F) : Fin M → ℂ :=
  if ∀ g, IsUnit (Q g * V g).det then (Q f * V f)⁻¹ *ᵥ Pi.single m 1 else pinv (Q f * V f) *ᵥ Pi.single m 1

/-- What a row is divided by (fastmnmf.py:198-203). -/
noncomputable def scaleOf (e : ℝ) (V : Matrix (Fin M) (Fin M) ℂ) (x : Fin M → ℂ) : ℂ := (star x ⬝ᵥ V *ᵥ x) ^ (1 / 2 : ℂ) + e

/-- The update of one row of the diagonalizer (fastmnmf.py:172-205). -/
noncomputable def qRow (pinv : Matrix (Fin M) (Fin M) ℂ → Matrix (Fin M) (Fin M) ℂ) (e : ℝ) (X : Fin T → Fin F → Fin M → ℂ) (st : State N F T M K) (m : Fin M) : Option (State N F T M K) := do
  check (∀ f t, st.Y f t m ≠ 0)
  check (∀ f, scaleOf e (covOf X st.Y m f) (tmpOf pinv st.Q (covOf X st.Y m) m f) ≠ 0)
  let Q : Fin F → Matrix (Fin M) (Fin M) ℂ := fun f => (st.Q f).updateRow m fun c =>
    star (tmpOf pinv st.Q (covOf X st.Y m) m f c / scaleOf e (covOf X st.Y m f) (tmpOf pinv st.Q (covOf X st.Y m) m f))
  some { st with Q := Q, P := powOf Q X }

/-- The update of the diagonalizer (fastmnmf.py:170-205). -/
noncomputable def diagonalizer (pinv : Matrix (Fin M) (Fin M) ℂ → Matrix (Fin M) (Fin M) ℂ) (e : ℝ) (X : Fin T → Fin F → Fin M → ℂ) (st : State N F T M K) : Option (State N F T M K) :=
  (List.finRange M).foldlM (qRow pinv e X) st

/-- `phi_F` (fastmnmf.py:209). -/
noncomputable def phiOf (Q : Fin F → Matrix (Fin M) (Fin M) ℂ) (f : Fin F) : ℝ := (∑ i, ∑ j, Q f i j * star (Q f i j)).re / M

/-- The normalization of the diagonalizer (fastmnmf.py:209-211). -/
noncomputable def normQ (st : State N F T M K) : Option (State N F T M K) := do
  check (∀ f, phiOf st.Q f ≠ 0)
  some { st with Q := fun f => .of fun i j => st.Q f i j / (Real.sqrt (phiOf st.Q f) : ℂ), G := fun n f m => st.G n f m / phiOf st.Q f }

/-- The normalization of the diagonals (fastmnmf.py:213-215). -/
noncomputable def normG (st : State N F T M K) : Option (State N F T M K) := do
  check (∀ n f, ∑ m, st.G n f m ≠ 0)
  some { st with G := fun n f m => st.G n f m / ∑ m, st.G n f m, W := fun n f k => st.W n f k * ∑ m, st.G n f m }

/-- The normalization of the basis (fastmnmf.py:217-219). -/
noncomputable def normW (st : State N F T M K) : Option (State N F T M K) := do
  check (∀ n k, ∑ f, st.W n f k ≠ 0)
  some { st with W := fun n f k => st.W n f k / ∑ f, st.W n f k, H := fun n k t => st.H n k t * ∑ f, st.W n f k }

/-- The derived arrays (fastmnmf.py:105-107, 221-223). -/
noncomputable def derive (e : ℝ) (X : Fin T → Fin F → Fin M → ℂ) (st : State N F T M K) : State N F T M K :=
  { st with lam := lamOf e st.W st.H, P := powOf st.Q X, Y := yOf (lamOf e st.W st.H) st.G }

/-- The normalization (fastmnmf.py:207-223). -/
noncomputable def normalize (e : ℝ) (X : Fin T → Fin F → Fin M → ℂ) (st : State N F T M K) : Option (State N F T M K) := do
  let a ← normQ st
  let b ← normG a
  let c ← normW b
  some (derive e X c)

/-- The normalization takes place in every tenth epoch (fastmnmf.py:208). -/
noncomputable def normalizeAt (e : ℝ) (X : Fin T → Fin F → Fin M → ℂ) (epoch : ℕ) (st : State N F T M K) : Option (State N F T M K) := if epoch % 10 = 0 then normalize e X st else some st

/-- The updates of the parameters of the sources (fastmnmf.py:143-168). -/
noncomputable def sources (e : ℝ) (acc : Bool) (st : State N F T M K) : Option (State N F T M K) := do
  let a ← basis e st
  let b ← activations e (refresh e acc a)
  diagonals e b

/-- One epoch (fastmnmf.py:139-223). -/
noncomputable def epoch (pinv : Matrix (Fin M) (Fin M) ℂ → Matrix (Fin M) (Fin M) ℂ) (e : ℝ) (acc : Bool) (X : Fin T → Fin F → Fin M → ℂ) (st : State N F T M K) (i : ℕ) :
    Option (State N F T M K) := do
  let a ← sources e acc st
  let b ← diagonalizer pinv e X a
  normalizeAt e X i b

/-- The epochs before the given one (fastmnmf.py:138-223). -/
noncomputable def epochs (pinv : Matrix (Fin M) (Fin M) ℂ → Matrix (Fin M) (Fin M) ℂ) (e : ℝ) (acc : Bool) (X : Fin T → Fin F → Fin M → ℂ) (st : State N F T M K) : ℕ → Option (State N F T M K)
  | 0 => some st
  | i + 1 => do
    let a ← epochs pinv e acc X st i
    epoch pinv e acc X a i

/-- The first diagonals (fastmnmf.py:95-97). -/
noncomputable def gInit (ge : ℝ) (n : Fin N) (_f : Fin F) (m : Fin M) : ℝ := if n.val = m.val % N then 1 else ge

/-- `mu_F`: the power of a row (fastmnmf.py:100). -/
noncomputable def muOf (Q : Matrix (Fin M) (Fin M) ℂ) (m : Fin M) : ℝ := (∑ j, Q m j * star (Q m j)).re

/-- The rows of the first diagonalizer brought to length one (fastmnmf.py:99-101). -/
noncomputable def unitRows (Q : Fin F → Matrix (Fin M) (Fin M) ℂ) : Option (Fin F → Matrix (Fin M) (Fin M) ℂ) := do
  check (∀ f m, muOf (Q f) m ≠ 0)
  some fun f => .of fun m j => Q f m j / (Real.sqrt (muOf (Q f) m) : ℂ)

/-- The state before the first epoch (fastmnmf.py:90-107). -/
noncomputable def start (e ge : ℝ) (X : Fin T → Fin F → Fin M → ℂ) (W0 : Option (Fin F → Matrix (Fin M) (Fin M) ℂ)) (rW : Fin N → Fin F → Fin K → ℝ) (rH : Fin N → Fin K → Fin T → ℝ) :
    Option (State N F T M K) := do
  let Q ← unitRows (W0.getD fun _ => 1)
  some (derive e X { Q := Q, G := gInit ge, W := rW, H := rH, lam := fun _ _ _ => 0, P := fun _ _ _ => 0, Y := fun _ _ _ => 0 })

/-- `mic_index`. -/
inductive Mic
  | all
  | int (i : ℤ)
  | other

/-- What is returned: an array with or without an axis for the microphones. -/
inductive Images (N F T M : ℕ)
  | all (z : Fin M → Fin T → Fin F → Fin N → ℂ)
  | one (z : Fin T → Fin F → Fin N → ℂ)

open Classical in
/-- `Qinv_FMM` (fastmnmf.py:111-121). -/
noncomputable def invOf (pinv : Matrix (Fin M) (Fin M) ℂ → Matrix (Fin M) (Fin M) ℂ) (Q : Fin F → Matrix (Fin M) (Fin M) ℂ) (f : Fin F) : Matrix (Fin M) (Fin M) ℂ :=
  if ∀ g, IsUnit (Q g).det then (Q f)⁻¹ else pinv (Q f)

/-- The images for all microphones (fastmnmf.py:110, 122-127). -/
noncomputable def imagesOf (B : Fin F → Matrix (Fin M) (Fin M) ℂ) (X : Fin T → Fin F → Fin M → ℂ) (st : State N F T M K) (i : Fin M) (t : Fin T) (f : Fin F) (n : Fin N) : ℂ :=
  ∑ j, B f i j * ((∑ c, st.Q f j c * X t f c) / ((∑ n, st.lam n f t * st.G n f j : ℝ) : ℂ)) * ((st.lam n f t * st.G n f j : ℝ) : ℂ)

/-- `separate` (fastmnmf.py:109-138). -/
noncomputable def separate (pinv : Matrix (Fin M) (Fin M) ℂ → Matrix (Fin M) (Fin M) ℂ) (X : Fin T → Fin F → Fin M → ℂ) (mic : Mic) (st : State N F T M K) : Except Py.Err (Images N F T M) :=
  match mic with
  | .all => .ok (.all (imagesOf (invOf pinv st.Q) X st))
  | .int i =>
    match Py.normIdx M i with
    | none => .error .indexError
    | some k => if h : k < M then .ok (.one (imagesOf (invOf pinv st.Q) X st ⟨k, h⟩)) else .error .indexError
  | .other => .error .valueError

/-- `eps` (fastmnmf.py:76). -/
noncomputable def eps : ℝ := 1 / 1000000

/-- `g_eps` (fastmnmf.py:77). -/
noncomputable def gEps : ℝ := 5 / 100

/-- `fastmnmf` with `W0`: what is returned and what the array of the caller holds afterwards (fastmnmf.py:30-225). -/
noncomputable def fastmnmf (pinv : Matrix (Fin M) (Fin M) ℂ → Matrix (Fin M) (Fin M) ℂ) (acc : Bool) (mic : Mic) (X : Fin T → Fin F → Fin M → ℂ) (W0 : Option (Fin F → Matrix (Fin M) (Fin M) ℂ))
    (rW : Fin N → Fin F → Fin K → ℝ) (rH : Fin N → Fin K → Fin T → ℝ) (iters : ℕ) : Option (Except Py.Err (Images N F T M) × (Fin F → Matrix (Fin M) (Fin M) ℂ)) := do
  let a ← start eps gEps X W0 rW rH
  let b ← epochs pinv eps acc X a iters
  some (separate pinv X mic b, b.Q)

end Verif.FastMnmf
