import Verif.Directivity.RotationModel
import Mathlib.Tactic.Ring
import Mathlib.Tactic.LinearCombination
import Mathlib.Tactic.FinCases
import Mathlib.LinearAlgebra.Matrix.Determinant.Basic
import Mathlib.LinearAlgebra.CrossProduct

/-!
# Properties of rotations (C52) and of the channel order (C55)
-/

namespace Verif.Directivity

open Verif.Py (Err)

/-! ## Specification -/

/-- A point. -/
abbrev P3 := Fin 3 → ℝ

/-- Rotation around a coordinate axis, right-handed, in coordinates. -/
noncomputable def turn (axis : Int) (a : ℝ) (p : P3) : P3 :=
  if axis = 2 then ![Real.cos a * p 0 - Real.sin a * p 1, Real.sin a * p 0 + Real.cos a * p 1, p 2]
  else if axis = 1 then ![Real.cos a * p 0 + Real.sin a * p 2, p 1, -Real.sin a * p 0 + Real.cos a * p 2]
  else ![p 0, Real.cos a * p 1 - Real.sin a * p 2, Real.sin a * p 1 + Real.cos a * p 2]

/-- One rotation after the other. -/
noncomputable def turns (l : List (ℝ × Int)) (p : P3) : P3 := l.foldl (fun p s => turn s.2 s.1 p) p

/-- The number of an axis. -/
def axisNumber : Ax → Int
  | .char 'y' => 1
  | .char 'z' => 2
  | .int i => i
  | _ => 0

/-- The axes that are understood. -/
def Known (ax : Ax) : Prop := ax = .char 'x' ∨ ax = .char 'y' ∨ ax = .char 'z' ∨ ax = .int 0 ∨ ax = .int 1 ∨ ax = .int 2

def inner (p q : P3) : ℝ := p 0 * q 0 + p 1 * q 1 + p 2 * q 2

/-- Signed volume spanned by three points. -/
def volume (p q r : P3) : ℝ := p 0 * (q 1 * r 2 - q 2 * r 1) - p 1 * (q 0 * r 2 - q 2 * r 0) + p 2 * (q 0 * r 1 - q 1 * r 0)

/-! ## Rotations -/

theorem axisMap_known {ax : Ax} (h : Known ax) : axisMap ax = some (axisNumber ax) ∧ 0 ≤ axisNumber ax ∧ axisNumber ax ≤ 2 := by
  rcases h with rfl | rfl | rfl | rfl | rfl | rfl <;> decide

theorem axisMap_unknown {ax : Ax} (h : ¬ Known ax) : axisMap ax = none := by
  unfold axisMap
  split <;> first | rfl | exact absurd (by simp [Known]) h

theorem parseOrder_ok {l : List Ax} (h : ∀ ax ∈ l, Known ax) : parseOrder l = .ok (l.map axisNumber) := by
  induction l with
  | nil => rfl
  | cons ax t ih =>
    simp only [parseOrder]
    rw [(axisMap_known (h ax (by simp))).1]
    simp only
    rw [ih fun a ha => h a (List.mem_cons_of_mem _ ha)]
    rfl

theorem makeRotMatrix_ok (a : ℝ) {axis : Int} (h : 0 ≤ axis ∧ axis ≤ 2) : ∃ r, makeRotMatrix a axis = .ok r ∧ ∀ p, r.mulVec p = turn axis a p := by
  unfold makeRotMatrix turn
  rw [if_neg (not_not_intro h)]
  split
  · refine ⟨_, rfl, fun p => ?_⟩
    funext i
    fin_cases i <;> simp [Matrix.mulVec, Matrix.vecHead, Matrix.vecTail, dotProduct, Fin.sum_univ_three] <;> ring
  · split
    · refine ⟨_, rfl, fun p => ?_⟩
      funext i
      fin_cases i <;> simp [Matrix.mulVec, Matrix.vecHead, Matrix.vecTail, dotProduct, Fin.sum_univ_three]
    · refine ⟨_, rfl, fun p => ?_⟩
      funext i
      fin_cases i <;> simp [Matrix.mulVec, Matrix.vecHead, Matrix.vecTail, dotProduct, Fin.sum_univ_three] <;> ring

theorem computeMatrix_ok {l : List (ℝ × Int)} (h : ∀ s ∈ l, 0 ≤ s.2 ∧ s.2 ≤ 2) (mat : M3) :
    ∃ r, computeMatrix mat l = .ok r ∧ ∀ p, r.mulVec p = turns l (mat.mulVec p) := by
  induction l generalizing mat with
  | nil => exact ⟨mat, rfl, fun p => rfl⟩
  | cons s t ih =>
    obtain ⟨a, axis⟩ := s
    obtain ⟨r, hr, hp⟩ := makeRotMatrix_ok a (h (a, axis) (by simp))
    obtain ⟨r', hr', hp'⟩ := ih (fun s hs => h s (List.mem_cons_of_mem _ hs)) (r * mat)
    refine ⟨r', ?_, fun p => ?_⟩
    · simp only [computeMatrix]
      rw [hr]
      exact hr'
    · rw [hp', ← Matrix.mulVec_mulVec, hp]
      rfl

/-- The matrix kept by a rotation that could be made. -/
theorem rotation3D_ok {angles : List ℝ} {order : List Ax} (degrees : Bool) (hn : angles.length ≤ 3) (hk : ∀ ax ∈ order, Known ax) (hl : angles.length = order.length) :
    ∃ r, rotation3D angles order degrees = .ok r ∧
      ∀ p, r.mulVec p = turns ((if degrees then angles.map (fun x => x * (Real.pi / 180)) else angles).zip (order.map axisNumber)) p := by
  unfold rotation3D
  rw [if_neg (not_not_intro hn), parseOrder_ok hk]
  simp only
  have hlen : (if degrees then angles.map (fun x => x * (Real.pi / 180)) else angles).length = angles.length := by split <;> simp
  rw [if_neg (by rw [hlen, List.length_map]; exact not_not_intro hl)]
  have hz : ∀ s ∈ (if degrees then angles.map (fun x => x * (Real.pi / 180)) else angles).zip (order.map axisNumber), 0 ≤ s.2 ∧ s.2 ≤ 2 := by
    intro s hs
    have := (List.of_mem_zip (a := s.1) (b := s.2) hs).2
    obtain ⟨ax, hax, e⟩ := List.mem_map.mp this
    rw [← e]
    exact (axisMap_known (hk ax hax)).2
  obtain ⟨r, hr, hp⟩ := computeMatrix_ok hz 1
  refine ⟨r, hr, fun p => ?_⟩
  rw [hp, Matrix.one_mulVec]

theorem column_mul (r : M3) {n : Nat} (points : Matrix (Fin 3) (Fin n) ℝ) (k : Fin n) : (fun i => (r * points) i k) = r.mulVec fun i => points i k := by
  funext i
  rfl

/-- **C52, order.** Each point is turned by the first angle around the first axis, then by the second around the second, and so on; angles in degrees are
converted. -/
theorem C52_order {angles : List ℝ} {order : List Ax} (degrees : Bool) (hn : angles.length ≤ 3) (hk : ∀ ax ∈ order, Known ax) (hl : angles.length = order.length) :
    ∃ r, rotation3D angles order degrees = .ok r ∧ ∀ {n : Nat} (points : Matrix (Fin 3) (Fin n) ℝ) (k : Fin n),
      (fun i => rotate r points i k) = turns ((if degrees then angles.map (fun x => x * (Real.pi / 180)) else angles).zip (order.map axisNumber)) fun i => points i k := by
  obtain ⟨r, hr, hp⟩ := rotation3D_ok degrees hn hk hl
  refine ⟨r, hr, fun points k => ?_⟩
  unfold rotate
  rw [column_mul, hp]

/-- **C52, errors.** Everything else is refused. -/
theorem C52_errors {angles : List ℝ} {order : List Ax} (degrees : Bool) (h : ¬ (angles.length ≤ 3 ∧ (∀ ax ∈ order, Known ax) ∧ angles.length = order.length)) :
    rotation3D angles order degrees = .error .valueError := by
  unfold rotation3D
  by_cases hn : angles.length ≤ 3
  · rw [if_neg (not_not_intro hn)]
    by_cases hk : ∀ ax ∈ order, Known ax
    · rw [parseOrder_ok hk]
      simp only
      have hlen : (if degrees then angles.map (fun x => x * (Real.pi / 180)) else angles).length = angles.length := by split <;> simp
      rw [if_pos]
      rw [hlen, List.length_map]
      exact fun hc => h ⟨hn, hk, hc⟩
    · have : parseOrder order = .error .valueError := by
        clear h hn
        induction order with
        | nil => exact absurd (fun ax h => by simp at h) hk
        | cons ax t ih =>
          simp only [parseOrder]
          by_cases ha : Known ax
          · rw [(axisMap_known ha).1]
            simp only
            rw [ih fun hc => hk fun a hm => by rcases List.mem_cons.mp hm with rfl | hm; exacts [ha, hc a hm]]
          · rw [axisMap_unknown ha]
      rw [this]
  · rw [if_pos hn]

theorem turn_inner (axis : Int) (a : ℝ) (p q : P3) : inner (turn axis a p) (turn axis a q) = inner p q := by
  have h := Real.sin_sq_add_cos_sq a
  unfold turn inner
  split
  · simp only [Matrix.cons_val]
    linear_combination (p 0 * q 0 + p 1 * q 1) * h
  · split
    · simp only [Matrix.cons_val]
      linear_combination (p 0 * q 0 + p 2 * q 2) * h
    · simp only [Matrix.cons_val]
      linear_combination (p 1 * q 1 + p 2 * q 2) * h

theorem turn_volume (axis : Int) (a : ℝ) (p q r : P3) : volume (turn axis a p) (turn axis a q) (turn axis a r) = volume p q r := by
  have h := Real.sin_sq_add_cos_sq a
  unfold turn volume
  split
  · simp only [Matrix.cons_val]
    linear_combination (p 0 * (q 1 * r 2 - q 2 * r 1) - p 1 * (q 0 * r 2 - q 2 * r 0) + p 2 * (q 0 * r 1 - q 1 * r 0)) * h
  · split
    · simp only [Matrix.cons_val]
      linear_combination (p 0 * (q 1 * r 2 - q 2 * r 1) - p 1 * (q 0 * r 2 - q 2 * r 0) + p 2 * (q 0 * r 1 - q 1 * r 0)) * h
    · simp only [Matrix.cons_val]
      linear_combination (p 0 * (q 1 * r 2 - q 2 * r 1) - p 1 * (q 0 * r 2 - q 2 * r 0) + p 2 * (q 0 * r 1 - q 1 * r 0)) * h

theorem turns_inner (l : List (ℝ × Int)) (p q : P3) : inner (turns l p) (turns l q) = inner p q := by
  induction l generalizing p q with
  | nil => rfl
  | cons s t ih => exact (ih _ _).trans (turn_inner _ _ _ _)

theorem turns_volume (l : List (ℝ × Int)) (p q r : P3) : volume (turns l p) (turns l q) (turns l r) = volume p q r := by
  induction l generalizing p q r with
  | nil => rfl
  | cons s t ih => exact (ih _ _ _).trans (turn_volume _ _ _ _ _)

theorem mulVec_single (r : M3) (j i : Fin 3) : r.mulVec (Pi.single j 1) i = r i j := by simp

/-- **C52, rigid.** Every rotation that can be made keeps inner products and signed volumes, and `rotate` and `rotate_transpose` undo each other. -/
theorem C52_rigid {angles : List ℝ} {order : List Ax} {degrees : Bool} {r : M3} (hr : rotation3D angles order degrees = .ok r) {n : Nat}
    (points : Matrix (Fin 3) (Fin n) ℝ) :
    (∀ j k, inner (fun i => rotate r points i j) (fun i => rotate r points i k) = inner (fun i => points i j) fun i => points i k) ∧
      (∀ j k l, volume (fun i => rotate r points i j) (fun i => rotate r points i k) (fun i => rotate r points i l) =
        volume (fun i => points i j) (fun i => points i k) fun i => points i l) ∧
      rotateTranspose r (rotate r points) = points ∧ rotate r (rotateTranspose r points) = points := by
  have hv : angles.length ≤ 3 ∧ (∀ ax ∈ order, Known ax) ∧ angles.length = order.length := by
    by_contra hc
    rw [C52_errors degrees hc] at hr
    cases hr
  obtain ⟨r', hr', hp⟩ := rotation3D_ok degrees hv.1 hv.2.1 hv.2.2
  rw [hr] at hr'
  cases hr'
  have hin : ∀ p q, inner (r.mulVec p) (r.mulVec q) = inner p q := fun p q => by rw [hp, hp]; exact turns_inner _ _ _
  have hT : r.transpose * r = 1 := by
    ext i j
    have := hin (Pi.single i 1) (Pi.single j 1)
    unfold inner at this
    simp only [mulVec_single] at this
    rw [Matrix.mul_apply, Fin.sum_univ_three]
    simp only [Matrix.transpose_apply]
    rw [this]
    fin_cases i <;> fin_cases j <;> simp [Pi.single_apply, Matrix.one_apply]
  refine ⟨fun j k => ?_, fun j k l => ?_, ?_, ?_⟩
  · unfold rotate
    rw [column_mul, column_mul]
    exact hin _ _
  · unfold rotate
    rw [column_mul, column_mul, column_mul, hp, hp, hp]
    exact turns_volume _ _ _ _
  · unfold rotate rotateTranspose
    rw [← Matrix.mul_assoc, hT, Matrix.one_mul]
  · unfold rotate rotateTranspose
    rw [← Matrix.mul_assoc, mul_eq_one_comm.mp hT, Matrix.one_mul]

/-- **C52, deviation.** The documentation admits points of shape `(3, ...)`. With two more axes all shapes but `(3, 3, n)` are refused, and for that shape it is the second
axis that is rotated, not the first. -/
theorem C52_shape_deviation (r : M3) :
    (∀ {k n : Nat} (points : Fin 3 → Fin k → Fin n → ℝ), k ≠ 3 → rotateArray r points = .error .valueError) ∧
      ∀ {n : Nat} (points : Fin 3 → Fin 3 → Fin n → ℝ), ∃ out, rotateArray r points = .ok out ∧
        ∀ j l, (fun i => out i j l) = r.mulVec fun m => points j m l := by
  constructor
  · intro k n points hk
    unfold rotateArray
    rw [dif_neg hk]
  · intro n points
    refine ⟨_, rfl, fun j l => ?_⟩
    funext i
    rfl

/-! ## Channel order -/

/-- Rows of a triangle, one after the other. -/
theorem acn_length (degree : Nat) (f : Nat → Nat → Int) :
    ((List.range degree).flatMap fun i => (List.range (2 * i + 1)).map (f i)).length = degree * degree := by
  induction degree with
  | zero => rfl
  | succ d ih =>
    rw [List.range_succ, List.flatMap_append, List.length_append, ih]
    simp
    ring

theorem acn_getElem (degree : Nat) (f : Nat → Nat → Int) {i j : Nat} (hi : i < degree) (hj : j < 2 * i + 1) :
    ((List.range degree).flatMap fun i => (List.range (2 * i + 1)).map (f i))[i * i + j]? = some (f i j) := by
  induction degree with
  | zero => omega
  | succ d ih =>
    rw [List.range_succ, List.flatMap_append]
    by_cases hd : i < d
    · have h1 : i * i + j < d * d := by
        have : (i + 1) * (i + 1) ≤ d * d := Nat.mul_le_mul hd hd
        have e : (i + 1) * (i + 1) = i * i + 2 * i + 1 := by ring
        omega
      rw [List.getElem?_append_left (by rw [acn_length]; exact h1)]
      exact ih hd
    · have : i = d := by omega
      subst this
      rw [List.getElem?_append_right (by rw [acn_length]; omega), acn_length]
      simp [hj]

/-- **C55.** For every degree the lists have `(degree + 1) ^ 2` entries; every order `m` and degree `n` with `|m| ≤ n ≤ degree` is found at position
`n * n + n + m`, and nowhere else. -/
theorem C55_acn (degree : Nat) :
    (acnOrder degree).1.length = (degree + 1) ^ 2 ∧ (acnOrder degree).2.length = (degree + 1) ^ 2 ∧
      ∀ (m : Int) (n : Nat) (pos : Nat), ((acnOrder degree).1[pos]? = some m ∧ (acnOrder degree).2[pos]? = some (n : Int)) ↔
        (|m| ≤ n ∧ n ≤ degree ∧ (pos : Int) = n * n + n + m) := by
  have h1 : ∀ {i j : Nat}, i < degree + 1 → j < 2 * i + 1 → (acnOrder degree).1[i * i + j]? = some ((j : Int) - i) := fun hi hj =>
    acn_getElem (degree + 1) (fun i j => (j : Int) - i) hi hj
  have h2 : ∀ {i j : Nat}, i < degree + 1 → j < 2 * i + 1 → (acnOrder degree).2[i * i + j]? = some (i : Int) := fun hi hj =>
    acn_getElem (degree + 1) (fun i _ => (i : Int)) hi hj
  have l1 : (acnOrder degree).1.length = (degree + 1) * (degree + 1) := acn_length (degree + 1) (fun i j => (j : Int) - i)
  have l2 : (acnOrder degree).2.length = (degree + 1) * (degree + 1) := acn_length (degree + 1) (fun i _ => (i : Int))
  refine ⟨by rw [l1]; ring, by rw [l2]; ring, fun m n pos => ⟨?_, ?_⟩⟩
  · rintro ⟨hm, hn⟩
    have hpos : pos < (degree + 1) * (degree + 1) := by
      rw [← l1]
      exact (List.getElem?_eq_some_iff.mp hm).1
    -- the row of a position is the root
    have hi : Nat.sqrt pos < degree + 1 := Nat.sqrt_lt'.mpr (by rw [sq]; exact hpos)
    have hlo : Nat.sqrt pos * Nat.sqrt pos ≤ pos := Nat.sqrt_le pos
    have hhi : pos < (Nat.sqrt pos + 1) * (Nat.sqrt pos + 1) := Nat.lt_succ_sqrt pos
    generalize Nat.sqrt pos = i at *
    obtain ⟨j, rfl⟩ : ∃ j, pos = i * i + j := ⟨pos - i * i, by omega⟩
    have hj : j < 2 * i + 1 := by
      have : (i + 1) * (i + 1) = i * i + 2 * i + 1 := by ring
      omega
    rw [h1 hi hj] at hm
    rw [h2 hi hj] at hn
    simp only [Option.some.injEq, Nat.cast_inj] at hm hn
    subst hn
    refine ⟨?_, by omega, ?_⟩
    · rw [abs_le]; omega
    · push_cast
      omega
  · rintro ⟨hm, hn, hp⟩
    rw [abs_le] at hm
    obtain ⟨j, hj⟩ : ∃ j : Nat, (j : Int) = n + m := ⟨(n + m).toNat, by omega⟩
    have hpos : pos = n * n + j := by
      have : (pos : Int) = ((n * n + j : Nat) : Int) := by push_cast; omega
      exact_mod_cast this
    rw [hpos, h1 (by omega) (by omega), h2 (by omega) (by omega)]
    refine ⟨?_, rfl⟩
    congr 1
    omega

/-! ## The hypotheses can be met -/

/-- The default order with three angles; a quarter turn around z and then around x takes x to z. -/
example : ([90, 20, 30] : List ℝ).length ≤ 3 ∧ (∀ ax ∈ [Ax.char 'z', .char 'y', .int 0], Known ax) ∧ ([90, 20, 30] : List ℝ).length = [Ax.char 'z', .char 'y', .int 0].length ∧
    turns [(Real.pi / 2, 2), (Real.pi / 2, 0)] ![1, 0, 0] = ![0, 0, 1] := by
  refine ⟨by simp, by simp [Known], rfl, ?_⟩
  simp [turns, turn]

/-- Channel 5 has order -1 and degree 2. -/
example : |(-1 : Int)| ≤ (2 : Nat) ∧ 2 ≤ 3 ∧ ((5 : Nat) : Int) = (2 : Nat) * (2 : Nat) + (2 : Nat) + (-1) := by decide

end Verif.Directivity
