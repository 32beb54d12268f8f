import Verif.Materials.Model
import Verif.Geometry.Polygon

/-!
# Materials and corners: C30
-/

namespace Verif.Materials

open Py (Err)
open Verif.Geometry

/-- The corner after corner `j` of a closed polygon. -/
def corner (cs : List (Vec 2)) (j : Nat) : Vec 2 := cs.getD (j % cs.length) 0

theorem corner_eq (cs : List (Vec 2)) {j : Nat} (h : j < cs.length) : corner cs j = cs.getD j 0 := by
  unfold corner; rw [Nat.mod_eq_of_lt h]

/-- What `from_corners` returns. -/
theorem fromCorners_eq (cs : List (Vec 2)) (rigid : Nat) (mats : List Nat) (h3 : 3 ≤ cs.length) (hm : mats.length = cs.length) :
    fromCorners cs rigid (.list mats) =
      .ok ((List.range cs.length).map fun i =>
        ((corner (orderCorners cs) i, corner (orderCorners cs) (i + 1)), mats.getD i 0)) := by
  unfold fromCorners
  simp only
  rw [if_neg (by omega)]
  simp only [wallMaterials, if_pos hm]
  show Except.ok _ = _
  congr 1
  apply List.map_congr_left
  intro i hi
  have hi : i < cs.length := List.mem_range.mp hi
  have hl : (orderCorners cs).length = cs.length := by unfold orderCorners; split_ifs <;> simp
  unfold corner
  rw [hl, Nat.mod_eq_of_lt hi]

/-- **C30** Counterclockwise corners: there is one wall per pair of consecutive corners, and it has the material given at the same position. -/
theorem C30_counterclockwise (cs : List (Vec 2)) (rigid : Nat) (mats : List Nat) (h3 : 3 ≤ cs.length) (hm : mats.length = cs.length)
    (ha : 0 < area2dPolygon cs) :
    fromCorners cs rigid (.list mats) =
      .ok ((List.range cs.length).map fun i => ((corner cs i, corner cs (i + 1)), mats.getD i 0)) := by
  rw [fromCorners_eq cs rigid mats h3 hm]
  have : orderCorners cs = cs := by unfold orderCorners; rw [if_neg (not_le.mpr ha)]
  rw [this]

/-- **C30** Deviation: for clockwise corners the walls are those of the user (with the ends exchanged), but the material of the wall between the corners
`j` and `j+1` is the one given at the position `n-2-j` (and `n-1` for the last wall). -/
theorem C30_clockwise_deviation (cs : List (Vec 2)) (rigid : Nat) (mats : List Nat) (h3 : 3 ≤ cs.length) (hm : mats.length = cs.length)
    (ha : area2dPolygon cs ≤ 0) :
    ∃ walls, fromCorners cs rigid (.list mats) = .ok walls ∧ walls.length = cs.length ∧
      ∀ j, j < cs.length → walls.getD ((2 * cs.length - 2 - j) % cs.length) ((0, 0), 0) =
        ((corner cs (j + 1), corner cs j), mats.getD ((2 * cs.length - 2 - j) % cs.length) 0) := by
  refine ⟨_, fromCorners_eq cs rigid mats h3 hm, by simp, ?_⟩
  intro j hj
  have ho : orderCorners cs = cs.reverse := by unfold orderCorners; rw [if_pos ha]
  rw [ho]
  set n := cs.length with hn
  have hi : (2 * n - 2 - j) % n < n := Nat.mod_lt _ (by omega)
  set i := (2 * n - 2 - j) % n with hidef
  rw [List.getD_eq_getElem _ _ (by simpa using hi), List.getElem_map, List.getElem_range]
  have hrev : ∀ k, k < n → cs.reverse.getD k 0 = cs.getD (n - 1 - k) 0 := by
    intro k hk
    rw [List.getD_eq_getElem _ _ (by simpa using hk), List.getElem_reverse, List.getD_eq_getElem _ _ (by omega)]
  have hcr : ∀ k, corner cs.reverse k = cs.getD (n - 1 - k % n) 0 := by
    intro k
    unfold corner
    rw [List.length_reverse, ← hn, hrev _ (Nat.mod_lt _ (by omega))]
  have hival : i = if j = n - 1 then n - 1 else n - 2 - j := by
    rw [hidef]
    split_ifs with h
    · rw [h, show 2 * n - 2 - (n - 1) = n - 1 by omega, Nat.mod_eq_of_lt (by omega)]
    · rw [show 2 * n - 2 - j = (n - 2 - j) + n by omega, Nat.add_mod_right, Nat.mod_eq_of_lt (by omega)]
  rw [hcr, hcr, Nat.mod_eq_of_lt hi]
  unfold corner
  rw [← hn, Nat.mod_eq_of_lt hj]
  by_cases h : j = n - 1
  · rw [if_pos h] at hival
    rw [hival, h, show n - 1 + 1 = n by omega, Nat.mod_self, show n - 1 - (n - 1) = 0 by omega, show n - 1 - 0 = n - 1 by omega]
  · rw [if_neg h] at hival
    rw [hival, Nat.mod_eq_of_lt (show n - 2 - j + 1 < n by omega), Nat.mod_eq_of_lt (show j + 1 < n by omega),
      show n - 1 - (n - 2 - j) = j + 1 by omega, show n - 1 - (n - 2 - j + 1) = j by omega]

/-- **C30** One material for all walls: the orientation does not matter. -/
theorem C30_single (cs : List (Vec 2)) (rigid i : Nat) (h3 : 3 ≤ cs.length) :
    ∃ walls, fromCorners cs rigid (.one i) = .ok walls ∧ walls.length = cs.length ∧ (∀ w ∈ walls, w.2 = i) ∧
      ∀ j, j < cs.length → ∃ w ∈ walls, w.1 = (corner cs j, corner cs (j + 1)) ∨ w.1 = (corner cs (j + 1), corner cs j) := by
  have hone : fromCorners cs rigid (.one i) = fromCorners cs rigid (.list (List.replicate cs.length i)) := by
    unfold fromCorners wallMaterials
    simp
  have hm : (List.replicate cs.length i).length = cs.length := by simp
  have hget : ∀ k, k < cs.length → (List.replicate cs.length i).getD k 0 = i := by
    intro k hk
    rw [List.getD_eq_getElem _ _ (by simpa using hk), List.getElem_replicate]
  rw [hone]
  rcases lt_or_ge 0 (area2dPolygon cs) with ha | ha
  · refine ⟨_, C30_counterclockwise cs rigid _ h3 hm ha, by simp, ?_, ?_⟩
    · intro w hw
      obtain ⟨k, hk, rfl⟩ := List.mem_map.mp hw
      exact hget k (List.mem_range.mp hk)
    · intro j hj
      exact ⟨_, List.mem_map.mpr ⟨j, List.mem_range.mpr hj, rfl⟩, Or.inl rfl⟩
  · obtain ⟨walls, e, hl, hw⟩ := C30_clockwise_deviation cs rigid _ h3 hm ha
    refine ⟨walls, e, hl, ?_, ?_⟩
    · rw [fromCorners_eq cs rigid _ h3 hm] at e
      injection e with e
      intro w hw
      rw [← e] at hw
      obtain ⟨k, hk, rfl⟩ := List.mem_map.mp hw
      exact hget k (List.mem_range.mp hk)
    · intro j hj
      have hi : (2 * cs.length - 2 - j) % cs.length < walls.length := by rw [hl]; exact Nat.mod_lt _ (by omega)
      refine ⟨walls.getD ((2 * cs.length - 2 - j) % cs.length) ((0, 0), 0), ?_, Or.inr (by rw [hw j hj])⟩
      rw [List.getD_eq_getElem _ _ hi]
      exact List.getElem_mem _

/-- **C30** Wrong numbers of corners or materials are refused. -/
theorem C30_errors (cs : List (Vec 2)) (rigid : Nat) (mats : List Nat) :
    (cs.length < 3 → ∀ m, fromCorners cs rigid m = .error .valueError) ∧
    (mats.length ≠ cs.length → fromCorners cs rigid (.list mats) = .error .valueError) := by
  constructor
  · intro h m
    unfold fromCorners
    simp only
    rw [if_pos h]
  · intro h
    unfold fromCorners wallMaterials
    simp only [if_neg h]
    split_ifs <;> rfl

variable {M : Type}

/-- The rectangle over the segment from `a` to `b`. -/
def sideWall (a b : Vec 2) (height : ℝ) (v : Vec 3) : List (Vec 3) :=
  [lift3 a, lift3 b, lift3 b + height • v, lift3 a + height • v]

theorem extrude_eq (close : Vec 2 → Vec 2 → Prop) [DecidableRel close] (walls : List ((Vec 2 × Vec 2) × M)) (height : ℝ) (v : Vec 3) (fm cm : M)
    (hcl : ∀ i, i < walls.length → close ((walls.map fun w => w.1.2).getD i 0) ((walls.map fun w => w.1.1).getD ((i + 1) % walls.length) 0)) :
    extrude close walls height v fm cm = .ok (List.zip (extrudeCorners (orderCorners (walls.map fun w => w.1.1)) height v)
      (walls.map (fun w => w.2) ++ [fm, cm])) := by
  unfold extrude
  simp only
  have hall : ((List.range walls.length).all fun i => decide (close ((walls.map fun w => w.1.2).getD i 0)
      ((walls.map fun w => w.1.1).getD ((i + 1) % walls.length) 0))) = true := by
    rw [List.all_eq_true]
    intro i hi
    exact decide_eq_true (hcl i (List.mem_range.mp hi))
  rw [hall]
  rfl

/-- **C30** Extrusion of a room with counterclockwise walls: the wall over wall `i` of the plan has its material, floor and ceiling have the materials given
for them. -/
theorem C30_extrude (close : Vec 2 → Vec 2 → Prop) [DecidableRel close] (walls : List ((Vec 2 × Vec 2) × M)) (height : ℝ) (v : Vec 3) (fm cm : M)
    (hcl : ∀ i, i < walls.length → close ((walls.map fun w => w.1.2).getD i 0) ((walls.map fun w => w.1.1).getD ((i + 1) % walls.length) 0))
    (ha : 0 < area2dPolygon (walls.map fun w => w.1.1)) :
    ∃ room, extrude close walls height v fm cm = .ok room ∧ room.length = walls.length + 2 ∧
      (∀ (i : Nat) (hi : i < walls.length), room[i]? = some (sideWall walls[i].1.1 (corner (walls.map fun w => w.1.1) (i + 1)) height v, walls[i].2)) ∧
      room[walls.length]? = some ((walls.map fun w => lift3 w.1.1).reverse, fm) ∧
      room[walls.length + 1]? = some (walls.map fun w => lift3 w.1.1 + height • v, cm) := by
  refine ⟨_, extrude_eq close walls height v fm cm hcl, ?_, ?_, ?_, ?_⟩
  all_goals
    have ho : orderCorners (walls.map fun w => w.1.1) = walls.map fun w => w.1.1 := by unfold orderCorners; rw [if_neg (not_le.mpr ha)]
    rw [ho]
  · unfold extrudeCorners; simp
  · intro i hi
    have : (extrudeCorners (walls.map fun w => w.1.1) height v)[i]? =
        some (sideWall walls[i].1.1 (corner (walls.map fun w => w.1.1) (i + 1)) height v) := by
      unfold extrudeCorners sideWall corner
      rw [List.getElem?_append_left (by simpa using hi), List.getElem?_map, List.getElem?_range (by simpa using hi)]
      simp [hi]
    rw [List.getElem?_zip_eq_some]
    refine ⟨this, ?_⟩
    rw [List.getElem?_append_left (by simpa using hi)]
    simp [hi]
  · rw [List.getElem?_zip_eq_some]
    constructor
    · unfold extrudeCorners
      rw [List.getElem?_append_right (by simp)]
      simp [Function.comp_def]
    · rw [List.getElem?_append_right (by simp)]
      simp
  · rw [List.getElem?_zip_eq_some]
    constructor
    · unfold extrudeCorners
      rw [List.getElem?_append_right (by simp)]
      simp [Function.comp_def]
    · rw [List.getElem?_append_right (by simp)]
      simp

/-- **C30** `from_corners` followed by `extrude`: the side walls stand on the walls of the plan, with their materials, whatever the orientation of the
corners (if the area is not zero). -/
theorem C30_extrude_from_corners (close : Vec 2 → Vec 2 → Prop) [DecidableRel close] (hrefl : ∀ p, close p p) (cs : List (Vec 2)) (rigid : Nat)
    (mats : List Nat) (h3 : 3 ≤ cs.length) (hm : mats.length = cs.length) (ha : area2dPolygon cs ≠ 0) (height : ℝ) (v : Vec 3) (fm cm : Nat) :
    ∃ walls room, fromCorners cs rigid (.list mats) = .ok walls ∧ extrude close walls height v fm cm = .ok room ∧
      room.length = walls.length + 2 ∧
      ∀ (i : Nat) (hi : i < walls.length), room[i]? = some (sideWall walls[i].1.1 walls[i].1.2 height v, walls[i].2) := by
  set os := orderCorners cs with hos
  have hlo : os.length = cs.length := by rw [hos]; unfold orderCorners; split_ifs <;> simp
  have hpos : 0 < area2dPolygon os := by
    rw [hos]; unfold orderCorners
    split_ifs with h
    · rw [C28_reverse]
      have := lt_of_le_of_ne h ha
      linarith
    · exact not_le.mp h
  set walls := (List.range cs.length).map fun i => ((corner os i, corner os (i + 1)), mats.getD i 0) with hw
  have hwl : walls.length = cs.length := by simp [hw]
  have hfl : (walls.map fun w => w.1.1) = os := by
    apply List.ext_getElem (by simp [hw, hlo])
    intro i h1 h2
    rw [List.getElem_map]
    simp only [hw, List.getElem_map, List.getElem_range]
    rw [corner_eq os h2, List.getD_eq_getElem _ _ h2]
  have hends : ∀ (i : Nat) (hi : i < walls.length), walls[i].1.2 = corner os (i + 1) := by
    intro i hi
    simp only [hw, List.getElem_map, List.getElem_range]
  have hcl : ∀ i, i < walls.length → close ((walls.map fun w => w.1.2).getD i 0) ((walls.map fun w => w.1.1).getD ((i + 1) % walls.length) 0) := by
    intro i hi
    rw [hfl, List.getD_eq_getElem _ _ (by simpa using hi), List.getElem_map, hends i hi, hwl, ← hlo]
    exact hrefl _
  obtain ⟨room, e, hl, hside, _⟩ := C30_extrude close walls height v fm cm hcl (by rw [hfl]; exact hpos)
  refine ⟨walls, room, fromCorners_eq cs rigid mats h3 hm, e, hl, ?_⟩
  intro i hi
  rw [hside i hi, hfl, hends i hi]

/-- **C30** Deviation: a room made of clockwise walls is extruded with the materials on other walls: the material of wall `i` of the plan goes to the wall
that stands between the corners `n-1-i` and `n-2-i`. -/
theorem C30_extrude_deviation (close : Vec 2 → Vec 2 → Prop) [DecidableRel close] (walls : List ((Vec 2 × Vec 2) × M)) (height : ℝ) (v : Vec 3)
    (fm cm : M)
    (hcl : ∀ i, i < walls.length → close ((walls.map fun w => w.1.2).getD i 0) ((walls.map fun w => w.1.1).getD ((i + 1) % walls.length) 0))
    (ha : area2dPolygon (walls.map fun w => w.1.1) ≤ 0) :
    ∃ room, extrude close walls height v fm cm = .ok room ∧
      ∀ (i : Nat) (hi : i + 1 < walls.length),
        room[i]? = some (sideWall (corner (walls.map fun w => w.1.1) (walls.length - 1 - i))
          (corner (walls.map fun w => w.1.1) (walls.length - 2 - i)) height v, walls[i].2) := by
  refine ⟨_, extrude_eq close walls height v fm cm hcl, ?_⟩
  intro i hi
  have ho : orderCorners (walls.map fun w => w.1.1) = (walls.map fun w => w.1.1).reverse := by unfold orderCorners; rw [if_pos ha]
  rw [ho, List.getElem?_zip_eq_some]
  constructor
  · unfold extrudeCorners sideWall
    rw [List.getElem?_append_left (by simp; omega), List.getElem?_map, List.getElem?_range (by simp; omega)]
    have hrev : ∀ k, k < walls.length → (walls.map fun w => w.1.1).reverse.getD k 0 = corner (walls.map fun w => w.1.1) (walls.length - 1 - k) := by
      intro k hk
      rw [corner_eq _ (by simp; omega), List.getD_eq_getElem _ _ (by simpa using hk), List.getElem_reverse, List.getD_eq_getElem _ _ (by simp; omega)]
      simp
    simp only [Option.map_some, List.length_reverse, List.length_map]
    rw [Nat.mod_eq_of_lt hi, hrev i (by omega), hrev (i + 1) hi, show walls.length - 1 - (i + 1) = walls.length - 2 - i by omega]
  · rw [List.getElem?_append_left (by simp; omega)]
    simp [show i < walls.length by omega]

/-- Non-vacuity of C30: a triangle in both orientations. -/
example : 0 < area2dPolygon [![0, 0], ![1, 0], ![0, 1]] ∧ area2dPolygon [![0, 1], ![1, 0], ![0, 0]] ≤ 0 ∧
    ∃ walls, fromCorners [![0, 1], ![1, 0], ![0, 0]] 0 (.list [7, 8, 9]) = .ok walls ∧
      walls.getD 0 ((0, 0), 0) = ((![0, 0], ![1, 0]), 7) := by
  have e : area2dPolygon [![0, 1], ![1, 0], ![0, 0]] ≤ 0 := by
    simp [area2dPolygon, List.range_succ]; norm_num
  refine ⟨by simp [area2dPolygon, List.range_succ]; norm_num, e, ?_⟩
  obtain ⟨walls, h1, _, h2⟩ := C30_clockwise_deviation [![0, 1], ![1, 0], ![0, 0]] 0 [7, 8, 9] (by simp) rfl e
  refine ⟨walls, h1, ?_⟩
  have := h2 1 (by simp)
  simpa [corner] using this

end Verif.Materials
