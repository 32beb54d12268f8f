import Verif.Geometry.Polygon
import Verif.Geometry.RoomModel
import Mathlib.Algebra.Module.BigOperators

/-!
# Volume: property C29
-/

namespace Verif.Geometry

open Matrix Finset

/-- What the singular value decomposition of the constructor of `Wall<3>` provides: two orthonormal vectors which span the plane
of the corners. -/
structure PlaneBasis (corners : List (Vec 3)) (u0 u1 : Vec 3) : Prop where
  unit0 : u0 ⬝ᵥ u0 = 1
  unit1 : u1 ⬝ᵥ u1 = 1
  orth : u0 ⬝ᵥ u1 = 0
  span : ∀ c ∈ corners, c - corners.getD 0 0 = (u0 ⬝ᵥ (c - corners.getD 0 0)) • u0 + (u1 ⬝ᵥ (c - corners.getD 0 0)) • u1

theorem cross_antisymm (a b : Vec 3) : crossProduct a b = -crossProduct b a := by
  rw [cross_anticomm]

theorem cross_unit {u0 u1 : Vec 3} (h0 : u0 ⬝ᵥ u0 = 1) (h1 : u1 ⬝ᵥ u1 = 1) (h : u0 ⬝ᵥ u1 = 0) :
    crossProduct u0 u1 ⬝ᵥ crossProduct u0 u1 = 1 := by
  rw [cross_dot_cross, h0, h1, h, dotProduct_comm u1 u0, h]; norm_num

/-- Twice the signed area as a sum of cross products. -/
theorem area_cross (l : List (Vec 2)) : 2 * area2dPolygon l = closedSum (fun a b : Vec 2 => a 0 * b 1 - b 0 * a 1) l := by
  have h1 := closedSum_telescope (fun v : Vec 2 => v 0 * v 1) l
  have h2 : 2 * closedSum trap l + closedSum (fun a b : Vec 2 => b 0 * b 1 - a 0 * a 1) l =
      closedSum (fun a b : Vec 2 => a 0 * b 1 - b 0 * a 1) l := by
    unfold closedSum
    rw [← List.sum_map_mul_left, ← List.sum_map_add]
    congr 1
    apply List.map_congr_left
    intro e _
    unfold trap; ring
  rw [area_eq, ← h2, h1, add_zero]

theorem closedSum_map {α β M : Type} [AddCommGroup M] (f : β → β → M) (g : α → β) (l : List α) :
    closedSum f (l.map g) = closedSum (fun a b => f (g a) (g b)) l := by
  unfold closedSum
  rw [edges_map, List.map_map]; rfl

/-- The vector area does not depend on the origin. -/
theorem cross_translate (o : Vec 3) (l : List (Vec 3)) :
    closedSum (fun a b : Vec 3 => crossProduct (a - o) (b - o)) l = closedSum (fun a b : Vec 3 => crossProduct a b) l := by
  have h1 := closedSum_telescope (fun v : Vec 3 => crossProduct v o) l
  have h2 : closedSum (fun a b : Vec 3 => crossProduct (a - o) (b - o)) l =
      closedSum (fun a b : Vec 3 => crossProduct a b) l + closedSum (fun a b : Vec 3 => crossProduct b o - crossProduct a o) l := by
    unfold closedSum
    rw [← List.sum_map_add]
    congr 1
    apply List.map_congr_left
    intro e _
    simp only [map_sub, LinearMap.sub_apply, cross_self]
    rw [cross_antisymm o e.2]
    abel
  rw [h2, h1, add_zero]

theorem vector_area_flat {corners : List (Vec 3)} {u0 u1 : Vec 3} (hb : PlaneBasis corners u0 u1) :
    closedSum (fun a b : Vec 3 => crossProduct a b) corners =
      (2 * area2dPolygon (corners.map fun c => ![u0 ⬝ᵥ (c - corners.getD 0 0), u1 ⬝ᵥ (c - corners.getD 0 0)])) • crossProduct u0 u1 := by
  set o := corners.getD 0 0 with ho
  rw [area_cross, closedSum_map, ← cross_translate o]
  unfold closedSum
  rw [List.sum_smul, List.map_map]
  · congr 1
    apply List.map_congr_left
    intro e he
    have h1 := hb.span e.1 (edges_mem he).1
    have h2 := hb.span e.2 (edges_mem he).2
    rw [← ho] at h1 h2
    have key : ∀ a0 a1 b0 b1 : ℝ, crossProduct (a0 • u0 + a1 • u1) (b0 • u0 + b1 • u1) = (a0 * b1 - b0 * a1) • crossProduct u0 u1 := by
      intro a0 a1 b0 b1
      simp only [map_add, map_smul, LinearMap.add_apply, LinearMap.smul_apply, cross_self, smul_zero, zero_add, add_zero]
      rw [cross_antisymm u1 u0]
      module
    show crossProduct (e.1 - o) (e.2 - o) = (u0 ⬝ᵥ (e.1 - o) * u1 ⬝ᵥ (e.2 - o) - u0 ⬝ᵥ (e.2 - o) * u1 ⬝ᵥ (e.1 - o)) • crossProduct u0 u1
    conv_lhs => rw [h1, h2]
    exact key _ _ _ _

/-- The area and the normal of a wall: the normal is a unit vector, the area is not negative, and their product is half of the sum of
the cross products of consecutive corners. -/
theorem wall3_vector_area {corners : List (Vec 3)} {u0 u1 : Vec 3} (hb : PlaneBasis corners u0 u1) :
    0 ≤ (volWall3 corners u0 u1).area ∧ (volWall3 corners u0 u1).normal ⬝ᵥ (volWall3 corners u0 u1).normal = 1 ∧
    (2 * (volWall3 corners u0 u1).area) • (volWall3 corners u0 u1).normal = closedSum (fun a b : Vec 3 => crossProduct a b) corners := by
  have hva := vector_area_flat hb
  unfold volWall3 wall3
  simp only
  set flat := corners.map fun c => ![u0 ⬝ᵥ (c - corners.getD 0 0), u1 ⬝ᵥ (c - corners.getD 0 0)]
  by_cases h : area2dPolygon flat < 0
  · rw [if_pos h]
    simp only
    have hsw : area2dPolygon (flat.map fun c => ![c 1, c 0]) = -area2dPolygon flat := by
      have := C28_affine 0 1 1 0 0 0 flat
      simp only [zero_mul, one_mul, zero_add, add_zero, zero_sub, mul_one, neg_mul] at this
      exact this
    rw [hsw]
    refine ⟨by linarith, cross_unit hb.unit1 hb.unit0 (by rw [dotProduct_comm]; exact hb.orth), ?_⟩
    rw [hva, cross_antisymm u1 u0]
    module
  · rw [if_neg h]
    simp only
    exact ⟨not_lt.mp h, cross_unit hb.unit0 hb.unit1 hb.orth, hva.symm⟩

theorem getVolume_eq {D : Nat} (ws : List (VolWall D)) (h : ∀ w ∈ ws, w.normal ⬝ᵥ w.normal = 1) :
    getVolume ws = (ws.map fun w => (w.normal ⬝ᵥ w.corner) * w.area).sum / 3 := by
  have hfold : ∀ (ws : List (VolWall D)) (s : ℝ), (∀ w ∈ ws, w.normal ⬝ᵥ w.normal = 1) →
      ws.foldl (fun s w => s + (((norm w.normal)⁻¹ • w.normal) ⬝ᵥ w.corner) * w.area) s = s + (ws.map fun w => (w.normal ⬝ᵥ w.corner) * w.area).sum := by
    intro ws
    induction ws with
    | nil => intro s _; simp
    | cons w ws ih =>
      intro s h
      rw [List.foldl_cons, ih _ fun w hw => h w (List.mem_cons_of_mem _ hw), List.map_cons, List.sum_cons]
      unfold norm
      rw [h w (by simp), Real.sqrt_one, inv_one, one_smul, add_assoc]
  unfold getVolume
  rw [hfold ws 0 h, zero_add]

/-- **C29** For walls in planes, `get_volume` is a sixth of the sum over the walls and their edges `(a, b)` of the triple products of the first corner with
`a` and `b`. -/
theorem C29_divergence (room : List (List (Vec 3) × Vec 3 × Vec 3)) (hb : ∀ r ∈ room, PlaneBasis r.1 r.2.1 r.2.2) :
    getVolume (room.map fun r => volWall3 r.1 r.2.1 r.2.2) =
      (room.map fun r => r.1.getD 0 0 ⬝ᵥ closedSum (fun a b : Vec 3 => crossProduct a b) r.1).sum / 6 := by
  rw [getVolume_eq]
  · rw [List.map_map]
    have : ((fun w : VolWall 3 => w.normal ⬝ᵥ w.corner * w.area) ∘ fun r : List (Vec 3) × Vec 3 × Vec 3 => volWall3 r.1 r.2.1 r.2.2) =
        fun r : List (Vec 3) × Vec 3 × Vec 3 => (volWall3 r.1 r.2.1 r.2.2).normal ⬝ᵥ (volWall3 r.1 r.2.1 r.2.2).corner * (volWall3 r.1 r.2.1 r.2.2).area := rfl
    rw [this]
    have h2 : (room.map fun r => r.1.getD 0 0 ⬝ᵥ closedSum (fun a b : Vec 3 => crossProduct a b) r.1) =
        room.map fun r => 2 * ((volWall3 r.1 r.2.1 r.2.2).normal ⬝ᵥ (volWall3 r.1 r.2.1 r.2.2).corner * (volWall3 r.1 r.2.1 r.2.2).area) := by
      apply List.map_congr_left
      intro r hr
      rw [← (wall3_vector_area (hb r hr)).2.2, dotProduct_smul, smul_eq_mul, dotProduct_comm]
      unfold volWall3
      simp only
      ring
    rw [h2, List.sum_map_mul_left]
    ring
  · intro w hw
    rw [List.mem_map] at hw
    obtain ⟨r, hr, rfl⟩ := hw
    exact (wall3_vector_area (hb r hr)).2.1

/-- **C29** `Room.wall_area` agrees with `area()` of the wall. -/
theorem C29_wall_area {corners : List (Vec 3)} {u0 u1 : Vec 3} (hb : PlaneBasis corners u0 u1) :
    wallArea (volWall3 corners u0 u1).normal corners = (volWall3 corners u0 u1).area := by
  obtain ⟨h1, h2, h3⟩ := wall3_vector_area hb
  have hsum : (List.range corners.length).foldl (fun s i =>
      s + crossProduct (corners.getD ((i + corners.length - 1) % corners.length) 0) (corners.getD i 0)) 0 =
      closedSum (fun a b : Vec 3 => crossProduct a b) corners := by
    have hfold : ∀ (g : Nat → Vec 3) (n : Nat), (List.range n).foldl (fun s i => s + g i) 0 = ∑ i ∈ range n, g i := by
      intro g n
      induction n with
      | zero => rfl
      | succ n ih => rw [List.range_succ, List.foldl_append, ih, Finset.sum_range_succ]; rfl
    rw [hfold]
    rcases List.eq_nil_or_concat' corners with rfl | ⟨t, last, rfl⟩
    · simp [closedSum, edges]
    · rw [closedSum_rotate]
      show _ = pathSum (fun a b : Vec 3 => crossProduct a b) (last :: (t ++ [last]))
      rw [pathSum_eq _ 0]
      apply Finset.sum_congr (by simp)
      intro i hi
      have hi' : i < (t ++ [last]).length := by simp at hi ⊢; omega
      have hlen : (t ++ [last]).length = t.length + 1 := by simp
      congr 1
      cases i with
      | zero =>
        rw [hlen, show 0 + (t.length + 1) - 1 = t.length by omega, Nat.mod_eq_of_lt (by omega)]
        rw [List.getD_append_right _ _ _ _ (le_refl _)]
        simp
      | succ i =>
        rw [hlen, show i + 1 + (t.length + 1) - 1 = i + (t.length + 1) by omega, Nat.add_mod_right, Nat.mod_eq_of_lt (by omega)]
        rfl
  unfold wallArea
  rw [hsum, ← h3]
  unfold norm
  rw [h2, Real.sqrt_one, inv_one, one_smul, dotProduct_smul, h2, smul_eq_mul, mul_one, abs_of_nonneg (by linarith)]
  ring

theorem closedSum_mod {α M : Type} [AddCommGroup M] (f : α → α → M) (d : α) (l : List α) :
    ((List.range l.length).map fun i => f (l.getD i d) (l.getD ((i + 1) % l.length) d)).sum = closedSum f l := by
  have hs : ∀ (g : Nat → M) (n : Nat), ((List.range n).map g).sum = ∑ i ∈ range n, g i := by
    intro g n
    induction n with
    | zero => rfl
    | succ n ih => rw [List.range_succ, List.map_append, List.sum_append, ih, Finset.sum_range_succ]; simp
  rw [closedSum_eq f d, hs]
  apply Finset.sum_congr rfl
  intro i hi
  rw [Finset.mem_range] at hi
  congr 2
  split_ifs with h
  · rw [h, Nat.sub_add_cancel (by omega), Nat.mod_self]
  · rw [Nat.mod_eq_of_lt (by omega)]

/-- Rooms whose walls have the given corners. -/
def Walls3 (corners : List (List (Vec 3))) (room : List (List (Vec 3) × Vec 3 × Vec 3)) : Prop :=
  room.map (fun r => r.1) = corners ∧ ∀ r ∈ room, PlaneBasis r.1 r.2.1 r.2.2

theorem volume_corners {corners : List (List (Vec 3))} {room : List (List (Vec 3) × Vec 3 × Vec 3)} (h : Walls3 corners room) :
    getVolume (room.map fun r => volWall3 r.1 r.2.1 r.2.2) =
      (corners.map fun c => c.getD 0 0 ⬝ᵥ closedSum (fun a b : Vec 3 => crossProduct a b) c).sum / 6 := by
  rw [C29_divergence room h.2, ← h.1, List.map_map]
  rfl

theorem closedSum_dot (x : Vec 3) (f : Vec 2 → Vec 2 → Vec 3) (l : List (Vec 2)) :
    x ⬝ᵥ closedSum f l = closedSum (fun a b => x ⬝ᵥ f a b) l := by
  unfold closedSum
  induction edges l with
  | nil => simp
  | cons e l ih => rw [List.map_cons, List.map_cons, List.sum_cons, List.sum_cons, dotProduct_add, ih]

theorem lift_vector_area (l : List (Vec 2)) :
    closedSum (fun a b : Vec 3 => crossProduct a b) (l.map lift3) = (2 * area2dPolygon l) • ![0, 0, 1] := by
  rw [closedSum_map, area_cross]
  unfold closedSum
  rw [List.sum_smul, List.map_map]
  congr 1
  apply List.map_congr_left
  intro e _
  simp only [Function.comp, lift3, cross_apply]
  ext i
  fin_cases i <;> simp
  ring

/-- **C29** Extruded rooms: height times floor area, for every floor polygon and every extrusion vector. -/
theorem C29_extruded (floor : List (Vec 2)) (hne : floor ≠ []) (height : ℝ) (v : Vec 3) (room : List (List (Vec 3) × Vec 3 × Vec 3))
    (h : Walls3 (extrudeCorners floor height v) room) :
    getVolume (room.map fun r => volWall3 r.1 r.2.1 r.2.2) = area2dPolygon floor * (height * v 2) := by
  rw [volume_corners h]
  unfold extrudeCorners
  rw [List.map_append, List.sum_append, List.map_map]
  have hside : ((fun c : List (Vec 3) => c.getD 0 0 ⬝ᵥ closedSum (fun a b : Vec 3 => crossProduct a b) c) ∘ fun i : Nat =>
      [lift3 (floor.getD i 0), lift3 (floor.getD ((i + 1) % floor.length) 0),
      lift3 (floor.getD ((i + 1) % floor.length) 0) + height • v, lift3 (floor.getD i 0) + height • v]) =
      fun i => (fun a b : Vec 2 => (2 * (height * v 2)) * (a 0 * b 1 - b 0 * a 1)) (floor.getD i 0) (floor.getD ((i + 1) % floor.length) 0) := by
    have key : ∀ a b : Vec 2, [lift3 a, lift3 b, lift3 b + height • v, lift3 a + height • v].getD 0 0 ⬝ᵥ
        closedSum (fun a b : Vec 3 => crossProduct a b) [lift3 a, lift3 b, lift3 b + height • v, lift3 a + height • v] =
        (2 * (height * v 2)) * (a 0 * b 1 - b 0 * a 1) := by
     intro a b
     simp only [closedSum, edges, pathEdges, List.cons_append, List.nil_append, List.map_cons, List.map_nil, List.sum_cons,
      List.sum_nil, List.getD_cons_zero, lift3, cross_apply, vec3_dotProduct]
     simp
     ring
    funext i
    exact key _ _
  rw [hside, closedSum_mod (fun a b : Vec 2 => (2 * (height * v 2)) * (a 0 * b 1 - b 0 * a 1)) 0 floor]
  have hscale : closedSum (fun a b : Vec 2 => (2 * (height * v 2)) * (a 0 * b 1 - b 0 * a 1)) floor = 2 * (height * v 2) * (2 * area2dPolygon floor) := by
    rw [area_cross]
    unfold closedSum
    rw [← List.sum_map_mul_left]
  have hfloor : ((floor.map lift3).reverse.getD 0 0) ⬝ᵥ closedSum (fun a b : Vec 3 => crossProduct a b) (floor.map lift3).reverse = 0 := by
    rw [closedSum_reverse _ cross_antisymm, lift_vector_area]
    have hz : (floor.map lift3).reverse.getD 0 0 2 = 0 := by
      cases hr : (floor.map lift3).reverse with
      | nil => rfl
      | cons x xs =>
        have hx : x ∈ floor.map lift3 := by rw [← List.mem_reverse, hr]; simp
        rw [List.mem_map] at hx
        obtain ⟨y, _, rfl⟩ := hx
        simp [lift3]
    rw [dotProduct_neg, dotProduct_smul, vec3_dotProduct, hz]
    simp
  have hceil : (((floor.map lift3).map fun c => c + height • v).getD 0 0) ⬝ᵥ
      closedSum (fun a b : Vec 3 => crossProduct a b) ((floor.map lift3).map fun c => c + height • v) = height * v 2 * (2 * area2dPolygon floor) := by
    have htr : closedSum (fun a b : Vec 3 => crossProduct a b) ((floor.map lift3).map fun c => c + height • v) =
        closedSum (fun a b : Vec 3 => crossProduct a b) (floor.map lift3) := by
      rw [closedSum_map, ← cross_translate (-(height • v)) (floor.map lift3)]
      simp only [sub_neg_eq_add]
    rw [htr, lift_vector_area]
    cases floor with
    | nil => exact absurd rfl hne
    | cons x xs =>
      have hd : ((((x :: xs).map lift3).map fun c => c + height • v).getD 0 0) ⬝ᵥ ![0, 0, 1] = height * v 2 := by
        show (lift3 x + height • v) ⬝ᵥ ![0, 0, 1] = height * v 2
        rw [vec3_dotProduct]
        simp [lift3, Pi.add_apply]
      rw [dotProduct_smul, hd, smul_eq_mul]
      ring
  rw [hscale]
  simp only [List.map_cons, List.map_nil, List.sum_cons, List.sum_nil, hfloor, hceil]
  ring

/-- **C29** `extrude` after the ordering of the corners, upwards: height times the absolute value of the polygon area, whatever the order
of the user's corners. -/
theorem C29_extruded_up (corners : List (Vec 2)) (hne : corners ≠ []) (height : ℝ) (room : List (List (Vec 3) × Vec 3 × Vec 3))
    (h : Walls3 (extrudeCorners (orderCorners corners) height ![0, 0, 1]) room) :
    getVolume (room.map fun r => volWall3 r.1 r.2.1 r.2.2) = height * |area2dPolygon corners| := by
  have ho : orderCorners corners ≠ [] := by
    unfold orderCorners
    split_ifs
    · simpa using hne
    · exact hne
  rw [C29_extruded _ ho _ _ _ h]
  have ha : area2dPolygon (orderCorners corners) = |area2dPolygon corners| := by
    unfold orderCorners
    split_ifs with h0
    · rw [C28_reverse, abs_of_nonpos h0]
    · rw [abs_of_pos (not_le.mp h0)]
  rw [ha]; simp; ring

/-- **C29** Shoeboxes: the product of the sides. -/
theorem C29_shoebox (dim : Vec 3) : shoeboxVolume dim = dim 0 * dim 1 * dim 2 := by
  unfold shoeboxVolume
  rw [Fin.prod_univ_three]

/-- **C29** The walls of the engine of a shoebox enclose the same volume. -/
theorem C29_shoebox_walls (dim : Vec 3) (room : List (List (Vec 3) × Vec 3 × Vec 3)) (h : Walls3 (shoeboxCorners3 dim) room) :
    getVolume (room.map fun r => volWall3 r.1 r.2.1 r.2.2) = shoeboxVolume dim := by
  rw [volume_corners h, C29_shoebox]
  unfold shoeboxCorners3
  simp only [closedSum, edges, pathEdges, List.cons_append, List.nil_append, List.map_cons, List.map_nil, List.sum_cons,
      List.sum_nil, List.getD_cons_zero, cross_apply, vec3_dotProduct]
  simp
  ring

theorem volWall2_term (a b : Vec 2) : (((norm (volWall2 (a, b)).normal)⁻¹ • (volWall2 (a, b)).normal) ⬝ᵥ a) * (volWall2 (a, b)).area =
    a 0 * b 1 - b 0 * a 1 := by
  unfold volWall2 wall2 wall2Area
  simp only
  set n : Vec 2 := ![b 1 - a 1, a 0 - b 0] with hn
  have hnorm : norm n = norm (b - a) := by
    unfold norm
    congr 1
    rw [vec2_dotProduct, vec2_dotProduct]
    simp [hn]
    ring
  by_cases h0 : n = 0
  · have h1 : b 1 - a 1 = 0 := by simpa [hn] using congrFun h0 0
    have h2 : a 0 - b 0 = 0 := by simpa [hn] using congrFun h0 1
    have hz : norm (b - a) = 0 := by
      rw [← hnorm, h0]; unfold norm; simp
    rw [hz, mul_zero, show b 1 = a 1 by linarith, show a 0 = b 0 by linarith]
    ring
  · have hu : norm (normalized n) = 1 := by unfold norm; rw [normalized_unit h0, Real.sqrt_one]
    have hp := norm_pos h0
    rw [hu, inv_one, one_smul, normalized_smul h0, smul_dotProduct, ← hnorm, smul_eq_mul]
    rw [mul_comm (norm n)⁻¹, mul_assoc, inv_mul_cancel₀ hp.ne', mul_one, vec2_dotProduct]
    simp [hn]
    ring

/-- **C29** 2-D rooms: `get_volume` (and the property `volume`) is two thirds of the area, not the area. -/
theorem C29_two_dim_deviation (corners : List (Vec 2)) :
    getVolume ((polygonWalls corners).map volWall2) = 2 / 3 * area2dPolygon corners := by
  have hfold : ∀ (ws : List (VolWall 2)) (s : ℝ),
      ws.foldl (fun s w => s + (((norm w.normal)⁻¹ • w.normal) ⬝ᵥ w.corner) * w.area) s = s + (ws.map fun w => (((norm w.normal)⁻¹ • w.normal) ⬝ᵥ w.corner) * w.area).sum := by
    intro ws
    induction ws with
    | nil => intro s; simp
    | cons w ws ih =>
      intro s
      rw [List.foldl_cons, ih, List.map_cons, List.sum_cons, add_assoc]
  unfold getVolume
  rw [hfold, zero_add]
  unfold polygonWalls
  rw [List.map_map, List.map_map]
  have : (((fun w : VolWall 2 => (((norm w.normal)⁻¹ • w.normal) ⬝ᵥ w.corner) * w.area) ∘ volWall2) ∘
      fun i : Nat => (corners.getD i 0, corners.getD ((i + 1) % corners.length) 0)) =
      fun i => (fun a b : Vec 2 => a 0 * b 1 - b 0 * a 1) (corners.getD i 0) (corners.getD ((i + 1) % corners.length) 0) := by
    funext i
    exact volWall2_term _ _
  rw [this, closedSum_mod (fun a b : Vec 2 => a 0 * b 1 - b 0 * a 1) 0 corners, ← area_cross]
  ring

/-- Non-vacuity of C29: the walls of the unit cube extruded from the unit square have plane bases. -/
example : Walls3 (extrudeCorners [![0, 0], ![1, 0], ![1, 1], ![0, 1]] 1 ![0, 0, 1])
    [([![0, 0, 0], ![1, 0, 0], ![1, 0, 1], ![0, 0, 1]], ![1, 0, 0], ![0, 0, 1]),
     ([![1, 0, 0], ![1, 1, 0], ![1, 1, 1], ![1, 0, 1]], ![0, 1, 0], ![0, 0, 1]),
     ([![1, 1, 0], ![0, 1, 0], ![0, 1, 1], ![1, 1, 1]], ![1, 0, 0], ![0, 0, 1]),
     ([![0, 1, 0], ![0, 0, 0], ![0, 0, 1], ![0, 1, 1]], ![0, 1, 0], ![0, 0, 1]),
     ([![0, 1, 0], ![1, 1, 0], ![1, 0, 0], ![0, 0, 0]], ![1, 0, 0], ![0, 1, 0]),
     ([![0, 0, 1], ![1, 0, 1], ![1, 1, 1], ![0, 1, 1]], ![1, 0, 0], ![0, 1, 0])] := by
  constructor
  · simp [extrudeCorners, List.range_succ, lift3]
  · intro r hr
    simp only [List.mem_cons, List.not_mem_nil, or_false] at hr
    rcases hr with rfl | rfl | rfl | rfl | rfl | rfl <;>
    · refine ⟨by simp [vec3_dotProduct], by simp [vec3_dotProduct], by simp [vec3_dotProduct], ?_⟩
      intro c hc
      simp only [List.mem_cons, List.not_mem_nil, or_false] at hc
      rcases hc with rfl | rfl | rfl | rfl <;> (ext i; fin_cases i <;> simp [vec3_dotProduct])

/-- The 2-D deviation on the unit square. -/
example : getVolume ((polygonWalls [![0, 0], ![1, 0], ![1, 1], ![0, 1]]).map volWall2) ≠ area2dPolygon [![0, 0], ![1, 0], ![1, 1], ![0, 1]] := by
  rw [C29_two_dim_deviation, area_eq]
  simp [closedSum, edges, pathEdges, trap]
  norm_num

end Verif.Geometry
