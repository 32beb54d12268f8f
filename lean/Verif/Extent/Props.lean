import Verif.Extent.Model
import Verif.Angles.Props
import Mathlib.Analysis.Convex.Combination
import Mathlib.Analysis.Convex.Hull
import Mathlib.Tactic.FieldSimp
import Mathlib.Tactic.Linarith

/-!
# C129: no straight path inside a room is as long as the distance used to look for the next wall
-/

namespace Verif.Extent

open Py

/-! ## Extents -/

theorem foldl_max_spec (l : List ℝ) (a : ℝ) : (l.foldl max a = a ∨ l.foldl max a ∈ l) ∧ a ≤ l.foldl max a ∧ ∀ x ∈ l, x ≤ l.foldl max a := by
  induction l generalizing a with
  | nil => simp
  | cons b t ih =>
    obtain ⟨h1, h2, h3⟩ := ih (max a b)
    rw [List.foldl_cons]
    refine ⟨?_, (le_max_left _ _).trans h2, ?_⟩
    · rcases h1 with h1 | h1
      · rcases max_choice a b with hm | hm
        · exact Or.inl (h1.trans hm)
        · exact Or.inr (by rw [h1, hm]; exact List.mem_cons_self)
      · exact Or.inr (List.mem_cons_of_mem _ h1)
    · intro x hx
      rcases List.mem_cons.mp hx with hx | hx
      · rw [hx]; exact (le_max_right _ _).trans h2
      · exact h3 x hx

theorem foldl_min_spec (l : List ℝ) (a : ℝ) : (l.foldl min a = a ∨ l.foldl min a ∈ l) ∧ l.foldl min a ≤ a ∧ ∀ x ∈ l, l.foldl min a ≤ x := by
  induction l generalizing a with
  | nil => simp
  | cons b t ih =>
    obtain ⟨h1, h2, h3⟩ := ih (min a b)
    rw [List.foldl_cons]
    refine ⟨?_, h2.trans (min_le_left _ _), ?_⟩
    · rcases h1 with h1 | h1
      · rcases min_choice a b with hm | hm
        · exact Or.inl (h1.trans hm)
        · exact Or.inr (by rw [h1, hm]; exact List.mem_cons_self)
      · exact Or.inr (List.mem_cons_of_mem _ h1)
    · intro x hx
      rcases List.mem_cons.mp hx with hx | hx
      · rw [hx]; exact h2.trans (min_le_right _ _)
      · exact h3 x hx

/-- Coordinate `k` of a corner, zero above the dimension. -/
def coord {D : ℕ} (c : Fin D → ℝ) (k : Fin 3) : ℝ := if h : k.val < D then c ⟨k.val, h⟩ else 0

/-- The values of coordinate `k` over the corners of all walls. -/
def values {D : ℕ} (walls : List (List (Fin D → ℝ))) (k : Fin 3) : Set ℝ := {v | ∃ w ∈ walls, ∃ c ∈ w, coord c k = v}

theorem row_max {D : ℕ} (w : List (Fin D → ℝ)) (hw : w ≠ []) (k : Fin 3) : ∃ a, rowFold max w k = some a ∧ IsGreatest (values [w] k) a := by
  obtain ⟨c, t, rfl⟩ := List.exists_cons_of_ne_nil hw
  unfold rowFold
  by_cases h : k.val < D
  · simp only [dif_pos h]
    refine ⟨_, rfl, ?_⟩
    obtain ⟨h1, h2, h3⟩ := foldl_max_spec (t.map (· ⟨k.val, h⟩)) (c ⟨k.val, h⟩)
    constructor
    · rcases h1 with h1 | h1
      · exact ⟨_, List.mem_cons_self, c, List.mem_cons_self, by rw [h1, coord, dif_pos h]⟩
      · obtain ⟨q, hq, he⟩ := List.mem_map.mp h1
        exact ⟨_, List.mem_cons_self, q, List.mem_cons_of_mem _ hq, by rw [← he, coord, dif_pos h]⟩
    · rintro v ⟨w, hw, q, hq, rfl⟩
      rw [List.mem_singleton] at hw
      subst hw
      rw [coord, dif_pos h]
      rcases List.mem_cons.mp hq with rfl | hq
      · exact h2
      · exact h3 _ (List.mem_map_of_mem (f := fun q : Fin D → ℝ => q ⟨k.val, h⟩) hq)
  · simp only [dif_neg h]
    refine ⟨0, rfl, ⟨_, List.mem_cons_self, c, List.mem_cons_self, by rw [coord, dif_neg h]⟩, ?_⟩
    rintro v ⟨w, hw, q, hq, rfl⟩
    rw [coord, dif_neg h]

theorem row_min {D : ℕ} (w : List (Fin D → ℝ)) (hw : w ≠ []) (k : Fin 3) : ∃ a, rowFold min w k = some a ∧ IsLeast (values [w] k) a := by
  obtain ⟨c, t, rfl⟩ := List.exists_cons_of_ne_nil hw
  unfold rowFold
  by_cases h : k.val < D
  · simp only [dif_pos h]
    refine ⟨_, rfl, ?_⟩
    obtain ⟨h1, h2, h3⟩ := foldl_min_spec (t.map (· ⟨k.val, h⟩)) (c ⟨k.val, h⟩)
    constructor
    · rcases h1 with h1 | h1
      · exact ⟨_, List.mem_cons_self, c, List.mem_cons_self, by rw [h1, coord, dif_pos h]⟩
      · obtain ⟨q, hq, he⟩ := List.mem_map.mp h1
        exact ⟨_, List.mem_cons_self, q, List.mem_cons_of_mem _ hq, by rw [← he, coord, dif_pos h]⟩
    · rintro v ⟨w, hw, q, hq, rfl⟩
      rw [List.mem_singleton] at hw
      subst hw
      rw [coord, dif_pos h]
      rcases List.mem_cons.mp hq with rfl | hq
      · exact h2
      · exact h3 _ (List.mem_map_of_mem (f := fun q : Fin D → ℝ => q ⟨k.val, h⟩) hq)
  · simp only [dif_neg h]
    refine ⟨0, rfl, ⟨_, List.mem_cons_self, c, List.mem_cons_self, by rw [coord, dif_neg h]⟩, ?_⟩
    rintro v ⟨w, hw, q, hq, rfl⟩
    rw [coord, dif_neg h]

theorem values_append {D : ℕ} (a b : List (List (Fin D → ℝ))) (k : Fin 3) : values (a ++ b) k = values a k ∪ values b k := by
  ext v
  simp only [values, Set.mem_union, Set.mem_ofPred_eq, List.mem_append]
  constructor
  · rintro ⟨w, hw | hw, h⟩
    · exact Or.inl ⟨w, hw, h⟩
    · exact Or.inr ⟨w, hw, h⟩
  · rintro (⟨w, hw, h⟩ | ⟨w, hw, h⟩)
    · exact ⟨w, Or.inl hw, h⟩
    · exact ⟨w, Or.inr hw, h⟩

theorem extent_tail {D : ℕ} (k : Fin 3) (t pre : List (List (Fin D → ℝ))) (i : ℕ) (hi : i ≠ 0) (s : ℝ × ℝ) (ht : ∀ w ∈ t, w ≠ [])
    (hs : IsGreatest (values pre k) s.1 ∧ IsLeast (values pre k) s.2) :
    ∃ r, extent k i t s = some r ∧ IsGreatest (values (pre ++ t) k) r.1 ∧ IsLeast (values (pre ++ t) k) r.2 := by
  induction t generalizing pre i s with
  | nil => exact ⟨s, rfl, by rw [List.append_nil]; exact hs⟩
  | cons w t ih =>
    obtain ⟨a, ha, hag⟩ := row_max w (ht w List.mem_cons_self) k
    obtain ⟨b, hb, hbl⟩ := row_min w (ht w List.mem_cons_self) k
    rw [extent, ha, hb]
    simp only [if_neg hi]
    have := ih (pre ++ [w]) (i + 1) (by omega) (if a > s.1 then a else s.1, if b < s.2 then b else s.2) (fun w hw => ht w (List.mem_cons_of_mem _ hw)) (by
      rw [values_append]
      have e1 : (if a > s.1 then a else s.1) = max s.1 a := by
        split_ifs with h
        · exact (max_eq_right h.le).symm
        · exact (max_eq_left (not_lt.mp h)).symm
      have e2 : (if b < s.2 then b else s.2) = min s.2 b := by
        split_ifs with h
        · exact (min_eq_right h.le).symm
        · exact (min_eq_left (not_lt.mp h)).symm
      exact ⟨e1 ▸ hs.1.union hag, e2 ▸ hs.2.union hbl⟩)
    rwa [List.append_assoc, List.singleton_append] at this

theorem extent_spec {D : ℕ} (k : Fin 3) (walls : List (List (Fin D → ℝ))) (hne : walls ≠ []) (hw : ∀ w ∈ walls, w ≠ []) :
    ∃ r, extent k 0 walls (0, 0) = some r ∧ IsGreatest (values walls k) r.1 ∧ IsLeast (values walls k) r.2 := by
  obtain ⟨w, t, rfl⟩ := List.exists_cons_of_ne_nil hne
  obtain ⟨a, ha, hag⟩ := row_max w (hw w List.mem_cons_self) k
  obtain ⟨b, hb, hbl⟩ := row_min w (hw w List.mem_cons_self) k
  rw [extent, ha, hb]
  simp only [if_true]
  exact extent_tail k t [w] 1 (by omega) (a, b) (fun w h => hw w (List.mem_cons_of_mem _ h)) ⟨hag, hbl⟩

/-- **C129** (value). The distance is one more than the diagonal of the box between the least and greatest coordinates of the corners. -/
theorem C129_value {D : ℕ} (walls : List (List (Fin D → ℝ))) (hne : walls ≠ []) (hw : ∀ w ∈ walls, w ≠ []) :
    ∃ lo hi : Fin 3 → ℝ, (∀ k, IsLeast (values walls k) (lo k) ∧ IsGreatest (values walls k) (hi k)) ∧
      maxDistance walls = some (Real.sqrt (∑ k, (hi k - lo k) ^ 2) + 1) := by
  choose r hr hg hl using fun k => extent_spec k walls hne hw
  refine ⟨fun k => (r k).2, fun k => (r k).1, fun k => ⟨hl k, hg k⟩, ?_⟩
  unfold maxDistance
  rw [hr 0, hr 1, hr 2]
  simp only [Fin.sum_univ_three]
  congr 3
  ring

/-- The corners of all walls. -/
def corners {D : ℕ} (walls : List (List (Fin D → ℝ))) : Set (Fin D → ℝ) := {c | ∃ w ∈ walls, c ∈ w}

/-- The distance of two points. -/
noncomputable def edist {D : ℕ} (p q : Fin D → ℝ) : ℝ := Real.sqrt (∑ k, (p k - q k) ^ 2)

theorem hull_bounds {D : ℕ} (walls : List (List (Fin D → ℝ))) (p : Fin D → ℝ) (hp : p ∈ convexHull ℝ (corners walls)) (j : Fin D) (lo hi : ℝ)
    (h : ∀ c ∈ corners walls, lo ≤ c j ∧ c j ≤ hi) : lo ≤ p j ∧ p j ≤ hi := by
  have hconv : Convex ℝ {q : Fin D → ℝ | lo ≤ q j ∧ q j ≤ hi} := by
    intro x hx y hy a b ha hb hab
    simp only [Set.mem_ofPred_eq, Pi.add_apply, Pi.smul_apply, smul_eq_mul] at *
    have h1 : b = 1 - a := by linarith
    subst h1
    constructor
    · nlinarith [mul_le_mul_of_nonneg_left hx.1 ha, mul_le_mul_of_nonneg_left hy.1 hb]
    · nlinarith [mul_le_mul_of_nonneg_left hx.2 ha, mul_le_mul_of_nonneg_left hy.2 hb]
  exact convexHull_min (fun c hc => h c hc) hconv hp

/-- **C129** (bound). Any two points of the convex hull of the corners, so any two points of the room, are closer than that distance, by at least one. -/
theorem C129_bound {D : ℕ} (hD : D ≤ 3) (walls : List (List (Fin D → ℝ))) (hw : ∀ w ∈ walls, w ≠ []) (L : ℝ) (hL : maxDistance walls = some L) (p q : Fin D → ℝ)
    (hp : p ∈ convexHull ℝ (corners walls)) (hq : q ∈ convexHull ℝ (corners walls)) : edist p q + 1 ≤ L := by
  by_cases hne : walls = []
  · subst hne
    simp [corners] at hp
  obtain ⟨lo, hi, hk, hv⟩ := C129_value walls hne hw
  rw [hv, Option.some.injEq] at hL
  subst hL
  have hb : ∀ (j : Fin D) (x : Fin D → ℝ), x ∈ convexHull ℝ (corners walls) → lo ⟨j.val, by omega⟩ ≤ x j ∧ x j ≤ hi ⟨j.val, by omega⟩ := by
    intro j x hx
    refine hull_bounds walls x hx j _ _ ?_
    rintro c ⟨w, hw, hc⟩
    have hc' : coord c ⟨j.val, by omega⟩ = c j := by rw [coord, dif_pos j.isLt]
    exact ⟨(hk _).1.2 ⟨w, hw, c, hc, hc'⟩, (hk _).2.2 ⟨w, hw, c, hc, hc'⟩⟩
  have hsq : ∑ j : Fin D, (p j - q j) ^ 2 ≤ ∑ k : Fin 3, (hi k - lo k) ^ 2 := by
    calc ∑ j : Fin D, (p j - q j) ^ 2 ≤ ∑ j : Fin D, (hi ⟨j.val, by omega⟩ - lo ⟨j.val, by omega⟩) ^ 2 := by
          refine Finset.sum_le_sum fun j _ => ?_
          have h1 := hb j p hp
          have h2 := hb j q hq
          exact sq_le_sq' (by linarith) (by linarith)
      _ = ∑ k ∈ (Finset.univ : Finset (Fin D)).map (Fin.castLEEmb hD), (hi k - lo k) ^ 2 := by
          rw [Finset.sum_map]; rfl
      _ ≤ ∑ k : Fin 3, (hi k - lo k) ^ 2 := Finset.sum_le_sum_of_subset_of_nonneg (Finset.subset_univ _) fun _ _ _ => sq_nonneg _
  have := Real.sqrt_le_sqrt hsq
  unfold edist
  linarith

/-- **C129** (exit). The end of the segment searched for the next wall, `start + dir * max_dist`, lies outside the room, as does everything beyond. -/
theorem C129_exit {D : ℕ} (hD : D ≤ 3) (walls : List (List (Fin D → ℝ))) (hw : ∀ w ∈ walls, w ≠ []) (L : ℝ) (hL : maxDistance walls = some L) (p u : Fin D → ℝ)
    (hp : p ∈ convexHull ℝ (corners walls)) (hu : ∑ k, u k ^ 2 = 1) (s : ℝ) (hs : L ≤ s) : (fun k => p k + u k * s) ∉ convexHull ℝ (corners walls) := by
  intro hq
  have h := C129_bound hD walls hw L hL _ p hq hp
  have h0 : 0 ≤ edist (fun k => p k + u k * s) p := Real.sqrt_nonneg _
  have hd : edist (fun k => p k + u k * s) p = s := by
    unfold edist
    have : ∑ k, ((p k + u k * s) - p k) ^ 2 = s ^ 2 := by
      have : ∀ k, ((p k + u k * s) - p k) ^ 2 = u k ^ 2 * s ^ 2 := fun k => by ring
      simp only [this]
      rw [← Finset.sum_mul, hu, one_mul]
    rw [this, Real.sqrt_sq (by linarith)]
  linarith

/-- **C129** (none). A room without walls has distance one. -/
theorem C129_none (D : ℕ) : maxDistance ([] : List (List (Fin D → ℝ))) = some 1 := by
  simp [maxDistance, extent]

example : ∃ L, maxDistance [[![(0 : ℝ), 0], ![4, 0]], [![4, 0], ![4, 3]], [![4, 3], ![0, 0]]] = some L ∧ ![(4 : ℝ), 0] ∈ convexHull ℝ (corners [[![(0 : ℝ), 0], ![4, 0]], [![4, 0], ![4, 3]], [![4, 3], ![0, 0]]]) := by
  obtain ⟨lo, hi, _, h⟩ := C129_value [[![(0 : ℝ), 0], ![4, 0]], [![4, 0], ![4, 3]], [![4, 3], ![0, 0]]] (by simp) (by simp)
  exact ⟨_, h, subset_convexHull ℝ _ ⟨_, List.mem_cons_self, by simp⟩⟩

/-! ## Directions -/

/-- **C129** (direction, 3D). Azimuth and colatitude point from the reference to the point: walking their distance that way gives the point; the azimuth is in `(-π, π]` and the colatitude in `[0, π]`. -/
theorem C129_direction (x y z a b c : ℝ) :
    ∃ az co : ℝ, angleOf [x, y, z] [a, b, c] = .ok (az, co) ∧ az ∈ Set.Ioc (-Real.pi) Real.pi ∧ co ∈ Set.Icc 0 Real.pi ∧
      let r := Real.sqrt ((x - a) ^ 2 + (y - b) ^ 2 + (z - c) ^ 2)
      a + r * (Real.cos az * Real.sin co) = x ∧ b + r * (Real.sin az * Real.sin co) = y ∧ c + r * Real.cos co = z := by
  have h := Angles.C45_round_trip (x - a, y - b, z - c)
  refine ⟨(Angles.cart2spher (x - a, y - b, z - c)).1, (Angles.cart2spher (x - a, y - b, z - c)).2.1, rfl, ?_, ?_, ?_⟩
  · exact Complex.arg_mem_Ioc _
  · constructor
    · exact Complex.arg_nonneg_iff.mpr (Real.sqrt_nonneg _)
    · exact Complex.arg_le_pi _
  · obtain ⟨e, hr, -⟩ := h
    rw [hr] at e
    simp only [Angles.spher2cart, Bool.false_eq_true, if_false, Option.getD_some, Prod.mk.injEq] at e
    obtain ⟨e1, e2, e3⟩ := e
    refine ⟨?_, ?_, ?_⟩
    · rw [← mul_assoc, e1]; ring
    · rw [← mul_assoc, e2]; ring
    · rw [e3]; ring

/-- **C129** (direction, 2D). The colatitude is `π/2` also for equal points, and the azimuth points to the point. -/
theorem C129_direction_2d (x y a b : ℝ) :
    ∃ az : ℝ, angleOf [x, y] [a, b] = .ok (az, Real.pi / 2) ∧ az ∈ Set.Ioc (-Real.pi) Real.pi ∧
      let r := Real.sqrt ((x - a) ^ 2 + (y - b) ^ 2)
      a + r * Real.cos az = x ∧ b + r * Real.sin az = y := by
  refine ⟨_, rfl, Complex.arg_mem_Ioc _, ?_, ?_⟩
  · have := Angles.arctan2_cos (y - b) (x - a)
    simp only [Angles.cart2spher]
    linarith
  · have := Angles.arctan2_sin (y - b) (x - a)
    simp only [Angles.cart2spher]
    linarith

/-- **C129** (direction). Points of different dimensions are refused. -/
theorem C129_direction_error (s v : List ℝ) (h : s.length ≠ v.length) : angleOf s v = .error .assertionError := by
  unfold angleOf
  split
  · simp at h
  · simp at h
  · rfl

example : angleOf [1, 2] [0, 0, 0] = .error .assertionError := C129_direction_error _ _ (by simp)

/-! ## Pairs -/

/-- **C129** (pairs). `all_combinations` has all pairs, pair `(i, j)` at row `i n + j`. -/
theorem C129_pairs {α : Type} (l1 l2 : List α) (i j : ℕ) (hi : i < l1.length) (hj : j < l2.length) :
    (allCombinations l1 l2).length = l1.length * l2.length ∧ (allCombinations l1 l2)[i * l2.length + j]? = some (l1[i], l2[j]) := by
  unfold allCombinations
  constructor
  · simp [List.length_flatMap]
  · induction l1 generalizing i with
    | nil => simp at hi
    | cons a t ih =>
      rw [List.flatMap_cons]
      cases i with
      | zero =>
        rw [Nat.zero_mul, Nat.zero_add, List.getElem?_append_left (by simpa using hj)]
        simp [hj]
      | succ i =>
        rw [List.getElem?_append_right (by rw [List.length_map, Nat.succ_mul]; omega), List.length_map]
        have e : (i + 1) * l2.length + j - l2.length = i * l2.length + j := by rw [Nat.succ_mul]; omega
        rw [e, ih i (by simpa using hi)]
        simp

example : (allCombinations [1, 2, 3] [7, 8])[1 * 2 + 1]? = some (2, 8) := (C129_pairs [1, 2, 3] [7, 8] 1 1 (by simp) (by simp)).2

end Verif.Extent
