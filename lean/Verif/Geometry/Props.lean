import Verif.Geometry.Volume

/-!
# Walls of 3-D rooms (C27), scattered rays (C64), distances and angles (C65)
-/

namespace Verif.Geometry

open Matrix Finset

/-! ## C27: segment and wall -/

theorem basis_expand {u0 u1 x : Vec 3} (h0 : u0 ⬝ᵥ u0 = 1) (h1 : u1 ⬝ᵥ u1 = 1) (h : u0 ⬝ᵥ u1 = 0) (hx : crossProduct u0 u1 ⬝ᵥ x = 0) :
    x = (u0 ⬝ᵥ x) • u0 + (u1 ⬝ᵥ x) • u1 := by
  set y := x - ((u0 ⬝ᵥ x) • u0 + (u1 ⬝ᵥ x) • u1) with hy
  have y0 : u0 ⬝ᵥ y = 0 := by
    rw [hy, dotProduct_sub, dotProduct_add, dotProduct_smul, dotProduct_smul, h0, h]; simp
  have y1 : u1 ⬝ᵥ y = 0 := by
    rw [hy, dotProduct_sub, dotProduct_add, dotProduct_smul, dotProduct_smul, h1, dotProduct_comm u1 u0, h]; simp
  have y2 : crossProduct u0 u1 ⬝ᵥ y = 0 := by
    rw [hy, dotProduct_sub, dotProduct_add, dotProduct_smul, dotProduct_smul, hx, dotProduct_comm _ u0, dotProduct_comm _ u1, dot_self_cross,
      dot_cross_self]; simp
  have hz : y ⬝ᵥ y = 0 := by
    -- |(u0 x u1)|^2 |y|^2 = (n.y)^2 + |n x y|^2 and n x y is a combination of u0.y, u1.y
    have hn := cross_unit h0 h1 h
    have e1 := cross_dot_cross (crossProduct u0 u1) y (crossProduct u0 u1) y
    rw [hn, y2, dotProduct_comm y (crossProduct u0 u1), y2] at e1
    have e2 : crossProduct (crossProduct u0 u1) y = 0 := by
      rw [vec3_dotProduct] at y0 y1
      ext i
      fin_cases i
      · simp only [cross_apply]; simp; linear_combination (u1 0) * y0 - (u0 0) * y1
      · simp only [cross_apply]; simp; linear_combination (u1 1) * y0 - (u0 1) * y1
      · simp only [cross_apply]; simp; linear_combination (u1 2) * y0 - (u0 2) * y1
    rw [e2] at e1
    simp at e1
    linarith
  have : y = 0 := by
    by_contra hne
    exact absurd (dot_self_pos hne) (by rw [hz]; exact lt_irrefl _)
  rw [hy, sub_eq_zero] at this
  exact this

/-- The point of the plane of the wall with the given coordinates. -/
def planePoint (w : Wall 3) (basis : Vec 3 × Vec 3) (f : Vec 2) : Vec 3 := w.origin + f 0 • basis.1 + f 1 • basis.2

/-- **C27** Segment and wall of a 3-D room: if an intersection is reported, the point returned is on the (slightly extended)
segment and it is the point of the plane of the wall whose coordinates `f` the polygon test does not reject. -/
theorem C27_wall3 {eps : ℝ} (he : 0 ≤ eps) (w : Wall 3) (basis : Vec 3 × Vec 3) (flat : List (Vec 2)) (p1 p2 : Vec 3)
    (h0 : basis.1 ⬝ᵥ basis.1 = 1) (h1 : basis.2 ⬝ᵥ basis.2 = 1) (h01 : basis.1 ⬝ᵥ basis.2 = 0) (hn : w.normal = crossProduct basis.1 basis.2)
    (h : 0 ≤ (intersectionWall3 eps w basis flat p1 p2).1) :
    ∃ (q : Vec 3) (s : ℝ) (f : Vec 2), (intersectionWall3 eps w basis flat p1 p2).2 = some q ∧ q = lineAt p1 p2 s ∧ -eps ≤ s ∧ s ≤ 1 + eps ∧
      q = planePoint w basis f ∧ 0 ≤ isInside2dPolygon eps f flat ∧
      ((intersectionWall3 eps w basis flat p1 p2).1 = 0 ∨ (intersectionWall3 eps w basis flat p1 p2).1 = 1 → isInside2dPolygon eps f flat ≠ 1) := by
  have hpl := C27_plane eps he p1 p2 w.origin w.normal
  have hnn : (-1 : Int) < 0 := by norm_num
  unfold intersectionWall3 at h ⊢
  have hc : (intersectionPlane eps p1 p2 w.origin w.normal).1 = -1 ∨ 0 ≤ (intersectionPlane eps p1 p2 w.origin w.normal).1 := by
    unfold intersectionPlane
    simp only
    split_ifs <;> simp
  rcases hc with hm | hp
  · exfalso
    cases hip : intersectionPlane eps p1 p2 w.origin w.normal with
    | mk r o =>
      rw [hip] at hm h
      simp only at hm
      subst hm
      cases o <;> simp at h
  · obtain ⟨q, s, e1, e2, e3, e4, e5, e6, e7⟩ := hpl hp
    generalize hr : (intersectionPlane eps p1 p2 w.origin w.normal).1 = r at *
    rw [e1] at h ⊢
    simp only at h ⊢
    rw [if_neg (by omega)] at h ⊢
    have hq : q = planePoint w basis ![basis.1 ⬝ᵥ (q - w.origin), basis.2 ⬝ᵥ (q - w.origin)] := by
      have hb := basis_expand h0 h1 h01 (x := q - w.origin) (by rw [← hn]; exact e3)
      unfold planePoint
      simp only [cons_val_zero, cons_val_one]
      rw [add_assoc, ← hb]; abel
    generalize (![basis.1 ⬝ᵥ (q - w.origin), basis.2 ⬝ᵥ (q - w.origin)] : Vec 2) = f at *
    by_cases hin : isInside2dPolygon eps f flat < 0
    · rw [if_pos hin] at h
      exact absurd h (by simp)
    · rw [if_neg hin]
      refine ⟨q, s, f, rfl, e2, e4, e5, hq, not_lt.mp hin, ?_⟩
      intro hh h1'
      rw [h1'] at hh
      simp only [if_true] at hh
      split_ifs at hh <;> simp at hh

/-- Non-vacuity of C27_wall3: a segment through a unit square. -/
example : (intersectionWall3 (1 / 100) ⟨![0, 0, 1], 0⟩ (![1, 0, 0], ![0, 1, 0]) [![0, 0], ![1, 0], ![1, 1], ![0, 1]] ![1 / 2, 1 / 2, -1]
    ![1 / 2, 1 / 2, 1]).1 = 0 := by
  have hin : isInside2dPolygon (1 / 100) ![1 / 2, 1 / 2] [![0, 0], ![1, 0], ![1, 1], ![0, 1]] = 0 := by
    apply C27_polygon_surrounded (by norm_num) (by simp)
    simp [edges, pathEdges, orient]
    norm_num
  have hpl : intersectionPlane (1 / 100) ![1 / 2, 1 / 2, -1] ![1 / 2, 1 / 2, 1] 0 ![0, 0, 1] = (0, some ![1 / 2, 1 / 2, 0]) := by
    have e1 : (![0, 0, 1] : Vec 3) ⬝ᵥ (![1 / 2, 1 / 2, 1] - ![1 / 2, 1 / 2, -1]) = 2 := by
      rw [vec3_dotProduct]; simp; norm_num
    have e2 : (![0, 0, 1] : Vec 3) ⬝ᵥ (![1 / 2, 1 / 2, -1] - 0) = -1 := by
      rw [vec3_dotProduct]; simp
    unfold intersectionPlane
    simp only [e1, e2]
    norm_num [abs_of_pos]
  unfold intersectionWall3
  simp only [hpl]
  simp only [vec3_dotProduct]
  simp at hin ⊢
  simp [hin]

/-! ## C64 -/

/-- **C64** The direction of a ray after hitting a wall of a 3-D room, for a ray which travels towards the outside (the side
of the normal): a unit vector which points strictly back to the inside, whatever the random numbers. -/
theorem C64_scattered {w : Wall 3} {basis : Vec 3 × Vec 3} (h0 : basis.1 ⬝ᵥ basis.1 = 1) (h1 : basis.2 ⬝ᵥ basis.2 = 1) (h01 : basis.1 ⬝ᵥ basis.2 = 0)
    (hn : w.normal = crossProduct basis.1 basis.2) {dir : Vec 3} (hd : dir ⬝ᵥ dir = 1) (hout : 0 < dir ⬝ᵥ w.normal)
    (scatter : Option ℝ) (hs : ∀ s, scatter = some s → 0 ≤ s ∧ s < 1) (u1 u2 : ℝ) :
    nextDir w basis scatter u1 u2 dir ⬝ᵥ nextDir w basis scatter u1 u2 dir = 1 ∧ nextDir w basis scatter u1 u2 dir ⬝ᵥ w.normal < 0 := by
  have hnn : w.normal ⬝ᵥ w.normal = 1 := by rw [hn]; exact cross_unit h0 h1 h01
  have hspec : normalReflectDir w dir ⬝ᵥ w.normal = -(dir ⬝ᵥ w.normal) := by
    unfold normalReflectDir
    rw [sub_dotProduct, smul_dotProduct, hnn, smul_eq_mul]; ring
  have hunit : normalReflectDir w dir ⬝ᵥ normalReflectDir w dir = 1 := by
    unfold normalReflectDir
    rw [sub_dotProduct, dotProduct_sub, dotProduct_sub, smul_dotProduct, dotProduct_smul, smul_dotProduct, dotProduct_smul, hnn, hd, dotProduct_comm w.normal dir]
    simp only [smul_eq_mul]; ring
  unfold nextDir
  simp only
  cases scatter with
  | none => exact ⟨hunit, by simp only; rw [hspec]; linarith⟩
  | some s =>
    simp only
    obtain ⟨hs0, hs1⟩ := hs s rfl
    have hl : lambertian w basis u1 u2 ⬝ᵥ w.normal = Real.sqrt (max 0 (1 - u1)) := by
      unfold lambertian
      simp only [add_dotProduct, smul_dotProduct, hnn]
      rw [hn, dot_self_cross, dot_cross_self]; simp
    have hneg : (s • (-lambertian w basis u1 u2) + (1 - s) • normalReflectDir w dir) ⬝ᵥ w.normal < 0 := by
      rw [add_dotProduct, smul_dotProduct, smul_dotProduct, neg_dotProduct, hl, hspec]
      simp only [smul_eq_mul]
      have := Real.sqrt_nonneg (max 0 (1 - u1))
      nlinarith [mul_nonneg hs0 this, mul_pos (sub_pos.mpr hs1) hout]
    have hne : s • (-lambertian w basis u1 u2) + (1 - s) • normalReflectDir w dir ≠ 0 := by
      intro h; rw [h, zero_dotProduct] at hneg; exact lt_irrefl _ hneg
    refine ⟨normalized_unit hne, ?_⟩
    rw [normalized_smul hne, smul_dotProduct, smul_eq_mul]
    exact mul_neg_of_pos_of_neg (inv_pos.mpr (norm_pos hne)) hneg

/-- **C64** The diffuse direction alone: a unit vector on the side of the normal whose cosine is `√(1 - u1)`. -/
theorem C64_lambertian {w : Wall 3} {basis : Vec 3 × Vec 3} (h0 : basis.1 ⬝ᵥ basis.1 = 1) (h1 : basis.2 ⬝ᵥ basis.2 = 1) (h01 : basis.1 ⬝ᵥ basis.2 = 0)
    (hn : w.normal = crossProduct basis.1 basis.2) {u1 u2 : ℝ} (hu : 0 ≤ u1) (hu1 : u1 ≤ 1) :
    lambertian w basis u1 u2 ⬝ᵥ lambertian w basis u1 u2 = 1 ∧ lambertian w basis u1 u2 ⬝ᵥ w.normal = Real.sqrt (1 - u1) := by
  have hnn : w.normal ⬝ᵥ w.normal = 1 := by rw [hn]; exact cross_unit h0 h1 h01
  have n0 : basis.1 ⬝ᵥ w.normal = 0 := by rw [hn, dot_self_cross]
  have n1 : basis.2 ⬝ᵥ w.normal = 0 := by rw [hn, dot_cross_self]
  have hm : max 0 (1 - u1) = 1 - u1 := max_eq_right (by linarith)
  unfold lambertian
  simp only [hm]
  constructor
  · simp only [add_dotProduct, dotProduct_add, smul_dotProduct, dotProduct_smul, smul_eq_mul, h0, h1, h01, hnn, n0, n1,
      dotProduct_comm basis.2 basis.1, dotProduct_comm w.normal basis.1, dotProduct_comm w.normal basis.2]
    have a1 := Real.sq_sqrt hu
    have a2 := Real.sq_sqrt (sub_nonneg.mpr hu1)
    have a3 := Real.sin_sq_add_cos_sq (2 * Real.pi * u2)
    generalize Real.sqrt u1 = r at *
    generalize Real.sqrt (1 - u1) = z at *
    generalize Real.sin (2 * Real.pi * u2) = S at *
    generalize Real.cos (2 * Real.pi * u2) = C at *
    linear_combination r ^ 2 * a3 + a1 + a2
  · simp only [add_dotProduct, smul_dotProduct, smul_eq_mul, hnn, n0, n1]; ring

/-- **C64** In 2-D rooms the diffuse direction is computed from the member `basis` which no constructor of `Wall<2>` writes: depending on the memory content,
every vector can be the result. -/
theorem C64_two_dim_deviation (w : Wall 2) {u1 : ℝ} (hu : 0 < u1) (t : Vec 2) : ∃ junk : Vec 2 × Vec 2, lambertian w junk u1 0 = t := by
  refine ⟨((Real.sqrt u1)⁻¹ • (t - Real.sqrt (max 0 (1 - u1)) • w.normal), 0), ?_⟩
  unfold lambertian
  have : Real.sqrt u1 ≠ 0 := (Real.sqrt_pos.mpr hu).ne'
  simp [smul_smul, this]

/-- Non-vacuity of C64. -/
example : ∃ (w : Wall 3) (basis : Vec 3 × Vec 3) (dir : Vec 3), basis.1 ⬝ᵥ basis.1 = 1 ∧ basis.2 ⬝ᵥ basis.2 = 1 ∧ basis.1 ⬝ᵥ basis.2 = 0 ∧
    w.normal = crossProduct basis.1 basis.2 ∧ dir ⬝ᵥ dir = 1 ∧ 0 < dir ⬝ᵥ w.normal := by
  refine ⟨⟨![0, 0, 1], 0⟩, (![1, 0, 0], ![0, 1, 0]), ![0, 3 / 5, 4 / 5], ?_, ?_, ?_, ?_, ?_, ?_⟩ <;> simp [vec3_dotProduct, cross_apply] <;> norm_num

/-! ## C65 -/

theorem cauchy_schwarz {D : Nat} (u v : Vec D) : (u ⬝ᵥ v) ^ 2 ≤ (u ⬝ᵥ u) * (v ⬝ᵥ v) := by
  have := Finset.sum_mul_sq_le_sq_mul_sq Finset.univ u v
  unfold dotProduct
  simpa [pow_two] using this

/-- **C65** `cos_angle_between` of nonzero vectors is the cosine of the angle: the clamp never acts. -/
theorem C65_cos {D : Nat} {v1 v2 : Vec D} (h1 : v1 ≠ 0) (h2 : v2 ≠ 0) :
    cosAngleBetween v1 v2 * (norm v1 * norm v2) = v1 ⬝ᵥ v2 ∧ -1 ≤ cosAngleBetween v1 v2 ∧ cosAngleBetween v1 v2 ≤ 1 := by
  have hc := cauchy_schwarz (normalized v1) (normalized v2)
  rw [normalized_unit h1, normalized_unit h2, mul_one] at hc
  have hb := abs_le.mp ((sq_le_one_iff_abs_le_one _).mp hc)
  have hcl : cosAngleBetween v1 v2 = normalized v1 ⬝ᵥ normalized v2 := by
    unfold cosAngleBetween clamp
    rw [if_neg (not_lt.mpr hb.1), if_neg (not_lt.mpr hb.2)]
  rw [hcl]
  refine ⟨?_, hb.1, hb.2⟩
  rw [normalized_smul h1, normalized_smul h2, smul_dotProduct, dotProduct_smul, smul_eq_mul, smul_eq_mul]
  have p1 := norm_pos h1
  have p2 := norm_pos h2
  field_simp

/-- **C65** `dist_line_point` is the smallest distance between the point and the points of the line. -/
theorem C65_dist {D : Nat} {start stop : Vec D} (h : stop ≠ start) (point : Vec D) :
    (∃ s : ℝ, distLinePoint start stop point = norm (point - lineAt start stop s)) ∧
    ∀ s : ℝ, distLinePoint start stop point ≤ norm (point - lineAt start stop s) := by
  have hne : stop - start ≠ 0 := sub_ne_zero.mpr h
  set L := norm (stop - start) with hL
  have hLp : 0 < L := norm_pos hne
  set u := normalized (stop - start) with hu
  have huu : u ⬝ᵥ u = 1 := normalized_unit hne
  have hdir : stop - start = L • u := by
    rw [hu, normalized_smul hne, smul_smul, mul_inv_cancel₀ hLp.ne', one_smul]
  set v := point - start with hv
  have hline : ∀ s : ℝ, point - lineAt start stop s = v - (s * L) • u := by
    intro s
    unfold lineAt
    rw [hdir, smul_smul, hv]; abel
  constructor
  · refine ⟨(v ⬝ᵥ u) / L, ?_⟩
    rw [hline, div_mul_cancel₀ _ hLp.ne']
    rfl
  · intro s
    rw [hline]
    unfold distLinePoint norm
    apply Real.sqrt_le_sqrt
    rw [← hu, ← hv]
    simp only [sub_dotProduct, dotProduct_sub, smul_dotProduct, dotProduct_smul, smul_eq_mul, huu, dotProduct_comm u v]
    nlinarith [sq_nonneg (v ⬝ᵥ u - s * L)]

/-- Non-vacuity of C65. -/
example : (![1, 0] : Vec 2) ≠ ![0, 0] ∧ (![3, 4] : Vec 2) ≠ 0 := by
  constructor
  · intro h; simpa using congrFun h 0
  · intro h; simpa using congrFun h 0

end Verif.Geometry
