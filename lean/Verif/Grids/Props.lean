import Verif.Grids.Model
import Verif.Angles.Props

namespace Verif.Grids

open Py Angles

/-! ## Values -/

/-- `set_values` accepts a scalar (the same value everywhere) or one value for each point; everything else is a ValueError. -/
theorem C126_set_values (g : Grid) : (∀ v : ℝ, ∃ g', g.setValues (.scalar v) = .ok g' ∧ g' = { g with values := g'.values } ∧ ∃ l, g'.values = some l ∧ l.length = g.nPoints ∧ ∀ x ∈ l, x = v) ∧
    (∀ l : List ℝ, l.length = g.nPoints → g.setValues (.vector l) = .ok { g with values := some l }) ∧
    (∀ l : List ℝ, l.length ≠ g.nPoints → g.setValues (.vector l) = .error .valueError) ∧ g.setValues .other = .error .valueError := by
  refine ⟨fun v => ⟨_, rfl, rfl, _, rfl, List.length_replicate, fun x hx => List.eq_of_mem_replicate hx⟩, fun l hl => ?_, fun l hl => ?_, rfl⟩
  · unfold Grid.setValues
    simp only
    rw [if_neg (by simpa using hl)]
  · unfold Grid.setValues
    simp only
    rw [if_pos hl]

/-! ## The constructors -/

/-- Both arrays have one column for each point; a point is nan in both, or its Cartesian coordinates are the unit vector of its angles. -/
def Consistent (g : Grid) : Prop :=
  g.cartesian.length = g.nPoints ∧ g.spherical.length = g.nPoints ∧ ∀ i < g.nPoints, (g.cartesian.getD i none = none ∧ g.spherical.getD i none = none) ∨
    ∃ c s, g.cartesian.getD i none = some c ∧ g.spherical.getD i none = some s ∧ c = spher2cart s.1 (some s.2) 1 false ∧ c.1 ^ 2 + c.2.1 ^ 2 + c.2.2 ^ 2 = 1

theorem spher2cart_unit (a c : ℝ) : (spher2cart a (some c) 1 false).1 ^ 2 + (spher2cart a (some c) 1 false).2.1 ^ 2 + (spher2cart a (some c) 1 false).2.2 ^ 2 = 1 := by
  unfold spher2cart
  simp only [Bool.false_eq_true, if_false, Option.getD_some, one_mul]
  have h1 := Real.sin_sq_add_cos_sq a
  have h2 := Real.sin_sq_add_cos_sq c
  linear_combination Real.sin c ^ 2 * h1 + h2

theorem getD_map_some {α β : Type} (l : List α) (f : α → Option β) {i : ℕ} (hi : i < l.length) : (l.map f).getD i none = f l[i] := by
  rw [List.getD_eq_getElem?_getD, List.getElem?_map, List.getElem?_eq_getElem hi]
  rfl

/-- A grid of the circle: unit vectors of the horizontal plane. Given azimuths are used in increasing order (not in the order of the argument); without, `n` azimuths from zero on with the same distance `2π/n` are used. -/
theorem C126_circle (n : ℕ) : (∀ az : Option (List ℝ), Consistent (gridCircle n az) ∧ (gridCircle n az).dim = 2 ∧ (gridCircle n az).values = none ∧
      ∀ i < (gridCircle n az).nPoints, ∃ a, (gridCircle n az).spherical.getD i none = some (a, Real.pi / 2) ∧ (gridCircle n az).cartesian.getD i none = some (Real.cos a, Real.sin a, 0)) ∧
    (∀ l : List ℝ, ∃ a : List ℝ, a.Perm l ∧ a.Pairwise (· ≤ ·) ∧ (gridCircle n (some l)).nPoints = l.length ∧ (gridCircle n (some l)).spherical = a.map fun x => some (x, Real.pi / 2)) ∧
    (gridCircle n none).nPoints = n ∧ ∀ i < n, (gridCircle n none).spherical.getD i none = some (2 * Real.pi * i / n, Real.pi / 2) := by
  have key : ∀ az : Option (List ℝ), ∀ i < (gridCircle n az).nPoints, ∃ a, (gridCircle n az).spherical.getD i none = some (a, Real.pi / 2) ∧ (gridCircle n az).cartesian.getD i none = some (Real.cos a, Real.sin a, 0) := by
    intro az i hi
    have hi' : i < (circleAzimuth n az).length := hi
    refine ⟨(circleAzimuth n az)[i], ?_, ?_⟩
    · exact getD_map_some _ (fun x => some (x, Real.pi / 2)) hi'
    · exact getD_map_some _ (fun x => some (Real.cos x, Real.sin x, (0 : ℝ))) hi'
  refine ⟨fun az => ⟨⟨?_, ?_, ?_⟩, rfl, rfl, key az⟩, ?_, ?_, ?_⟩
  · exact List.length_map _
  · exact List.length_map _
  · intro i hi
    obtain ⟨a, h1, h2⟩ := key az i hi
    refine Or.inr ⟨_, _, h2, h1, ?_, ?_⟩
    · unfold spher2cart
      simp
    · simp only
      have := Real.sin_sq_add_cos_sq a
      linarith
  · intro l
    classical
    refine ⟨circleAzimuth n (some l), ?_, ?_, ?_, rfl⟩
    · exact List.perm_insertionSort _ l
    · exact List.pairwise_insertionSort _ l
    · exact List.length_insertionSort _ l
  · change ((List.range n).map _).length = n
    simp
  · intro i hi
    change (((List.range n).map fun i : ℕ => (i : ℝ) * (2 * Real.pi / n)).map fun x => some (x, Real.pi / 2)).getD i none = _
    rw [List.map_map, getD_map_some _ _ (by simpa using hi)]
    simp only [Function.comp, List.getElem_range, Option.some.injEq, Prod.mk.injEq, and_true]
    ring

theorem normalize_some {p c : ℝ × ℝ × ℝ} (h : normalize p = some c) : c.1 ^ 2 + c.2.1 ^ 2 + c.2.2 ^ 2 = 1 ∧ ∃ r, 0 < r ∧ p = (r * c.1, r * c.2.1, r * c.2.2) := by
  unfold normalize at h
  simp only at h
  split at h
  · exact absurd h (by simp)
  · rename_i hr
    obtain rfl := Option.some.inj h
    have hpos : 0 < Real.sqrt (p.1 ^ 2 + p.2.1 ^ 2 + p.2.2 ^ 2) := lt_of_le_of_ne (Real.sqrt_nonneg _) (Ne.symm hr)
    have hsq := Real.sq_sqrt (show 0 ≤ p.1 ^ 2 + p.2.1 ^ 2 + p.2.2 ^ 2 by positivity)
    refine ⟨?_, _, hpos, ?_⟩
    · simp only [div_pow, hsq]
      rw [← add_div, ← add_div, div_self]
      intro h0
      rw [h0] at hr
      exact hr Real.sqrt_zero
    · simp only
      rw [mul_div_cancel₀ _ hr, mul_div_cancel₀ _ hr, mul_div_cancel₀ _ hr]

theorem normalize_none {p : ℝ × ℝ × ℝ} : normalize p = none ↔ p = (0, 0, 0) := by
  unfold normalize
  simp only
  constructor
  · intro h
    split at h
    · rename_i hr
      rw [Real.sqrt_eq_zero (by positivity)] at hr
      have h1 : p.1 = 0 := by nlinarith [sq_nonneg p.1, sq_nonneg p.2.1, sq_nonneg p.2.2]
      have h2 : p.2.1 = 0 := by nlinarith [sq_nonneg p.1, sq_nonneg p.2.1, sq_nonneg p.2.2]
      have h3 : p.2.2 = 0 := by nlinarith [sq_nonneg p.1, sq_nonneg p.2.1, sq_nonneg p.2.2]
      exact Prod.ext h1 (Prod.ext h2 h3)
    · exact absurd h (by simp)
  · rintro rfl
    simp

theorem unit_round_trip {c : ℝ × ℝ × ℝ} (h : c.1 ^ 2 + c.2.1 ^ 2 + c.2.2 ^ 2 = 1) : c = spher2cart (cart2spher c).1 (some (cart2spher c).2.1) 1 false := by
  have h1 := C45_round_trip c
  have h2 : (cart2spher c).2.2 = 1 := by
    rw [h1.2.1, h, Real.sqrt_one]
  rw [← h2]
  exact h1.1.symm

theorem anglesOf_consistent (n d : ℕ) (c : List (Option (ℝ × ℝ × ℝ))) (hn : c.length = n) (h : ∀ x, some x ∈ c → x.1 ^ 2 + x.2.1 ^ 2 + x.2.2 ^ 2 = 1) :
    Consistent { nPoints := n, dim := d, values := none, cartesian := c, spherical := anglesOf c } := by
  refine ⟨hn, (List.length_map _).trans hn, ?_⟩
  intro i hi
  simp only at hi ⊢
  have hi' : i < c.length := by omega
  have e1 : c.getD i none = c[i] := by
    rw [List.getD_eq_getElem?_getD, List.getElem?_eq_getElem hi']
    rfl
  have e2 : (anglesOf c).getD i none = c[i].map fun v => ((cart2spher v).1, (cart2spher v).2.1) := getD_map_some _ _ hi'
  rw [e1, e2]
  cases hc : c[i] with
  | none => exact Or.inl ⟨rfl, rfl⟩
  | some x =>
    have hx := h x (hc ▸ List.getElem_mem hi')
    exact Or.inr ⟨x, _, rfl, rfl, unit_round_trip hx, hx⟩

/-- The grid of given angles has exactly these, and their unit vectors; Cartesian points given as well are not used (nor checked). -/
theorem C126_sphere_angles (n : ℕ) (az col : List ℝ) (h : az.length = col.length) (cart : Option (List (List ℝ))) : ∃ g, gridSphere n (some [az, col]) cart = .ok g ∧ g.nPoints = az.length ∧ Consistent g ∧
    g.spherical = (az.zip col).map some ∧ ∀ c ∈ g.cartesian, c ≠ none := by
  have hc : columns2 [az, col] = az.zip col := rfl
  unfold gridSphere
  simp only
  rw [if_neg (by simp), hc]
  refine ⟨_, rfl, ?_, ⟨?_, ?_, ?_⟩, rfl, ?_⟩
  · simp [h]
  · simp
  · simp
  · intro i hi
    simp only at hi ⊢
    rw [getD_map_some _ _ hi, getD_map_some _ _ hi]
    exact Or.inr ⟨_, _, rfl, rfl, rfl, spher2cart_unit _ _⟩
  · intro c hc
    simp only at hc
    obtain ⟨p, _, rfl⟩ := List.mem_map.mp hc
    exact Option.some_ne_none _

/-- The grid of given points has their directions: unit vectors which are positive multiples of the points, with angles in the ranges; the zero vector gives nan. -/
theorem C126_sphere_points (n : ℕ) (x y z : List ℝ) (hy : y.length = x.length) (hz : z.length = x.length) : ∃ g, gridSphere n none (some [x, y, z]) = .ok g ∧ g.nPoints = x.length ∧ Consistent g ∧
    ∀ i < x.length, (x.getD i 0 = 0 ∧ y.getD i 0 = 0 ∧ z.getD i 0 = 0 ∧ g.cartesian.getD i none = none) ∨
      ∃ c s r, g.cartesian.getD i none = some c ∧ g.spherical.getD i none = some s ∧ 0 < r ∧ x.getD i 0 = r * c.1 ∧ y.getD i 0 = r * c.2.1 ∧ z.getD i 0 = r * c.2.2 ∧
        -Real.pi < s.1 ∧ s.1 ≤ Real.pi ∧ 0 ≤ s.2 ∧ s.2 ≤ Real.pi := by
  have hc : columns3 [x, y, z] = x.zip (y.zip z) := rfl
  have hl : (x.zip (y.zip z)).length = x.length := by simp [hy, hz]
  unfold gridSphere
  simp only
  rw [if_neg (by simp), hc]
  refine ⟨_, rfl, hl, ?_, ?_⟩
  · refine anglesOf_consistent _ _ _ (by simp) ?_
    intro v hv
    obtain ⟨p, _, hp⟩ := List.mem_map.mp hv
    exact (normalize_some hp).1
  · intro i hi
    simp only
    have hi' : i < (x.zip (y.zip z)).length := by omega
    have gx : x.getD i 0 = x[i] := by rw [List.getD_eq_getElem?_getD, List.getElem?_eq_getElem hi]; rfl
    have gy : y.getD i 0 = y[i] := by rw [List.getD_eq_getElem?_getD, List.getElem?_eq_getElem (by omega)]; rfl
    have gz : z.getD i 0 = z[i] := by rw [List.getD_eq_getElem?_getD, List.getElem?_eq_getElem (by omega)]; rfl
    have gp : (x.zip (y.zip z))[i] = (x[i], y[i], z[i]) := by
      rw [List.getElem_zip, List.getElem_zip]
    have e1 : ((x.zip (y.zip z)).map normalize).getD i none = normalize (x[i], y[i], z[i]) := by rw [getD_map_some _ _ hi', gp]
    have e2 : (anglesOf ((x.zip (y.zip z)).map normalize)).getD i none = (normalize (x[i], y[i], z[i])).map fun v => ((cart2spher v).1, (cart2spher v).2.1) := by
      unfold anglesOf
      rw [List.map_map, getD_map_some _ _ hi', gp]
      rfl
    rw [gx, gy, gz, e1, e2]
    cases hn : normalize (x[i], y[i], z[i]) with
    | none =>
      have := normalize_none.mp hn
      simp only [Prod.mk.injEq] at this
      exact Or.inl ⟨this.1, this.2.1, this.2.2, rfl⟩
    | some c =>
      obtain ⟨_, r, hr, hp⟩ := normalize_some hn
      simp only [Prod.mk.injEq] at hp
      have ht := C45_round_trip c
      exact Or.inr ⟨c, _, r, rfl, rfl, hr, hp.1, hp.2.1, hp.2.2, ht.2.2.1, ht.2.2.2.1, ht.2.2.2.2.1, ht.2.2.2.2.2⟩

/-- The default grid: `n` different unit vectors. -/
theorem C126_sphere_default (n : ℕ) : ∃ g, gridSphere n none none = .ok g ∧ g.nPoints = n ∧ Consistent g ∧ g.cartesian.Nodup ∧ ∀ c ∈ g.cartesian, c ≠ none := by
  refine ⟨_, rfl, rfl, ?_, ?_, ?_⟩
  · refine anglesOf_consistent _ _ _ (by simp) ?_
    intro v hv
    obtain ⟨k, hk, hp⟩ := List.mem_map.mp hv
    obtain rfl := Option.some.inj hp
    have h1 := (C71_fibonacci (List.mem_range.mp hk)).1
    unfold dot at h1
    linarith
  · refine List.Nodup.map_on ?_ List.nodup_range
    intro j hj k hk h
    have := Option.some.inj h
    exact (C71_fibonacci (List.mem_range.mp hk)).2.2.2 j (List.mem_range.mp hj) (by rw [this])
  · intro c hc
    obtain ⟨p, _, rfl⟩ := List.mem_map.mp hc
    exact Option.some_ne_none _

/-- Arrays with another number of rows are refused. -/
theorem C126_sphere_shape (n : ℕ) (m : List (List ℝ)) : (m.length ≠ 2 → ∀ c, gridSphere n (some m) c = .error .valueError) ∧ (m.length ≠ 3 → gridSphere n none (some m) = .error .valueError) := by
  constructor
  · intro h c
    unfold gridSphere
    simp only
    rw [if_pos h]
  · intro h
    unfold gridSphere
    simp only
    rw [if_pos h]

/-! ## Distances of neighbours -/

/-- The angle between two directions. -/
noncomputable def angle (p q : ℝ × ℝ) : ℝ := Real.arccos (dot (spher2cart p.1 (some p.2) 1 false) (spher2cart q.1 (some q.2) 1 false))

theorem mem_distances (pts : List (ℝ × ℝ)) (nb : List (List ℕ)) (d : ℝ) : d ∈ distances pts nb ↔ ∃ u < pts.length, ∃ v ∈ nb.getD u [], d = angle (pts.getD u 0) (pts.getD v 0) := by
  unfold distances angle
  simp only [List.mem_flatMap, List.mem_range, List.mem_map, C71_sphere, one_mul]
  constructor
  · rintro ⟨u, hu, v, hv, rfl⟩
    exact ⟨u, hu, v, hv, rfl⟩
  · rintro ⟨u, hu, v, hv, rfl⟩
    exact ⟨u, hu, v, hv, rfl⟩

open Classical in
theorem extrema_fold (l : List ℝ) : ∀ s : WithTop ℝ × ℝ, let r := l.foldl (fun (s : WithTop ℝ × ℝ) (d : ℝ) => (if (d : WithTop ℝ) < s.1 then (d : WithTop ℝ) else s.1, if d > s.2 then d else s.2)) s
    (r.1 = s.1 ∨ ∃ d ∈ l, r.1 = (d : WithTop ℝ)) ∧ (r.2 = s.2 ∨ r.2 ∈ l) ∧ r.1 ≤ s.1 ∧ s.2 ≤ r.2 ∧ ∀ d ∈ l, r.1 ≤ (d : WithTop ℝ) ∧ d ≤ r.2 := by
  induction l with
  | nil => intro s; simp
  | cons a l ih =>
    intro s
    simp only [List.foldl_cons]
    obtain ⟨h1, h2, h3, h4, h5⟩ := ih (if (a : WithTop ℝ) < s.1 then (a : WithTop ℝ) else s.1, if a > s.2 then a else s.2)
    refine ⟨?_, ?_, ?_, ?_, ?_⟩
    · rcases h1 with h1 | ⟨d, hd, h1⟩
      · rw [h1]
        simp only
        split
        · exact Or.inr ⟨a, List.mem_cons_self, rfl⟩
        · exact Or.inl rfl
      · exact Or.inr ⟨d, List.mem_cons_of_mem _ hd, h1⟩
    · rcases h2 with h2 | h2
      · rw [h2]
        simp only
        split
        · exact Or.inr List.mem_cons_self
        · exact Or.inl rfl
      · exact Or.inr (List.mem_cons_of_mem _ h2)
    · refine le_trans h3 ?_
      simp only
      split
      · rename_i h; exact h.le
      · exact le_refl _
    · refine le_trans ?_ h4
      simp only
      split
      · rename_i h; exact (show s.2 < a from h).le
      · exact le_refl _
    · intro d hd
      rcases List.mem_cons.mp hd with rfl | hd
      · refine ⟨le_trans h3 ?_, le_trans ?_ h4⟩
        · simp only
          split
          · exact le_refl _
          · rename_i h; exact not_lt.mp h
        · simp only
          split
          · exact le_refl _
          · rename_i h; exact not_lt.mp h
      · exact h5 d hd

theorem mean_between {l : List ℝ} {a b : ℝ} (hl : l ≠ []) (h : ∀ d ∈ l, a ≤ d ∧ d ≤ b) : ∃ m, mean l = some m ∧ m * l.length = l.sum ∧ a ≤ m ∧ m ≤ b := by
  have hpos : (0 : ℝ) < l.length := by exact_mod_cast List.length_pos_iff.mpr hl
  unfold mean
  rw [if_neg hl]
  refine ⟨_, rfl, div_mul_cancel₀ _ hpos.ne', ?_, ?_⟩
  · rw [le_div_iff₀ hpos]
    have := List.card_nsmul_le_sum l a fun d hd => (h d hd).1
    rw [nsmul_eq_mul] at this
    linarith
  · rw [div_le_iff₀ hpos]
    have := List.sum_le_card_nsmul l b fun d hd => (h d hd).2
    rw [nsmul_eq_mul] at this
    linarith

open Classical in
/-- The median splits the values in halves. -/
theorem median_spec {l : List ℝ} (hl : l ≠ []) : ∃ m, median l = some m ∧ l.length ≤ 2 * l.countP (fun d => decide (d ≤ m)) ∧ l.length ≤ 2 * l.countP (fun d => decide (m ≤ d)) := by
  have hpos := List.length_pos_iff.mpr hl
  set s := l.insertionSort (fun x y => x ≤ y) with hs
  have hperm : s.Perm l := List.perm_insertionSort _ l
  have hlen : s.length = l.length := hperm.length_eq
  have hsort : s.Pairwise (· ≤ ·) := List.pairwise_insertionSort _ l
  have hle : ∀ i j (hi : i < s.length) (hj : j < s.length), i ≤ j → s[i] ≤ s[j] := by
    intro i j hi hj hij
    rcases Nat.lt_or_ge i j with h | h
    · exact List.pairwise_iff_getElem.mp hsort i j hi hj h
    · have : i = j := by omega
      subst this
      exact le_refl _
  have g : ∀ i (hi : i < s.length), s.getD i 0 = s[i] := by
    intro i hi
    rw [List.getD_eq_getElem?_getD, List.getElem?_eq_getElem hi]
    rfl
  have key : ∀ m : ℝ, s.getD ((l.length - 1) / 2) 0 ≤ m → m ≤ s.getD (l.length / 2) 0 →
      l.length ≤ 2 * l.countP (fun d => decide (d ≤ m)) ∧ l.length ≤ 2 * l.countP (fun d => decide (m ≤ d)) := by
    intro m h1 h2
    rw [g _ (by omega)] at h1 h2
    rw [← hperm.countP_eq, ← hperm.countP_eq]
    constructor
    · have e : (s.take ((l.length - 1) / 2 + 1)).countP (fun d => decide (d ≤ m)) = (s.take ((l.length - 1) / 2 + 1)).length := by
        rw [List.countP_eq_length]
        intro d hd
        obtain ⟨i, hi, rfl⟩ := List.getElem_of_mem hd
        rw [List.getElem_take]
        rw [List.length_take] at hi
        exact decide_eq_true (le_trans (hle _ _ _ _ (by omega)) h1)
      have := (List.take_sublist ((l.length - 1) / 2 + 1) s).countP_le (p := fun d => decide (d ≤ m))
      rw [e, List.length_take] at this
      omega
    · have e : (s.drop (l.length / 2)).countP (fun d => decide (m ≤ d)) = (s.drop (l.length / 2)).length := by
        rw [List.countP_eq_length]
        intro d hd
        obtain ⟨i, hi, rfl⟩ := List.getElem_of_mem hd
        rw [List.getElem_drop]
        exact decide_eq_true (le_trans h2 (hle _ _ _ _ (by omega)))
      have := (List.drop_sublist (l.length / 2) s).countP_le (p := fun d => decide (m ≤ d))
      rw [e, List.length_drop] at this
      omega
  unfold median
  simp only
  rw [if_neg hl, ← hs]
  split
  · rename_i hodd
    refine ⟨_, rfl, key _ ?_ (le_refl _)⟩
    rw [show (l.length - 1) / 2 = l.length / 2 by omega]
  · rename_i heven
    have h3 : s.getD (l.length / 2 - 1) 0 ≤ s.getD (l.length / 2) 0 := by
      rw [g _ (by omega), g _ (by omega)]
      exact hle _ _ _ _ (by omega)
    refine ⟨_, rfl, key _ ?_ ?_⟩
    · rw [show (l.length - 1) / 2 = l.length / 2 - 1 by omega]
      linarith
    · linarith

open Classical in
/-- `min_max_distance`: the least and the greatest angle between neighbours, their mean and median; without neighbours infinity, zero and nan. -/
theorem C126_distances (pts : List (ℝ × ℝ)) (nb : List (List ℕ)) :
    ((∃ u < pts.length, nb.getD u [] ≠ []) → ∃ lo hi m md : ℝ, minMaxDistance pts nb = ((lo : WithTop ℝ), hi, some m, some md) ∧
      IsLeast {d | ∃ u < pts.length, ∃ v ∈ nb.getD u [], d = angle (pts.getD u 0) (pts.getD v 0)} lo ∧ IsGreatest {d | ∃ u < pts.length, ∃ v ∈ nb.getD u [], d = angle (pts.getD u 0) (pts.getD v 0)} hi ∧
      0 ≤ lo ∧ lo ≤ m ∧ m ≤ hi ∧ hi ≤ Real.pi ∧ m * (distances pts nb).length = (distances pts nb).sum ∧
      (distances pts nb).length ≤ 2 * (distances pts nb).countP (fun d => decide (d ≤ md)) ∧ (distances pts nb).length ≤ 2 * (distances pts nb).countP (fun d => decide (md ≤ d))) ∧
    ((∀ u < pts.length, nb.getD u [] = []) → minMaxDistance pts nb = (⊤, 0, none, none)) := by
  constructor
  · rintro ⟨u, hu, hv⟩
    obtain ⟨v, hv⟩ := List.exists_mem_of_ne_nil _ hv
    have hmem := (mem_distances pts nb (angle (pts.getD u 0) (pts.getD v 0))).mpr ⟨u, hu, v, hv, rfl⟩
    have hne : distances pts nb ≠ [] := List.ne_nil_of_mem hmem
    have hrange : ∀ d ∈ distances pts nb, 0 ≤ d ∧ d ≤ Real.pi := by
      intro d hd
      obtain ⟨u, _, v, _, rfl⟩ := (mem_distances pts nb d).mp hd
      exact ⟨Real.arccos_nonneg _, Real.arccos_le_pi _⟩
    obtain ⟨h1, h2, _, h4, h5⟩ := extrema_fold (distances pts nb) (⊤, 0)
    change (extrema (distances pts nb)).1 = ⊤ ∨ _ at h1
    change (extrema (distances pts nb)).2 = 0 ∨ (extrema (distances pts nb)).2 ∈ _ at h2
    change (0 : ℝ) ≤ (extrema (distances pts nb)).2 at h4
    change ∀ d ∈ distances pts nb, (extrema (distances pts nb)).1 ≤ (d : WithTop ℝ) ∧ d ≤ (extrema (distances pts nb)).2 at h5
    obtain ⟨lo, hlo, hlo'⟩ : ∃ d ∈ distances pts nb, (extrema (distances pts nb)).1 = (d : WithTop ℝ) := by
      rcases h1 with h1 | h1
      · have := (h5 _ hmem).1
        rw [h1, top_le_iff] at this
        exact absurd this (WithTop.coe_ne_top)
      · exact h1
    have hhi : (extrema (distances pts nb)).2 ∈ distances pts nb := by
      rcases h2 with h2 | h2
      · have h6 := (h5 _ hmem).2
        rw [h2] at h6
        have h7 := (hrange _ hmem).1
        rw [h2, ← le_antisymm h6 h7]
        exact hmem
      · exact h2
    have hbetween : ∀ d ∈ distances pts nb, lo ≤ d ∧ d ≤ (extrema (distances pts nb)).2 := by
      intro d hd
      refine ⟨?_, (h5 d hd).2⟩
      have := (h5 d hd).1
      rw [hlo'] at this
      exact WithTop.coe_le_coe.mp this
    obtain ⟨m, hm, hms, hm1, hm2⟩ := mean_between hne hbetween
    obtain ⟨md, hmd, hmd1, hmd2⟩ := median_spec hne
    refine ⟨lo, (extrema (distances pts nb)).2, m, md, ?_, ⟨(mem_distances _ _ _).mp hlo, ?_⟩, ⟨(mem_distances _ _ _).mp hhi, ?_⟩, (hrange _ hlo).1, hm1, hm2, (hrange _ hhi).2, hms, hmd1, hmd2⟩
    · unfold minMaxDistance
      simp only
      rw [hlo', hm, hmd]
    · intro d hd
      exact (hbetween d ((mem_distances _ _ _).mpr hd)).1
    · intro d hd
      exact (hbetween d ((mem_distances _ _ _).mpr hd)).2
  · intro h
    have : distances pts nb = [] := by
      by_contra hne
      obtain ⟨d, hd⟩ := List.exists_mem_of_ne_nil _ hne
      obtain ⟨u, hu, v, hv, _⟩ := (mem_distances _ _ _).mp hd
      rw [h u hu] at hv
      exact absurd hv List.not_mem_nil
    unfold minMaxDistance
    simp only
    rw [this]
    simp [extrema, mean, median]

/-! ## Interpolation on a mesh -/

/-- The index found by an interpolation with the nearest point (in the plane of the angles). -/
def IsNearest (nearest : List (ℝ × ℝ) → ℝ × ℝ → ℕ) : Prop :=
  ∀ pts q, pts ≠ [] → nearest pts q < pts.length ∧ ∀ j < pts.length,
    ((pts.getD (nearest pts q) 0).1 - q.1) ^ 2 + ((pts.getD (nearest pts q) 0).2 - q.2) ^ 2 ≤ ((pts.getD j 0).1 - q.1) ^ 2 + ((pts.getD j 0).2 - q.2) ^ 2

theorem meshSize_spec (n : ℕ) : 2 * meshSize n ^ 2 ≤ n ∧ n < 2 * (meshSize n + 1) ^ 2 := by
  have h1 : ((meshSize n : ℕ) : ℝ) ≤ Real.sqrt ((n : ℝ) / 2) := Nat.floor_le (Real.sqrt_nonneg _)
  have h2 : Real.sqrt ((n : ℝ) / 2) < (meshSize n : ℝ) + 1 := Nat.lt_floor_add_one _
  rw [Real.le_sqrt (by positivity) (by positivity)] at h1
  rw [Real.sqrt_lt' (by positivity)] at h2
  constructor
  · have : (2 * (meshSize n : ℝ) ^ 2) ≤ n := by linarith
    exact_mod_cast this
  · have : (n : ℝ) < 2 * ((meshSize n : ℝ) + 1) ^ 2 := by linarith
    exact_mod_cast this

theorem mgrid_ends (a b : ℝ) {x : ℕ} (hx : 2 ≤ x) : mgrid a b x 0 = a ∧ mgrid a b x (x - 1) = b ∧ ∀ i, mgrid a b x (i + 1) - mgrid a b x i = (b - a) / ((x : ℝ) - 1) := by
  have h2 : (2 : ℝ) ≤ x := by exact_mod_cast hx
  have h : (x : ℝ) - 1 ≠ 0 := by linarith
  unfold mgrid
  simp only [if_neg (show x ≠ 1 by omega)]
  refine ⟨by simp, ?_, fun i => by push_cast; ring⟩
  rw [Nat.cast_sub (by omega)]
  push_cast
  field_simp
  ring

/-- `regrid` without values gives nothing; otherwise an image of `2x` by `x` pixels (`x` the greatest with `2x² ≤ n`) over the azimuths from `-π` to `π` and the colatitudes from `0` to `π`, each pixel the value of a point whose angles are nearest. -/
theorem C126_regrid {nearest : List (ℝ × ℝ) → ℝ × ℝ → ℕ} (hn : IsNearest nearest) (pts : List (ℝ × ℝ)) : regrid nearest pts none = none ∧
    ∀ vals, ∃ x mesh img, regrid nearest pts (some vals) = some (mesh, img) ∧ 2 * x ^ 2 ≤ pts.length ∧ pts.length < 2 * (x + 1) ^ 2 ∧
      mesh.length = 2 * x ∧ img.length = 2 * x ∧ (∀ r ∈ mesh, r.length = x) ∧ (∀ r ∈ img, r.length = x) ∧
      (∀ i < 2 * x, ∀ j < x, ∃ k < pts.length, (img.getD i []).getD j 0 = vals.getD k 0 ∧ ∀ l < pts.length,
        ((pts.getD k 0).1 - ((mesh.getD i []).getD j 0).1) ^ 2 + ((pts.getD k 0).2 - ((mesh.getD i []).getD j 0).2) ^ 2 ≤ ((pts.getD l 0).1 - ((mesh.getD i []).getD j 0).1) ^ 2 + ((pts.getD l 0).2 - ((mesh.getD i []).getD j 0).2) ^ 2) ∧
      (2 ≤ x → (mesh.getD 0 []).getD 0 0 = (-Real.pi, 0) ∧ (mesh.getD (2 * x - 1) []).getD (x - 1) 0 = (Real.pi, Real.pi) ∧
        ∀ i j, i + 1 < 2 * x → j + 1 < x → ((mesh.getD (i + 1) []).getD (j + 1) 0).1 - ((mesh.getD i []).getD j 0).1 = 2 * Real.pi / (2 * x - 1) ∧ ((mesh.getD (i + 1) []).getD (j + 1) 0).2 - ((mesh.getD i []).getD j 0).2 = Real.pi / (x - 1)) := by
  refine ⟨rfl, fun vals => ?_⟩
  obtain ⟨hx1, hx2⟩ := meshSize_spec pts.length
  set x := meshSize pts.length with hx
  have gm : ∀ i < 2 * x, ∀ j < x, ((((List.range (2 * x)).map fun i => (List.range x).map fun j => (mgrid (-Real.pi) Real.pi (2 * x) i, mgrid 0 Real.pi x j))).getD i []).getD j 0 = (mgrid (-Real.pi) Real.pi (2 * x) i, mgrid 0 Real.pi x j) := by
    intro i hi j hj
    simp [List.getD_eq_getElem?_getD, List.getElem?_map, List.getElem?_range hi, List.getElem?_range hj]
  refine ⟨x, _, _, rfl, hx1, hx2, by simp [← hx], by simp [← hx], ?_, ?_, ?_, ?_⟩
  · intro r hr
    obtain ⟨i, _, rfl⟩ := List.mem_map.mp hr
    simp [← hx]
  · intro r hr
    obtain ⟨row, hrow, rfl⟩ := List.mem_map.mp hr
    obtain ⟨i, _, rfl⟩ := List.mem_map.mp hrow
    simp [← hx]
  · intro i hi j hj
    have hne : pts ≠ [] := by
      rintro rfl
      have : x * x = 0 := by simpa [pow_two] using hx1
      have : x = 0 := by simpa using this
      omega
    rw [gm i hi j hj]
    obtain ⟨h1, h2⟩ := hn pts (mgrid (-Real.pi) Real.pi (2 * x) i, mgrid 0 Real.pi x j) hne
    refine ⟨_, h1, ?_, h2⟩
    have e : ((((List.range (2 * x)).map fun i => (List.range x).map fun j => (mgrid (-Real.pi) Real.pi (2 * x) i, mgrid 0 Real.pi x j)).map fun row => row.map fun q => vals.getD (nearest pts q) 0).getD i []).getD j 0 =
        vals.getD (nearest pts (mgrid (-Real.pi) Real.pi (2 * x) i, mgrid 0 Real.pi x j)) 0 := by
      simp [List.getD_eq_getElem?_getD, List.getElem?_map, List.getElem?_range hi, List.getElem?_range hj]
    exact e
  · intro h2x
    obtain ⟨a1, a2, a3⟩ := mgrid_ends (-Real.pi) Real.pi (x := 2 * x) (by omega)
    obtain ⟨b1, b2, b3⟩ := mgrid_ends 0 Real.pi (x := x) h2x
    refine ⟨?_, ?_, ?_⟩
    · rw [gm 0 (by omega) 0 (by omega), a1, b1]
    · rw [gm _ (by omega) _ (by omega), a2, b2]
    · intro i j hi hj
      rw [gm _ hi _ hj, gm _ (by omega) _ (by omega)]
      simp only
      rw [a3, b3]
      push_cast
      constructor
      · ring
      · ring

/-- The nearest point is sought in the plane of the angles, not on the sphere: the azimuths `-π` and `π` are as far from each other as possible. Two pixels of the same direction (the pole) can get different values. -/
theorem C126_regrid_deviation {nearest : List (ℝ × ℝ) → ℝ × ℝ → ℕ} (hn : IsNearest nearest) :
    regrid nearest [(3, Real.pi / 2), (-3, Real.pi / 2)] (some [1, 0]) = some ([[(-Real.pi, 0)], [(Real.pi, 0)]], [[0], [1]]) ∧
    spher2cart (-Real.pi) (some 0) 1 false = spher2cart Real.pi (some 0) 1 false := by
  have hpi := Real.pi_pos
  have hs : meshSize 2 = 1 := by
    unfold meshSize
    norm_num
  have k1 : nearest [(3, Real.pi / 2), (-3, Real.pi / 2)] (-Real.pi, 0) = 1 := by
    obtain ⟨h1, h2⟩ := hn [(3, Real.pi / 2), (-3, Real.pi / 2)] (-Real.pi, 0) (by simp)
    have h3 := h2 1 (by simp)
    rcases (show nearest [(3, Real.pi / 2), (-3, Real.pi / 2)] (-Real.pi, 0) = 0 ∨ nearest [(3, Real.pi / 2), (-3, Real.pi / 2)] (-Real.pi, 0) = 1 by simp at h1; omega) with h | h
    · rw [h] at h3
      simp only [List.getD_cons_zero, List.getD_cons_succ] at h3
      nlinarith
    · exact h
  have k2 : nearest [(3, Real.pi / 2), (-3, Real.pi / 2)] (Real.pi, 0) = 0 := by
    obtain ⟨h1, h2⟩ := hn [(3, Real.pi / 2), (-3, Real.pi / 2)] (Real.pi, 0) (by simp)
    have h3 := h2 0 (by simp)
    rcases (show nearest [(3, Real.pi / 2), (-3, Real.pi / 2)] (Real.pi, 0) = 0 ∨ nearest [(3, Real.pi / 2), (-3, Real.pi / 2)] (Real.pi, 0) = 1 by simp at h1; omega) with h | h
    · exact h
    · rw [h] at h3
      simp only [List.getD_cons_zero, List.getD_cons_succ] at h3
      nlinarith
  refine ⟨?_, ?_⟩
  · unfold regrid
    simp only [Option.map_some, List.length_cons, List.length_nil, Nat.zero_add, Nat.reduceAdd, hs]
    have m0 : mgrid (-Real.pi) Real.pi 2 0 = -Real.pi := (mgrid_ends _ _ (le_refl 2)).1
    have m1 : mgrid (-Real.pi) Real.pi 2 1 = Real.pi := (mgrid_ends _ _ (le_refl 2)).2.1
    have m2 : mgrid 0 Real.pi 1 0 = 0 := by simp [mgrid]
    simp [List.range_succ, m0, m1, m2, k1, k2]
  · unfold spher2cart
    simp

/-! ## The hypotheses can be met -/

/-- An interpolation with the nearest point exists. -/
example : ∃ nearest, IsNearest nearest := by
  classical
  have h : ∀ (pts : List (ℝ × ℝ)) (q : ℝ × ℝ), pts ≠ [] → ∃ k, k < pts.length ∧ ∀ j < pts.length,
      ((pts.getD k 0).1 - q.1) ^ 2 + ((pts.getD k 0).2 - q.2) ^ 2 ≤ ((pts.getD j 0).1 - q.1) ^ 2 + ((pts.getD j 0).2 - q.2) ^ 2 := by
    intro pts q hne
    obtain ⟨k, hk, hm⟩ := Finset.exists_min_image (Finset.range pts.length) (fun k => ((pts.getD k 0).1 - q.1) ^ 2 + ((pts.getD k 0).2 - q.2) ^ 2)
      ⟨0, Finset.mem_range.mpr (List.length_pos_iff.mpr hne)⟩
    exact ⟨k, Finset.mem_range.mp hk, fun j hj => hm j (Finset.mem_range.mpr hj)⟩
  exact ⟨fun pts q => if hne : pts ≠ [] then (h pts q hne).choose else 0, fun pts q hne => by simp only [dif_pos hne]; exact (h pts q hne).choose_spec⟩

/-- A grid of two points, one of them zero. -/
example : ∃ g, gridSphere 1000 none (some [[3, 0], [0, 0], [4, 0]]) = .ok g ∧ g.nPoints = 2 ∧ Consistent g := by
  obtain ⟨g, h, hn, hc, _⟩ := C126_sphere_points 1000 [3, 0] [0, 0] [4, 0] rfl rfl
  exact ⟨g, h, hn, hc⟩

/-- Two neighbours. -/
example : ∃ lo hi m md : ℝ, minMaxDistance [(0, 0), (0, 1)] [[1], [0]] = (((lo : ℝ) : WithTop ℝ), hi, some m, some md) := by
  obtain ⟨lo, hi, m, md, h, _⟩ := (C126_distances [(0, 0), (0, 1)] [[1], [0]]).1 ⟨0, by simp, by simp⟩
  exact ⟨lo, hi, m, md, h⟩

end Verif.Grids
