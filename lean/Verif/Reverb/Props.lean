import Verif.Reverb.Model
import Verif.Shoebox.Props
import Mathlib.Algebra.BigOperators.Group.List.Basic
import Mathlib.Tactic.Positivity
import Mathlib.Tactic.FieldSimp
import Mathlib.Tactic.Linarith

/-!
# C35, C36: reverberation time
-/

namespace Verif.Reverb

open Py (Err)

theorem log10_pos : 0 < Real.log 10 := Real.log_pos (by norm_num)

/-! ## C35 -/

/-- **C35** For a shoebox: the absorption found is a number in (0, 1], and Sabine's formula gives back the time. -/
theorem C35_roundtrip {l1 l2 l3 T c e : ℝ} {o : Int} (h1 : 0 < l1) (h2 : 0 < l2) (h3 : 0 < l3) (hT : 0 < T) (hc : 0 < c)
    (h : inverseSabine T [l1, l2, l3] c = .ok (e, o)) :
    0 < e ∧ e ≤ 1 ∧ rt60Sabine (2 * (l1 * l2 + l1 * l3 + l2 * l3)) (l1 * l2 * l3) e 0 c = T := by
  unfold inverseSabine at h
  simp only at h
  have hl := log10_pos
  have hS : 0 < 2 * (l1 * l2 + l1 * l3 + l2 * l3) := by positivity
  have hV : 0 < l1 * l2 * l3 := by positivity
  generalize 2 * (l1 * l2 + l1 * l3 + l2 * l3) = S at *
  generalize l1 * l2 * l3 = V at *
  split at h
  · exact absurd h (by simp)
  · rename_i hle
    simp only [Except.ok.injEq, Prod.mk.injEq] at h
    obtain ⟨rfl, -⟩ := h
    refine ⟨by positivity, not_lt.mp hle, ?_⟩
    unfold rt60Sabine
    rw [mul_zero, zero_mul, add_zero]
    field_simp

/-- **C35** For a shoebox a time is refused exactly if it is shorter than that of the room with absorption one. -/
theorem C35_refused {l1 l2 l3 T c : ℝ} (h1 : 0 < l1) (h2 : 0 < l2) (h3 : 0 < l3) (hT : 0 < T) (hc : 0 < c) :
    inverseSabine T [l1, l2, l3] c = .error .valueError ↔ T < rt60Sabine (2 * (l1 * l2 + l1 * l3 + l2 * l3)) (l1 * l2 * l3) 1 0 c := by
  unfold inverseSabine
  simp only
  have hl := log10_pos
  have hS : 0 < 2 * (l1 * l2 + l1 * l3 + l2 * l3) := by positivity
  have hV : 0 < l1 * l2 * l3 := by positivity
  generalize 2 * (l1 * l2 + l1 * l3 + l2 * l3) = S at *
  generalize l1 * l2 * l3 = V at *
  have e1 : 24 * Real.log 10 * V / (c * S * T) > 1 ↔ T < rt60Sabine S V 1 0 c := by
    unfold rt60Sabine
    rw [gt_iff_lt, lt_div_iff₀ (by positivity), mul_zero, zero_mul, add_zero, one_mul, one_mul, lt_div_iff₀ hS]
    rw [show 24 * Real.log 10 / c * V = 24 * Real.log 10 * V / c by ring, lt_div_iff₀ hc]
    constructor <;> intro h <;> linarith
  rw [← e1]
  split
  · rename_i h; simp [h]
  · rename_i h; simp only [reduceCtorEq, false_iff]; exact h

/-- **C35** The time decreases with the absorption of the walls and with that of the air. -/
theorem C35_decreasing {S V a a' m m' c : ℝ} (hS : 0 < S) (hV : 0 < V) (hc : 0 < c) (ha : 0 < a) (haa : a ≤ a') (hm : 0 ≤ m) (hmm : m ≤ m')
    (hne : a < a' ∨ m < m') : rt60Sabine S V a' m' c < rt60Sabine S V a m c := by
  unfold rt60Sabine
  have hl := log10_pos
  have h1 : a * S + 4 * m * V < a' * S + 4 * m' * V := by
    rcases hne with h | h
    · have := mul_lt_mul_of_pos_right h hS
      have := mul_le_mul_of_nonneg_right hmm hV.le
      linarith
    · have := mul_le_mul_of_nonneg_right haa hS.le
      have := mul_lt_mul_of_pos_right h hV
      linarith
  have h2 : 0 < a * S + 4 * m * V := by positivity
  exact div_lt_div_of_pos_left (by positivity) h2 h1

/-- **C35** Without absorption by the air Eyring's time is shorter than that of Sabine. -/
theorem C35_eyring {S V a c : ℝ} (hS : 0 < S) (hV : 0 < V) (hc : 0 < c) (ha : 0 < a) (ha1 : a < 1) :
    0 < rt60Eyring S V a 0 c ∧ rt60Eyring S V a 0 c < rt60Sabine S V a 0 c := by
  unfold rt60Eyring rt60Sabine
  have hl := log10_pos
  have h1 : Real.log (1 - a) < -a := by
    have := Real.log_lt_sub_one_of_pos (show 0 < 1 - a by linarith) (by linarith)
    linarith
  have h2 : a * S < -(S * Real.log (1 - a)) := by nlinarith
  have e : -(24 * Real.log 10 / c) * V / (S * Real.log (1 - a) + 4 * 0 * V) = (24 * Real.log 10 / c) * V / (-(S * Real.log (1 - a))) := by
    rw [mul_zero, zero_mul, add_zero, div_neg, neg_mul, neg_div]
  rw [e, mul_zero, zero_mul, add_zero]
  have h3 : 0 < a * S := by positivity
  exact ⟨div_pos (by positivity) (by linarith), div_lt_div_of_pos_left (by positivity) h3 h2⟩

/-- **C35** Deviation: in Eyring's formula the sign of the term of the air is wrong. The time grows with the absorption of the air, and is negative if it
is large. -/
theorem C35_eyring_air_deviation {S V a m c : ℝ} (hV : 0 < V) (hc : 0 < c) (hm : 0 < m) :
    (4 * m * V < -(S * Real.log (1 - a)) → rt60Eyring S V a 0 c < rt60Eyring S V a m c) ∧
    (-(S * Real.log (1 - a)) < 4 * m * V → rt60Eyring S V a m c < 0) := by
  have hl := log10_pos
  have e : ∀ m, rt60Eyring S V a m c = (24 * Real.log 10 / c) * V / (-(S * Real.log (1 - a)) - 4 * m * V) := by
    intro m
    unfold rt60Eyring
    rw [show -(S * Real.log (1 - a)) - 4 * m * V = -(S * Real.log (1 - a) + 4 * m * V) by ring, div_neg, neg_mul, neg_div]
  rw [e, e]
  have hK : 0 < (24 * Real.log 10 / c) * V := by positivity
  have hmV : 0 < 4 * m * V := by positivity
  constructor
  · intro h
    exact div_lt_div_of_pos_left hK (by linarith) (by linarith)
  · intro h
    exact div_neg_of_pos_of_neg hK (by linarith)

/-- **C35** Deviation: for two dimensions Sabine's formula of the package does not give back the time, but twice the time. -/
theorem C35_two_dim_deviation {l1 l2 T c e : ℝ} {o : Int} (h1 : 0 < l1) (h2 : 0 < l2) (hT : 0 < T) (hc : 0 < c)
    (h : inverseSabine T [l1, l2] c = .ok (e, o)) : rt60Sabine (2 * (l1 + l2)) (l1 * l2) e 0 c = 2 * T := by
  unfold inverseSabine at h
  simp only at h
  have hl := log10_pos
  have hS : 0 < 2 * (l1 + l2) := by positivity
  have hV : 0 < l1 * l2 := by positivity
  generalize 2 * (l1 + l2) = S at *
  generalize l1 * l2 = V at *
  split at h
  · exact absurd h (by simp)
  · simp only [Except.ok.injEq, Prod.mk.injEq] at h
    obtain ⟨rfl, -⟩ := h
    unfold rt60Sabine
    rw [mul_zero, zero_mul, add_zero]
    field_simp
    norm_num

/-! ### The order -/

theorem image_dist (L : ℝ) (p : Int) {s m : ℝ} (hL : 0 < L) (hs : 0 ≤ s ∧ s ≤ L) (hm : 0 ≤ m ∧ m ≤ L) :
    ((p.natAbs : ℝ) - 1) * L ≤ |Shoebox.imageCoord L p s - m| := by
  rw [Shoebox.image_eq]
  have hr : 0 ≤ (if p.natAbs % 2 = 1 then L - s else s) ∧ (if p.natAbs % 2 = 1 then L - s else s) ≤ L := by
    split
    · constructor <;> linarith [hs.1, hs.2]
    · exact hs
  generalize (if p.natAbs % 2 = 1 then L - s else s) = r at hr
  obtain ⟨n, rfl | rfl⟩ := Int.eq_nat_or_neg p
  · simp only [Int.natAbs_natCast, Int.cast_natCast]
    refine le_trans ?_ (le_abs_self _)
    linarith [hr.1, hm.2]
  · simp only [Int.natAbs_neg, Int.natAbs_natCast, Int.cast_neg, Int.cast_natCast]
    refine le_trans ?_ (neg_le_abs _)
    linarith [hr.2, hm.1]

/-- **C35** The order for a rectangle: every image that is left out is at least at the distance `c T - 2 R`, where `R` is the radius of the circle in the
rectangle's diamond. -/
theorem C35_order_two_dim {l1 l2 T c e : ℝ} {o : Int} (h1 : 0 < l1) (h2 : 0 < l2) (h : inverseSabine T [l1, l2] c = .ok (e, o))
    {s1 s2 m1 m2 : ℝ} (hs1 : 0 ≤ s1 ∧ s1 ≤ l1) (hs2 : 0 ≤ s2 ∧ s2 ≤ l2) (hm1 : 0 ≤ m1 ∧ m1 ≤ l1) (hm2 : 0 ≤ m2 ∧ m2 ≤ l2) (p q : Int)
    (hpq : o < p.natAbs + q.natAbs) :
    c * T - 2 * (l1 * l2 / Real.sqrt (l1 ^ 2 + l2 ^ 2)) ≤
      Real.sqrt ((Shoebox.imageCoord l1 p s1 - m1) ^ 2 + (Shoebox.imageCoord l2 q s2 - m2) ^ 2) := by
  have ho : o = ⌈c * T / (l1 * l2 / Real.sqrt (l1 ^ 2 + l2 ^ 2)) - 1⌉ := by
    unfold inverseSabine at h
    simp only at h
    split at h
    · exact absurd h (by simp)
    · simp only [Except.ok.injEq, Prod.mk.injEq] at h; exact h.2.symm
  have hq : 0 < Real.sqrt (l1 ^ 2 + l2 ^ 2) := Real.sqrt_pos.mpr (by positivity)
  have hqs : Real.sqrt (l1 ^ 2 + l2 ^ 2) ^ 2 = l1 ^ 2 + l2 ^ 2 := Real.sq_sqrt (by positivity)
  have hR : 0 < l1 * l2 / Real.sqrt (l1 ^ 2 + l2 ^ 2) := by positivity
  have d1 := image_dist l1 p h1 hs1 hm1
  have d2 := image_dist l2 q h2 hs2 hm2
  rw [← Real.sqrt_sq_eq_abs] at d1 d2
  rw [Real.sqrt_sq_eq_abs] at d1 d2
  have hx0 := abs_nonneg (Shoebox.imageCoord l1 p s1 - m1)
  have hy0 := abs_nonneg (Shoebox.imageCoord l2 q s2 - m2)
  rw [← sq_abs (Shoebox.imageCoord l1 p s1 - m1), ← sq_abs (Shoebox.imageCoord l2 q s2 - m2)]
  generalize |Shoebox.imageCoord l1 p s1 - m1| = x at *
  generalize |Shoebox.imageCoord l2 q s2 - m2| = y at *
  -- the order
  have h3 : c * T / (l1 * l2 / Real.sqrt (l1 ^ 2 + l2 ^ 2)) - 1 ≤ o := by rw [ho]; exact Int.le_ceil _
  have h4 : (o : ℝ) + 1 ≤ (p.natAbs : ℝ) + q.natAbs := by
    have : o + 1 ≤ ((p.natAbs + q.natAbs : Nat) : Int) := by omega
    have h := (Int.cast_le (R := ℝ)).mpr this
    rw [Int.cast_add, Int.cast_one, Int.cast_natCast, Nat.cast_add] at h
    exact h
  generalize hRR : l1 * l2 / Real.sqrt (l1 ^ 2 + l2 ^ 2) = R at *
  have h5 : c * T ≤ ((p.natAbs : ℝ) + q.natAbs) * R := by
    have : c * T / R ≤ (p.natAbs : ℝ) + q.natAbs := by linarith
    rwa [div_le_iff₀ hR] at this
  -- x / l1 + y / l2
  have h6 : (p.natAbs : ℝ) - 1 ≤ x / l1 := by rwa [le_div_iff₀ h1]
  have h7 : (q.natAbs : ℝ) - 1 ≤ y / l2 := by rwa [le_div_iff₀ h2]
  have h8 : (x / l1 + y / l2) * R ≤ Real.sqrt (x ^ 2 + y ^ 2) := by
    apply Real.le_sqrt_of_sq_le
    have e : (x / l1 + y / l2) * R = (x * l2 + y * l1) / Real.sqrt (l1 ^ 2 + l2 ^ 2) := by
      rw [← hRR]; field_simp
    rw [e, div_pow, hqs, div_le_iff₀ (by positivity)]
    nlinarith [sq_nonneg (x * l1 - y * l2)]
  have h9 : ((p.natAbs : ℝ) - 1 + (q.natAbs - 1)) * R ≤ (x / l1 + y / l2) * R := mul_le_mul_of_nonneg_right (by linarith) hR.le
  linarith

/-- **C35** Deviation: in three dimensions the order is too small, by any amount. In a cube with source and microphone in the centre the image in cell
`(k, k, k)` is at the distance `c T`, but its order `3 k` is larger than the order found, by at least a sixth. -/
theorem C35_order_deviation {l c e : ℝ} {o : Int} (hl : 0 < l) (k : Nat) (hk : 0 < k)
    (h : inverseSabine (Real.sqrt 3 * k * l / c) [l, l, l] c = .ok (e, o)) (hc : 0 < c) :
    Real.sqrt (3 * (Shoebox.imageCoord l k (l / 2) - l / 2) ^ 2) = c * (Real.sqrt 3 * k * l / c) ∧ 2 * o < 5 * k := by
  constructor
  · rw [Shoebox.image_eq]
    have : (if (k : Int).natAbs % 2 = 1 then l - l / 2 else l / 2) = l / 2 := by split <;> ring
    rw [this, mul_div_cancel₀ _ hc.ne', Int.cast_natCast, add_sub_cancel_right, Real.sqrt_mul (by norm_num), Real.sqrt_sq (by positivity)]
    ring
  · have ho : o = ⌈c * (Real.sqrt 3 * k * l / c) / (l * l / Real.sqrt (l ^ 2 + l ^ 2)) - 1⌉ := by
      unfold inverseSabine at h
      simp only [min_self] at h
      split at h
      · exact absurd h (by simp)
      · simp only [Except.ok.injEq, Prod.mk.injEq] at h; exact h.2.symm
    have e2 : Real.sqrt (l ^ 2 + l ^ 2) = Real.sqrt 2 * l := by
      rw [show l ^ 2 + l ^ 2 = 2 * l ^ 2 by ring, Real.sqrt_mul (by norm_num), Real.sqrt_sq hl.le]
    have e1 : c * (Real.sqrt 3 * k * l / c) / (l * l / Real.sqrt (l ^ 2 + l ^ 2)) = Real.sqrt 6 * k := by
      rw [e2, mul_div_cancel₀ _ hc.ne', show (6 : ℝ) = 3 * 2 by norm_num, Real.sqrt_mul (by norm_num)]
      field_simp
    rw [e1] at ho
    have h3 : (o : ℝ) < Real.sqrt 6 * k := by
      have := Int.ceil_lt_add_one (Real.sqrt 6 * k - 1)
      rw [← ho] at this; linarith
    have h4 : Real.sqrt 6 < 5 / 2 := by rw [Real.sqrt_lt' (by norm_num)]; norm_num
    have hk' : (0 : ℝ) < k := by exact_mod_cast hk
    have h5 : (2 : ℝ) * o < 5 * k := by nlinarith
    exact_mod_cast h5

/-! ## C36 -/

theorem foldl_add_map {α : Type} (l : List α) (f : α → ℝ) (a : ℝ) : l.foldl (fun acc w => acc + f w) a = a + (l.map f).sum := by
  induction l generalizing a with
  | nil => simp
  | cons x l ih => rw [List.foldl_cons, ih, List.map_cons, List.sum_cons]; ring

/-- The total absorption of the walls in a band. -/
noncomputable def wallAbsorption (walls : List Wall) (b : Nat) : ℝ := (walls.map fun w => w.absorption b * w.area).sum

/-- The coefficient of the air in a band. -/
def airCoeff (air : Option (Nat → ℝ)) (b : Nat) : ℝ :=
  match air with
  | none => 0
  | some f => f b

theorem theory_eq (bandwidths : List ℝ) (V c : ℝ) (air : Option (Nat → ℝ)) (walls : List Wall) (hV : 0 < V) (hc : 0 < c) :
    rt60Theory rt60Sabine bandwidths V c air walls =
      bandwidths.sum / ((bandwidths.zipIdx.map fun bi => bi.1 * (wallAbsorption walls bi.2 + walls.length * (4 * airCoeff air bi.2 * V))).sum *
        (c / (24 * Real.log 10 * V))) := by
  have hl := log10_pos
  unfold rt60Theory
  simp only
  congr 1
  have e : ∀ (acc : ℝ) (bi : ℝ × Nat),
      walls.foldl (fun acc w => acc + bi.1 / rt60Sabine w.area V (w.absorption bi.2) (airCoeff air bi.2) c) acc =
      acc + bi.1 * (wallAbsorption walls bi.2 + walls.length * (4 * airCoeff air bi.2 * V)) * (c / (24 * Real.log 10 * V)) := by
    intro acc bi
    rw [foldl_add_map]
    congr 1
    unfold wallAbsorption
    generalize airCoeff air bi.2 = m
    induction walls with
    | nil => simp
    | cons w ws ih =>
      simp only [List.map_cons, List.sum_cons, ih, List.length_cons]
      have : bi.1 / rt60Sabine w.area V (w.absorption bi.2) m c =
          bi.1 * (w.absorption bi.2 * w.area + 4 * m * V) * (c / (24 * Real.log 10 * V)) := by
        unfold rt60Sabine
        rw [div_div_eq_mul_div, div_eq_iff (by positivity)]
        field_simp
      rw [this]
      push_cast
      ring
  have e2 : ∀ (l : List (ℝ × Nat)) (acc : ℝ),
      l.foldl (fun acc bi => walls.foldl (fun acc w => acc + bi.1 / rt60Sabine w.area V (w.absorption bi.2) (airCoeff air bi.2) c) acc) acc =
      acc + (l.map fun bi => bi.1 * (wallAbsorption walls bi.2 + walls.length * (4 * airCoeff air bi.2 * V))).sum * (c / (24 * Real.log 10 * V)) := by
    intro l
    induction l with
    | nil => intro acc; simp
    | cons x l ih =>
      intro acc
      rw [List.foldl_cons, e, ih, List.map_cons, List.sum_cons]
      ring
  have := e2 bandwidths.zipIdx 0
  rw [zero_add] at this
  exact this

/-- **C36** Without absorption by the air, for one band: Sabine's formula with the sum of the absorptions of the walls. -/
theorem C36_sabine (V c : ℝ) (walls : List Wall) (hV : 0 < V) (hc : 0 < c) :
    rt60Theory rt60Sabine [1] V c none walls = 24 * Real.log 10 / c * V / (walls.map fun w => w.absorption 0 * w.area).sum := by
  have hl := log10_pos
  rw [theory_eq _ _ _ _ _ hV hc]
  simp only [List.zipIdx_cons, List.zipIdx_nil, List.map_cons, List.map_nil, List.sum_cons, List.sum_nil, airCoeff, wallAbsorption]
  generalize (walls.map fun w => w.absorption 0 * w.area).sum = A
  rw [mul_zero, zero_mul, mul_zero, add_zero, add_zero, add_zero, one_mul, show A * (c / (24 * Real.log 10 * V)) = A / (24 * Real.log 10 * V / c) by
    field_simp, one_div_div]
  ring

/-- **C36** Several bands: the absorption is averaged over the bands with their widths as weights. -/
theorem C36_bands (bandwidths : List ℝ) (V c : ℝ) (walls : List Wall) (hV : 0 < V) (hc : 0 < c) :
    rt60Theory rt60Sabine bandwidths V c none walls =
      24 * Real.log 10 / c * V / ((bandwidths.zipIdx.map fun bi => bi.1 * (walls.map fun w => w.absorption bi.2 * w.area).sum).sum / bandwidths.sum) := by
  have hl := log10_pos
  rw [theory_eq _ _ _ _ _ hV hc]
  simp only [airCoeff, wallAbsorption, mul_zero, zero_mul, add_zero]
  generalize (bandwidths.zipIdx.map fun bi => bi.1 * (walls.map fun w => w.absorption bi.2 * w.area).sum).sum = A
  generalize bandwidths.sum = B at *
  rw [show A * (c / (24 * Real.log 10 * V)) = A / (24 * Real.log 10 * V / c) by field_simp, div_div_eq_mul_div, div_div_eq_mul_div]
  ring

/-- **C36** Deviation: the absorption of the air is counted once for every wall. -/
theorem C36_air_deviation (V c : ℝ) (m : Nat → ℝ) (walls : List Wall) (hV : 0 < V) (hc : 0 < c) :
    rt60Theory rt60Sabine [1] V c (some m) walls =
      24 * Real.log 10 / c * V / ((walls.map fun w => w.absorption 0 * w.area).sum + walls.length * (4 * m 0 * V)) := by
  have hl := log10_pos
  rw [theory_eq _ _ _ _ _ hV hc]
  simp only [List.zipIdx_cons, List.zipIdx_nil, List.map_cons, List.map_nil, List.sum_cons, List.sum_nil, airCoeff, wallAbsorption]
  generalize (walls.map fun w => w.absorption 0 * w.area).sum + walls.length * (4 * m 0 * V) = A
  rw [add_zero, add_zero, one_mul, show A * (c / (24 * Real.log 10 * V)) = A / (24 * Real.log 10 * V / c) by field_simp, one_div_div]
  ring

/-- **C36** Consequence: in a room with at least two walls and absorption by the air, the time is shorter than that of Sabine's formula. -/
theorem C36_air_too_short (V c : ℝ) (m : Nat → ℝ) (walls : List Wall) (hV : 0 < V) (hc : 0 < c) (hm : 0 < m 0) (hw : 2 ≤ walls.length)
    (hpos : ∀ w ∈ walls, 0 ≤ w.absorption 0 * w.area) :
    rt60Theory rt60Sabine [1] V c (some m) walls < 24 * Real.log 10 / c * V / ((walls.map fun w => w.absorption 0 * w.area).sum + 4 * m 0 * V) := by
  have hl := log10_pos
  rw [C36_air_deviation V c m walls hV hc]
  have hA : 0 ≤ (walls.map fun w => w.absorption 0 * w.area).sum := by
    apply List.sum_nonneg
    intro x hx
    obtain ⟨w, hw, rfl⟩ := List.mem_map.mp hx
    exact hpos w hw
  have hn : (2 : ℝ) ≤ walls.length := by exact_mod_cast hw
  have hp : 0 < 4 * m 0 * V := by positivity
  exact div_lt_div_of_pos_left (by positivity) (by linarith) (by nlinarith)

/-- **C35**, **C36** together: a shoebox room made with the absorption of `inverse_sabine` has this theoretical time. -/
theorem C36_shoebox {l1 l2 l3 T c e : ℝ} {o : Int} (h1 : 0 < l1) (h2 : 0 < l2) (h3 : 0 < l3) (hT : 0 < T) (hc : 0 < c)
    (h : inverseSabine T [l1, l2, l3] c = .ok (e, o)) :
    rt60Theory rt60Sabine [1] (l1 * l2 * l3) c none
      ([l2 * l3, l2 * l3, l1 * l3, l1 * l3, l1 * l2, l1 * l2].map fun area => ⟨area, fun _ => e⟩) = T := by
  rw [C36_sabine _ _ _ (by positivity) hc]
  obtain ⟨-, -, h4⟩ := C35_roundtrip h1 h2 h3 hT hc h
  rw [← h4]
  unfold rt60Sabine
  congr 1
  simp only [List.map_cons, List.map_nil, List.sum_cons, List.sum_nil]
  ring

theorem log_two_sqrt {x : ℝ} (hx : 0 ≤ x) : Real.log x = 2 * Real.log (Real.sqrt x) := by
  rw [Real.log_sqrt hx]; ring

theorem log10_lt : Real.log 10 < 5 / 2 := by
  rw [log_two_sqrt (x := 10) (by norm_num), log_two_sqrt (x := Real.sqrt 10) (by positivity), log_two_sqrt (x := Real.sqrt (Real.sqrt 10)) (by positivity),
    log_two_sqrt (x := Real.sqrt (Real.sqrt (Real.sqrt 10))) (by positivity)]
  have h1 : Real.sqrt 10 < 3.1623 := by rw [Real.sqrt_lt' (by norm_num)]; norm_num
  have h2 : Real.sqrt (Real.sqrt 10) < 1.7783 := by rw [Real.sqrt_lt' (by norm_num)]; exact lt_trans h1 (by norm_num)
  have h3 : Real.sqrt (Real.sqrt (Real.sqrt 10)) < 1.33354 := by rw [Real.sqrt_lt' (by norm_num)]; exact lt_trans h2 (by norm_num)
  have h4 : Real.sqrt (Real.sqrt (Real.sqrt (Real.sqrt 10))) < 1.1549 := by rw [Real.sqrt_lt' (by norm_num)]; exact lt_trans h3 (by norm_num)
  have h5 := Real.log_le_sub_one_of_pos (show 0 < Real.sqrt (Real.sqrt (Real.sqrt (Real.sqrt 10))) by positivity)
  linarith

/-- Non-vacuity: a room of 6 m by 5 m by 4 m, 0.6 s, 343 m/s. -/
example : ∃ e o, inverseSabine 0.6 [6, 5, 4] 343 = .ok (e, o) ∧ 0 < e := by
  have h : ¬inverseSabine 0.6 [6, 5, 4] 343 = .error .valueError := by
    rw [C35_refused (by norm_num) (by norm_num) (by norm_num) (by norm_num) (by norm_num)]
    unfold rt60Sabine
    have := log10_lt
    rw [not_lt, div_le_iff₀ (by norm_num)]
    linarith
  have : ∃ r, inverseSabine 0.6 [6, 5, 4] 343 = .ok r := by
    unfold inverseSabine at h ⊢
    simp only at h ⊢
    split
    · rename_i hh; rw [if_pos hh] at h; exact absurd rfl h
    · exact ⟨_, rfl⟩
  obtain ⟨⟨e, o⟩, hr⟩ := this
  exact ⟨e, o, hr, (C35_roundtrip (by norm_num) (by norm_num) (by norm_num) (by norm_num) (by norm_num) hr).1⟩

/-- Non-vacuity of the deviation of the order: a cube of 4 m, `k = 20`. -/
example : ∃ e o, inverseSabine (Real.sqrt 3 * (20 : Nat) * 4 / 343) [4, 4, 4] 343 = .ok (e, o) := by
  have h : ¬inverseSabine (Real.sqrt 3 * (20 : Nat) * 4 / 343) [4, 4, 4] 343 = .error .valueError := by
    rw [C35_refused (by norm_num) (by norm_num) (by norm_num) (by positivity) (by norm_num)]
    unfold rt60Sabine
    have := log10_lt
    have : (1.7 : ℝ) < Real.sqrt 3 := by rw [Real.lt_sqrt (by norm_num)]; norm_num
    rw [not_lt, div_le_iff₀ (by norm_num)]
    push_cast
    linarith
  unfold inverseSabine at h ⊢
  simp only at h ⊢
  split
  · rename_i hh; rw [if_pos hh] at h; exact absurd rfl h
  · exact ⟨_, _, rfl⟩

end Verif.Reverb
