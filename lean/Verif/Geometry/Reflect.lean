import Verif.Geometry.Model
import Mathlib.LinearAlgebra.Matrix.DotProduct
import Mathlib.Tactic.Linarith
import Mathlib.Tactic.LinearCombination
import Mathlib.Tactic.FieldSimp
import Mathlib.Algebra.Order.Star.Real

/-!
# Reflections on walls: properties C25 and C26
-/

namespace Verif.Geometry

open Matrix

variable {D : Nat}

/-! ## Specification -/

/-- The hyperplane of a wall. -/
def OnPlane (w : Wall D) (p : Vec D) : Prop := w.normal ⬝ᵥ (p - w.origin) = 0

/-- Signed distance from the plane in the direction of the normal. -/
def sdist (w : Wall D) (p : Vec D) : ℝ := w.normal ⬝ᵥ (p - w.origin)

/-- `q` is the mirror image of `p`: the midpoint is on the plane and the difference is normal to the plane. -/
def Mirror (w : Wall D) (p q : Vec D) : Prop :=
  OnPlane w ((1 / 2 : ℝ) • (p + q)) ∧ ∃ t : ℝ, q - p = t • w.normal

/-- Squared distance. -/
def distSq (p q : Vec D) : ℝ := (p - q) ⬝ᵥ (p - q)

/-! ## C25 -/

theorem distSq_nonneg (p q : Vec D) : 0 ≤ distSq p q := by
  unfold distSq dotProduct
  exact Finset.sum_nonneg fun i _ => mul_self_nonneg _

theorem reflect_eq (eps : ℝ) (w : Wall D) (p : Vec D) : (reflect eps w p).2 = p - (2 * sdist w p) • w.normal := by
  unfold reflect sdist
  simp only
  rw [show w.origin - p = -(p - w.origin) by abel, dotProduct_neg, mul_neg, neg_smul, ← sub_eq_add_neg]

theorem sdist_reflect (eps : ℝ) {w : Wall D} (hn : w.normal ⬝ᵥ w.normal = 1) (p : Vec D) :
    sdist w (reflect eps w p).2 = -sdist w p := by
  rw [reflect_eq]
  unfold sdist
  rw [show p - (2 * w.normal ⬝ᵥ (p - w.origin)) • w.normal - w.origin =
    (p - w.origin) - (2 * w.normal ⬝ᵥ (p - w.origin)) • w.normal by abel, dotProduct_sub, dotProduct_smul, hn, smul_eq_mul]
  ring

/-- **C25** The reflected point is the mirror image, and there is no other mirror image. -/
theorem C25_mirror (eps : ℝ) {w : Wall D} (hn : w.normal ⬝ᵥ w.normal = 1) (p q : Vec D) :
    Mirror w p q ↔ q = (reflect eps w p).2 := by
  rw [reflect_eq]
  constructor
  · rintro ⟨h1, t, ht⟩
    have hq : q = p + t • w.normal := by rw [← ht]; abel
    unfold OnPlane at h1
    rw [hq, show (1 / 2 : ℝ) • (p + (p + t • w.normal)) - w.origin = (p - w.origin) + (t / 2) • w.normal by
        ext i; simp; ring, dotProduct_add, dotProduct_smul, hn, smul_eq_mul, mul_one] at h1
    have : t = -(2 * sdist w p) := by unfold sdist; linarith
    rw [hq, this, neg_smul, sub_eq_add_neg]
  · intro hq
    refine ⟨?_, -(2 * sdist w p), by rw [hq, neg_smul]; abel⟩
    unfold OnPlane
    rw [hq, show (1 / 2 : ℝ) • (p + (p - (2 * sdist w p) • w.normal)) - w.origin = (p - w.origin) - (sdist w p) • w.normal by
        ext i; simp; ring, dotProduct_sub, dotProduct_smul, hn, smul_eq_mul, mul_one]
    unfold sdist; ring

/-- **C25** Reflecting twice gives back the point. -/
theorem C25_involution (eps : ℝ) {w : Wall D} (hn : w.normal ⬝ᵥ w.normal = 1) (p : Vec D) :
    (reflect eps w (reflect eps w p).2).2 = p := by
  rw [reflect_eq eps w (reflect eps w p).2, sdist_reflect eps hn, reflect_eq]
  ext i; simp

/-- **C25** Distances are preserved. -/
theorem C25_isometry (eps : ℝ) {w : Wall D} (hn : w.normal ⬝ᵥ w.normal = 1) (p q : Vec D) :
    distSq (reflect eps w p).2 (reflect eps w q).2 = distSq p q := by
  rw [reflect_eq, reflect_eq]
  set c := w.normal ⬝ᵥ (p - q) with hc
  have hd : sdist w p - sdist w q = c := by
    unfold sdist; rw [hc, ← dotProduct_sub]; congr 1; abel
  have : p - (2 * sdist w p) • w.normal - (q - (2 * sdist w q) • w.normal) = (p - q) - (2 * c) • w.normal := by
    rw [← hd]; ext i; simp; ring
  unfold distSq
  rw [this]
  generalize p - q = v at *
  rw [sub_dotProduct, dotProduct_sub, dotProduct_smul, smul_dotProduct, dotProduct_sub, dotProduct_smul, hn,
    dotProduct_comm v w.normal, ← hc]
  simp only [smul_eq_mul]
  ring

/-- **C25** Exactly the points of the plane are fixed. -/
theorem C25_fixed (eps : ℝ) {w : Wall D} (hn : w.normal ⬝ᵥ w.normal = 1) (p : Vec D) :
    (reflect eps w p).2 = p ↔ OnPlane w p := by
  have hs : OnPlane w p ↔ sdist w p = 0 := Iff.rfl
  rw [hs]
  constructor
  · intro h
    have := sdist_reflect eps hn p
    rw [h] at this
    linarith
  · intro h
    rw [reflect_eq, h]; simp

/-- **C25** The two sides are exchanged, and the result code is the side of the reflected point: 1 if the reflected point is in
the direction of the normal by more than the tolerance. -/
theorem C25_sides {eps : ℝ} {w : Wall D} (hn : w.normal ⬝ᵥ w.normal = 1) (p : Vec D) :
    side eps w (reflect eps w p).2 = (reflect eps w p).1 ∧
    (0 ≤ eps → side eps w (reflect eps w p).2 = -side eps w p) ∧
    (0 ≤ eps → ((side eps w p = 1 ↔ eps < sdist w p) ∧ (side eps w p = -1 ↔ sdist w p < -eps) ∧
      (side eps w p = 0 ↔ |sdist w p| ≤ eps))) := by
  have hside : ∀ q : Vec D, side eps w q = if sdist w q > eps then 1 else if sdist w q < -eps then -1 else 0 := by
    intro q
    unfold side sdist
    simp only
    rw [dotProduct_comm]
  have hcode : (reflect eps w p).1 = if -sdist w p > eps then 1 else if -sdist w p < -eps then -1 else 0 := by
    unfold reflect sdist
    simp only
    rw [show w.origin - p = -(p - w.origin) by abel, dotProduct_neg]
  refine ⟨?_, ?_, ?_⟩
  · rw [hside, sdist_reflect eps hn, hcode]
  · intro he
    rw [hside, hside, sdist_reflect eps hn]
    generalize sdist w p = d
    split_ifs <;> first | rfl | (exfalso; linarith)
  · intro he
    rw [hside]
    generalize sdist w p = d
    have habs : |d| ≤ eps ↔ ¬d > eps ∧ ¬d < -eps := by rw [abs_le]; constructor <;> intro h <;> constructor <;> linarith [h.1, h.2]
    rw [habs]
    split_ifs with h1 h2
    · refine ⟨?_, ?_, ?_⟩
      · exact ⟨fun _ => h1, fun _ => rfl⟩
      · exact ⟨fun h => absurd h (by norm_num), fun h => by exfalso; linarith⟩
      · exact ⟨fun h => absurd h (by norm_num), fun h => absurd h1 h.1⟩
    · refine ⟨?_, ?_, ?_⟩
      · exact ⟨fun h => absurd h (by norm_num), fun h => absurd h h1⟩
      · exact ⟨fun _ => h2, fun _ => rfl⟩
      · exact ⟨fun h => absurd h (by norm_num), fun h => absurd h2 h.2⟩
    · refine ⟨?_, ?_, ?_⟩
      · exact ⟨fun h => absurd h (by norm_num), fun h => absurd h h1⟩
      · exact ⟨fun h => absurd h (by norm_num), fun h => absurd h h2⟩
      · exact ⟨fun _ => ⟨h1, h2⟩, fun _ => rfl⟩

theorem norm_sq (v : Vec D) : norm v ^ 2 = v ⬝ᵥ v := by
  unfold norm
  rw [Real.sq_sqrt]
  unfold dotProduct
  exact Finset.sum_nonneg fun i _ => mul_self_nonneg _

theorem dot_self_pos {v : Vec D} (h : v ≠ 0) : 0 < v ⬝ᵥ v := by
  have h0 : 0 ≤ v ⬝ᵥ v := by
    unfold dotProduct
    exact Finset.sum_nonneg fun i _ => mul_self_nonneg _
  rcases h0.lt_or_eq with h1 | h1
  · exact h1
  · exact absurd (dotProduct_self_eq_zero.mp h1.symm) h

theorem norm_pos {v : Vec D} (h : v ≠ 0) : 0 < norm v := Real.sqrt_pos.mpr (dot_self_pos h)

theorem normalized_unit {v : Vec D} (h : v ≠ 0) : normalized v ⬝ᵥ normalized v = 1 := by
  unfold normalized
  rw [if_pos (dot_self_pos h), smul_dotProduct, dotProduct_smul, ← norm_sq]
  have := norm_pos h
  simp only [smul_eq_mul]
  field_simp

theorem normalized_smul {v : Vec D} (h : v ≠ 0) : normalized v = (norm v)⁻¹ • v := by
  unfold normalized
  rw [if_pos (dot_self_pos h)]

/-- **C25** The constructor of a 2-D wall gives a unit normal, both corners are on the plane, and the normal
points to the right of the direction from the first to the second corner. -/
theorem C25_wall2 {c0 c1 : Vec 2} (h : c0 ≠ c1) :
    (wall2 c0 c1).normal ⬝ᵥ (wall2 c0 c1).normal = 1 ∧ OnPlane (wall2 c0 c1) c0 ∧ OnPlane (wall2 c0 c1) c1 ∧
    ∀ p, sdist (wall2 c0 c1) p < 0 ↔ 0 < orient c0 c1 p := by
  have hv : (![c1 1 - c0 1, c0 0 - c1 0] : Vec 2) ≠ 0 := by
    intro hz
    apply h
    have h0 := congrFun hz 0
    have h1 := congrFun hz 1
    simp at h0 h1
    ext i
    fin_cases i
    · simp; linarith
    · simp; linarith
  have hpos := norm_pos hv
  have hsd : ∀ p, sdist (wall2 c0 c1) p = -((norm (![c1 1 - c0 1, c0 0 - c1 0] : Vec 2))⁻¹ * orient c0 c1 p) := by
    intro p
    unfold sdist wall2
    simp only
    rw [normalized_smul hv, smul_dotProduct]
    simp [dotProduct, Fin.sum_univ_two, orient]
    ring
  refine ⟨normalized_unit hv, ?_, ?_, ?_⟩
  · show sdist (wall2 c0 c1) c0 = 0
    rw [hsd]; simp [orient]
  · show sdist (wall2 c0 c1) c1 = 0
    rw [hsd]; simp [orient]
  · intro p
    rw [hsd]
    constructor
    · intro h1
      have : 0 < (norm (![c1 1 - c0 1, c0 0 - c1 0] : Vec 2))⁻¹ * orient c0 c1 p := by linarith
      exact (pos_iff_pos_of_mul_pos this).mp (inv_pos.mpr hpos)
    · intro h1
      have : 0 < (norm (![c1 1 - c0 1, c0 0 - c1 0] : Vec 2))⁻¹ * orient c0 c1 p := mul_pos (inv_pos.mpr hpos) h1
      linarith

/-- Non-vacuity of C25: a wall of the unit square and a point in the square. -/
example : (reflect (1 / 100) (⟨![1, 0], ![1, 0]⟩ : Wall 2) ![1 / 4, 1 / 2]) = (1, ![7 / 4, 1 / 2]) := by
  unfold reflect
  simp [dotProduct, Fin.sum_univ_two]
  norm_num

/-! ## C26 -/

/-- **C26** `normal_reflect(start, hit, length)`: the end point is at the requested distance from the hit point; the
direction has the same component along the wall as the incident direction and the opposite component along
the normal. -/
theorem C26_bounce {w : Wall D} (hn : w.normal ⬝ᵥ w.normal = 1) {start hit : Vec D} (hne : start ≠ hit) (length : ℝ) :
    ∃ dir inc : Vec D, normalReflect w start hit length = hit + length • dir ∧ dir ⬝ᵥ dir = 1 ∧
      hit = start + norm (hit - start) • inc ∧ inc ⬝ᵥ inc = 1 ∧
      dir ⬝ᵥ w.normal = -(inc ⬝ᵥ w.normal) ∧ ∀ t : Vec D, t ⬝ᵥ w.normal = 0 → dir ⬝ᵥ t = inc ⬝ᵥ t := by
  have hv : hit - start ≠ 0 := fun h => hne (sub_eq_zero.mp h).symm
  have hpos := norm_pos hv
  set inc := normalized (hit - start) with hinc
  have hu : inc ⬝ᵥ inc = 1 := normalized_unit hv
  refine ⟨inc - (2 * (inc ⬝ᵥ w.normal)) • w.normal, inc, rfl, ?_, ?_, hu, ?_, ?_⟩
  · rw [sub_dotProduct, dotProduct_sub, dotProduct_sub, smul_dotProduct, dotProduct_smul, smul_dotProduct, dotProduct_smul, hn, hu,
      dotProduct_comm w.normal inc]
    simp only [smul_eq_mul]; ring
  · rw [hinc, normalized_smul hv, smul_smul, mul_inv_cancel₀ (ne_of_gt hpos), one_smul]; abel
  · rw [sub_dotProduct, smul_dotProduct, hn]
    simp only [smul_eq_mul]; ring
  · intro t ht
    rw [sub_dotProduct, smul_dotProduct, dotProduct_comm w.normal t, ht, smul_zero, sub_zero]

/-- **C26** The bounce continues the straight line from the mirror image of the start through the hit point (for a hit point on the
wall). -/
theorem C26_image_line (eps : ℝ) {w : Wall D} (hn : w.normal ⬝ᵥ w.normal = 1) {start hit : Vec D} (hne : start ≠ hit)
    (hw : OnPlane w hit) (length : ℝ) :
    normalReflect w start hit length = hit + (length / norm (hit - start)) • (hit - (reflect eps w start).2) ∧
      distSq hit (reflect eps w start).2 = distSq hit start := by
  have hv : hit - start ≠ 0 := fun h => hne (sub_eq_zero.mp h).symm
  have hpos := norm_pos hv
  have hsd : sdist w start = -(w.normal ⬝ᵥ (hit - start)) := by
    have h1 : w.normal ⬝ᵥ (hit - w.origin) = 0 := hw
    unfold sdist
    rw [show start - w.origin = (hit - w.origin) - (hit - start) by abel, dotProduct_sub, h1, zero_sub]
  constructor
  · unfold normalReflect
    simp only
    rw [normalized_smul hv, reflect_eq, hsd, smul_dotProduct, dotProduct_comm (hit - start) w.normal]
    ext i
    simp
    field_simp
    ring
  · have := C25_isometry eps hn hit start
    rw [(C25_fixed eps hn hit).mpr hw] at this
    exact this

/-- **C26** A ray starting at the hit point itself stays there. -/
theorem C26_degenerate {w : Wall D} (p : Vec D) (length : ℝ) : normalReflect w p p length = p := by
  unfold normalReflect
  simp [normalized]

/-- **C26** The variant on directions keeps the length and flips the normal component. -/
theorem C26_direction {w : Wall D} (hn : w.normal ⬝ᵥ w.normal = 1) (v : Vec D) :
    normalReflectDir w v ⬝ᵥ normalReflectDir w v = v ⬝ᵥ v ∧ normalReflectDir w v ⬝ᵥ w.normal = -(v ⬝ᵥ w.normal) ∧
    (∀ t : Vec D, t ⬝ᵥ w.normal = 0 → normalReflectDir w v ⬝ᵥ t = v ⬝ᵥ t) ∧ normalReflectDir w (normalReflectDir w v) = v := by
  have h1 : normalReflectDir w v ⬝ᵥ w.normal = -(v ⬝ᵥ w.normal) := by
    unfold normalReflectDir
    rw [sub_dotProduct, smul_dotProduct, hn]
    simp only [smul_eq_mul]; ring
  refine ⟨?_, h1, ?_, ?_⟩
  · unfold normalReflectDir
    rw [sub_dotProduct, dotProduct_sub, dotProduct_sub, smul_dotProduct, dotProduct_smul, smul_dotProduct, dotProduct_smul, hn,
      dotProduct_comm w.normal v]
    simp only [smul_eq_mul]; ring
  · intro t ht
    unfold normalReflectDir
    rw [sub_dotProduct, smul_dotProduct, dotProduct_comm w.normal t, ht, smul_zero, sub_zero]
  · have : normalReflectDir w (normalReflectDir w v) = normalReflectDir w v - (2 * (normalReflectDir w v ⬝ᵥ w.normal)) • w.normal := rfl
    rw [this, h1]
    unfold normalReflectDir
    ext i; simp

/-- Non-vacuity of C26. -/
example : normalReflect (⟨![1, 0], ![1, 0]⟩ : Wall 2) ![0, 0] ![1, 0] 3 = ![-2, 0] := by
  unfold normalReflect normalized norm
  ext i
  fin_cases i <;> simp [dotProduct, Fin.sum_univ_two] <;> norm_num

end Verif.Geometry
