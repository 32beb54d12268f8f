import Verif.Locate.Model
import Verif.Cloud.Props
import Verif.Sync.Props
import Mathlib.Tactic.LinearCombination
import Mathlib.Tactic.FieldSimp
import Mathlib.Tactic.NormNum
import Mathlib.LinearAlgebra.Matrix.Trace

/-!
# C102: localisation from time differences

Small specification: squared distances, the equation of the squared ranges, solutions of least squares with the smallest norm; the cross-correlation (`Sync.corrAt`); eigenvalues (`Cloud.IsEig`).
-/

namespace Verif.Locate

open Verif.Py Finset

/-- The squared distance. -/
def d2 (p q : Pt) : ℝ := ∑ k, (p k - q k) ^ 2

/-- The distance. -/
noncomputable def dist (p q : Pt) : ℝ := Real.sqrt (d2 p q)

/-- The residual of linear equations. -/
def residual (rows : List (Pt × ℝ)) (x : Pt) : ℝ := (rows.map fun r => (∑ k, r.1 k * x k - r.2) ^ 2).sum

/-- `scipy.linalg.lstsq`: of the points with the smallest residual, the one with the smallest norm. -/
structure IsLstsq (lstsq : List (Pt × ℝ) → Pt) : Prop where
  least : ∀ rows y, residual rows (lstsq rows) ≤ residual rows y
  short : ∀ rows y, (∀ z, residual rows y ≤ residual rows z) → norm2 (lstsq rows) ≤ norm2 y

/-- The point `p` at the distance `u` from the first microphone explains the differences of distance, for all microphones whose distance to the source is not that of the first one. -/
def Explains (s r0 : Pt) (R : List Pt) (p : Pt) (u : ℝ) : Prop :=
  ∀ r ∈ R, dist s r ≠ dist s r0 → d2 p r = d2 p r0 + 2 * u * (dist s r - dist s r0) + (dist s r - dist s r0) ^ 2

theorem d2_nonneg (p q : Pt) : 0 ≤ d2 p q := sum_nonneg fun _ _ => sq_nonneg _

theorem dist_sq (p q : Pt) : dist p q ^ 2 = d2 p q := Real.sq_sqrt (d2_nonneg p q)

theorem explains_self (s r0 : Pt) (R : List Pt) : Explains s r0 R s (dist s r0) := by
  intro r _ _
  rw [← dist_sq, ← dist_sq]
  ring

theorem kept_cons (r0 : Pt) (R : List Pt) (t0 : ℝ) (T : List ℝ) :
    kept (r0 :: R) (t0 :: T) = (r0, 0) :: (R.zip (T.map fun t => t - t0)).filter fun p => open Classical in decide (p.2 ≠ 0) := by
  unfold kept
  simp only [List.headD_cons, List.map_cons, sub_self, List.set_cons_zero, List.zip_cons_cons, List.filterMap_cons, if_true]
  congr 1
  generalize (T.map fun t => t - t0) = T'
  induction R generalizing T' with
  | nil => simp
  | cons r R ih =>
    cases T' with
    | nil => simp
    | cons t T' =>
      simp only [List.map_cons, List.zip_cons_cons, List.filterMap_cons, List.filter_cons]
      rw [ih]
      by_cases h : t = 0 <;> simp [h]

theorem residual_nonneg (rows : List (Pt × ℝ)) (x : Pt) : 0 ≤ residual rows x := by
  unfold residual
  apply List.sum_nonneg
  intro v hv
  obtain ⟨r, _, rfl⟩ := List.mem_map.mp hv
  exact sq_nonneg _

theorem residual_zero (rows : List (Pt × ℝ)) (x : Pt) : residual rows x = 0 ↔ ∀ r ∈ rows, ∑ k, r.1 k * x k = r.2 := by
  induction rows with
  | nil => simp [residual]
  | cons r rows ih =>
    have e : residual (r :: rows) x = (∑ k, r.1 k * x k - r.2) ^ 2 + residual rows x := by simp [residual]
    rw [e]
    have h1 := sq_nonneg (∑ k, r.1 k * x k - r.2)
    have h2 := residual_nonneg rows x
    constructor
    · intro h
      have ha : (∑ k, r.1 k * x k - r.2) ^ 2 = 0 := by linarith
      have hb : residual rows x = 0 := by linarith
      rw [ih] at hb
      intro q hq
      rcases List.mem_cons.mp hq with rfl | hq
      · have := pow_eq_zero_iff (two_ne_zero) |>.mp ha
        linarith
      · exact hb q hq
    · intro h
      rw [ih.mpr fun q hq => h q (List.mem_cons_of_mem _ hq), h r List.mem_cons_self]
      simp

/-- The equation of two microphones holds at a point if both give the same distance to the first one. -/
theorem row_iff {c : ℝ} (hc : c ≠ 0) (r0 r1 r p : Pt) {t1 t : ℝ} (h1 : t1 ≠ 0) (h : t ≠ 0) :
    (∑ k, (row c (r0, 0) (r1, t1) (r, t)).1 k * p k = (row c (r0, 0) (r1, t1) (r, t)).2) ↔
      (d2 p r - d2 p r0 - (c * t) ^ 2) / (2 * (c * t)) = (d2 p r1 - d2 p r0 - (c * t1) ^ 2) / (2 * (c * t1)) := by
  have hct : c * t ≠ 0 := mul_ne_zero hc h
  have hct1 : c * t1 ≠ 0 := mul_ne_zero hc h1
  simp only [row, norm2, d2, Fin.sum_univ_three]
  generalize c * t = δ at *
  generalize c * t1 = ε at *
  rw [div_eq_div_iff (by positivity) (by positivity)]
  constructor
  · intro hh
    field_simp at hh
    linear_combination (-2) * hh
  · intro hh
    field_simp
    linear_combination (-1/2) * hh

/-- **C102, localisation.** The times are the distances to a source, at any speed of sound but zero, from any start; some microphone is not as far from the source as the first one. Then `tdoa_loc` returns
a point which explains all differences of distance that are not zero, and of these points the one with the smallest norm. If only the source explains them, it is found. -/
theorem C102_tdoa_loc {lstsq : List (Pt × ℝ) → Pt} (hl : IsLstsq lstsq) (s r0 : Pt) (R : List Pt) {c : ℝ} (hc : c ≠ 0) (t0 : ℝ) (hR : ∃ r ∈ R, dist s r ≠ dist s r0) :
    ∃ loc, tdoaLoc lstsq (r0 :: R) ((r0 :: R).map fun r => dist s r / c + t0) c = .ok loc ∧ (∃ u, Explains s r0 R loc u) ∧
      (∀ p u, Explains s r0 R p u → norm2 loc ≤ norm2 p) ∧ ((∀ p u, Explains s r0 R p u → p = s) → loc = s) := by
  set K : List (Pt × ℝ) := (R.map fun r => (r, dist s r / c + t0 - (dist s r0 / c + t0))).filter fun p => open Classical in decide (p.2 ≠ 0) with hK
  have hk : kept (r0 :: R) ((r0 :: R).map fun r => dist s r / c + t0) = (r0, 0) :: K := by
    rw [List.map_cons, kept_cons, hK]
    congr 2
    rw [List.map_map]
    clear hK K hR
    induction R with
    | nil => rfl
    | cons r R ih => simp only [List.zip_cons_cons, List.map_cons, ih, Function.comp]
  have hmem : ∀ m : Pt × ℝ, m ∈ K ↔ m.1 ∈ R ∧ dist s m.1 ≠ dist s r0 ∧ c * m.2 = dist s m.1 - dist s r0 := by
    intro m
    rw [hK, List.mem_filter, List.mem_map, decide_eq_true_iff]
    constructor
    · rintro ⟨⟨r, hr, rfl⟩, hne⟩
      have e : c * (dist s r / c + t0 - (dist s r0 / c + t0)) = dist s r - dist s r0 := by field_simp; ring
      refine ⟨hr, ?_, e⟩
      intro h
      apply hne
      simp [h]
    · rintro ⟨h1, h2, h3⟩
      have e : dist s m.1 / c + t0 - (dist s r0 / c + t0) = m.2 := by
        have : c * (dist s m.1 / c + t0 - (dist s r0 / c + t0)) = c * m.2 := by rw [h3]; field_simp; ring
        exact mul_left_cancel₀ hc this
      refine ⟨⟨m.1, h1, by rw [e]⟩, ?_⟩
      intro h
      rw [h, mul_zero] at h3
      exact h2 (by linarith)
  obtain ⟨m1, rm, hcons⟩ : ∃ m1 rm, K = m1 :: rm := by
    obtain ⟨r, hr, hne⟩ := hR
    have : (r, (dist s r - dist s r0) / c) ∈ K := (hmem _).mpr ⟨hr, hne, by field_simp⟩
    cases h : K with
    | nil => rw [h] at this; cases this
    | cons a b => exact ⟨a, b, rfl⟩
  have hrow : ∀ p : Pt, (∀ q ∈ rm.map (row c (r0, 0) m1), ∑ k, q.1 k * p k = q.2) ↔ ∃ u, Explains s r0 R p u := by
    intro p
    have hm1 := (hmem m1).mp (by rw [hcons]; exact List.mem_cons_self)
    have hnz : ∀ m ∈ K, m.2 ≠ 0 := by
      intro m hm h
      have := (hmem m).mp hm
      rw [h, mul_zero] at this
      exact this.2.1 (by linarith [this.2.2])
    have h10 : m1.2 ≠ 0 := hnz m1 (by rw [hcons]; exact List.mem_cons_self)
    constructor
    · intro h
      refine ⟨(d2 p m1.1 - d2 p r0 - (c * m1.2) ^ 2) / (2 * (c * m1.2)), ?_⟩
      intro r hr hne
      set t := (dist s r - dist s r0) / c with ht
      have hct : c * t = dist s r - dist s r0 := by rw [ht]; field_simp
      have hin : (r, t) ∈ K := (hmem _).mpr ⟨hr, hne, hct⟩
      have ht0 : t ≠ 0 := hnz _ hin
      have key : (d2 p r - d2 p r0 - (c * t) ^ 2) / (2 * (c * t)) = (d2 p m1.1 - d2 p r0 - (c * m1.2) ^ 2) / (2 * (c * m1.2)) := by
        rw [hcons] at hin
        rcases List.mem_cons.mp hin with h' | h'
        · rw [← h']
        · exact (row_iff hc r0 m1.1 r p h10 ht0).mp (h _ (List.mem_map.mpr ⟨(r, t), h', rfl⟩))
      rw [← key, hct]
      have : dist s r - dist s r0 ≠ 0 := sub_ne_zero.mpr hne
      field_simp
      ring
    · rintro ⟨u, hu⟩ q hq
      obtain ⟨m, hm, rfl⟩ := List.mem_map.mp hq
      have hmK : m ∈ K := by rw [hcons]; exact List.mem_cons_of_mem _ hm
      have hv : ∀ m ∈ K, (d2 p m.1 - d2 p r0 - (c * m.2) ^ 2) / (2 * (c * m.2)) = u := by
        intro m hm
        obtain ⟨a, b, e⟩ := (hmem m).mp hm
        rw [hu m.1 a b, e]
        have : dist s m.1 - dist s r0 ≠ 0 := sub_ne_zero.mpr b
        field_simp
        ring
      refine (row_iff hc r0 m1.1 m.1 p h10 (hnz m hmK)).mpr ?_
      rw [hv m hmK, hv m1 (by rw [hcons]; exact List.mem_cons_self)]
  refine ⟨lstsq (rm.map (row c (r0, 0) m1)), ?_, ?_, ?_, ?_⟩
  · unfold tdoaLoc
    rw [if_neg (by simp), if_neg (by simp), hk, hcons]
    simp only
    rw [if_neg (fun h => hc h.1)]
  · rw [← hrow, ← residual_zero]
    refine le_antisymm ?_ (residual_nonneg _ _)
    have := hl.least (rm.map (row c (r0, 0) m1)) s
    rwa [(residual_zero _ _).mpr ((hrow s).mpr ⟨_, explains_self s r0 R⟩)] at this
  · intro p u hp
    apply hl.short
    intro z
    rw [(residual_zero _ _).mpr ((hrow p).mpr ⟨_, hp⟩)]
    exact residual_nonneg _ _
  · intro huniq
    have : ∃ u, Explains s r0 R (lstsq (rm.map (row c (r0, 0) m1))) u := by
      rw [← hrow, ← residual_zero]
      refine le_antisymm ?_ (residual_nonneg _ _)
      have := hl.least (rm.map (row c (r0, 0) m1)) s
      rwa [(residual_zero _ _).mpr ((hrow s).mpr ⟨_, explains_self s r0 R⟩)] at this
    obtain ⟨u, hu⟩ := this
    exact huniq _ u hu

/-- **C102, deviation.** If all times are equal there is an `IndexError`, also when the source is well determined (at the centre of a sphere of microphones). -/
theorem C102_equal_times_deviation (lstsq : List (Pt × ℝ) → Pt) (r0 : Pt) (R : List Pt) (t c : ℝ) :
    tdoaLoc lstsq (r0 :: R) ((r0 :: R).map fun _ => t) c = .error .indexError := by
  unfold tdoaLoc
  rw [if_neg (by simp), if_neg (by simp), List.map_cons, kept_cons, List.filter_eq_nil_iff.mpr]
  intro p hp
  have := (List.of_mem_zip (a := p.1) (b := p.2) hp).2
  simp only [List.map_map, List.mem_map] at this
  obtain ⟨_, _, h⟩ := this
  simp only [Function.comp, sub_self] at h
  simp [← h]

/-- **C102, deviation.** Microphones as far from the source as the first one are dropped. A source at (0, 0, 1), found exactly by five microphones if their differences are all used, is placed at the origin. -/
theorem C102_dropped_deviation {lstsq : List (Pt × ℝ) → Pt} (hl : IsLstsq lstsq) {c : ℝ} (hc : c ≠ 0) (t0 : ℝ) :
    let s : Pt := ![0, 0, 1]
    let r0 : Pt := ![0, 0, 0]
    let R : List Pt := [![3/4, 0, 0], ![0, 3/4, 0], ![-3/4, 0, 0], ![0, 0, 2]]
    (∀ p u, (∀ r ∈ R, d2 p r = d2 p r0 + 2 * u * (dist s r - dist s r0) + (dist s r - dist s r0) ^ 2) → p = s) ∧
      tdoaLoc lstsq (r0 :: R) ((r0 :: R).map fun r => dist s r / c + t0) c = .ok r0 := by
  intro s r0 R
  have hd0 : dist s r0 = 1 := by
    unfold dist d2; simp [s, r0, Fin.sum_univ_three]
  have hq : Real.sqrt (25/16) = 5/4 := by
    rw [show (25/16 : ℝ) = (5/4) ^ 2 by norm_num, Real.sqrt_sq (by norm_num)]
  have hd1 : dist s ![3/4, 0, 0] = 5/4 := by
    unfold dist d2; rw [← hq]; congr 1; simp [s, Fin.sum_univ_three]; norm_num
  have hd2 : dist s ![0, 3/4, 0] = 5/4 := by
    unfold dist d2; rw [← hq]; congr 1; simp [s, Fin.sum_univ_three]; norm_num
  have hd3 : dist s ![-3/4, 0, 0] = 5/4 := by
    unfold dist d2; rw [← hq]; congr 1; simp [s, Fin.sum_univ_three]; norm_num
  have hd4 : dist s ![0, 0, 2] = 1 := by
    unfold dist d2; simp [s, Fin.sum_univ_three]; norm_num
  constructor
  · intro p u h
    have h1 := h ![3/4, 0, 0] (by simp [R])
    have h2 := h ![0, 3/4, 0] (by simp [R])
    have h3 := h ![-3/4, 0, 0] (by simp [R])
    have h4 := h ![0, 0, 2] (by simp [R])
    rw [hd0, hd1] at h1
    rw [hd0, hd2] at h2
    rw [hd0, hd3] at h3
    rw [hd0, hd4] at h4
    simp only [d2, Fin.sum_univ_three, r0, Matrix.cons_val_zero, Matrix.cons_val_one, Matrix.cons_val] at h1 h2 h3 h4
    have e0 : p 0 = 0 := by linarith
    have e1 : p 1 = 0 := by linarith
    have e2 : p 2 = 1 := by linarith
    funext k
    fin_cases k
    · simpa [s] using e0
    · simpa [s] using e1
    · simpa [s] using e2
  · obtain ⟨loc, e, -, hs, -⟩ := C102_tdoa_loc hl s r0 R hc t0 ⟨![3/4, 0, 0], by simp [R], by rw [hd0, hd1]; norm_num⟩
    rw [e]
    congr 1
    have hz : norm2 loc ≤ norm2 r0 := by
      refine hs r0 1 ?_
      intro r hr hne
      simp only [R, List.mem_cons, List.not_mem_nil, or_false] at hr
      rcases hr with rfl | rfl | rfl | rfl
      · rw [hd0, hd1]; simp [d2, Fin.sum_univ_three, r0]; norm_num
      · rw [hd0, hd2]; simp [d2, Fin.sum_univ_three, r0]; norm_num
      · rw [hd0, hd3]; simp [d2, Fin.sum_univ_three, r0]; norm_num
      · exact absurd (by rw [hd0, hd4]) hne
    have h0 : norm2 r0 = 0 := by simp [norm2, r0, Fin.sum_univ_three]
    rw [h0] at hz
    funext k
    have : loc k ^ 2 ≤ 0 := le_trans (single_le_sum (f := fun k => loc k ^ 2) (fun _ _ => sq_nonneg _) (mem_univ k)) hz
    have : loc k = 0 := by
      have := le_antisymm this (sq_nonneg _)
      exact pow_eq_zero_iff two_ne_zero |>.mp this
    rw [this]
    fin_cases k <;> simp [r0]

end Verif.Locate
