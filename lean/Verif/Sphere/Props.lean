import Verif.Sphere.Voronoi
import Mathlib.Data.Fin.Tuple.Sort
import Mathlib.Algebra.BigOperators.Field
import Mathlib.Tactic.Module
import Mathlib.LinearAlgebra.CrossProduct

/-!
# C87: areas of cells on the sphere, spherical histograms
-/

namespace Verif.Sphere

open Verif.Py Matrix Set

variable {n : Nat}

/-! ## Specification of the routines that are arguments -/

/-- Right singular vectors and singular values: orthonormal rows, values in decreasing order, and `XᵀX v = s² v`. -/
structure IsSvd (data : Fin n → Fin 3 → ℝ) (r : Svd) : Prop where
  axes : Axes (r.v 0) (r.v 1) (r.v 2)
  order : r.s 1 ≤ r.s 0 ∧ r.s 2 ≤ r.s 1 ∧ 0 ≤ r.s 2
  eig : ∀ i, ∑ k, (data k ⬝ᵥ r.v i) • data k = r.s i ^ 2 • r.v i

/-- `argsort` puts the values in increasing order. -/
def Sorts (argsort : (Fin n → ℝ) → Equiv.Perm (Fin n)) : Prop := ∀ x, Monotone (x ∘ argsort x)

/-- The points are on the unit circle around the axis `ν`. -/
structure GreatCircle (p : Fin n → Fin 3 → ℝ) (ν : Fin 3 → ℝ) : Prop where
  unit : ∀ k, p k ⬝ᵥ p k = 1
  normal : ν ⬝ᵥ ν = 1
  flat : ∀ k, p k ⬝ᵥ ν = 0

/-- No open half of the circle has all points. -/
def Spread (p : Fin n → Fin 3 → ℝ) (ν : Fin 3 → ℝ) : Prop := ∀ u : Fin 3 → ℝ, u ⬝ᵥ ν = 0 → u ≠ 0 → ∃ k, u ⬝ᵥ p k ≤ 0

/-! ## From the program to angles -/

theorem normalise_unit {p : Fin n → Fin 3 → ℝ} (hu : ∀ k, p k ⬝ᵥ p k = 1) : normalise p = p := by
  funext i c
  unfold normalise
  have : ∑ e, p i e ^ 2 = 1 := by
    rw [← hu i]
    unfold dotProduct
    exact Finset.sum_congr rfl fun e _ => by ring
  rw [this, Real.sqrt_one, div_one]

theorem clip_cos (x : ℝ) : clip (Real.cos x) = Real.cos x := by
  unfold clip
  rw [min_eq_left (Real.cos_le_one x), max_eq_right (Real.neg_one_le_cos x)]

theorem arctan2_mem (y x : ℝ) : arctan2 y x ∈ Ioc (-Real.pi) Real.pi := ⟨Complex.neg_pi_lt_arg _, Complex.arg_le_pi _⟩

theorem arctan2_cos {x y : ℝ} (h : x ^ 2 + y ^ 2 = 1) : Real.cos (arctan2 y x) = x ∧ Real.sin (arctan2 y x) = y := by
  have hn : ‖(⟨x, y⟩ : ℂ)‖ = 1 := by
    have : ‖(⟨x, y⟩ : ℂ)‖ ^ 2 = 1 := by
      rw [Complex.sq_norm, Complex.normSq_mk]
      linarith
    nlinarith [norm_nonneg (⟨x, y⟩ : ℂ)]
  unfold arctan2
  have h1 := Complex.norm_mul_cos_arg (⟨x, y⟩ : ℂ)
  have h2 := Complex.norm_mul_sin_arg (⟨x, y⟩ : ℂ)
  rw [hn, one_mul] at h1 h2
  exact ⟨h1, h2⟩

/-- Angles of points on a great circle. -/
theorem onCircle_of_axes {p : Fin n → Fin 3 → ℝ} {a b ν : Fin 3 → ℝ} (hg : GreatCircle p ν) (ax : Axes a b ν) : OnCircle p a b ν fun k => arctan2 (p k ⬝ᵥ b) (p k ⬝ᵥ a) := by
  refine ⟨ax, fun k => ?_⟩
  have h := ax.expand (p k)
  rw [hg.flat k, zero_smul, add_zero] at h
  have hq : (p k ⬝ᵥ a) ^ 2 + (p k ⬝ᵥ b) ^ 2 = 1 := by
    have := hg.unit k
    rw [h] at this
    simp only [add_dotProduct, smul_dotProduct, dotProduct_add, dotProduct_smul, smul_eq_mul, ax.ee, ax.ff, ax.ef, dotProduct_comm b a] at this
    nlinarith
  obtain ⟨h1, h2⟩ := arctan2_cos hq
  rw [h1, h2]
  exact h

theorem dot_onCircle [NeZero n] {p : Fin n → Fin 3 → ℝ} {a b ν : Fin 3 → ℝ} {θ : Fin n → ℝ} (hc : OnCircle p a b ν θ) (j k : Fin n) : p j ⬝ᵥ p k = Real.cos (θ j - θ k) := by
  rw [hc.eq j, hc.eq k]
  simp only [add_dotProduct, smul_dotProduct, dotProduct_add, dotProduct_smul, smul_eq_mul, hc.axes.ee, hc.axes.ff, hc.axes.ef, dotProduct_comm b a]
  rw [Real.cos_sub]
  ring

theorem svd_axes {p : Fin n → Fin 3 → ℝ} {ν : Fin 3 → ℝ} (hg : GreatCircle p ν) {r : Svd} (hr : IsSvd p r) (h1 : (1e-6 : ℝ) ≤ r.s 1) : Axes (r.v 0) (r.v 1) ν := by
  have key : ∀ i, 0 < r.s i → r.v i ⬝ᵥ ν = 0 := by
    intro i hi
    have h := congrArg (fun x => x ⬝ᵥ ν) (hr.eig i)
    simp only [sum_dotProduct, smul_dotProduct, smul_eq_mul, hg.flat, mul_zero, Finset.sum_const_zero] at h
    rcases mul_eq_zero.1 h.symm with h2 | h2
    · exact absurd h2 (by positivity)
    · exact h2
  have hp : (0 : ℝ) < r.s 1 := lt_of_lt_of_le (by norm_num) h1
  exact ⟨hr.axes.ee, hr.axes.ff, hg.normal, hr.axes.ef, key 0 (lt_of_lt_of_le hp hr.order.1), key 1 hp⟩

theorem ofNat_succ [NeZero n] (i : Fin n) : Fin.ofNat n (i + 1) = finRotate n i := by
  obtain ⟨N, rfl⟩ := Nat.exists_eq_succ_of_ne_zero (NeZero.ne n)
  rw [finRotate_apply]
  apply Fin.ext
  simp [Fin.ofNat, Fin.val_add]

theorem ofNat_val [NeZero n] (i : Fin n) : Fin.ofNat n (i : Nat) = i := by
  apply Fin.ext
  simp [Fin.ofNat, Nat.mod_eq_of_lt i.2]

theorem cos_gap [NeZero n] {θ : Fin n → ℝ} {σ : Equiv.Perm (Fin n)} (m : Nat) :
    Real.cos (gap θ σ m) = Real.cos (θ (σ (Fin.ofNat n (m + 1))) - θ (σ (Fin.ofNat n m))) := by
  unfold gap
  rw [cos_turn, ← Real.cos_neg, neg_sub, cos_turn, ← Real.cos_neg, neg_sub]

theorem gap_add [NeZero n] {θ : Fin n → ℝ} {σ : Equiv.Perm (Fin n)} (m : Nat) : gap θ σ (m + n) = gap θ σ m := by
  unfold gap
  rw [show m + n + 1 = m + 1 + n by omega, turn_add, turn_add]
  ring

theorem gap_mod [NeZero n] {θ : Fin n → ℝ} {σ : Equiv.Perm (Fin n)} (m : Nat) : gap θ σ (m % n) = gap θ σ m := by
  have h : ∀ q, gap θ σ (m % n + n * q) = gap θ σ (m % n) := by
    intro q
    induction q with
    | zero => simp
    | succ q ih => rw [Nat.mul_succ, ← Nat.add_assoc, gap_add, ih]
  have := h (m / n)
  rw [Nat.mod_add_div] at this
  exact this.symm

theorem deltas_eq [NeZero n] (θ : Fin n → ℝ) (σ : Equiv.Perm (Fin n)) (i : Fin n) :
    deltas (fun k => ![Real.cos (θ k), Real.sin (θ k)]) σ (finRotate n i) = Real.arccos (Real.cos (gap θ σ i)) := by
  unfold deltas roll
  simp only [Equiv.symm_apply_apply, Fin.sum_univ_two, Matrix.cons_val_zero, Matrix.cons_val_one]
  rw [← Real.cos_sub, clip_cos, cos_gap, ofNat_succ, ofNat_val]

theorem arccos_cos_le {x : ℝ} (h : 0 ≤ x) : Real.arccos (Real.cos x) ≤ x := by
  by_cases hx : x ≤ Real.pi
  · rw [Real.arccos_cos h hx]
  · exact (Real.arccos_le_pi _).trans (not_le.1 hx).le

/-- What the planar part computes, in terms of the gaps. -/
theorem planar_eq [NeZero n] {θ : Fin n → ℝ} {argsort : (Fin n → ℝ) → Equiv.Perm (Fin n)} {xy : Fin n → Fin 2 → ℝ}
    (hxy : xy = fun k => ![Real.cos (θ k), Real.sin (θ k)]) (hθ : (fun k => arctan2 (xy k 1) (xy k 0)) = θ) (hs : Sorts argsort) :
    (∀ a, planar xy argsort = .ok a → (∀ i : Fin n, a (argsort θ (finRotate n i)) = Real.arccos (Real.cos (gap θ (argsort θ) i)) + Real.arccos (Real.cos (gap θ (argsort θ) (i + 1)))) ∧
      ∀ m, 0 < gap θ (argsort θ) m) ∧
    (∀ e, planar xy argsort = .error e → ∃ i : Fin n, Real.arccos (Real.cos (gap θ (argsort θ) i)) < 1e-6) := by
  have hθm : ∀ k, θ k ∈ Ioc (-Real.pi) Real.pi := by
    intro k
    rw [← hθ]
    exact arctan2_mem _ _
  unfold planar
  simp only [hθ]
  rw [hxy]
  have hn : 0 < n := Nat.pos_of_ne_zero (NeZero.ne n)
  constructor
  · intro a ha
    split at ha
    · cases ha
    · rename_i hne
      push Not at hne
      injection ha with ha
      refine ⟨fun i => ?_, fun m => ?_⟩
      · rw [← ha]
        simp only [Equiv.symm_apply_apply, rollBack]
        rw [deltas_eq, deltas_eq]
        have e : gap θ (argsort θ) ((finRotate n i : Fin n) : Nat) = gap θ (argsort θ) (i + 1) := by
          rw [← ofNat_succ]
          simp only [Fin.ofNat]
          exact gap_mod _
        rw [e]
        ring
      · have h := hne (finRotate n (Fin.ofNat n m))
        rw [deltas_eq] at h
        simp only [Fin.ofNat] at h
        rw [gap_mod] at h
        refine lt_of_le_of_ne (gap_nonneg hθm (hs θ) m) fun h0 => ?_
        rw [← h0] at h
        simp only [Real.cos_zero, Real.arccos_one] at h
        norm_num at h
  · intro e he
    split at he
    · rename_i hex
      obtain ⟨i, hi⟩ := hex
      refine ⟨(finRotate n).symm i, ?_⟩
      rw [← deltas_eq, Equiv.apply_symm_apply]
      exact hi
    · cases he

theorem spread_angles [NeZero n] {p : Fin n → Fin 3 → ℝ} {a b ν : Fin 3 → ℝ} {θ : Fin n → ℝ} (hc : OnCircle p a b ν θ) (hs : Spread p ν) (α : ℝ) :
    ∃ k, Real.cos (θ k - α) ≤ 0 := by
  have hu : ∀ x, (Real.cos α • a + Real.sin α • b) ⬝ᵥ (Real.cos x • a + Real.sin x • b) = Real.cos (x - α) := by
    intro x
    simp only [add_dotProduct, smul_dotProduct, dotProduct_add, dotProduct_smul, smul_eq_mul, hc.axes.ee, hc.axes.ff, hc.axes.ef, dotProduct_comm b a]
    rw [Real.cos_sub]
    ring
  obtain ⟨k, hk⟩ := hs (Real.cos α • a + Real.sin α • b) (by
    simp only [add_dotProduct, smul_dotProduct, smul_eq_mul, hc.axes.en, hc.axes.fn]
    ring) (by
    intro h0
    have := hu α
    rw [h0, zero_dotProduct, sub_self, Real.cos_zero] at this
    norm_num at this)
  refine ⟨k, ?_⟩
  rw [hc.eq k, hu] at hk
  exact hk

/-- The projected points and their angles. -/
theorem degenerate_eq {p : Fin n → Fin 3 → ℝ} {ν : Fin 3 → ℝ} (hg : GreatCircle p ν) {svd : (Fin n → Fin 3 → ℝ) → Svd} (hr : IsSvd p (svd p))
    (argsort : (Fin n → ℝ) → Equiv.Perm (Fin n)) (h1 : (1e-6 : ℝ) ≤ (svd p).s 1) :
    ∃ θ : Fin n → ℝ, OnCircle p ((svd p).v 0) ((svd p).v 1) ν θ ∧ (∀ k, θ k ∈ Ioc (-Real.pi) Real.pi) ∧
      ∃ xy : Fin n → Fin 2 → ℝ, (xy = fun k => ![Real.cos (θ k), Real.sin (θ k)]) ∧ (fun k => arctan2 (xy k 1) (xy k 0)) = θ ∧ degenerate p svd argsort = planar xy argsort := by
  have ax := svd_axes hg hr h1
  have hc := onCircle_of_axes hg ax
  refine ⟨_, hc, fun k => arctan2_mem _ _, fun k => ![p k ⬝ᵥ (svd p).v 0, p k ⬝ᵥ (svd p).v 1], ?_, rfl, ?_⟩
  · funext k
    have hq : (p k ⬝ᵥ (svd p).v 0) ^ 2 + (p k ⬝ᵥ (svd p).v 1) ^ 2 = 1 := by
      have := hg.unit k
      rw [ax.expand (p k), hg.flat k] at this
      simp only [add_dotProduct, smul_dotProduct, dotProduct_add, dotProduct_smul, smul_eq_mul, ax.ee, ax.ff, ax.ef, dotProduct_comm ((svd p).v 1) ((svd p).v 0), zero_smul, zero_dotProduct, dotProduct_zero] at this
      nlinarith
    obtain ⟨e1, e2⟩ := arctan2_cos hq
    rw [e1, e2]
  · unfold degenerate
    simp only [normalise_unit hg.unit]
    rw [if_neg (not_lt.2 h1)]
    congr 1
    funext k c
    fin_cases c <;> rfl

theorem robust_many {p : Fin n → Fin 3 → ℝ} (h4 : 4 ≤ n) (voronoi : Option (Fin n → ℝ)) (svd : (Fin n → Fin 3 → ℝ) → Svd) (argsort : (Fin n → ℝ) → Equiv.Perm (Fin n)) :
    robustAreas voronoi svd argsort p = match voronoi with
      | some a => .ok a
      | none => degenerate p svd argsort := by
  unfold robustAreas
  rw [dif_pos rfl, if_neg (by omega), if_neg (by omega)]
  simp only
  rw [if_neg (by omega)]
  rfl

/-! ## Points on a great circle -/

/-- **C87** (points on a great circle). When the points are on a great circle, not all of them on an open half of it, the areas computed are
those of the cells, and their sum is the area of the sphere. -/
theorem C87_circle (h4 : 4 ≤ n) {p : Fin n → Fin 3 → ℝ} {ν : Fin 3 → ℝ} (hg : GreatCircle p ν) (hspread : Spread p ν) {svd : (Fin n → Fin 3 → ℝ) → Svd} (hr : IsSvd p (svd p))
    {argsort : (Fin n → ℝ) → Equiv.Perm (Fin n)} (hs : Sorts argsort) {a : Fin n → ℝ} (ha : robustAreas none svd argsort p = .ok a) :
    (∀ j f, Axes (p j) f ν → a j = cellArea p f ν j) ∧ ∑ j, a j = 4 * Real.pi := by
  have : NeZero n := ⟨by omega⟩
  rw [robust_many h4] at ha
  simp only at ha
  have h1 : (1e-6 : ℝ) ≤ (svd p).s 1 := by
    by_contra hlt
    unfold degenerate at ha
    simp only [normalise_unit hg.unit] at ha
    rw [if_pos (not_le.1 hlt)] at ha
    cases ha
  obtain ⟨θ, hc, hθ, xy, hxy, hθe, hd⟩ := degenerate_eq hg hr argsort h1
  rw [hd] at ha
  obtain ⟨hval, hpos⟩ := (planar_eq hxy hθe hs).1 a ha
  have hle := gap_le_pi hθ (hs θ) (spread_angles hc hspread)
  have hval' : ∀ i : Fin n, a (argsort θ (finRotate n i)) = gap θ (argsort θ) i + gap θ (argsort θ) (i + 1) := by
    intro i
    rw [hval i, Real.arccos_cos (hpos _).le (hle _), Real.arccos_cos (hpos _).le (hle _)]
  constructor
  · intro j f ax
    obtain ⟨i, rfl⟩ : ∃ i, argsort θ (finRotate n i) = j := ⟨(finRotate n).symm ((argsort θ).symm j), by simp⟩
    rw [hval' i]
    rw [← ofNat_succ] at ax ⊢
    exact (cellArea_circle (by omega) hc hθ (hs θ) i (hpos _) (hpos _) ax).symm
  · have e1 : ∑ j, a j = ∑ i : Fin n, a (argsort θ (finRotate n i)) := by
      rw [← Equiv.sum_comp ((finRotate n).trans (argsort θ))]
      rfl
    have e2 : ∑ i : Fin n, gap θ (argsort θ) ((i : Nat) + 1) = ∑ i : Fin n, gap θ (argsort θ) i := by
      rw [← Equiv.sum_comp (finRotate n) (fun i : Fin n => gap θ (argsort θ) i)]
      refine Finset.sum_congr rfl fun i _ => ?_
      rw [← ofNat_succ]
      simp only [Fin.ofNat]
      exact (gap_mod _).symm
    rw [e1, Finset.sum_congr rfl fun i _ => hval' i, Finset.sum_add_distrib, e2, ← Finset.sum_range (fun m => gap θ (argsort θ) m), sum_gap]
    ring

/-- **C87** (errors). For points on a great circle an error means that two points are closer than `1e-6`, or that the second singular value
is below `1e-6`. -/
theorem C87_circle_error (h4 : 4 ≤ n) {p : Fin n → Fin 3 → ℝ} {ν : Fin 3 → ℝ} (hg : GreatCircle p ν) {svd : (Fin n → Fin 3 → ℝ) → Svd} (hr : IsSvd p (svd p))
    {argsort : (Fin n → ℝ) → Equiv.Perm (Fin n)} (hs : Sorts argsort) {e : Err} (he : robustAreas none svd argsort p = .error e) :
    e = .valueError ∧ ((svd p).s 1 < 1e-6 ∨ ∃ j k, j ≠ k ∧ Real.arccos (p j ⬝ᵥ p k) < 1e-6) := by
  have : NeZero n := ⟨by omega⟩
  rw [robust_many h4] at he
  simp only at he
  by_cases h1 : (1e-6 : ℝ) ≤ (svd p).s 1
  · obtain ⟨θ, hc, hθ, xy, hxy, hθe, hd⟩ := degenerate_eq hg hr argsort h1
    rw [hd] at he
    constructor
    · unfold planar at he
      simp only at he
      split at he
      · injection he with he
        exact he.symm
      · cases he
    · right
      obtain ⟨i, hi⟩ := (planar_eq hxy hθe hs).2 e he
      refine ⟨argsort θ (finRotate n i), argsort θ i, fun h => ?_, ?_⟩
      · have h2 := (argsort θ).injective h
        rw [← ofNat_succ] at h2
        have h3 := congrArg Fin.val h2
        simp only [Fin.ofNat] at h3
        have := i.2
        by_cases hi : (i : Nat) + 1 < n
        · rw [Nat.mod_eq_of_lt hi] at h3
          omega
        · have : (i : Nat) + 1 = n := by omega
          rw [this, Nat.mod_self] at h3
          omega
      · rw [dot_onCircle hc]
        rw [cos_gap, ofNat_succ, ofNat_val] at hi
        exact hi
  · unfold degenerate at he
    simp only [normalise_unit hg.unit] at he
    rw [if_pos (not_le.1 h1)] at he
    injection he with he
    exact ⟨he.symm, Or.inl (not_le.1 h1)⟩

/-- **C87** (deviation). When all points are on an open half of the great circle the areas add up to less than the area of the sphere. -/
theorem C87_half_deviation (h4 : 4 ≤ n) {p : Fin n → Fin 3 → ℝ} {ν : Fin 3 → ℝ} (hg : GreatCircle p ν) {u : Fin 3 → ℝ} (hu : ∀ k, 0 < u ⬝ᵥ p k)
    {svd : (Fin n → Fin 3 → ℝ) → Svd} (hr : IsSvd p (svd p)) {argsort : (Fin n → ℝ) → Equiv.Perm (Fin n)} (hs : Sorts argsort) {a : Fin n → ℝ}
    (ha : robustAreas none svd argsort p = .ok a) : ∑ j, a j < 4 * Real.pi := by
  have : NeZero n := ⟨by omega⟩
  rw [robust_many h4] at ha
  simp only at ha
  have h1 : (1e-6 : ℝ) ≤ (svd p).s 1 := by
    by_contra hlt
    unfold degenerate at ha
    simp only [normalise_unit hg.unit] at ha
    rw [if_pos (not_le.1 hlt)] at ha
    cases ha
  obtain ⟨θ, hc, hθ, xy, hxy, hθe, hd⟩ := degenerate_eq hg hr argsort h1
  rw [hd] at ha
  obtain ⟨hval, hpos⟩ := (planar_eq hxy hθe hs).1 a ha
  have hex : ∃ m < n, Real.pi < gap θ (argsort θ) m := by
    set ua := u ⬝ᵥ (svd p).v 0
    set ub := u ⬝ᵥ (svd p).v 1
    have hα := Complex.norm_mul_cos_arg (⟨ua, ub⟩ : ℂ)
    have hβ := Complex.norm_mul_sin_arg (⟨ua, ub⟩ : ℂ)
    refine gap_big (α := Complex.arg ⟨ua, ub⟩) fun k => ?_
    have h := hu k
    rw [hc.eq k] at h
    simp only [dotProduct_add, dotProduct_smul, smul_eq_mul] at h
    change 0 < Real.cos (θ k) * ua + Real.sin (θ k) * ub at h
    simp only at hα hβ
    have e : ‖(⟨ua, ub⟩ : ℂ)‖ * Real.cos (θ k - Complex.arg ⟨ua, ub⟩) = Real.cos (θ k) * ua + Real.sin (θ k) * ub := by
      rw [Real.cos_sub]
      linear_combination Real.cos (θ k) * hα + Real.sin (θ k) * hβ
    rw [← e] at h
    exact pos_of_mul_pos_right h (norm_nonneg _)
  obtain ⟨m, hm, hmg⟩ := hex
  have e1 : ∑ j, a j = ∑ i : Fin n, a (argsort θ (finRotate n i)) := by
    rw [← Equiv.sum_comp ((finRotate n).trans (argsort θ))]
    rfl
  have e2 : ∑ i : Fin n, Real.arccos (Real.cos (gap θ (argsort θ) ((i : Nat) + 1))) = ∑ i : Fin n, Real.arccos (Real.cos (gap θ (argsort θ) i)) := by
    rw [← Equiv.sum_comp (finRotate n) (fun i : Fin n => Real.arccos (Real.cos (gap θ (argsort θ) i)))]
    refine Finset.sum_congr rfl fun i _ => ?_
    rw [← ofNat_succ]
    simp only [Fin.ofNat]
    rw [gap_mod]
  have e3 : ∑ i : Fin n, Real.arccos (Real.cos (gap θ (argsort θ) i)) < ∑ i : Fin n, gap θ (argsort θ) i := by
    refine Finset.sum_lt_sum (fun i _ => arccos_cos_le (hpos _).le) ⟨⟨m, hm⟩, Finset.mem_univ _, ?_⟩
    exact lt_of_le_of_lt (Real.arccos_le_pi _) hmg
  rw [← Finset.sum_range (fun m => gap θ (argsort θ) m), sum_gap] at e3
  rw [e1, Finset.sum_congr rfl fun i _ => hval i, Finset.sum_add_distrib, e2]
  linarith

/-! ## Few points -/

theorem exists_axes {e ν : Fin 3 → ℝ} (he : e ⬝ᵥ e = 1) (hν : ν ⬝ᵥ ν = 1) (h : e ⬝ᵥ ν = 0) : ∃ f, Axes e f ν := by
  refine ⟨crossProduct ν e, he, ?_, hν, ?_, h, ?_⟩
  · rw [cross_dot_cross, he, hν, h, dotProduct_comm, h]
    norm_num
  · exact dot_cross_self _ _
  · rw [dotProduct_comm]
    exact dot_self_cross _ _

theorem gaps_pos [NeZero n] {θ : Fin n → ℝ} (hθ : ∀ k, θ k ∈ Ioc (-Real.pi) Real.pi) (hinj : Function.Injective θ) {σ : Equiv.Perm (Fin n)} (hσ : Monotone (θ ∘ σ)) (m : Nat) :
    0 < gap θ σ m := by
  unfold gap
  rw [sub_pos]
  by_cases h : (m + 1) % n = 0
  · exact turn_wrap_lt hθ h
  · refine lt_of_le_of_ne (turn_succ_le hθ hσ m) fun he => ?_
    unfold turn at he
    have hq : (m + 1) / n = m / n := by
      rw [Nat.succ_div, if_neg (fun hd => h (Nat.mod_eq_zero_of_dvd hd))]
      simp
    rw [hq] at he
    have h3 := congrArg Fin.val (σ.injective (hinj (add_right_cancel he)))
    simp only [Fin.ofNat] at h3
    have h1 := Nat.mod_add_div m n
    have h2 := Nat.mod_add_div (m + 1) n
    rw [hq] at h2
    omega

theorem angles_injective [NeZero n] {p : Fin n → Fin 3 → ℝ} {a b ν : Fin 3 → ℝ} {θ : Fin n → ℝ} (hc : OnCircle p a b ν θ) (hp : Function.Injective p) : Function.Injective θ := by
  intro j k h
  apply hp
  rw [hc.eq j, hc.eq k, h]

theorem whole_area {p : Fin 1 → Fin 3 → ℝ} {f ν : Fin 3 → ℝ} : cellArea p f ν 0 = 4 * Real.pi := by
  have hp := Real.pi_pos
  have : cell p f ν 0 = Ioc (-Real.pi) Real.pi ×ˢ Ioo (-1 : ℝ) 1 := by
    ext ⟨t, z⟩
    simp only [cell, mem_ofPred_eq, mem_prod]
    constructor
    · rintro ⟨h1, h2, _⟩
      exact ⟨h1, h2⟩
    · rintro ⟨h1, h2⟩
      refine ⟨h1, h2, fun k => ?_⟩
      rw [Subsingleton.elim k 0]
  unfold cellArea
  rw [this, MeasureTheory.Measure.volume_eq_prod, MeasureTheory.Measure.prod_prod, Real.volume_Ioc, Real.volume_Ioo, ENNReal.toReal_mul, ENNReal.toReal_ofReal (by linarith),
    ENNReal.toReal_ofReal (by norm_num)]
  ring

/-- **C87** (one or two points). One point has the area of the sphere, and each of two points has half of it: these are the areas of the cells. -/
theorem C87_few (voronoi1 : Option (Fin 1 → ℝ)) (svd1 : (Fin 1 → Fin 3 → ℝ) → Svd) (argsort1 : (Fin 1 → ℝ) → Equiv.Perm (Fin 1)) (voronoi2 : Option (Fin 2 → ℝ))
    (svd2 : (Fin 2 → Fin 3 → ℝ) → Svd) (argsort2 : (Fin 2 → ℝ) → Equiv.Perm (Fin 2)) (p : Fin 1 → Fin 3 → ℝ) {q : Fin 2 → Fin 3 → ℝ} {ν : Fin 3 → ℝ} (hq : GreatCircle q ν) (hne : q 0 ≠ q 1) :
    (∃ a, robustAreas voronoi1 svd1 argsort1 p = .ok a ∧ (∀ f ν', a 0 = cellArea p f ν' 0) ∧ ∑ j, a j = 4 * Real.pi) ∧
    ∃ a, robustAreas voronoi2 svd2 argsort2 q = .ok a ∧ (∀ j f, Axes (q j) f ν → a j = cellArea q f ν j) ∧ ∑ j, a j = 4 * Real.pi := by
  constructor
  · refine ⟨_, rfl, fun f ν' => whole_area.symm, ?_⟩
    simp
  · refine ⟨_, rfl, fun j f ax => ?_, ?_⟩
    · have hc := onCircle_of_axes hq ax
      have hinj : Function.Injective q := by
        intro x y h
        fin_cases x <;> fin_cases y
        · rfl
        · exact absurd h hne
        · exact absurd h.symm hne
        · rfl
      set θ : Fin 2 → ℝ := fun k => arctan2 (q k ⬝ᵥ f) (q k ⬝ᵥ q j)
      have hθ : ∀ k, θ k ∈ Ioc (-Real.pi) Real.pi := fun k => arctan2_mem _ _
      have hσ : Monotone (θ ∘ Tuple.sort θ) := Tuple.monotone_sort θ
      have hpos := gaps_pos hθ (angles_injective hc hinj) hσ
      obtain ⟨i, hi⟩ : ∃ i, Tuple.sort θ (finRotate 2 i) = j := ⟨(finRotate 2).symm ((Tuple.sort θ).symm j), by simp⟩
      have hs := sum_gap (θ := θ) (σ := Tuple.sort θ)
      rw [Finset.sum_range_succ, Finset.sum_range_one] at hs
      have hcell : cellArea q f ν j = gap θ (Tuple.sort θ) i + gap θ (Tuple.sort θ) (i + 1) := by
        have e : Tuple.sort θ (Fin.ofNat 2 ((i : Nat) + 1)) = j := by rw [ofNat_succ, hi]
        have h := cellArea_circle (f := f) le_rfl hc hθ hσ i (hpos _) (hpos _) (by rw [e]; exact ax)
        rw [e] at h
        exact h
      rw [hcell]
      have h0 := gap_add (n := 2) (θ := θ) (σ := Tuple.sort θ) 0
      rw [zero_add] at h0
      fin_cases i
      · change 1 * 2 * Real.pi = gap θ (Tuple.sort θ) 0 + gap θ (Tuple.sort θ) 1
        linarith
      · change 1 * 2 * Real.pi = gap θ (Tuple.sort θ) 1 + gap θ (Tuple.sort θ) 2
        linarith
    · rw [Fin.sum_univ_two]
      ring

theorem angleSums_eq {p : Fin n → Fin 3 → ℝ} [NeZero n] {a b ν : Fin 3 → ℝ} {θ : Fin n → ℝ} (hg : GreatCircle p ν) (hc : OnCircle p a b ν θ) (j : Fin n) :
    angleSums p j = ∑ k, Real.arccos (Real.cos (θ j - θ k)) := by
  unfold angleSums
  rw [normalise_unit hg.unit]
  refine Finset.sum_congr rfl fun k _ => ?_
  change |Real.arccos (clip (p j ⬝ᵥ p k))| = _
  rw [dot_onCircle hc, clip_cos, abs_of_nonneg (Real.arccos_nonneg _)]

/-- **C87** (three points). For three different points on a great circle that are not all on an open half of it the areas are those of the
cells. -/
theorem C87_three {p : Fin 3 → Fin 3 → ℝ} {ν : Fin 3 → ℝ} (hg : GreatCircle p ν) (hspread : Spread p ν) (hinj : Function.Injective p) (voronoi : Option (Fin 3 → ℝ))
    (svd : (Fin 3 → Fin 3 → ℝ) → Svd) (argsort : (Fin 3 → ℝ) → Equiv.Perm (Fin 3)) :
    ∃ a, robustAreas voronoi svd argsort p = .ok a ∧ (∀ j f, Axes (p j) f ν → a j = cellArea p f ν j) ∧ ∑ j, a j = 4 * Real.pi := by
  refine ⟨angleSums p, rfl, ?_⟩
  obtain ⟨f0, ax0⟩ := exists_axes (hg.unit 0) hg.normal (hg.flat 0)
  have hc := onCircle_of_axes hg ax0
  set θ : Fin 3 → ℝ := fun k => arctan2 (p k ⬝ᵥ f0) (p k ⬝ᵥ p 0)
  have hθ : ∀ k, θ k ∈ Ioc (-Real.pi) Real.pi := fun k => arctan2_mem _ _
  set σ := Tuple.sort θ
  have hσ : Monotone (θ ∘ σ) := Tuple.monotone_sort θ
  have hpos := gaps_pos hθ (angles_injective hc hinj) hσ
  have hle := gap_le_pi hθ hσ (spread_angles hc hspread)
  have hval : ∀ i : Fin 3, angleSums p (σ (finRotate 3 i)) = gap θ σ i + gap θ σ (i + 1) := by
    intro i
    rw [angleSums_eq hg hc, ← Equiv.sum_comp σ]
    have h3 : ∀ F : Fin 3 → ℝ, ∑ m, F m = F (finRotate 3 i) + F i + F (finRotate 3 (finRotate 3 i)) := by
      intro F
      rw [Fin.sum_univ_three]
      fin_cases i
      · change _ = F 1 + F 0 + F 2
        ring
      · change _ = F 2 + F 1 + F 0
        ring
      · change _ = F 0 + F 2 + F 1
        ring
    rw [h3 fun m => Real.arccos (Real.cos (θ (σ (finRotate 3 i)) - θ (σ m)))]
    have g1 := cos_gap (θ := θ) (σ := σ) (i : Nat)
    rw [ofNat_succ, ofNat_val] at g1
    have g2 : Real.cos (gap θ σ (i + 1)) = Real.cos (θ (σ (finRotate 3 i)) - θ (σ (finRotate 3 (finRotate 3 i)))) := by
      rw [← gap_mod]
      have e : ((i : Nat) + 1) % 3 = (finRotate 3 i : Fin 3) := by
        rw [← ofNat_succ]
        rfl
      rw [e, cos_gap, ofNat_succ, ofNat_val, ← Real.cos_neg, neg_sub]
    rw [← g1, ← g2, sub_self, Real.cos_zero, Real.arccos_one, Real.arccos_cos (hpos _).le (hle _), Real.arccos_cos (hpos _).le (hle _)]
    ring
  constructor
  · intro j f ax
    obtain ⟨i, rfl⟩ : ∃ i, σ (finRotate 3 i) = j := ⟨(finRotate 3).symm (σ.symm j), by simp⟩
    rw [hval i]
    rw [← ofNat_succ] at ax ⊢
    exact (cellArea_circle (by norm_num) hc hθ hσ i (hpos _) (hpos _) ax).symm
  · have e1 : ∑ j, angleSums p j = ∑ i : Fin 3, angleSums p (σ (finRotate 3 i)) := by
      rw [← Equiv.sum_comp ((finRotate 3).trans σ)]
      rfl
    have hs := sum_gap (θ := θ) (σ := σ)
    rw [Finset.sum_range_succ, Finset.sum_range_succ, Finset.sum_range_one] at hs
    have h0 := gap_add (n := 3) (θ := θ) (σ := σ) 0
    rw [zero_add] at h0
    rw [e1, Fin.sum_univ_three, hval, hval, hval]
    change gap θ σ 0 + gap θ σ 1 + (gap θ σ 1 + gap θ σ 2) + (gap θ σ 2 + gap θ σ 3) = _
    linarith

/-- The three axes. -/
def corner : Fin 3 → Fin 3 → ℝ := ![![1, 0, 0], ![0, 1, 0], ![0, 0, 1]]

/-- **C87** (deviation). Three points that are not on a great circle: the areas for the directions of the three axes are `π` each, although
the three cells are equal, and cover the sphere. -/
theorem C87_three_deviation (voronoi : Option (Fin 3 → ℝ)) (svd : (Fin 3 → Fin 3 → ℝ) → Svd) (argsort : (Fin 3 → ℝ) → Equiv.Perm (Fin 3)) :
    ∃ a, robustAreas voronoi svd argsort corner = .ok a ∧ (∀ j, a j = Real.pi) ∧ ∑ j, a j < 4 * Real.pi := by
  have hu : ∀ k, corner k ⬝ᵥ corner k = 1 := by
    intro k
    fin_cases k <;> simp [corner, dotProduct, Fin.sum_univ_three]
  have h : ∀ j, angleSums corner j = Real.pi := by
    intro j
    unfold angleSums
    rw [normalise_unit hu]
    have h0 : clip 0 = 0 := by norm_num [clip]
    have h1 : clip 1 = 1 := by norm_num [clip]
    have hp := Real.pi_pos
    fin_cases j <;> simp [corner, Fin.sum_univ_three, h0, h1, abs_of_pos (half_pos hp)]
  refine ⟨angleSums corner, rfl, h, ?_⟩
  rw [Finset.sum_congr rfl fun j _ => h j]
  have := Real.pi_pos
  simp
  linarith

/-- **C87** (shape). Points that do not have three coordinates raise an error. -/
theorem C87_shape {d : Nat} (hd : d ≠ 3) (voronoi : Option (Fin n → ℝ)) (svd : (Fin n → Fin 3 → ℝ) → Svd) (argsort : (Fin n → ℝ) → Equiv.Perm (Fin n)) (p : Fin n → Fin d → ℝ) :
    robustAreas voronoi svd argsort p = .error .valueError := by
  unfold robustAreas
  rw [dif_neg hd]

/-! ## Points on a small circle -/

/-- Angles of a hexagon. -/
noncomputable def hexAngle : Fin 6 → ℝ := ![-(2 * (Real.pi / 3)), -(Real.pi / 3), 0, Real.pi / 3, 2 * (Real.pi / 3), Real.pi]

/-- The corners of a hexagon at height one half. -/
noncomputable def hexagon : Fin 6 → Fin 3 → ℝ := fun k => ![Real.sqrt 3 / 2 * Real.cos (hexAngle k), Real.sqrt 3 / 2 * Real.sin (hexAngle k), 1 / 2]

/-- Its singular values and vectors. -/
noncomputable def hexSvd : Svd := ⟨![3 / 2, 3 / 2, Real.sqrt 6 / 2], ![![1, 0, 0], ![0, 1, 0], ![0, 0, 1]]⟩

theorem cos_two_thirds : Real.cos (2 * (Real.pi / 3)) = -1 / 2 ∧ Real.sin (2 * (Real.pi / 3)) = Real.sqrt 3 / 2 := by
  constructor
  · rw [Real.cos_two_mul, Real.cos_pi_div_three]
    norm_num
  · rw [Real.sin_two_mul, Real.cos_pi_div_three, Real.sin_pi_div_three]
    ring

theorem hexCos : (fun k => Real.cos (hexAngle k)) = ![-1 / 2, 1 / 2, 1, 1 / 2, -1 / 2, -1] ∧
    (fun k => Real.sin (hexAngle k)) = ![-(Real.sqrt 3 / 2), -(Real.sqrt 3 / 2), 0, Real.sqrt 3 / 2, Real.sqrt 3 / 2, 0] := by
  obtain ⟨h1, h2⟩ := cos_two_thirds
  constructor <;> funext k <;> fin_cases k <;> simp [hexAngle, h1, h2]

theorem hex_unit (k : Fin 6) : hexagon k ⬝ᵥ hexagon k = 1 := by
  have h3 : Real.sqrt 3 * Real.sqrt 3 = 3 := Real.mul_self_sqrt (by norm_num)
  have := Real.sin_sq_add_cos_sq (hexAngle k)
  simp only [hexagon, dotProduct, Fin.sum_univ_three, Matrix.cons_val_zero, Matrix.cons_val_one, Matrix.cons_val]
  nlinarith

theorem hex_svd : IsSvd hexagon hexSvd := by
  have h3 : Real.sqrt 3 * Real.sqrt 3 = 3 := Real.mul_self_sqrt (by norm_num)
  have hc : ∀ k, Real.cos (hexAngle k) = (![-1 / 2, 1 / 2, 1, 1 / 2, -1 / 2, -1] : Fin 6 → ℝ) k := fun k => congrFun hexCos.1 k
  have hs : ∀ k, Real.sin (hexAngle k) = (![-(Real.sqrt 3 / 2), -(Real.sqrt 3 / 2), 0, Real.sqrt 3 / 2, Real.sqrt 3 / 2, 0] : Fin 6 → ℝ) k := fun k => congrFun hexCos.2 k
  have hq : Real.sqrt 6 * Real.sqrt 6 = 6 := Real.mul_self_sqrt (by norm_num)
  refine ⟨⟨?_, ?_, ?_, ?_, ?_, ?_⟩, ⟨le_rfl, ?_, (by positivity : (0 : ℝ) ≤ Real.sqrt 6 / 2)⟩, fun i => ?_⟩
  · simp [hexSvd, dotProduct, Fin.sum_univ_three]
  · simp [hexSvd, dotProduct, Fin.sum_univ_three]
  · simp [hexSvd, dotProduct, Fin.sum_univ_three]
  · simp [hexSvd, dotProduct, Fin.sum_univ_three]
  · simp [hexSvd, dotProduct, Fin.sum_univ_three]
  · simp [hexSvd, dotProduct, Fin.sum_univ_three]
  · change Real.sqrt 6 / 2 ≤ 3 / 2
    nlinarith [Real.sqrt_nonneg 6]
  · funext c
    rw [Finset.sum_apply]
    fin_cases i <;> fin_cases c <;> simp [hexSvd, hexagon, hc, hs, dotProduct, Fin.sum_univ_three, Fin.sum_univ_six] <;> nlinarith

theorem hexAngle_strictMono : StrictMono hexAngle := by
  have hp := Real.pi_pos
  refine Fin.strictMono_iff_lt_succ.2 fun i => ?_
  fin_cases i <;> simp [hexAngle] <;> linarith

/-- **C87** (deviation). Points on a small circle: `SphericalVoronoi` raises since they are in one plane, and the part for points in a plane
through the centre is used. For a hexagon at height one half the areas add up to more than the area of the sphere. -/
theorem C87_small_circle_deviation {argsort : (Fin 6 → ℝ) → Equiv.Perm (Fin 6)} (hs : Sorts argsort) :
    IsSvd hexagon hexSvd ∧ ∃ a, robustAreas none (fun _ => hexSvd) argsort hexagon = .ok a ∧ 4 * Real.pi < ∑ j, a j := by
  refine ⟨hex_svd, ?_⟩
  have hp := Real.pi_pos
  have h3 : Real.sqrt 3 * Real.sqrt 3 = 3 := Real.mul_self_sqrt (by norm_num)
  have h3p : 0 < Real.sqrt 3 / 2 := by positivity
  rw [robust_many (by norm_num)]
  simp only [degenerate, normalise_unit hex_unit]
  rw [if_neg (by simp [hexSvd]; norm_num)]
  set xy : Fin 6 → Fin 2 → ℝ := fun i c => ∑ e, hexagon i e * hexSvd.v (Fin.castLE (by omega) c) e with hxy
  have hx0 : ∀ k, xy k 0 = Real.sqrt 3 / 2 * Real.cos (hexAngle k) := by
    intro k
    simp [hxy, hexSvd, hexagon, Fin.sum_univ_three]
  have hx1 : ∀ k, xy k 1 = Real.sqrt 3 / 2 * Real.sin (hexAngle k) := by
    intro k
    simp [hxy, hexSvd, hexagon, Fin.sum_univ_three]
  have hang : (fun k => arctan2 (xy k 1) (xy k 0)) = hexAngle := by
    funext k
    unfold arctan2
    rw [hx0, hx1]
    have : (⟨Real.sqrt 3 / 2 * Real.cos (hexAngle k), Real.sqrt 3 / 2 * Real.sin (hexAngle k)⟩ : ℂ) =
        ((Real.sqrt 3 / 2 : ℝ) : ℂ) * (Complex.cos (hexAngle k) + Complex.sin (hexAngle k) * Complex.I) := by
      apply Complex.ext <;> simp [← Complex.ofReal_cos, ← Complex.ofReal_sin]
    rw [this]
    refine Complex.arg_mul_cos_add_sin_mul_I h3p ?_
    rw [mem_Ioc]
    constructor <;> fin_cases k <;> simp [hexAngle] <;> linarith
  have hσ : argsort hexAngle = 1 := by
    have hm : Monotone (argsort hexAngle) := fun i j hij => hexAngle_strictMono.le_iff_le.1 (hs hexAngle hij)
    have hsm : StrictMono (argsort hexAngle) := hm.strictMono_of_injective (argsort hexAngle).injective
    have := Subsingleton.elim (hsm.orderIsoOfSurjective _ (argsort hexAngle).surjective) (OrderIso.refl (Fin 6))
    apply Equiv.ext
    intro i
    exact congrArg (fun e : Fin 6 ≃o Fin 6 => e i) this
  have hd : ∀ i, deltas xy 1 i = Real.arccos (3 / 8) := by
    intro i
    have hc : ∀ k, Real.cos (hexAngle k) = (![-1 / 2, 1 / 2, 1, 1 / 2, -1 / 2, -1] : Fin 6 → ℝ) k := fun k => congrFun hexCos.1 k
    have hs : ∀ k, Real.sin (hexAngle k) = (![-(Real.sqrt 3 / 2), -(Real.sqrt 3 / 2), 0, Real.sqrt 3 / 2, Real.sqrt 3 / 2, 0] : Fin 6 → ℝ) k := fun k => congrFun hexCos.2 k
    obtain ⟨k, rfl⟩ : ∃ k, finRotate 6 k = i := ⟨(finRotate 6).symm i, by simp⟩
    unfold deltas roll
    simp only [Equiv.symm_apply_apply, Fin.sum_univ_two, Equiv.Perm.coe_one, id, hx0, hx1, hc, hs]
    have : clip (3 / 8) = 3 / 8 := by norm_num [clip]
    rw [← this]
    congr 2
    fin_cases k <;> simp [finRotate_apply] <;> nlinarith
  have hlt : Real.pi / 3 < Real.arccos (3 / 8) := by
    rw [← Real.arccos_cos (x := Real.pi / 3) (by linarith) (by linarith), Real.cos_pi_div_three]
    exact Real.arccos_lt_arccos (by norm_num) (by norm_num) (by norm_num)
  have hpi : (1e-6 : ℝ) < Real.pi / 3 := by
    have := Real.two_le_pi
    norm_num
    linarith
  unfold planar
  simp only [hang, hσ]
  rw [if_neg]
  · refine ⟨_, rfl, ?_⟩
    simp only [rollBack, hd, Finset.sum_const, Finset.card_univ, Fintype.card_fin, nsmul_eq_mul]
    push_cast
    linarith
  · rintro ⟨i, hi⟩
    rw [hd] at hi
    linarith

/-! ## The integral -/

/-- **C87** (integral). With weights that add up to the area of the sphere, the integral is linear and gives `4 π c` for the constant `c`. -/
theorem C87_integral {w : Fin n → ℝ} (hw : ∑ i, w i = 4 * Real.pi) (f g : Fin n → ℝ) (c : ℝ) :
    sphericalIntegral (.ok w) (fun _ => c) = .ok (4 * Real.pi * c) ∧
    (∀ x y z, sphericalIntegral (.ok w) f = .ok x → sphericalIntegral (.ok w) g = .ok y → sphericalIntegral (.ok w) (fun i => c * f i + g i) = .ok z → z = c * x + y) := by
  constructor
  · change Except.ok (∑ i, w i * c) = _
    rw [← Finset.sum_mul, hw]
  · intro x y z hx hy hz
    injection hx with hx
    injection hy with hy
    injection hz with hz
    rw [← hx, ← hy, ← hz, Finset.mul_sum, ← Finset.sum_add_distrib]
    exact Finset.sum_congr rfl fun i _ => by ring

/-! ## Histograms -/

/-- A use of the histogram. -/
inductive Use (P : Type) where
  | push (points : List P)
  | read

variable {P : Type}

/-- The uses one after the other; `none` when a read divided by zero. -/
noncomputable def Hist.run (nearest : P → Fin n) : Hist n → List (Use P) → Option (Hist n)
  | h, [] => some h
  | h, .push l :: us => Hist.run nearest (h.push nearest l) us
  | h, .read :: us => h.histogram.bind fun h' => Hist.run nearest h' us

/-- All points pushed. -/
def pushed : List (Use P) → List P
  | [] => []
  | .push l :: us => l ++ pushed us
  | .read :: us => pushed us

/-- How many points have the bin `i` as the nearest. -/
def hits (nearest : P → Fin n) (l : List P) (i : Fin n) : Nat := (l.filter fun x => nearest x = i).length

theorem addAt_eq (a : Fin n → Nat) : ∀ (l : List (Fin n × Nat)) (b : Fin n → Nat), (l.map Prod.fst).Nodup → ∀ i,
    l.foldl (fun b p => Function.update b p.1 (a p.1 + p.2)) b i = match l.find? (fun p => p.1 = i) with
      | some p => a i + p.2
      | none => b i
  | [], b, _, i => rfl
  | p :: l, b, h, i => by
    rw [List.map_cons, List.nodup_cons] at h
    rw [List.foldl_cons, addAt_eq a l _ h.2]
    by_cases hp : p.1 = i
    · have hnone : l.find? (fun p => p.1 = i) = none := by
        rw [List.find?_eq_none]
        intro q hq hqi
        apply h.1
        rw [hp, ← of_decide_eq_true hqi]
        exact List.mem_map_of_mem hq
      rw [hnone, List.find?_cons_of_pos (by simpa using hp)]
      subst hp
      simp
    · rw [List.find?_cons_of_neg (by simpa using hp)]
      cases l.find? (fun p => p.1 = i) with
      | none =>
        simp only
        rw [Function.update_of_ne (Ne.symm hp)]
      | some q => rfl

theorem addAt_unique (a : Fin n → Nat) (l : List (Fin n)) (i : Fin n) : addAt a (unique l) i = a i + l.count i := by
  unfold addAt unique
  rw [addAt_eq]
  · by_cases h : i ∈ l
    · have hm : i ∈ (l.mergeSort fun a b => decide (a ≤ b)).dedup := by
        rw [List.mem_dedup, List.mem_mergeSort]
        exact h
      have : ∃ q, (((l.mergeSort fun a b => decide (a ≤ b)).dedup).map fun i => (i, l.count i)).find? (fun p => p.1 = i) = some q := by
        rw [← Option.isSome_iff_exists, List.find?_isSome]
        exact ⟨(i, l.count i), List.mem_map_of_mem hm, by simp⟩
      obtain ⟨q, hq⟩ := this
      rw [hq]
      have h1 := List.find?_some hq
      have h2 := List.mem_of_find?_eq_some hq
      rw [List.mem_map] at h2
      obtain ⟨x, _, rfl⟩ := h2
      have : x = i := by simpa using h1
      subst this
      rfl
    · have : (((l.mergeSort fun a b => decide (a ≤ b)).dedup).map fun i => (i, l.count i)).find? (fun p => p.1 = i) = none := by
        rw [List.find?_eq_none]
        intro q hq hqi
        rw [List.mem_map] at hq
        obtain ⟨x, hx, rfl⟩ := hq
        rw [List.mem_dedup, List.mem_mergeSort] at hx
        have : x = i := by simpa using hqi
        exact h (this ▸ hx)
      rw [this, List.count_eq_zero_of_not_mem h]
      rfl
  · rw [List.map_map]
    have : (Prod.fst ∘ fun i => (i, l.count i)) = id := rfl
    rw [this, List.map_id]
    exact List.nodup_dedup _

theorem count_hits (nearest : P → Fin n) (l : List P) (i : Fin n) : (l.map nearest).count i = hits nearest l i := by
  unfold hits
  induction l with
  | nil => rfl
  | cons x l ih =>
    rw [List.map_cons, List.count_cons, ih, List.filter_cons]
    by_cases h : nearest x = i <;> simp [h]

theorem hits_append (nearest : P → Fin n) (l l' : List P) (i : Fin n) : hits nearest (l ++ l') i = hits nearest l i + hits nearest l' i := by
  unfold hits
  rw [List.filter_append, List.length_append]

/-- What holds after the points `l`. -/
structure After (areas : Fin n → ℝ) (nearest : P → Fin n) (l : List P) (h : Hist n) : Prop where
  area : h.areas = areas
  bins : ∀ i, h.bins i = hits nearest l i
  total : h.total = l.length
  clean : h.dirty = false → (l = [] ∧ ∀ i, h.cache i = 0) ∨ ∀ i, h.cache i = hits nearest l i / ∑ k, areas k * hits nearest l k

theorem after_push {areas : Fin n → ℝ} {nearest : P → Fin n} {l : List P} {h : Hist n} (hh : After areas nearest l h) (pts : List P) : After areas nearest (l ++ pts) (h.push nearest pts) := by
  refine ⟨hh.area, fun i => ?_, ?_, fun hd => by cases hd⟩
  · change addAt h.bins (unique (pts.map nearest)) i = _
    rw [addAt_unique, hh.bins, count_hits, hits_append]
  · change h.total + pts.length = _
    rw [hh.total, List.length_append]

theorem after_read {areas : Fin n → ℝ} {nearest : P → Fin n} {l : List P} {h h' : Hist n} (hh : After areas nearest l h) (hr : h.histogram = some h') :
    After areas nearest l h' ∧ h'.dirty = false := by
  unfold Hist.histogram at hr
  by_cases hd : h.dirty = true
  · rw [if_pos hd] at hr
    simp only at hr
    split at hr
    · cases hr
    · injection hr with hr
      rw [← hr]
      refine ⟨⟨hh.area, hh.bins, hh.total, fun _ => Or.inr fun i => ?_⟩, rfl⟩
      simp only [hh.area, hh.bins]
  · rw [if_neg hd] at hr
    injection hr with hr
    rw [← hr]
    exact ⟨hh, by simpa using hd⟩

theorem after_run {areas : Fin n → ℝ} {nearest : P → Fin n} : ∀ (us : List (Use P)) {l : List P} {h h' : Hist n}, After areas nearest l h → Hist.run nearest h us = some h' →
    After areas nearest (l ++ pushed us) h'
  | [], l, h, h', hh, hr => by
    injection hr with hr
    rw [← hr]
    simpa [pushed] using hh
  | .push pts :: us, l, h, h', hh, hr => by
    have := after_run us (after_push hh pts) hr
    rw [List.append_assoc] at this
    exact this
  | .read :: us, l, h, h', hh, hr => by
    change (h.histogram.bind fun h' => Hist.run nearest h' us) = some h' at hr
    cases hq : h.histogram with
    | none => rw [hq] at hr; cases hr
    | some h1 =>
      rw [hq] at hr
      exact after_run us (after_read hh hq).1 hr

theorem after_new (areas : Fin n → ℝ) (nearest : P → Fin n) : After areas nearest [] (Hist.new areas) := ⟨rfl, fun _ => rfl, rfl, fun _ => Or.inl ⟨rfl, fun _ => rfl⟩⟩

theorem mass_pos {areas : Fin n → ℝ} (ha : ∀ i, 0 < areas i) (nearest : P → Fin n) {l : List P} (hl : l ≠ []) : 0 < ∑ k, areas k * (hits nearest l k : ℝ) := by
  obtain ⟨x, hx⟩ := List.exists_mem_of_ne_nil l hl
  refine Finset.sum_pos' (fun i _ => mul_nonneg (ha i).le (Nat.cast_nonneg _)) ⟨nearest x, Finset.mem_univ _, mul_pos (ha _) ?_⟩
  have : 0 < hits nearest l (nearest x) := by
    unfold hits
    exact List.length_pos_of_mem (List.mem_filter.2 ⟨hx, by simp⟩)
  exact_mod_cast this

/-- **C87** (histogram). After any sequence of pushes and reads the counts are the number of points nearest to each bin, the total is the number of
points. When a point was pushed, a read gives the counts divided by the sum of areas and counts, which is a density: its integral over the sphere is one. -/
theorem C87_histogram {areas : Fin n → ℝ} (nearest : P → Fin n) (us : List (Use P)) {h : Hist n} (hr : Hist.run nearest (Hist.new areas) us = some h) :
    (∀ i, h.bins i = hits nearest (pushed us) i) ∧ h.total = (pushed us).length ∧
    ((∀ i, 0 < areas i) → pushed us ≠ [] → ∃ h', h.histogram = some h' ∧ (∀ i, h'.cache i = hits nearest (pushed us) i / ∑ k, areas k * hits nearest (pushed us) k) ∧
      (∀ i, 0 ≤ h'.cache i) ∧ ∑ i, areas i * h'.cache i = 1) := by
  have ha := after_run us (after_new areas nearest) hr
  rw [List.nil_append] at ha
  refine ⟨ha.bins, ha.total, fun hpos hne => ?_⟩
  have hm := mass_pos hpos nearest hne
  have hex : ∃ h', h.histogram = some h' := by
    unfold Hist.histogram
    by_cases hd : h.dirty = true
    · rw [if_pos hd]
      simp only [ha.area, ha.bins]
      rw [if_neg hm.ne']
      exact ⟨_, rfl⟩
    · rw [if_neg hd]
      exact ⟨_, rfl⟩
  obtain ⟨h', hh'⟩ := hex
  obtain ⟨ha', hd'⟩ := after_read ha hh'
  have hv : ∀ i, h'.cache i = hits nearest (pushed us) i / ∑ k, areas k * hits nearest (pushed us) k := by
    rcases ha'.clean hd' with h0 | h0
    · exact absurd h0.1 hne
    · exact h0
  refine ⟨h', hh', hv, fun i => ?_, ?_⟩
  · rw [hv]
    exact div_nonneg (Nat.cast_nonneg _) hm.le
  · simp only [hv]
    rw [← div_self hm.ne', Finset.sum_div]
    exact Finset.sum_congr rfl fun i _ => by ring

/-- **C87** (a run never fails). With positive areas, reads fail only after a push without points and nothing pushed before. -/
theorem C87_histogram_runs {areas : Fin n → ℝ} (ha : ∀ i, 0 < areas i) (nearest : P → Fin n) (us : List (Use P)) (hne : ∀ l, Use.push l ∈ us → l ≠ []) :
    ∃ h, Hist.run nearest (Hist.new areas) us = some h := by
  have key : ∀ (us : List (Use P)) (l : List P) (h : Hist n), (∀ l, Use.push l ∈ us → l ≠ []) → After areas nearest l h → (l = [] → h.dirty = false) → ∃ h', Hist.run nearest h us = some h' := by
    intro us
    induction us with
    | nil => exact fun l h _ _ _ => ⟨h, rfl⟩
    | cons u us ih =>
      intro l h hn hh hd
      cases u with
      | push pts =>
        refine ih (l ++ pts) _ (fun l hl => hn l (List.mem_cons_of_mem _ hl)) (after_push hh pts) fun h0 => ?_
        exact absurd (List.append_eq_nil_iff.1 h0).2 (hn pts List.mem_cons_self)
      | read =>
        have hex : ∃ h1, h.histogram = some h1 := by
          unfold Hist.histogram
          by_cases hdd : h.dirty = true
          · have hl : l ≠ [] := fun h0 => by rw [hd h0] at hdd; cases hdd
            rw [if_pos hdd]
            simp only [hh.area, hh.bins]
            rw [if_neg (mass_pos ha nearest hl).ne']
            exact ⟨_, rfl⟩
          · rw [if_neg hdd]
            exact ⟨_, rfl⟩
        obtain ⟨h1, hh1⟩ := hex
        obtain ⟨h2, h3⟩ := after_read hh hh1
        obtain ⟨h', hr⟩ := ih l h1 (fun l hl => hn l (List.mem_cons_of_mem _ hl)) h2 fun _ => h3
        refine ⟨h', ?_⟩
        change (h.histogram.bind fun h' => Hist.run nearest h' us) = some h'
        rw [hh1]
        exact hr
  exact key us [] _ hne (after_new areas nearest) fun _ => rfl

/-! ## Cases that meet the hypotheses -/

/-- Four points on the equator. -/
def square : Fin 4 → Fin 3 → ℝ := ![![1, 0, 0], ![0, 1, 0], ![-1, 0, 0], ![0, -1, 0]]

noncomputable def squareSvd : Svd := ⟨![Real.sqrt 2, Real.sqrt 2, 0], ![![1, 0, 0], ![0, 1, 0], ![0, 0, 1]]⟩

theorem square_circle : GreatCircle square ![0, 0, 1] := by
  refine ⟨fun k => ?_, ?_, fun k => ?_⟩
  · fin_cases k <;> simp [square, dotProduct, Fin.sum_univ_three]
  · simp [dotProduct, Fin.sum_univ_three]
  · fin_cases k <;> simp [square, dotProduct, Fin.sum_univ_three]

theorem square_spread : Spread square ![0, 0, 1] := by
  intro u _ _
  rcases le_total (u 0) 0 with h | h
  · exact ⟨0, by simpa [square, dotProduct, Fin.sum_univ_three] using h⟩
  · exact ⟨2, by simpa [square, dotProduct, Fin.sum_univ_three] using h⟩

theorem square_svd : IsSvd square squareSvd := by
  have h2 : Real.sqrt 2 * Real.sqrt 2 = 2 := Real.mul_self_sqrt (by norm_num)
  refine ⟨⟨?_, ?_, ?_, ?_, ?_, ?_⟩, ⟨le_rfl, Real.sqrt_nonneg 2, le_rfl⟩, fun i => ?_⟩
  · simp [squareSvd, dotProduct, Fin.sum_univ_three]
  · simp [squareSvd, dotProduct, Fin.sum_univ_three]
  · simp [squareSvd, dotProduct, Fin.sum_univ_three]
  · simp [squareSvd, dotProduct, Fin.sum_univ_three]
  · simp [squareSvd, dotProduct, Fin.sum_univ_three]
  · simp [squareSvd, dotProduct, Fin.sum_univ_three]
  · funext c
    rw [Finset.sum_apply]
    fin_cases i <;> fin_cases c <;> simp [squareSvd, square, dotProduct, Fin.sum_univ_three, Fin.sum_univ_four] <;> norm_num

example : Sorts fun x : Fin n → ℝ => Tuple.sort x := fun x => Tuple.monotone_sort x

example : ∃ a, robustAreas none (fun _ => squareSvd) (fun x => Tuple.sort x) square = .ok a ∧ ∑ j, a j = 4 * Real.pi := by
  have hs : Sorts fun x : Fin 4 → ℝ => Tuple.sort x := fun x => Tuple.monotone_sort x
  cases h : robustAreas none (fun _ => squareSvd) (fun x => Tuple.sort x) square with
  | ok a => exact ⟨a, rfl, (C87_circle (by norm_num) square_circle square_spread (svd := fun _ => squareSvd) square_svd hs h).2⟩
  | error e =>
    exfalso
    obtain ⟨_, h1⟩ := C87_circle_error (by norm_num) square_circle (svd := fun _ => squareSvd) square_svd hs h
    rcases h1 with h1 | ⟨j, k, hjk, h1⟩
    · have h2 : (1 : ℝ) ≤ Real.sqrt 2 := by
        apply Real.le_sqrt_of_sq_le
        norm_num
      have h3 : Real.sqrt 2 < 1e-6 := h1
      norm_num at h3
      linarith
    · have h2 : Real.pi / 2 ≤ Real.arccos (square j ⬝ᵥ square k) := by
        rw [← Real.arccos_zero]
        apply Real.arccos_le_arccos
        fin_cases j <;> fin_cases k <;> simp [square, dotProduct, Fin.sum_univ_three] at hjk ⊢
      have := Real.two_le_pi
      norm_num at h1
      linarith

/-- Four points on a quarter of the equator. -/
noncomputable def quarter : Fin 4 → Fin 3 → ℝ := ![![1, 0, 0], ![4 / 5, 3 / 5, 0], ![3 / 5, 4 / 5, 0], ![0, 1, 0]]

noncomputable def quarterSvd : Svd := ⟨![Real.sqrt 74 / 5, Real.sqrt 26 / 5, 0], ![![Real.sqrt 2 / 2, Real.sqrt 2 / 2, 0], ![Real.sqrt 2 / 2, -(Real.sqrt 2 / 2), 0], ![0, 0, 1]]⟩

theorem quarter_svd : IsSvd quarter quarterSvd := by
  have h2 : Real.sqrt 2 * Real.sqrt 2 = 2 := Real.mul_self_sqrt (by norm_num)
  have h74 : Real.sqrt 74 ^ 2 = 74 := Real.sq_sqrt (by norm_num)
  have h26 : Real.sqrt 26 ^ 2 = 26 := Real.sq_sqrt (by norm_num)
  refine ⟨⟨?_, ?_, ?_, ?_, ?_, ?_⟩, ⟨?_, ?_, le_rfl⟩, fun i => ?_⟩
  · simp [quarterSvd, dotProduct, Fin.sum_univ_three]; nlinarith
  · simp [quarterSvd, dotProduct, Fin.sum_univ_three]; nlinarith
  · simp [quarterSvd, dotProduct, Fin.sum_univ_three]
  · simp [quarterSvd, dotProduct, Fin.sum_univ_three]
  · simp [quarterSvd, dotProduct, Fin.sum_univ_three]
  · simp [quarterSvd, dotProduct, Fin.sum_univ_three]
  · change Real.sqrt 26 / 5 ≤ Real.sqrt 74 / 5
    have := Real.sqrt_le_sqrt (show (26 : ℝ) ≤ 74 by norm_num)
    linarith
  · change (0 : ℝ) ≤ Real.sqrt 26 / 5
    positivity
  · funext c
    rw [Finset.sum_apply]
    fin_cases i <;> fin_cases c <;> simp [quarterSvd, quarter, dotProduct, Fin.sum_univ_three, Fin.sum_univ_four, div_pow, h74, h26] <;> ring

example : GreatCircle quarter ![0, 0, 1] ∧ ∀ k, 0 < (![1, 1, 0] : Fin 3 → ℝ) ⬝ᵥ quarter k := by
  refine ⟨⟨fun k => ?_, ?_, fun k => ?_⟩, fun k => ?_⟩
  · fin_cases k <;> simp [quarter, dotProduct, Fin.sum_univ_three] <;> norm_num
  · simp [dotProduct, Fin.sum_univ_three]
  · fin_cases k <;> simp [quarter, dotProduct, Fin.sum_univ_three]
  · fin_cases k <;> simp [quarter, dotProduct, Fin.sum_univ_three] <;> norm_num

example : ∃ h : Hist 2, Hist.run (fun x : Nat => (⟨x % 2, by omega⟩ : Fin 2)) (Hist.new fun _ => 2 * Real.pi) [.push [1, 3, 4], .read, .push [5]] = some h ∧ h.bins 1 = 3 := by
  obtain ⟨h, hh⟩ := C87_histogram_runs (areas := fun _ : Fin 2 => 2 * Real.pi) (fun _ => Real.two_pi_pos) (fun x : Nat => (⟨x % 2, by omega⟩ : Fin 2)) [.push [1, 3, 4], .read, .push [5]] (by
    intro l hl
    simp at hl
    rcases hl with rfl | rfl <;> simp)
  exact ⟨h, hh, (C87_histogram _ _ hh).1 1⟩

end Verif.Sphere
