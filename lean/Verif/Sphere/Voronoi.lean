import Verif.Sphere.Model
import Mathlib.MeasureTheory.Measure.Lebesgue.Basic
import Mathlib.MeasureTheory.Measure.Prod
import Mathlib.LinearAlgebra.Matrix.NonsingularInverse
import Mathlib.Data.Matrix.Mul
import Mathlib.Tactic.FinCases

/-!
# The cells of points on a great circle

Specification of the area of the cell of a point, and its value when all points are on one great circle.
-/

namespace Verif.Sphere

open Matrix MeasureTheory Set

variable {n : Nat}

/-! ## Specification -/

/-- The point of the sphere with longitude `t`, counted from `e` towards `f`, at height `z` along `ν`. By the theorem of Archimedes
the map keeps areas: the area of a set on the sphere is the area of its coordinates `(t, z)` in the rectangle `(-π, π] × (-1, 1)`. -/
noncomputable def spherePoint (e f ν : Fin 3 → ℝ) (t z : ℝ) : Fin 3 → ℝ := Real.sqrt (1 - z ^ 2) • (Real.cos t • e + Real.sin t • f) + z • ν

/-- The points of the sphere, in coordinates, that are at least as close to the point `j` as to any other. -/
def cell (p : Fin n → Fin 3 → ℝ) (f ν : Fin 3 → ℝ) (j : Fin n) : Set (ℝ × ℝ) :=
  {q | q.1 ∈ Ioc (-Real.pi) Real.pi ∧ q.2 ∈ Ioo (-1 : ℝ) 1 ∧
    ∀ k, (spherePoint (p j) f ν q.1 q.2 - p j) ⬝ᵥ (spherePoint (p j) f ν q.1 q.2 - p j) ≤
      (spherePoint (p j) f ν q.1 q.2 - p k) ⬝ᵥ (spherePoint (p j) f ν q.1 q.2 - p k)}

/-- The area of the cell of the point `j`. -/
noncomputable def cellArea (p : Fin n → Fin 3 → ℝ) (f ν : Fin 3 → ℝ) (j : Fin n) : ℝ := (volume (cell p f ν j)).toReal

/-- Three directions at right angles, of length one. -/
structure Axes (e f ν : Fin 3 → ℝ) : Prop where
  ee : e ⬝ᵥ e = 1
  ff : f ⬝ᵥ f = 1
  nn : ν ⬝ᵥ ν = 1
  ef : e ⬝ᵥ f = 0
  en : e ⬝ᵥ ν = 0
  fn : f ⬝ᵥ ν = 0

/-! ## One lune -/

theorem cos_le_iff {t d : ℝ} (ht : t ∈ Ioc (-Real.pi) Real.pi) (hd : 0 < d) (hd' : d < 2 * Real.pi) :
    Real.cos (t - d) ≤ Real.cos t ↔ d / 2 - Real.pi ≤ t ∧ t ≤ d / 2 := by
  have hp := Real.pi_pos
  have hs : 0 < Real.sin (d / 2) := Real.sin_pos_of_pos_of_lt_pi (by linarith) (by linarith)
  have key : Real.cos t - Real.cos (t - d) = -2 * Real.sin (t - d / 2) * Real.sin (d / 2) := by
    rw [Real.cos_sub_cos]
    congr 2
    · congr 1; ring
    · ring
  have h1 : Real.cos (t - d) ≤ Real.cos t ↔ Real.sin (t - d / 2) ≤ 0 := by
    constructor
    · intro h
      by_contra hc
      push Not at hc
      nlinarith [mul_pos hc hs]
    · intro h
      nlinarith [mul_nonneg_of_nonpos_of_nonpos h (neg_nonpos.2 hs.le)]
  rw [h1]
  obtain ⟨ht1, ht2⟩ := ht
  constructor
  · intro h
    constructor
    · by_contra hc
      push Not at hc
      have : 0 < Real.sin (t - d / 2 + 2 * Real.pi) := Real.sin_pos_of_pos_of_lt_pi (by linarith) (by linarith)
      rw [Real.sin_add_two_pi] at this
      linarith
    · by_contra hc
      push Not at hc
      have : 0 < Real.sin (t - d / 2) := Real.sin_pos_of_pos_of_lt_pi (by linarith) (by linarith)
      linarith
  · rintro ⟨h2, h3⟩
    exact Real.sin_nonpos_of_nonpos_of_neg_pi_le (by linarith) (by linarith)

theorem dist_iff {x p q : Fin 3 → ℝ} (hp : p ⬝ᵥ p = 1) (hq : q ⬝ᵥ q = 1) : (x - p) ⬝ᵥ (x - p) ≤ (x - q) ⬝ᵥ (x - q) ↔ x ⬝ᵥ q ≤ x ⬝ᵥ p := by
  simp only [sub_dotProduct, dotProduct_sub, hp, hq]
  rw [dotProduct_comm p x, dotProduct_comm q x]
  constructor <;> intro h <;> linarith

/-- The area of the cell, from the longitudes `d` of the other points. -/
theorem cellArea_lune {p : Fin n → Fin 3 → ℝ} {f ν : Fin 3 → ℝ} {j : Fin n} (d : Fin n → ℝ) (hu : ∀ k, p k ⬝ᵥ p k = 1)
    (hd : ∀ k, p k = Real.cos (d k) • p j + Real.sin (d k) • f) (ax : Axes (p j) f ν) {gL gR : ℝ} (hL : 0 < gL) (hR : 0 < gR)
    (hLR : gL + gR ≤ 2 * Real.pi) (hall : ∀ k, d k = 0 ∨ (gR ≤ d k ∧ d k ≤ 2 * Real.pi - gL)) (hr : ∃ k, d k = gR) (hl : ∃ k, d k = 2 * Real.pi - gL) :
    cellArea p f ν j = gL + gR := by
  have hp := Real.pi_pos
  have hset : cell p f ν j = Icc (-(gL / 2)) (gR / 2) ×ˢ Ioo (-1 : ℝ) 1 := by
    ext ⟨t, z⟩
    simp only [cell, mem_ofPred_eq, mem_prod]
    have hin : z ∈ Ioo (-1 : ℝ) 1 → ∀ k, ((spherePoint (p j) f ν t z - p j) ⬝ᵥ (spherePoint (p j) f ν t z - p j) ≤
        (spherePoint (p j) f ν t z - p k) ⬝ᵥ (spherePoint (p j) f ν t z - p k) ↔ Real.cos (t - d k) ≤ Real.cos t) := by
      rintro ⟨hz1, hz2⟩ k
      rw [dist_iff (hu j) (hu k)]
      have hpos : 0 < Real.sqrt (1 - z ^ 2) := Real.sqrt_pos.2 (by nlinarith)
      have e : ∀ c s : ℝ, spherePoint (p j) f ν t z ⬝ᵥ (c • p j + s • f) = Real.sqrt (1 - z ^ 2) * (Real.cos t * c + Real.sin t * s) := by
        intro c s
        unfold spherePoint
        simp only [add_dotProduct, smul_dotProduct, dotProduct_add, dotProduct_smul, smul_eq_mul, ax.ee, ax.ff, ax.ef, dotProduct_comm f (p j),
          dotProduct_comm ν, ax.en, ax.fn]
        ring
      have e1 : spherePoint (p j) f ν t z ⬝ᵥ p j = Real.sqrt (1 - z ^ 2) * Real.cos t := by
        have := e 1 0
        simp only [one_smul, zero_smul, add_zero, mul_one, mul_zero] at this
        exact this
      rw [e1, hd k, e, ← Real.cos_sub, mul_le_mul_iff_right₀ hpos]
    constructor
    · rintro ⟨ht, hz, h⟩
      refine ⟨?_, hz⟩
      obtain ⟨k, hk⟩ := hr
      obtain ⟨l, hl⟩ := hl
      have h1 := (hin hz k).1 (h k)
      have h2 := (hin hz l).1 (h l)
      rw [hk, cos_le_iff ht hR (by linarith)] at h1
      rw [hl, cos_le_iff ht (by linarith) (by linarith)] at h2
      exact ⟨by linarith, by linarith⟩
    · rintro ⟨⟨h1, h2⟩, hz⟩
      have ht : t ∈ Ioc (-Real.pi) Real.pi := ⟨by linarith, by linarith⟩
      refine ⟨ht, hz, fun k => (hin hz k).2 ?_⟩
      rcases hall k with h | ⟨h3, h4⟩
      · rw [h, sub_zero]
      · rw [cos_le_iff ht (by linarith) (by linarith)]
        exact ⟨by linarith, by linarith⟩
  unfold cellArea
  rw [hset, Measure.volume_eq_prod, Measure.prod_prod, Real.volume_Icc, Real.volume_Ioo, ENNReal.toReal_mul, ENNReal.toReal_ofReal (by linarith),
    ENNReal.toReal_ofReal (by norm_num)]
  ring

/-! ## Angles in increasing order, around the circle -/

/-- The angle number `m` when one keeps turning. -/
noncomputable def turn [NeZero n] (θ : Fin n → ℝ) (σ : Equiv.Perm (Fin n)) (m : Nat) : ℝ := θ (σ (Fin.ofNat n m)) + 2 * Real.pi * ((m / n : Nat) : ℝ)

variable [NeZero n] {θ : Fin n → ℝ} {σ : Equiv.Perm (Fin n)}

theorem turn_add (m : Nat) : turn θ σ (m + n) = turn θ σ m + 2 * Real.pi := by
  have hn : 0 < n := Nat.pos_of_ne_zero (NeZero.ne n)
  unfold turn
  have e1 : Fin.ofNat n (m + n) = Fin.ofNat n m := by
    apply Fin.ext
    simp [Fin.ofNat]
  rw [e1, Nat.add_div_right _ hn]
  push_cast
  ring

theorem turn_small (i : Fin n) : turn θ σ i = θ (σ i) := by
  unfold turn
  have e1 : Fin.ofNat n (i : Nat) = i := by
    apply Fin.ext
    simp [Fin.ofNat, Nat.mod_eq_of_lt i.2]
  rw [e1, Nat.div_eq_of_lt i.2]
  simp

theorem turn_succ_le (hθ : ∀ k, θ k ∈ Ioc (-Real.pi) Real.pi) (hσ : Monotone (θ ∘ σ)) (m : Nat) : turn θ σ m ≤ turn θ σ (m + 1) := by
  have hn : 0 < n := Nat.pos_of_ne_zero (NeZero.ne n)
  unfold turn
  by_cases h : (m + 1) % n = 0
  · have hq : (m + 1) / n = m / n + 1 := by
      rw [Nat.succ_div, if_pos (Nat.dvd_of_mod_eq_zero h)]
    rw [hq]
    have h1 := (hθ (σ (Fin.ofNat n m))).2
    have h2 := (hθ (σ (Fin.ofNat n (m + 1)))).1
    push_cast
    linarith
  · have hq : (m + 1) / n = m / n := by
      rw [Nat.succ_div, if_neg (fun hd => h (Nat.mod_eq_zero_of_dvd hd))]
      simp
    rw [hq]
    have hle : Fin.ofNat n m ≤ Fin.ofNat n (m + 1) := by
      rw [Fin.le_def]
      simp only [Fin.ofNat]
      have h1 := Nat.mod_add_div m n
      have h2 := Nat.mod_add_div (m + 1) n
      rw [hq] at h2
      omega
    have := hσ hle
    simp only [Function.comp_apply] at this
    linarith

theorem turn_wrap_lt (hθ : ∀ k, θ k ∈ Ioc (-Real.pi) Real.pi) {m : Nat} (h : (m + 1) % n = 0) : turn θ σ m < turn θ σ (m + 1) := by
  unfold turn
  have hq : (m + 1) / n = m / n + 1 := by
    rw [Nat.succ_div, if_pos (Nat.dvd_of_mod_eq_zero h)]
  rw [hq]
  have h1 := (hθ (σ (Fin.ofNat n m))).2
  have h2 := (hθ (σ (Fin.ofNat n (m + 1)))).1
  push_cast
  linarith

theorem turn_mono (hθ : ∀ k, θ k ∈ Ioc (-Real.pi) Real.pi) (hσ : Monotone (θ ∘ σ)) : Monotone (turn θ σ) := monotone_nat_of_le_succ (turn_succ_le hθ hσ)

theorem cos_turn (x : ℝ) (m : Nat) : Real.cos (turn θ σ m - x) = Real.cos (θ (σ (Fin.ofNat n m)) - x) := by
  unfold turn
  have : θ (σ (Fin.ofNat n m)) + 2 * Real.pi * ((m / n : Nat) : ℝ) - x = θ (σ (Fin.ofNat n m)) - x + ((m / n : Nat) : ℝ) * (2 * Real.pi) := by ring
  rw [this, Real.cos_add_nat_mul_two_pi]

theorem sin_turn (x : ℝ) (m : Nat) : Real.sin (turn θ σ m - x) = Real.sin (θ (σ (Fin.ofNat n m)) - x) := by
  unfold turn
  have : θ (σ (Fin.ofNat n m)) + 2 * Real.pi * ((m / n : Nat) : ℝ) - x = θ (σ (Fin.ofNat n m)) - x + ((m / n : Nat) : ℝ) * (2 * Real.pi) := by ring
  rw [this, Real.sin_add_nat_mul_two_pi]

/-- Every point comes once in each turn. -/
theorem turn_reach (k : Fin n) (m0 : Nat) : ∃ m, m0 ≤ m ∧ m < m0 + n ∧ σ (Fin.ofNat n m) = k := by
  have hn : 0 < n := Nat.pos_of_ne_zero (NeZero.ne n)
  have hi : ((σ.symm k : Fin n) : Nat) < n := (σ.symm k).2
  have h0 := Nat.mod_lt m0 hn
  have hm0 := Nat.mod_add_div m0 n
  by_cases h : m0 % n ≤ (σ.symm k : Fin n)
  · refine ⟨m0 + ((σ.symm k : Fin n) - m0 % n), by omega, by omega, ?_⟩
    have : Fin.ofNat n (m0 + ((σ.symm k : Fin n) - m0 % n)) = σ.symm k := by
      apply Fin.ext
      simp only [Fin.ofNat]
      have : m0 + ((σ.symm k : Fin n) - m0 % n) = (σ.symm k : Fin n) + n * (m0 / n) := by omega
      rw [this, Nat.add_mul_mod_self_left, Nat.mod_eq_of_lt hi]
    rw [this]
    simp
  · push Not at h
    refine ⟨m0 + ((σ.symm k : Fin n) + n - m0 % n), by omega, by omega, ?_⟩
    have : Fin.ofNat n (m0 + ((σ.symm k : Fin n) + n - m0 % n)) = σ.symm k := by
      apply Fin.ext
      simp only [Fin.ofNat]
      have : m0 + ((σ.symm k : Fin n) + n - m0 % n) = (σ.symm k : Fin n) + n * (m0 / n + 1) := by
        rw [Nat.mul_add, Nat.mul_one]
        omega
      rw [this, Nat.add_mul_mod_self_left, Nat.mod_eq_of_lt hi]
    rw [this]
    simp

/-- The gap after the angle number `m`. -/
noncomputable def gap (θ : Fin n → ℝ) (σ : Equiv.Perm (Fin n)) (m : Nat) : ℝ := turn θ σ (m + 1) - turn θ σ m

theorem sum_gap : ∑ m ∈ Finset.range n, gap θ σ m = 2 * Real.pi := by
  unfold gap
  rw [Finset.sum_range_sub (turn θ σ)]
  have := turn_add (θ := θ) (σ := σ) 0
  rw [zero_add] at this
  rw [this]
  ring

theorem gap_nonneg (hθ : ∀ k, θ k ∈ Ioc (-Real.pi) Real.pi) (hσ : Monotone (θ ∘ σ)) (m : Nat) : 0 ≤ gap θ σ m := sub_nonneg.2 (turn_succ_le hθ hσ m)

/-- If the points are on no open half of the circle, no gap is more than half of the circle. -/
theorem gap_le_pi (hθ : ∀ k, θ k ∈ Ioc (-Real.pi) Real.pi) (hσ : Monotone (θ ∘ σ)) (h : ∀ α, ∃ k, Real.cos (θ k - α) ≤ 0) (m : Nat) : gap θ σ m ≤ Real.pi := by
  by_contra hc
  push Not at hc
  unfold gap at hc
  obtain ⟨k, hk⟩ := h ((turn θ σ m + turn θ σ (m + 1)) / 2 + Real.pi)
  obtain ⟨m', h1, h2, h3⟩ := turn_reach (σ := σ) k (m + 1)
  rw [← h3, ← cos_turn, ← sub_sub, Real.cos_sub_pi] at hk
  have h4 := turn_mono hθ hσ h1
  have h5 : turn θ σ m' ≤ turn θ σ (m + n) := turn_mono hθ hσ (by omega)
  rw [turn_add] at h5
  have h6 : Real.cos (turn θ σ m' - (turn θ σ m + turn θ σ (m + 1)) / 2) < 0 := Real.cos_neg_of_pi_div_two_lt_of_lt (by linarith) (by linarith)
  linarith

/-- If the points are on an open half of the circle, one gap is more than half of the circle. -/
theorem gap_big {α : ℝ} (h : ∀ k, 0 < Real.cos (θ k - α)) : ∃ m < n, Real.pi < gap θ σ m := by
  have hn : 0 < n := Nat.pos_of_ne_zero (NeZero.ne n)
  have hp := Real.pi_pos
  by_contra hc
  push Not at hc
  -- a direction opposite to the points, seen after the first angle and during the first turn
  obtain ⟨β, hβ1, hβ2, hβ⟩ : ∃ β, turn θ σ 0 ≤ β ∧ β < turn θ σ 0 + 2 * Real.pi ∧ ∀ m, Real.cos (turn θ σ m - β) < 0 := by
    refine ⟨toIcoMod Real.two_pi_pos (turn θ σ 0) (α + Real.pi), (toIcoMod_mem_Ico _ _ _).1, (toIcoMod_mem_Ico _ _ _).2, fun m => ?_⟩
    rw [cos_turn]
    have : toIcoMod Real.two_pi_pos (turn θ σ 0) (α + Real.pi) = α + Real.pi - (toIcoDiv Real.two_pi_pos (turn θ σ 0) (α + Real.pi) : ℤ) • (2 * Real.pi) := rfl
    rw [this, zsmul_eq_mul]
    have e : ∀ (a : ℝ) (z : ℤ), a - (α + Real.pi - (z : ℝ) * (2 * Real.pi)) = a - α - Real.pi + (z : ℝ) * (2 * Real.pi) := by intro a z; ring
    rw [e, Real.cos_add_int_mul_two_pi, Real.cos_sub_pi]
    have := h (σ (Fin.ofNat n m))
    linarith
  obtain ⟨m, hm, h1, h2⟩ : ∃ m < n, turn θ σ m ≤ β ∧ β < turn θ σ (m + 1) := by
    have hex : ∃ m, β < turn θ σ m := ⟨n, by have := turn_add (θ := θ) (σ := σ) 0; rw [zero_add] at this; rw [this]; exact hβ2⟩
    classical
    have hf := Nat.find_spec hex
    have hpos : Nat.find hex ≠ 0 := fun h0 => by rw [h0] at hf; linarith
    have hle : Nat.find hex ≤ n := Nat.find_min' hex (by have := turn_add (θ := θ) (σ := σ) 0; rw [zero_add] at this; rw [this]; exact hβ2)
    refine ⟨Nat.find hex - 1, by omega, ?_, ?_⟩
    · have := Nat.find_min hex (m := Nat.find hex - 1) (by omega)
      exact not_lt.1 this
    · rw [Nat.sub_add_cancel (by omega)]
      exact hf
  have hg := hc m hm
  unfold gap at hg
  by_cases hh : β - turn θ σ m ≤ Real.pi / 2
  · have h3 := hβ m
    rw [← Real.cos_neg] at h3
    have := Real.cos_nonneg_of_neg_pi_div_two_le_of_le (x := -(turn θ σ m - β)) (by linarith) (by linarith)
    linarith
  · have h3 := hβ (m + 1)
    have := Real.cos_nonneg_of_neg_pi_div_two_le_of_le (x := turn θ σ (m + 1) - β) (by linarith) (by linarith)
    linarith

/-! ## The cells -/

/-- Points on a circle, by their angles from `a` towards `b`. -/
structure OnCircle (p : Fin n → Fin 3 → ℝ) (a b ν : Fin 3 → ℝ) (θ : Fin n → ℝ) : Prop where
  axes : Axes a b ν
  eq : ∀ k, p k = Real.cos (θ k) • a + Real.sin (θ k) • b

theorem Axes.expand {a b ν : Fin 3 → ℝ} (h : Axes a b ν) (x : Fin 3 → ℝ) : x = (x ⬝ᵥ a) • a + (x ⬝ᵥ b) • b + (x ⬝ᵥ ν) • ν := by
  let M : Matrix (Fin 3) (Fin 3) ℝ := ![a, b, ν]
  have h1 : M * Mᵀ = 1 := by
    ext i j
    rw [Matrix.mul_apply]
    change M i ⬝ᵥ M j = _
    fin_cases i <;> fin_cases j <;> simp [M, h.ee, h.ff, h.nn, h.ef, h.en, h.fn, dotProduct_comm b a, dotProduct_comm ν a, dotProduct_comm ν b]
  have h2 : Mᵀ * M = 1 := mul_eq_one_comm.1 h1
  have h3 : Mᵀ *ᵥ (M *ᵥ x) = x := by rw [Matrix.mulVec_mulVec, h2, Matrix.one_mulVec]
  conv_lhs => rw [← h3]
  funext c
  simp only [Matrix.mulVec, dotProduct, Fin.sum_univ_three, Pi.add_apply, Pi.smul_apply, smul_eq_mul]
  change a c * (a 0 * x 0 + a 1 * x 1 + a 2 * x 2) + b c * (b 0 * x 0 + b 1 * x 1 + b 2 * x 2) + ν c * (ν 0 * x 0 + ν 1 * x 1 + ν 2 * x 2) = _
  ring

/-- The area of the cell of the point at the angle number `m + 1`: the sum of the gaps at its sides. -/
theorem cellArea_circle (hn2 : 2 ≤ n) {p : Fin n → Fin 3 → ℝ} {a b ν f : Fin 3 → ℝ} (hc : OnCircle p a b ν θ) (hθ : ∀ k, θ k ∈ Ioc (-Real.pi) Real.pi)
    (hσ : Monotone (θ ∘ σ)) (m : Nat) (hL : 0 < gap θ σ m) (hR : 0 < gap θ σ (m + 1)) (ax : Axes (p (σ (Fin.ofNat n (m + 1)))) f ν) :
    cellArea p f ν (σ (Fin.ofNat n (m + 1))) = gap θ σ m + gap θ σ (m + 1) := by
  have hp := Real.pi_pos
  set j := σ (Fin.ofNat n (m + 1)) with hj
  have hu : ∀ k, p k ⬝ᵥ p k = 1 := by
    intro k
    rw [hc.eq k]
    simp only [add_dotProduct, smul_dotProduct, dotProduct_add, dotProduct_smul, smul_eq_mul, hc.axes.ee, hc.axes.ff, hc.axes.ef, dotProduct_comm b a]
    have := Real.sin_sq_add_cos_sq (θ k)
    nlinarith
  -- the side of `f`
  have hfx := hc.axes.expand f
  have hfn : f ⬝ᵥ ν = 0 := ax.fn
  rw [hfn, zero_smul, add_zero] at hfx
  have hff : (f ⬝ᵥ a) ^ 2 + (f ⬝ᵥ b) ^ 2 = 1 := by
    have := ax.ff
    rw [hfx] at this
    simp only [add_dotProduct, smul_dotProduct, dotProduct_add, dotProduct_smul, smul_eq_mul, hc.axes.ee, hc.axes.ff, hc.axes.ef, dotProduct_comm b a] at this
    nlinarith
  have hfj : (f ⬝ᵥ a) * Real.cos (θ j) + (f ⬝ᵥ b) * Real.sin (θ j) = 0 := by
    have := ax.ef
    rw [dotProduct_comm, hc.eq j] at this
    simp only [dotProduct_add, dotProduct_smul, smul_eq_mul] at this
    linarith
  set ε := (f ⬝ᵥ b) * Real.cos (θ j) - (f ⬝ᵥ a) * Real.sin (θ j) with hε
  have hsc := Real.sin_sq_add_cos_sq (θ j)
  have hfa : f ⬝ᵥ a = -(ε * Real.sin (θ j)) := by
    rw [hε]
    linear_combination (f ⬝ᵥ a) * (-hsc) + Real.cos (θ j) * hfj
  have hfb : f ⬝ᵥ b = ε * Real.cos (θ j) := by
    rw [hε]
    linear_combination (f ⬝ᵥ b) * (-hsc) + Real.sin (θ j) * hfj
  have hε2 : ε = 1 ∨ ε = -1 := by
    rw [← sq_eq_one_iff]
    rw [hfa, hfb] at hff
    linear_combination hff - ε ^ 2 * hsc
  have hf : f = ε • (-Real.sin (θ j) • a + Real.cos (θ j) • b) := by
    conv_lhs => rw [hfx, hfa, hfb]
    module
  -- the angles from the point `j`
  choose M hM1 hM2 hM3 using fun k => turn_reach (n := n) (σ := σ) k (m + 1)
  let e : Fin n → ℝ := fun k => turn θ σ (M k) - turn θ σ (m + 1)
  have hce : ∀ k, Real.cos (e k) = Real.cos (θ k - θ j) := by
    intro k
    simp only [e]
    rw [cos_turn, hM3, ← Real.cos_neg, neg_sub, cos_turn, ← hj, ← Real.cos_neg, neg_sub]
  have hse : ∀ k, Real.sin (e k) = Real.sin (θ k - θ j) := by
    intro k
    simp only [e]
    rw [sin_turn, hM3, ← neg_sub, Real.sin_neg, sin_turn, ← hj, ← Real.sin_neg, neg_sub]
  have hpe : ∀ k, p k = Real.cos (e k) • p j + Real.sin (e k) • (-Real.sin (θ j) • a + Real.cos (θ j) • b) := by
    intro k
    rw [hce, hse, hc.eq j, hc.eq k, Real.cos_sub, Real.sin_sub]
    funext c
    simp only [Pi.add_apply, Pi.smul_apply, smul_eq_mul]
    linear_combination (-(Real.cos (θ k) * a c + Real.sin (θ k) * b c)) * hsc
  have hmono := turn_mono hθ hσ
  have hlast : turn θ σ (m + n) = turn θ σ m + 2 * Real.pi := turn_add m
  have he : ∀ k, e k = 0 ∨ (gap θ σ (m + 1) ≤ e k ∧ e k ≤ 2 * Real.pi - gap θ σ m) := by
    intro k
    rcases Nat.eq_or_lt_of_le (hM1 k) with h | h
    · left
      simp only [e]
      rw [← h, sub_self]
    · right
      have h1 : turn θ σ (m + 1 + 1) ≤ turn θ σ (M k) := hmono (by omega)
      have h2 : turn θ σ (M k) ≤ turn θ σ (m + n) := hmono (by have := hM2 k; omega)
      simp only [e, gap]
      exact ⟨by linarith, by linarith⟩
  have hLR : gap θ σ m + gap θ σ (m + 1) ≤ 2 * Real.pi := by
    have h1 : turn θ σ (m + 1 + 1) ≤ turn θ σ (m + n) := hmono (by omega)
    simp only [gap]
    linarith
  have hmod : ∀ {x y : Nat}, m + 1 ≤ x → x < m + 1 + n → m + 1 ≤ y → y < m + 1 + n → Fin.ofNat n x = Fin.ofNat n y → x = y := by
    intro x y h1 h2 h3 h4 h
    have h5 := congrArg Fin.val h
    simp only [Fin.ofNat] at h5
    have h6 := Nat.mod_add_div x n
    have h7 := Nat.mod_add_div y n
    have h8 : x / n = y / n := by
      by_contra hne
      rcases Nat.lt_or_gt_of_ne hne with hlt | hlt
      · have := Nat.mul_le_mul_left n (Nat.succ_le_of_lt hlt)
        rw [Nat.mul_succ] at this
        omega
      · have := Nat.mul_le_mul_left n (Nat.succ_le_of_lt hlt)
        rw [Nat.mul_succ] at this
        omega
    rw [h8] at h6
    omega
  have her : ∃ k, e k = gap θ σ (m + 1) := by
    refine ⟨σ (Fin.ofNat n (m + 1 + 1)), ?_⟩
    have : M (σ (Fin.ofNat n (m + 1 + 1))) = m + 1 + 1 := hmod (hM1 _) (hM2 _) (by omega) (by omega) (σ.injective (hM3 _))
    simp only [e, this, gap]
  have hel : ∃ k, e k = 2 * Real.pi - gap θ σ m := by
    refine ⟨σ (Fin.ofNat n (m + n)), ?_⟩
    have : M (σ (Fin.ofNat n (m + n))) = m + n := hmod (hM1 _) (hM2 _) (by omega) (by omega) (σ.injective (hM3 _))
    simp only [e, this, gap, hlast]
    ring
  rcases hε2 with h1 | h1
  · rw [h1, one_smul] at hf
    exact cellArea_lune e hu (fun k => by rw [hf]; exact hpe k) ax hL hR hLR he her hel
  · rw [h1, neg_smul, one_smul] at hf
    rw [add_comm]
    refine cellArea_lune (fun k => 2 * Real.pi - e k - if e k = 0 then 2 * Real.pi else 0) hu (fun k => ?_) ax hR hL (by linarith) (fun k => ?_) ?_ ?_
    · rw [hf, smul_neg, ← neg_smul]
      have e1 : Real.cos (2 * Real.pi - e k - if e k = 0 then 2 * Real.pi else 0) = Real.cos (e k) := by
        split
        · rw [Real.cos_sub_two_pi, Real.cos_two_pi_sub]
        · rw [sub_zero, Real.cos_two_pi_sub]
      have e2 : Real.sin (2 * Real.pi - e k - if e k = 0 then 2 * Real.pi else 0) = -Real.sin (e k) := by
        split
        · rw [Real.sin_sub_two_pi, Real.sin_two_pi_sub]
        · rw [sub_zero, Real.sin_two_pi_sub]
      rw [e1, e2, neg_neg]
      exact hpe k
    · rcases he k with h | ⟨h2, h3⟩
      · left
        rw [if_pos h, h]
        ring
      · right
        rw [if_neg (by linarith)]
        exact ⟨by linarith, by linarith⟩
    · obtain ⟨k, hk⟩ := hel
      refine ⟨k, ?_⟩
      rw [hk, if_neg (by linarith)]
      ring
    · obtain ⟨k, hk⟩ := her
      refine ⟨k, ?_⟩
      rw [hk, if_neg (by linarith)]
      ring

end Verif.Sphere
