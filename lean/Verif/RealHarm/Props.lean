import Verif.RealHarm.Model
import Verif.DFT
import Mathlib.MeasureTheory.Integral.Bochner.ContinuousLinearMap
import Mathlib.MeasureTheory.Integral.Bochner.SumMeasure
import Mathlib.MeasureTheory.Measure.Count
import Mathlib.Analysis.SpecialFunctions.Trigonometric.Basic

namespace Verif.RealHarm

open Verif.Py MeasureTheory

/-! ## Specification -/

/-- Complex spherical harmonics: a real function of the colatitude times `exp(i m phi)`, where the function for `-m` is that for `m` times `(-1)^m`. -/
structure Separable (Y : ℤ → ℤ → ℝ → ℝ → ℂ) (P : ℤ → ℤ → ℝ → ℝ) : Prop where
  eq : ∀ n m theta phi, |m| ≤ n → Y n m theta phi = (P n m theta : ℂ) * Complex.exp (Complex.I * ((m : ℝ) * phi : ℝ))
  neg : ∀ n m theta, |m| ≤ n → P n (-m) theta = (-1 : ℝ) ^ m * P n m theta

/-- The real harmonics of the literature without the Condon-Shortley phase: cosines for positive orders, sines for negative orders. `P` is with the phase. -/
noncomputable def standard (P : ℤ → ℤ → ℝ → ℝ) (n m : ℤ) (theta phi : ℝ) : ℝ :=
  if m = 0 then P n 0 theta
  else if 0 < m then Real.sqrt 2 * ((-1 : ℝ) ^ m * P n m theta) * Real.cos (m * phi)
  else Real.sqrt 2 * ((-1 : ℝ) ^ m * P n (-m) theta) * Real.sin (-m * phi)

/-- Complex harmonics of the degrees in `D` that are orthonormal. -/
structure OrthonormalOn {S : Type*} [MeasurableSpace S] (mu : Measure S) (D : Set ℤ) (F : ℤ → ℤ → S → ℂ) : Prop where
  integrable : ∀ n ∈ D, ∀ n' ∈ D, ∀ m m', |m| ≤ n → |m'| ≤ n' → Integrable (fun s => F n m s * (starRingEnd ℂ) (F n' m' s)) mu
  inner : ∀ n ∈ D, ∀ n' ∈ D, ∀ m m', |m| ≤ n → |m'| ≤ n' → ∫ s, F n m s * (starRingEnd ℂ) (F n' m' s) ∂mu = if n = n' ∧ m = m' then 1 else 0

/-! ## Lemmas -/

theorem sign_sq (m : ℤ) : ((-1 : ℝ) ^ m) * ((-1 : ℝ) ^ m) = 1 := by
  rw [← mul_zpow]; norm_num

theorem sign_neg (m : ℤ) : (-1 : ℝ) ^ (-m) = (-1 : ℝ) ^ m := by
  rw [zpow_neg, ← inv_zpow]; norm_num

theorem separable_re {Y P} (h : Separable Y P) {n m : ℤ} (hm : |m| ≤ n) (theta phi : ℝ) : (Y n m theta phi).re = P n m theta * Real.cos (m * phi) := by
  rw [h.eq n m theta phi hm, Complex.re_ofReal_mul, mul_comm Complex.I, Complex.exp_ofReal_mul_I_re]

theorem separable_im {Y P} (h : Separable Y P) {n m : ℤ} (hm : |m| ≤ n) (theta phi : ℝ) : (Y n m theta phi).im = P n m theta * Real.sin (m * phi) := by
  rw [h.eq n m theta phi hm, Complex.im_ofReal_mul, mul_comm Complex.I, Complex.exp_ofReal_mul_I_im]

/-! ## Theorems -/

/-- It raises exactly for a negative degree or an order beyond the degree. -/
theorem C113_raises (Y : ℤ → ℤ → ℝ → ℝ → ℂ) (n m : ℤ) (theta phi : ℝ) (cs : Bool) :
    (realSphHarm Y n m theta phi cs = .error .assertionError ↔ n < |m|) ∧ (|m| ≤ n → ∃ v, realSphHarm Y n m theta phi cs = .ok v) := by
  unfold realSphHarm
  have hv : valid n m ↔ |m| ≤ n := ⟨fun h => h.2, fun h => ⟨(abs_nonneg m).trans h, h⟩⟩
  constructor
  · by_cases h : valid n m
    · rw [if_pos h]
      have := hv.mp h
      simp
      omega
    · rw [if_neg h]
      rw [hv] at h
      simp
      omega
  · intro h
    rw [if_pos (hv.mpr h)]
    exact ⟨_, rfl⟩

/-- Without the Condon-Shortley phase these are the real harmonics of the literature. -/
theorem C113_standard {Y P} (h : Separable Y P) {n m : ℤ} (hm : |m| ≤ n) (theta phi : ℝ) :
    realSphHarm Y n m theta phi false = .ok (standard P n m theta phi) := by
  unfold realSphHarm
  rw [if_pos ⟨(abs_nonneg m).trans hm, hm⟩]
  simp only [Bool.false_eq_true, if_false]
  unfold standard flipped scaled part
  rcases lt_trichotomy m 0 with h0 | h0 | h0
  · rw [if_neg (by omega : ¬0 ≤ m), if_pos h0.ne, if_neg h0.ne, if_neg (by omega : ¬0 < m), separable_im h hm]
    have h1 := h.neg n (-m) theta (by rwa [abs_neg])
    rw [neg_neg, sign_neg] at h1
    have h2 : Real.sin (-(m : ℝ) * phi) = -Real.sin (m * phi) := by rw [neg_mul, Real.sin_neg]
    rw [h1, h2]
    by_cases h3 : m % 2 = 0
    · rw [if_pos ⟨h0, h3⟩]
      have h4 : (-1 : ℝ) ^ m = 1 := Even.neg_one_zpow (Int.even_iff.mpr h3)
      rw [h4]
      ring
    · rw [if_neg (fun h => h3 h.2)]
      have h4 : (-1 : ℝ) ^ m = -1 := Odd.neg_one_zpow (Int.odd_iff.mpr (by omega))
      rw [h4]
      ring
  · subst h0
    rw [if_neg (by omega), if_neg (by simp), if_pos le_rfl, if_pos rfl, separable_re h hm]
    simp
  · rw [if_neg (by omega), if_pos h0.ne', if_pos h0.le, if_neg h0.ne', if_pos h0, separable_re h hm]
    ring

/-- What the function does in terms of complex harmonics. -/
theorem real_eq (y z : ℂ) (m : ℤ) (hm : 0 < m) (hz : z = (((-1 : ℝ) ^ m : ℝ) : ℂ) * (starRingEnd ℂ) y) :
    ((flipped m (scaled m (part m y)) : ℝ) : ℂ) = (1 / (Real.sqrt 2 : ℂ)) * ((((-1 : ℝ) ^ m : ℝ) : ℂ) * y + z) ∧
      ((flipped (-m) (scaled (-m) (part (-m) z)) : ℝ) : ℂ) = (1 / ((Real.sqrt 2 : ℂ) * Complex.I)) * ((((-1 : ℝ) ^ m : ℝ) : ℂ) * y - z) := by
  have hs : (Real.sqrt 2 : ℂ) * (Real.sqrt 2 : ℂ) = 2 := by
    rw [← Complex.ofReal_mul, Real.mul_self_sqrt (by norm_num)]
    norm_num
  have hs0 : (Real.sqrt 2 : ℂ) ≠ 0 := by
    intro h
    rw [h] at hs
    norm_num at hs
  constructor
  · unfold flipped scaled part
    rw [if_neg (by omega), if_pos hm.ne', if_pos hm.le, hz, ← mul_add, Complex.add_conj]
    push_cast
    field_simp
    rw [pow_two, hs]
  · have himz : z.im = -((-1 : ℝ) ^ m * y.im) := by
      rw [hz, Complex.im_ofReal_mul, Complex.conj_im]
      ring
    have hsgn : (-1 : ℝ) ^ m * (-1 : ℝ) ^ m = 1 := sign_sq m
    have hreal : flipped (-m) (scaled (-m) (part (-m) z)) = Real.sqrt 2 * ((-1 : ℝ) ^ m * y.im) := by
      unfold flipped scaled part
      rw [if_neg (by omega : ¬0 ≤ -m), if_pos (by omega : -m ≠ 0), himz, sign_neg]
      by_cases h3 : (-m) % 2 = 0
      · rw [if_pos ⟨by omega, h3⟩]
        have h4 : (-1 : ℝ) ^ m = 1 := Even.neg_one_zpow (Int.even_iff.mpr (by omega))
        rw [h4]
        ring
      · rw [if_neg (fun h => h3 h.2)]
        have h4 : (-1 : ℝ) ^ m = -1 := Odd.neg_one_zpow (Int.odd_iff.mpr (by omega))
        rw [h4]
        ring
    rw [hreal, hz, ← mul_sub, Complex.sub_conj]
    have hI : Complex.I ≠ 0 := Complex.I_ne_zero
    push_cast
    field_simp
    rw [pow_two, hs]
    ring

/-- One over the root of two. -/
noncomputable def q : ℂ := ((1 / Real.sqrt 2 : ℝ) : ℂ)

theorem q_sq : q * q = 1 / 2 := by
  unfold q
  rw [← Complex.ofReal_mul, div_mul_div_comm, Real.mul_self_sqrt (by norm_num)]
  norm_num

theorem q_conj : (starRingEnd ℂ) q = q := Complex.conj_ofReal _

/-- Two coefficients for a real harmonic. -/
theorem real_combination {S : Type*} {F : ℤ → ℤ → S → ℂ} (hF : ∀ n m s, |m| ≤ n → F n (-m) s = (((-1 : ℝ) ^ m : ℝ) : ℂ) * (starRingEnd ℂ) (F n m s)) (m : ℤ) :
    ∃ a b : ℂ, (m = 0 → a = 1 ∧ b = 0) ∧ (0 < m → a = (((-1 : ℝ) ^ |m| : ℝ) : ℂ) * q ∧ b = q) ∧
      (m < 0 → a = -(Complex.I * (((-1 : ℝ) ^ |m| : ℝ) : ℂ) * q) ∧ b = Complex.I * q) ∧
      ∀ n s, |m| ≤ n → ((flipped m (scaled m (part m (F n m s))) : ℝ) : ℂ) = a * F n |m| s + b * F n (-|m|) s := by
  rcases lt_trichotomy m 0 with h0 | h0 | h0
  · refine ⟨_, _, fun h => absurd h h0.ne, fun h => absurd h (by omega), fun _ => ⟨rfl, rfl⟩, ?_⟩
    intro n s hn
    have := (real_eq (F n |m| s) (F n (-|m|) s) |m| (abs_pos.mpr h0.ne) (hF n |m| s (by rwa [abs_abs]))).2
    rw [abs_of_neg h0, neg_neg] at this ⊢
    have hq : 1 / ((Real.sqrt 2 : ℂ) * Complex.I) = -(Complex.I * q) := by
      unfold q
      rw [one_div, mul_inv, Complex.inv_I]
      push_cast
      ring
    rw [this, hq]
    ring
  · subst h0
    refine ⟨1, 0, fun _ => ⟨rfl, rfl⟩, fun h => absurd h (lt_irrefl _), fun h => absurd h (lt_irrefl _), ?_⟩
    intro n s hn
    have hre : ((F n 0 s).re : ℂ) = F n 0 s := by
      have := hF n 0 s hn
      simp at this
      exact Complex.conj_eq_iff_re.mp this.symm
    unfold flipped scaled part
    simp [hre]
  · refine ⟨_, _, fun h => absurd h h0.ne', fun _ => ⟨rfl, rfl⟩, fun h => absurd h (by omega), ?_⟩
    intro n s hn
    have := (real_eq (F n |m| s) (F n (-|m|) s) |m| (abs_pos.mpr h0.ne') (hF n |m| s (by rwa [abs_abs]))).1
    rw [abs_of_pos h0] at this ⊢
    have hq : 1 / (Real.sqrt 2 : ℂ) = q := by
      unfold q
      push_cast
      rfl
    rw [this, hq]
    ring

theorem combination_integral {S : Type*} [MeasurableSpace S] {mu : Measure S} {D : Set ℤ} {F : ℤ → ℤ → S → ℂ} (h : OrthonormalOn mu D F) {n n' k k' : ℤ} (hn : n ∈ D) (hn' : n' ∈ D)
    (hk : |k| ≤ n) (hk' : |k'| ≤ n') (a b c d : ℂ) :
    ∫ s, (a * F n k s + b * F n (-k) s) * (starRingEnd ℂ) (c * F n' k' s + d * F n' (-k') s) ∂mu =
      a * (starRingEnd ℂ) c * (if n = n' ∧ k = k' then 1 else 0) + a * (starRingEnd ℂ) d * (if n = n' ∧ k = -k' then 1 else 0) +
        b * (starRingEnd ℂ) c * (if n = n' ∧ -k = k' then 1 else 0) + b * (starRingEnd ℂ) d * (if n = n' ∧ -k = -k' then 1 else 0) := by
  have hk2 : |-k| ≤ n := by rwa [abs_neg]
  have hk2' : |-k'| ≤ n' := by rwa [abs_neg]
  have e : ∀ s, (a * F n k s + b * F n (-k) s) * (starRingEnd ℂ) (c * F n' k' s + d * F n' (-k') s) =
      a * (starRingEnd ℂ) c * (F n k s * (starRingEnd ℂ) (F n' k' s)) + a * (starRingEnd ℂ) d * (F n k s * (starRingEnd ℂ) (F n' (-k') s)) +
        b * (starRingEnd ℂ) c * (F n (-k) s * (starRingEnd ℂ) (F n' k' s)) + b * (starRingEnd ℂ) d * (F n (-k) s * (starRingEnd ℂ) (F n' (-k') s)) := by
    intro s
    rw [map_add, map_mul, map_mul]
    ring
  simp only [e]
  have i1 := (h.integrable n hn n' hn' k k' hk hk').const_mul (a * (starRingEnd ℂ) c)
  have i2 := (h.integrable n hn n' hn' k (-k') hk hk2').const_mul (a * (starRingEnd ℂ) d)
  have i3 := (h.integrable n hn n' hn' (-k) k' hk2 hk').const_mul (b * (starRingEnd ℂ) c)
  have i4 := (h.integrable n hn n' hn' (-k) (-k') hk2 hk2').const_mul (b * (starRingEnd ℂ) d)
  have e1 := integral_add ((i1.add i2).add i3) i4
  have e2 := integral_add (i1.add i2) i3
  have e3 := integral_add i1 i2
  simp only [Pi.add_apply] at e1 e2 e3
  rw [e1, e2, e3]
  simp only [integral_const_mul]
  rw [h.inner n hn n' hn' k k' hk hk', h.inner n hn n' hn' k (-k') hk hk2', h.inner n hn n' hn' (-k) k' hk2 hk', h.inner n hn n' hn' (-k) (-k') hk2 hk2']

/-- The real harmonics are orthonormal if the complex ones are (for every measure, for example the area of the sphere). -/
theorem C113_orthonormal {S : Type*} [MeasurableSpace S] {mu : Measure S} {D : Set ℤ} (Y : ℤ → ℤ → ℝ → ℝ → ℂ) (theta phi : S → ℝ)
    (hY : ∀ n m t p, |m| ≤ n → Y n (-m) t p = (((-1 : ℝ) ^ m : ℝ) : ℂ) * (starRingEnd ℂ) (Y n m t p))
    (h : OrthonormalOn mu D fun n m s => Y n m (theta s) (phi s)) {n n' m m' : ℤ} (hn : n ∈ D) (hn' : n' ∈ D) (hm : |m| ≤ n) (hm' : |m'| ≤ n') :
    ∃ y y' : S → ℝ, (∀ s, realSphHarm Y n m (theta s) (phi s) false = .ok (y s)) ∧ (∀ s, realSphHarm Y n' m' (theta s) (phi s) false = .ok (y' s)) ∧
      ∫ s, y s * y' s ∂mu = if n = n' ∧ m = m' then 1 else 0 := by
  set F : ℤ → ℤ → S → ℂ := fun n m s => Y n m (theta s) (phi s) with hFd
  have hF : ∀ n m s, |m| ≤ n → F n (-m) s = (((-1 : ℝ) ^ m : ℝ) : ℂ) * (starRingEnd ℂ) (F n m s) := fun n m s hm => hY n m _ _ hm
  have hok : ∀ n m, |m| ≤ n → ∀ s, realSphHarm Y n m (theta s) (phi s) false = .ok (flipped m (scaled m (part m (F n m s)))) := by
    intro n m hm s
    unfold realSphHarm
    rw [if_pos ⟨(abs_nonneg m).trans hm, hm⟩]
    rfl
  refine ⟨_, _, hok n m hm, hok n' m' hm', ?_⟩
  obtain ⟨a, b, h0, hp, hg, hab⟩ := real_combination hF m
  obtain ⟨c, d, h0', hp', hg', hcd⟩ := real_combination hF m'
  have key := combination_integral h hn hn' (k := |m|) (k' := |m'|) (by rwa [abs_abs]) (by rwa [abs_abs]) a b c d
  have hint : ((∫ s, flipped m (scaled m (part m (F n m s))) * flipped m' (scaled m' (part m' (F n' m' s))) ∂mu : ℝ) : ℂ) =
      ∫ s, (a * F n |m| s + b * F n (-|m|) s) * (starRingEnd ℂ) (c * F n' |m'| s + d * F n' (-|m'|) s) ∂mu := by
    rw [← integral_complex_ofReal]
    congr 1
    funext s
    rw [← hab n s hm, ← hcd n' s hm', Complex.conj_ofReal, Complex.ofReal_mul]
  rw [key] at hint
  have hq := q_sq
  have hsg : ∀ k : ℤ, ((((-1 : ℝ) ^ k : ℝ) : ℂ)) * (((-1 : ℝ) ^ k : ℝ) : ℂ) = 1 := by
    intro k
    rw [← Complex.ofReal_mul, sign_sq, Complex.ofReal_one]
  apply Complex.ofReal_injective
  rw [hint]
  by_cases hnn : n = n'
  · subst hnn
    simp only [true_and]
    rcases lt_trichotomy m 0 with hm0 | hm0 | hm0 <;> rcases lt_trichotomy m' 0 with hm0' | hm0' | hm0'
    · obtain ⟨rfl, rfl⟩ := hg hm0
      obtain ⟨rfl, rfl⟩ := hg' hm0'
      rw [abs_of_neg hm0, abs_of_neg hm0', if_neg (by omega : ¬-m = - -m'), if_neg (by omega : ¬- -m = -m')]
      by_cases hmm : m = m'
      · subst hmm
        rw [if_pos rfl, if_pos rfl, if_pos rfl]
        simp only [map_mul, map_neg, Complex.conj_ofReal, Complex.conj_I, q_conj, Complex.ofReal_one]
        have hh := hsg (-m)
        generalize (((-1 : ℝ) ^ (-m) : ℝ) : ℂ) = e at hh ⊢
        linear_combination (-(Complex.I * Complex.I) * q * q) * hh - 2 * (Complex.I * Complex.I) * hq - Complex.I_mul_I
      · rw [if_neg (by omega), if_neg (by omega), if_neg hmm]
        simp
    · obtain ⟨rfl, rfl⟩ := hg hm0
      obtain ⟨rfl, rfl⟩ := h0' hm0'
      subst hm0'
      rw [abs_of_neg hm0, abs_zero, if_neg (by omega), if_neg (by omega), if_neg (by omega), if_neg (by omega), if_neg (by omega)]
      simp
    · obtain ⟨rfl, rfl⟩ := hg hm0
      obtain ⟨rfl, rfl⟩ := hp' hm0'
      rw [abs_of_neg hm0, abs_of_pos hm0', if_neg (by omega : ¬-m = -m'), if_neg (by omega : ¬- -m = m'), if_neg (by omega : ¬m = m')]
      by_cases hmm : -m = m'
      · subst hmm
        rw [if_pos rfl, if_pos rfl]
        simp only [map_mul, Complex.conj_ofReal, q_conj, Complex.ofReal_zero]
        have hh := hsg (-m)
        generalize (((-1 : ℝ) ^ (-m) : ℝ) : ℂ) = e at hh ⊢
        linear_combination (-(Complex.I * q * q)) * hh
      · rw [if_neg hmm, if_neg (by omega)]
        simp
    · obtain ⟨rfl, rfl⟩ := h0 hm0
      obtain ⟨rfl, rfl⟩ := hg' hm0'
      subst hm0
      rw [abs_of_neg hm0', abs_zero, if_neg (by omega), if_neg (by omega), if_neg (by omega), if_neg (by omega), if_neg (by omega)]
      simp
    · obtain ⟨rfl, rfl⟩ := h0 hm0
      obtain ⟨rfl, rfl⟩ := h0' hm0'
      subst hm0 hm0'
      simp
    · obtain ⟨rfl, rfl⟩ := h0 hm0
      obtain ⟨rfl, rfl⟩ := hp' hm0'
      subst hm0
      rw [abs_of_pos hm0', abs_zero, if_neg (by omega), if_neg (by omega), if_neg (by omega), if_neg (by omega), if_neg (by omega)]
      simp
    · obtain ⟨rfl, rfl⟩ := hp hm0
      obtain ⟨rfl, rfl⟩ := hg' hm0'
      rw [abs_of_pos hm0, abs_of_neg hm0', if_neg (by omega : ¬m = - -m'), if_neg (by omega : ¬-m = -m'), if_neg (by omega : ¬m = m')]
      by_cases hmm : m = -m'
      · subst hmm
        rw [if_pos rfl, if_pos rfl]
        simp only [map_mul, map_neg, Complex.conj_ofReal, Complex.conj_I, q_conj, Complex.ofReal_zero]
        have hh := hsg (-m')
        generalize (((-1 : ℝ) ^ (-m') : ℝ) : ℂ) = e at hh ⊢
        linear_combination (Complex.I * q * q) * hh
      · rw [if_neg hmm, if_neg (by omega)]
        simp
    · obtain ⟨rfl, rfl⟩ := hp hm0
      obtain ⟨rfl, rfl⟩ := h0' hm0'
      subst hm0'
      rw [abs_of_pos hm0, abs_zero, if_neg (by omega), if_neg (by omega), if_neg (by omega), if_neg (by omega), if_neg (by omega)]
      simp
    · obtain ⟨rfl, rfl⟩ := hp hm0
      obtain ⟨rfl, rfl⟩ := hp' hm0'
      rw [abs_of_pos hm0, abs_of_pos hm0', if_neg (by omega : ¬m = -m'), if_neg (by omega : ¬-m = m')]
      by_cases hmm : m = m'
      · subst hmm
        rw [if_pos rfl, if_pos rfl, if_pos rfl]
        simp only [map_mul, Complex.conj_ofReal, q_conj, Complex.ofReal_one]
        have hh := hsg m
        generalize (((-1 : ℝ) ^ m : ℝ) : ℂ) = e at hh ⊢
        linear_combination (q * q) * hh + 2 * hq
      · rw [if_neg hmm, if_neg (by omega), if_neg hmm]
        simp
  · simp [hnn]

/-- With the phase the harmonics of nonzero order are not normalised: they are the others times `(-1)^m / sqrt(2)` for positive orders and times `-1 / sqrt(2)` for negative orders
(also for the even ones, where the phase is one). -/
theorem C113_phase_deviation (Y : ℤ → ℤ → ℝ → ℝ → ℂ) {n m : ℤ} (hm : |m| ≤ n) (theta phi : ℝ) : ∃ v y, realSphHarm Y n m theta phi true = .ok v ∧
    realSphHarm Y n m theta phi false = .ok y ∧ (m = 0 → v = y) ∧ (0 < m → v = (-1 : ℝ) ^ m / Real.sqrt 2 * y) ∧ (m < 0 → v = -1 / Real.sqrt 2 * y) := by
  have hs : Real.sqrt 2 * Real.sqrt 2 = 2 := Real.mul_self_sqrt (by norm_num)
  have hs0 : Real.sqrt 2 ≠ 0 := by positivity
  unfold realSphHarm
  rw [if_pos (show valid n m from ⟨(abs_nonneg m).trans hm, hm⟩), if_pos (show valid n m from ⟨(abs_nonneg m).trans hm, hm⟩)]
  refine ⟨_, _, rfl, rfl, ?_, ?_, ?_⟩
  · intro h
    subst h
    simp [flipped, scaled]
  · intro h
    simp only [if_true, Bool.false_eq_true, if_false]
    unfold flipped scaled
    rw [if_neg (by omega), if_pos h.ne']
    have := sign_sq m
    field_simp
    linear_combination (-(part m (Y n m theta phi))) * this
  · intro h
    simp only [if_true, Bool.false_eq_true, if_false]
    unfold flipped scaled
    rw [if_pos h.ne]
    by_cases h3 : m % 2 = 0
    · rw [if_pos ⟨h, h3⟩, Even.neg_one_zpow (Int.even_iff.mpr h3)]
      field_simp
    · rw [if_neg (fun h => h3 h.2), Odd.neg_one_zpow (Int.odd_iff.mpr (by omega))]
      field_simp

/-- The energy with the phase is one half. -/
theorem C113_phase_energy_deviation {S : Type*} [MeasurableSpace S] {mu : Measure S} {D : Set ℤ} (Y : ℤ → ℤ → ℝ → ℝ → ℂ) (theta phi : S → ℝ)
    (hY : ∀ n m t p, |m| ≤ n → Y n (-m) t p = (((-1 : ℝ) ^ m : ℝ) : ℂ) * (starRingEnd ℂ) (Y n m t p))
    (h : OrthonormalOn mu D fun n m s => Y n m (theta s) (phi s)) {n m : ℤ} (hn : n ∈ D) (hm : |m| ≤ n) (h0 : m ≠ 0) :
    ∃ v : S → ℝ, (∀ s, realSphHarm Y n m (theta s) (phi s) true = .ok (v s)) ∧ ∫ s, v s ^ 2 ∂mu = 1 / 2 := by
  obtain ⟨y, y', h1, h2, h3⟩ := C113_orthonormal Y theta phi hY h hn hn hm hm
  have hyy : y' = y := by
    funext s
    have := h1 s
    rw [h2 s] at this
    exact Except.ok.inj this
  rw [hyy, if_pos ⟨rfl, rfl⟩] at h3
  choose v y2 hv hy2 hz hp hneg using fun s => C113_phase_deviation Y hm (theta s) (phi s)
  have hy : y2 = y := by
    funext s
    have := h1 s
    rw [hy2 s] at this
    exact Except.ok.inj this
  refine ⟨v, hv, ?_⟩
  have hsq : ∀ s, v s ^ 2 = 1 / 2 * (y s * y s) := by
    intro s
    have hs : Real.sqrt 2 ^ 2 = 2 := Real.sq_sqrt (by norm_num)
    rw [← hy]
    rcases lt_or_gt_of_ne h0 with h4 | h4
    · rw [hneg s h4, mul_pow, div_pow, hs]
      ring
    · have := sign_sq m
      rw [hp s h4, mul_pow, div_pow, hs, pow_two ((-1 : ℝ) ^ m), this]
      ring
  simp only [hsq]
  rw [integral_const_mul, h3, mul_one]

/-- The response of the directivity: the harmonic at every direction, a signed number, whatever the frequency. -/
theorem C113_response {Y P} (h : Separable Y P) {n m : ℤ} (hm : |m| ≤ n) (azimuth colatitude : List ℝ) (degrees : Bool) :
    getResponse Y m n false azimuth colatitude degrees =
      .ok ((List.zip azimuth colatitude).map fun p => [if degrees then standard P n m (p.2 * Real.pi / 180) (p.1 * Real.pi / 180) else standard P n m p.2 p.1]) := by
  unfold getResponse
  induction List.zip azimuth colatitude with
  | nil => rfl
  | cons p t ih =>
    rw [List.mapM_cons, ih]
    rw [C113_standard h hm]
    cases degrees <;> rfl

/-! ## Examples -/

open DFT in
/-- Three points on a circle: the harmonics of degree one are orthonormal there. -/
noncomputable def circle (_ m : ℤ) (_ p : ℝ) : ℂ := ((if m < 0 then (-1 : ℝ) ^ m else 1) / Real.sqrt 3 : ℝ) * Complex.exp (Complex.I * ((m : ℝ) * p : ℝ))

theorem circle_separable : Separable circle (fun _ m _ => (if m < 0 then (-1 : ℝ) ^ m else 1) / Real.sqrt 3) := by
  refine ⟨fun n m t p _ => rfl, ?_⟩
  intro n m t _
  have := sign_sq m
  rcases lt_trichotomy m 0 with h | h | h
  · rw [if_neg (by omega), if_pos h, ← mul_div_assoc, this]
  · subst h; simp
  · rw [if_pos (by omega), if_neg (by omega), sign_neg, mul_one_div]

theorem circle_neg (n m : ℤ) (t p : ℝ) : circle n (-m) t p = (((-1 : ℝ) ^ m : ℝ) : ℂ) * (starRingEnd ℂ) (circle n m t p) := by
  unfold circle
  have hP := circle_separable.neg |m| m 0 le_rfl
  rw [hP, map_mul, Complex.conj_ofReal, ← Complex.exp_conj, map_mul, Complex.conj_I, Complex.conj_ofReal, Complex.ofReal_mul, mul_assoc]
  congr 3
  push_cast
  ring

theorem circle_orthonormal : OrthonormalOn (Measure.count : Measure (Fin 3)) {1} (fun n m s => circle n m 0 (2 * Real.pi * (s : ℕ) / 3)) := by
  refine ⟨fun _ _ _ _ _ _ _ _ => Integrable.of_finite, ?_⟩
  intro n hn n' hn' m m' hm hm'
  rw [Set.mem_singleton_iff] at hn hn'
  subst hn hn'
  rw [integral_count]
  have hterm : ∀ s : Fin 3, circle 1 m 0 (2 * Real.pi * (s : ℕ) / 3) * (starRingEnd ℂ) (circle 1 m' 0 (2 * Real.pi * (s : ℕ) / 3)) =
      (((if m < 0 then (-1 : ℝ) ^ m else 1) * (if m' < 0 then (-1 : ℝ) ^ m' else 1) / 3 : ℝ) : ℂ) * DFT.tw 3 ((m - m') * (s : ℕ)) := by
    intro s
    unfold circle DFT.tw
    have h3 : Real.sqrt 3 * Real.sqrt 3 = 3 := Real.mul_self_sqrt (by norm_num)
    rw [map_mul, Complex.conj_ofReal, ← Complex.exp_conj, mul_mul_mul_comm, ← Complex.ofReal_mul, div_mul_div_comm, h3, ← Complex.exp_add, map_mul, Complex.conj_I, Complex.conj_ofReal]
    congr 2
    push_cast
    ring
  simp only [hterm]
  rw [← Finset.mul_sum, Fin.sum_univ_eq_sum_range (fun s => DFT.tw 3 ((m - m') * (s : ℕ))) 3, DFT.sum_tw (by norm_num)]
  rw [abs_le] at hm hm'
  by_cases h : m = m'
  · subst h
    rw [if_pos (show ((3 : ℕ) : ℤ) ∣ m - m by simp), if_pos (show True ∧ m = m from ⟨trivial, rfl⟩)]
    have := sign_sq m
    split
    · rw [this]; norm_num
    · norm_num
  · rw [if_neg (show ¬(True ∧ m = m') from fun hh => h hh.2)]
    by_cases h2 : ((3 : ℕ) : ℤ) ∣ m - m'
    · exfalso
      have := Int.eq_zero_of_abs_lt_dvd h2 (by rw [abs_lt]; constructor <;> push_cast <;> omega)
      omega
    · rw [if_neg h2, mul_zero]

example : ∃ y y' : Fin 3 → ℝ, (∀ s, realSphHarm circle 1 (-1) 0 (2 * Real.pi * ((s : Fin 3) : ℕ) / 3) false = .ok (y s)) ∧
    (∀ s, realSphHarm circle 1 1 0 (2 * Real.pi * ((s : Fin 3) : ℕ) / 3) false = .ok (y' s)) ∧ ∫ s, y s * y' s ∂(Measure.count : Measure (Fin 3)) = 0 := by
  obtain ⟨y, y', h1, h2, h3⟩ := C113_orthonormal (S := Fin 3) circle (fun _ => 0) (fun s => 2 * Real.pi * (s : ℕ) / 3) (fun n m t p _ => circle_neg n m t p) circle_orthonormal
    (n := 1) (n' := 1) (m := -1) (m' := 1) rfl rfl (by norm_num) (by norm_num)
  exact ⟨y, y', h1, h2, by rw [h3]; norm_num⟩

example : ∃ v : Fin 3 → ℝ, (∀ s, realSphHarm circle 1 1 0 (2 * Real.pi * ((s : Fin 3) : ℕ) / 3) true = .ok (v s)) ∧ ∫ s, v s ^ 2 ∂(Measure.count : Measure (Fin 3)) = 1 / 2 :=
  C113_phase_energy_deviation (S := Fin 3) circle (fun _ => 0) (fun s => 2 * Real.pi * (s : ℕ) / 3) (fun n m t p _ => circle_neg n m t p) circle_orthonormal
    (n := 1) (m := 1) rfl (by norm_num) (by norm_num)

example : realSphHarm circle 1 (-1) 0 0 false = .ok (standard (fun _ m _ => (if m < 0 then (-1 : ℝ) ^ m else 1) / Real.sqrt 3) 1 (-1) 0 0) := C113_standard circle_separable (by norm_num) 0 0

example : realSphHarm circle 1 2 0 0 false = .error .assertionError := (C113_raises circle 1 2 0 0 false).1.mpr (by norm_num)

example : ∃ v y, realSphHarm circle 2 (-2) 0 1 true = .ok v ∧ realSphHarm circle 2 (-2) 0 1 false = .ok y ∧ v = -1 / Real.sqrt 2 * y := by
  obtain ⟨v, y, h1, h2, _, _, h3⟩ := C113_phase_deviation circle (n := 2) (m := -2) (by norm_num) 0 1
  exact ⟨v, y, h1, h2, h3 (by norm_num)⟩

example : getResponse circle 1 1 false [180] [90] true = .ok [[standard (fun _ m _ => (if m < 0 then (-1 : ℝ) ^ m else 1) / Real.sqrt 3) 1 1 (90 * Real.pi / 180) (180 * Real.pi / 180)]] :=
  C113_response circle_separable (by norm_num) [180] [90] true

end Verif.RealHarm
