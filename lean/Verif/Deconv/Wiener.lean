import Verif.Deconv.Props
import Mathlib.Analysis.InnerProductSpace.PiL2
import Mathlib.Analysis.InnerProductSpace.Projection.FiniteDimensional

/-!
# C103: deconvolution with Wiener filters
-/

namespace Verif.Deconv

open Verif.Py Verif.DFT Finset

/-- The residual of complex linear equations. -/
noncomputable def residual (K : Nat) {J : Nat} (G : Nat → Fin J → ℂ) (Y : Nat → ℂ) (w : Fin J → ℂ) : ℝ := ∑ k ∈ range K, ‖∑ j, G k j * w j - Y k‖ ^ 2

/-- `np.linalg.lstsq`: of the weights with the smallest residual, those with the smallest norm. -/
structure IsLstsq (lstsq : (K J : Nat) → (Nat → Fin J → ℂ) → (Nat → ℂ) → Fin J → ℂ) : Prop where
  least : ∀ (K J : Nat) (G : Nat → Fin J → ℂ) (Y : Nat → ℂ) (w : Fin J → ℂ), residual K G Y (lstsq K J G Y) ≤ residual K G Y w
  short : ∀ (K J : Nat) (G : Nat → Fin J → ℂ) (Y : Nat → ℂ) (w : Fin J → ℂ), (∀ v, residual K G Y w ≤ residual K G Y v) → ∑ j, ‖lstsq K J G Y j‖ ^ 2 ≤ ∑ j, ‖w j‖ ^ 2

/-- The point of least squares with the smallest norm, for a linear map. -/
theorem exists_least {E F : Type} [NormedAddCommGroup E] [InnerProductSpace ℂ E] [FiniteDimensional ℂ E] [NormedAddCommGroup F] [InnerProductSpace ℂ F] [FiniteDimensional ℂ F]
    (A : E →ₗ[ℂ] F) (b : F) : ∃ x : E, (∀ y, ‖A x - b‖ ^ 2 ≤ ‖A y - b‖ ^ 2) ∧ ∀ y, (∀ z, ‖A y - b‖ ^ 2 ≤ ‖A z - b‖ ^ 2) → ‖x‖ ^ 2 ≤ ‖y‖ ^ 2 := by
  obtain ⟨w, ⟨x0, rfl⟩, hw⟩ := Submodule.HasOrthogonalProjection.exists_orthogonal (K := LinearMap.range A) b
  obtain ⟨k, hk, hx⟩ := Submodule.HasOrthogonalProjection.exists_orthogonal (K := LinearMap.ker A) x0
  have hAk : A k = 0 := hk
  have hAx : A (x0 - k) = A x0 := by rw [map_sub, hAk, sub_zero]
  have hpy : ∀ y, ‖A y - b‖ ^ 2 = ‖A y - A x0‖ ^ 2 + ‖A x0 - b‖ ^ 2 := by
    intro y
    have h0 : inner ℂ (A y - A x0) (A x0 - b) = (0 : ℂ) := by
      have := (Submodule.mem_orthogonal _ _).mp hw (A y - A x0) ⟨y - x0, by rw [map_sub]⟩
      rw [← neg_sub b (A x0), inner_neg_right, this, neg_zero]
    have := norm_add_sq (𝕜 := ℂ) (A y - A x0) (A x0 - b)
    rw [h0, sub_add_sub_cancel, map_zero] at this
    linarith
  refine ⟨x0 - k, ?_, ?_⟩
  · intro y
    rw [hAx, hpy y]
    have := sq_nonneg ‖A y - A x0‖
    linarith
  · intro y hy
    have h1 := hy x0
    rw [hpy y] at h1
    have h2 : ‖A y - A x0‖ = 0 := by
      have := sq_nonneg ‖A y - A x0‖
      have h3 : ‖A y - A x0‖ ^ 2 = 0 := by linarith
      exact pow_eq_zero_iff two_ne_zero |>.mp h3
    have h3 : y - (x0 - k) ∈ LinearMap.ker A := by
      rw [LinearMap.mem_ker, map_sub, hAx]
      exact norm_eq_zero.mp h2
    have h4 := (Submodule.mem_orthogonal _ _).mp hx _ h3
    have h5 := norm_add_sq (𝕜 := ℂ) (y - (x0 - k)) (x0 - k)
    rw [h4, sub_add_cancel, map_zero] at h5
    have := sq_nonneg ‖y - (x0 - k)‖
    linarith

/-- There is such a routine. -/
theorem exists_lstsq : ∃ lstsq, IsLstsq lstsq := by
  have key : ∀ (K J : Nat) (G : Nat → Fin J → ℂ) (Y : Nat → ℂ), ∃ x : Fin J → ℂ, (∀ w, residual K G Y x ≤ residual K G Y w) ∧
      ∀ w : Fin J → ℂ, (∀ v, residual K G Y w ≤ residual K G Y v) → ∑ j, ‖x j‖ ^ 2 ≤ ∑ j, ‖w j‖ ^ 2 := by
    intro K J G Y
    have hres : ∀ x : Fin J → ℂ, residual K G Y x = ‖(Matrix.of fun (i : Fin K) j => G i j).toEuclideanLin (WithLp.toLp 2 x) - WithLp.toLp 2 fun i : Fin K => Y i‖ ^ 2 := by
      intro x
      unfold residual
      rw [← Fin.sum_univ_eq_sum_range (fun k => ‖∑ j, G k j * x j - Y k‖ ^ 2), EuclideanSpace.norm_sq_eq]
      exact sum_congr rfl fun i _ => rfl
    have hn : ∀ x : Fin J → ℂ, ∑ j, ‖x j‖ ^ 2 = ‖WithLp.toLp 2 x‖ ^ 2 := by
      intro x
      rw [EuclideanSpace.norm_sq_eq]
    obtain ⟨x, h1, h2⟩ := exists_least (Matrix.of fun (i : Fin K) j => G i j).toEuclideanLin (WithLp.toLp 2 fun i : Fin K => Y i)
    refine ⟨x.ofLp, ?_, ?_⟩
    · intro y
      rw [hres, hres]
      exact h1 _
    · intro y hy
      rw [hn, hn]
      refine h2 _ fun z => ?_
      have := hy z.ofLp
      rwa [hres, hres] at this
  choose f hf using key
  exact ⟨f, fun K J G Y w => (hf K J G Y).1 w, fun K J G Y w h => (hf K J G Y).2 w h⟩

theorem residual_split (K : Nat) {J : Nat} (g : Nat → Fin J → ℝ) (Y : Nat → ℂ) (w : Fin J → ℂ) :
    residual K (fun k j => (g k j : ℂ) * Y k) Y w = ∑ k ∈ range K, ‖Y k‖ ^ 2 * ((∑ j, g k j * (w j).re - 1) ^ 2 + (∑ j, g k j * (w j).im) ^ 2) := by
  unfold residual
  apply sum_congr rfl
  intro k _
  have h1 : ∑ j, (g k j : ℂ) * Y k * w j - Y k = Y k * (∑ j, (g k j : ℂ) * w j - 1) := by
    rw [mul_sub, mul_sum, mul_one]
    congr 1
    exact sum_congr rfl fun j _ => by ring
  rw [h1, norm_mul, mul_pow]
  congr 1
  rw [Complex.sq_norm, Complex.normSq_apply]
  simp only [Complex.sub_re, Complex.sub_im, Complex.re_sum, Complex.im_sum, Complex.re_ofReal_mul, Complex.im_ofReal_mul, Complex.one_re, Complex.one_im, sub_zero]
  ring

/-- For real gains the weights are real. -/
theorem weights_real {lstsq : (K J : Nat) → (Nat → Fin J → ℂ) → (Nat → ℂ) → Fin J → ℂ} (hl : IsLstsq lstsq) (K J : Nat) (g : Nat → Fin J → ℝ) (Y : Nat → ℂ) (j : Fin J) :
    (lstsq K J (fun k j => (g k j : ℂ) * Y k) Y j).im = 0 := by
  set w := lstsq K J (fun k j => (g k j : ℂ) * Y k) Y with hw
  let a : Fin J → ℂ := fun j => ((w j).re : ℂ)
  have h1 : residual K (fun k j => (g k j : ℂ) * Y k) Y a ≤ residual K (fun k j => (g k j : ℂ) * Y k) Y w := by
    rw [residual_split, residual_split]
    apply sum_le_sum
    intro k _
    apply mul_le_mul_of_nonneg_left _ (sq_nonneg _)
    simp only [a, Complex.ofReal_re, Complex.ofReal_im, mul_zero, sum_const_zero]
    have := sq_nonneg (∑ j, g k j * (w j).im)
    linarith
  have h2 := hl.short K J _ Y a (fun v => h1.trans (hl.least K J _ Y v))
  rw [← hw] at h2
  have h3 : ∑ j, ‖w j‖ ^ 2 = ∑ j, ‖a j‖ ^ 2 + ∑ j, (w j).im ^ 2 := by
    rw [← sum_add_distrib]
    apply sum_congr rfl
    intro j _
    rw [Complex.sq_norm, Complex.normSq_apply, Complex.sq_norm, Complex.normSq_apply]
    simp only [a, Complex.ofReal_re, Complex.ofReal_im]
    ring
  have h4 : ∑ j, (w j).im ^ 2 = 0 := le_antisymm (by linarith) (sum_nonneg fun _ _ => sq_nonneg _)
  have := (sum_eq_zero_iff_of_nonneg fun j _ => sq_nonneg ((w j).im)).mp h4 j (mem_univ j)
  exact pow_eq_zero_iff two_ne_zero |>.mp this

/-- The gain of the Wiener filter number `j` at power `P`, for `J` filters. The ratio of signal to noise of the recording is divided by powers of `base`, from `-J/2` to `J`. -/
noncomputable def wienerGain (n J : Nat) (ey ex noise base : ℝ) (j : Fin J) (P : ℝ) : ℝ :=
  P / (P + n / (max 1e-7 (ey / ex - noise) / noise / base ^ (-(J : ℝ) / 2 + (j : ℝ) * (3 * J / 2) / (J - 1 : Nat))))

theorem gain_eq {n : Nat} (hn : 2 ≤ n) (y x : List ℝ) (noise base : ℝ) (J : Nat) (j : Fin J) (k : Nat) :
    gain (spec n x) (grid n (spec n y) (spec n x) noise base J j) k =
      wienerGain n J (∑ k ∈ range (n / 2 + 1), ‖Sync.spectrum n y k‖ ^ 2) (∑ k ∈ range (n / 2 + 1), ‖Sync.spectrum n x k‖ ^ 2) noise base j (‖Sync.spectrum n x k‖ ^ 2) := by
  have hn0 : (0 : ℝ) < n := by exact_mod_cast (show 0 < n by omega)
  have hs : ∀ z : List ℝ, energy n (spec n z) = (∑ k ∈ range (n / 2 + 1), ‖Sync.spectrum n z k‖ ^ 2) / n := by
    intro z
    unfold energy
    rw [sum_div]
    exact sum_congr rfl fun k _ => by rw [spec_norm, div_pow, Real.sq_sqrt hn0.le]
  have he : energy n (spec n y) / energy n (spec n x) = (∑ k ∈ range (n / 2 + 1), ‖Sync.spectrum n y k‖ ^ 2) / (∑ k ∈ range (n / 2 + 1), ‖Sync.spectrum n x k‖ ^ 2) := by
    rw [hs, hs, div_div_div_cancel_right₀ hn0.ne']
  unfold gain grid wienerGain
  simp only
  rw [he, spec_norm, div_pow, Real.sq_sqrt hn0.le]
  have hexp : -(J : ℝ) / 2 + j * (((J : ℝ) - -(J : ℝ) / 2) / (J - 1 : Nat)) = -(J : ℝ) / 2 + (j : ℝ) * (3 * J / 2) / (J - 1 : Nat) := by ring
  rw [hexp]
  generalize max 1e-7 _ / noise / _ = ρ
  rw [show (n : ℝ) / ρ = n * (1 / ρ) by ring]
  generalize 1 / ρ = q
  rw [show ‖Sync.spectrum n x k‖ ^ 2 / (n : ℝ) + q = (‖Sync.spectrum n x k‖ ^ 2 + n * q) / n by field_simp, div_div_div_cancel_right₀ hn0.ne']

theorem spec_zero {n : Nat} (hn : 2 ≤ n) (x : List ℝ) (k : Nat) : spec n x k = 0 ↔ Sync.spectrum n x k = 0 := by
  unfold spec
  rw [div_eq_zero_iff, or_iff_left (sqrt_ne hn)]

/-- The answer with no zero coefficients. -/
theorem wiener_ok {lstsq : (K J : Nat) → (Nat → Fin J → ℂ) → (Nat → ℂ) → Fin J → ℂ} (hls : IsLstsq lstsq) {y x : List ℝ} (hl : 2 ≤ y.length + x.length) {n : Nat} (hn : n = padded y.length x.length)
    (hx : ∀ k, k ≤ n / 2 → Sync.spectrum n x k ≠ 0) (noise : ℝ) (J : Nat) (base : ℝ) :
    ∃ h, (∀ length, wiener lstsq y x length noise J base = .ok (some (cut length h))) ∧ h.length = n ∧ ∃ a : Fin J → ℝ,
      (∀ k, k ≤ n / 2 → Sync.spectrum n h k * Sync.spectrum n x k = ((∑ j, a j * gain (spec n x) (grid n (spec n y) (spec n x) noise base J j) k : ℝ) : ℂ) * Sync.spectrum n y k) ∧
      ∀ b : Fin J → ℝ, ∑ k ∈ range (n / 2 + 1), ‖Sync.spectrum n y k‖ ^ 2 * (∑ j, a j * gain (spec n x) (grid n (spec n y) (spec n x) noise base J j) k - 1) ^ 2 ≤
        ∑ k ∈ range (n / 2 + 1), ‖Sync.spectrum n y k‖ ^ 2 * (∑ j, b j * gain (spec n x) (grid n (spec n y) (spec n x) noise base J j) k - 1) ^ 2 := by
  have h2 := padded_pos hl
  have hev := padded_even y.length x.length
  rw [← hn] at h2 hev
  set g : Nat → Fin J → ℝ := fun k j => gain (spec n x) (grid n (spec n y) (spec n x) noise base J j) k with hg
  set w := lstsq (n / 2 + 1) J (fun k j => (g k j : ℂ) * spec n y k) (spec n y) with hw
  set H : Nat → ℂ := fun k => ∑ j, (g k j : ℂ) * spec n y k / spec n x k * w j with hH
  have hwr : ∀ j, w j = ((w j).re : ℂ) := fun j => Complex.ext rfl (by simpa using weights_real hls (n / 2 + 1) J g (spec n y) j)
  have hHe : ∀ k, k ≤ n / 2 → H k = ((∑ j, (w j).re * g k j : ℝ) : ℂ) * (Sync.spectrum n y k / Sync.spectrum n x k) := by
    intro k hk
    rw [hH]
    beta_reduce
    push_cast
    rw [sum_mul]
    apply sum_congr rfl
    intro j _
    rw [hwr j]
    simp only [Complex.ofReal_re]
    unfold spec
    rw [mul_div_assoc, div_div_div_cancel_right₀ (sqrt_ne h2)]
    ring
  refine ⟨inverse n H, ?_, inverse_length _ _, fun j => (w j).re, ?_, ?_⟩
  · intro length
    unfold wiener
    rw [if_neg (by omega)]
    simp only [← hn]
    rw [if_neg (fun h => hx 0 (by omega) ((spec_zero h2 x 0).mp (h 0 (by omega)))), if_neg]
    rintro ⟨k, hk, h0⟩
    exact hx k hk ((spec_zero h2 x k).mp h0)
  · intro k hk
    have hreal : ∀ k, k ≤ n / 2 → (Sync.spectrum n y k).im = 0 → (Sync.spectrum n x k).im = 0 → (H k).im = 0 := by
      intro k hk h3 h4
      rw [hHe k hk, Complex.im_ofReal_mul, Complex.div_im, h3, h4]
      simp
    have hb : Sync.spectrum n (inverse n H) k = H k := by
      unfold Sync.spectrum
      rw [rfft_congr (fun j hj => inverse_getD n H hj)]
      exact rfft_irfft (by omega) hev (hreal 0 (by omega) (spectrum_real (by omega) hev y).1 (spectrum_real (by omega) hev x).1)
        (hreal _ (le_refl _) (spectrum_real (by omega) hev y).2 (spectrum_real (by omega) hev x).2) hk
    rw [hb, hHe k hk, mul_assoc, div_mul_cancel₀ _ (hx k hk)]
  · intro b
    have := hls.least (n / 2 + 1) J (fun k j => (g k j : ℂ) * spec n y k) (spec n y) (fun j => (b j : ℂ))
    rw [← hw, residual_split, residual_split] at this
    have hn0 : (0 : ℝ) < n := by exact_mod_cast (show 0 < n by omega)
    have e : ∀ c : Fin J → ℝ, ∑ k ∈ range (n / 2 + 1), ‖Sync.spectrum n y k‖ ^ 2 * (∑ j, c j * g k j - 1) ^ 2 = (n : ℝ) * ∑ k ∈ range (n / 2 + 1), ‖spec n y k‖ ^ 2 * ((∑ j, g k j * c j - 1) ^ 2 + (∑ j, g k j * (0 : ℝ)) ^ 2) := by
      intro c
      rw [mul_sum]
      apply sum_congr rfl
      intro k _
      rw [spec_norm, div_pow, Real.sq_sqrt hn0.le]
      simp only [mul_zero, sum_const_zero]
      rw [sum_congr rfl fun j _ => mul_comm (c j) (g k j)]
      field_simp
      ring
    rw [e, e]
    apply mul_le_mul_of_nonneg_left _ hn0.le
    simp only [Complex.ofReal_re, Complex.ofReal_im] at this
    have hz : ∀ j, (w j).im = 0 := fun j => weights_real hls (n / 2 + 1) J g (spec n y) j
    simp only [hz] at this
    exact this

/-- **C103, Wiener filters.** No coefficient of the excitation is zero. The coefficients of the result times those of the excitation are a combination with real weights of the recording filtered by the Wiener
gains, and of all these combinations the nearest to the recording. -/
theorem C103_wiener {lstsq : (K J : Nat) → (Nat → Fin J → ℂ) → (Nat → ℂ) → Fin J → ℂ} (hls : IsLstsq lstsq) {y x : List ℝ} (hl : 2 ≤ y.length + x.length) {n : Nat} (hn : n = padded y.length x.length)
    (hx : ∀ k, k ≤ n / 2 → Sync.spectrum n x k ≠ 0) (noise : ℝ) (J : Nat) (base : ℝ) :
    let g : Fin J → Nat → ℝ := fun j k => wienerGain n J (∑ k ∈ range (n / 2 + 1), ‖Sync.spectrum n y k‖ ^ 2) (∑ k ∈ range (n / 2 + 1), ‖Sync.spectrum n x k‖ ^ 2) noise base j (‖Sync.spectrum n x k‖ ^ 2)
    ∃ h, (∀ length, wiener lstsq y x length noise J base = .ok (some (cut length h))) ∧ h.length = n ∧ ∃ a : Fin J → ℝ,
      (∀ k, k ≤ n / 2 → Sync.spectrum n h k * Sync.spectrum n x k = ((∑ j, a j * g j k : ℝ) : ℂ) * Sync.spectrum n y k) ∧
      ∀ b : Fin J → ℝ, ∑ k ∈ range (n / 2 + 1), ‖Sync.spectrum n h k * Sync.spectrum n x k - Sync.spectrum n y k‖ ^ 2 ≤
        ∑ k ∈ range (n / 2 + 1), ‖((∑ j, b j * g j k : ℝ) : ℂ) * Sync.spectrum n y k - Sync.spectrum n y k‖ ^ 2 := by
  intro g
  have h2 := padded_pos hl
  rw [← hn] at h2
  obtain ⟨h, e, hlen, a, h3, h4⟩ := wiener_ok hls hl hn hx noise J base
  simp only [gain_eq h2] at h3 h4
  refine ⟨h, e, hlen, a, h3, ?_⟩
  intro b
  have hnorm : ∀ (c : ℝ) (Z : ℂ), ‖(c : ℂ) * Z - Z‖ ^ 2 = ‖Z‖ ^ 2 * (c - 1) ^ 2 := by
    intro c Z
    rw [show (c : ℂ) * Z - Z = ((c - 1 : ℝ) : ℂ) * Z by push_cast; ring, norm_mul, Complex.norm_real, Real.norm_eq_abs, mul_pow, sq_abs, mul_comm]
  have hL : ∑ k ∈ range (n / 2 + 1), ‖Sync.spectrum n h k * Sync.spectrum n x k - Sync.spectrum n y k‖ ^ 2 = ∑ k ∈ range (n / 2 + 1), ‖Sync.spectrum n y k‖ ^ 2 * (∑ j, a j * g j k - 1) ^ 2 := by
    apply sum_congr rfl
    intro k hk
    rw [mem_range] at hk
    rw [h3 k (by omega), hnorm]
  rw [hL]
  simp only [hnorm]
  exact h4 b

/-- **C103, white excitation.** If all coefficients of the excitation have the same positive magnitude, the recording of a response gives the response, for all positive noise variances and bases. -/
theorem C103_wiener_exact {lstsq : (K J : Nat) → (Nat → Fin J → ℂ) → (Nat → ℂ) → Fin J → ℂ} (hls : IsLstsq lstsq) {y h x : List ℝ} (hc : IsConv y h x) (hh : 1 ≤ h.length) (hxl : 1 ≤ x.length) {n : Nat}
    (hn : n = padded y.length x.length) {P : ℝ} (hP : 0 < P) (hx : ∀ k, k ≤ n / 2 → ‖Sync.spectrum n x k‖ ^ 2 = P) {noise : ℝ} (hno : 0 < noise) {J : Nat} (hJ : 0 < J) {base : ℝ} (hb : 0 < base) :
    wiener lstsq y x none noise J base = .ok (some (h ++ List.replicate (n - h.length) 0)) ∧ wiener lstsq y x (some h.length) noise J base = .ok (some h) := by
  have hl : 2 ≤ y.length + x.length := by have := hc.1; omega
  have h2 := padded_pos hl
  have hge := padded_ge y.length x.length
  rw [← hn] at h2 hge
  have hlen := hc.1
  have hne : ∀ k, k ≤ n / 2 → Sync.spectrum n x k ≠ 0 := by
    intro k hk h0
    have := hx k hk
    rw [h0, norm_zero] at this
    simp at this
    linarith
  obtain ⟨r, e, hrl, a, h3, h4⟩ := C103_wiener hls hl hn hne noise J base
  have hg : ∀ (j : Fin J) (ey ex : ℝ), 0 < wienerGain n J ey ex noise base j P := by
    intro j ey ex
    unfold wienerGain
    have h5 : (0 : ℝ) < max 1e-7 (ey / ex - noise) := lt_of_lt_of_le (by norm_num) (le_max_left _ _)
    have h6 := Real.rpow_pos_of_pos hb (-(J : ℝ) / 2 + (j : ℝ) * (3 * J / 2) / (J - 1 : Nat))
    positivity
  set G := wienerGain n J (∑ k ∈ range (n / 2 + 1), ‖Sync.spectrum n y k‖ ^ 2) (∑ k ∈ range (n / 2 + 1), ‖Sync.spectrum n x k‖ ^ 2) noise base ⟨0, hJ⟩ P with hG
  have hz := h4 (fun j => if j = ⟨0, hJ⟩ then 1 / G else 0)
  have hR : ∑ k ∈ range (n / 2 + 1), ‖((∑ j, (if j = (⟨0, hJ⟩ : Fin J) then 1 / G else 0) * wienerGain n J (∑ k ∈ range (n / 2 + 1), ‖Sync.spectrum n y k‖ ^ 2)
      (∑ k ∈ range (n / 2 + 1), ‖Sync.spectrum n x k‖ ^ 2) noise base j (‖Sync.spectrum n x k‖ ^ 2) : ℝ) : ℂ) * Sync.spectrum n y k - Sync.spectrum n y k‖ ^ 2 = 0 := by
    apply sum_eq_zero
    intro k hk
    rw [mem_range] at hk
    rw [hx k (by omega), sum_eq_single (⟨0, hJ⟩ : Fin J)]
    · rw [if_pos rfl, ← hG, one_div, inv_mul_cancel₀ (hg _ _ _).ne']
      simp
    · intro j _ hj
      rw [if_neg hj, zero_mul]
    · intro h; exact absurd (mem_univ _) h
  rw [hR] at hz
  have hall : ∀ k, k ≤ n / 2 → Sync.spectrum n r k = Sync.spectrum n h k := by
    intro k hk
    have h5 := (sum_eq_zero_iff_of_nonneg fun k _ => sq_nonneg (‖Sync.spectrum n r k * Sync.spectrum n x k - Sync.spectrum n y k‖)).mp (le_antisymm hz (sum_nonneg fun _ _ => sq_nonneg _)) k (mem_range.mpr (by omega))
    have h6 := sub_eq_zero.mp (norm_eq_zero.mp (pow_eq_zero_iff two_ne_zero |>.mp h5))
    rw [spectrum_conv hc (by omega)] at h6
    exact mul_right_cancel₀ (hne k hk) h6
  have hr : r = h ++ List.replicate (n - h.length) 0 := by
    apply List.ext_getElem
    · rw [hrl, List.length_append, List.length_replicate]; omega
    · intro j hj1 hj2
      have hjn : j < n := by omega
      rw [← List.getD_eq_getElem _ 0 hj1, ← List.getD_eq_getElem _ 0 hj2]
      have h5 : r.getD j 0 = h.getD j 0 := by
        rw [← irfft_rfft (fun n => r.getD n 0) hjn, ← irfft_rfft (fun n => h.getD n 0) hjn]
        exact Sync.irfft_congr hall j
      rw [h5]
      by_cases hjh : j < h.length
      · rw [List.getD_append _ _ _ _ hjh]
      · rw [Sync.getD_zero _ (by omega), List.getD_append_right _ _ _ _ (by omega), List.getD_replicate _ (by omega)]
  constructor
  · rw [e none, cut_none, hr]
  · rw [e, cut_nat, hr, List.take_left']
    rfl

/-- **C103, deviation.** If a coefficient of the excitation is zero, all samples are not numbers; a silent excitation raises. -/
theorem C103_wiener_zero_deviation (lstsq : (K J : Nat) → (Nat → Fin J → ℂ) → (Nat → ℂ) → Fin J → ℂ) {y x : List ℝ} (hl : 2 ≤ y.length + x.length) {n : Nat} (hn : n = padded y.length x.length)
    (length : Option Int) (noise : ℝ) (J : Nat) (base : ℝ) {k : Nat} (hk : k ≤ n / 2) (h0 : Sync.spectrum n x k = 0) :
    wiener lstsq y x length noise J base = .ok none ∨ (∀ k, k ≤ n / 2 → Sync.spectrum n x k = 0) ∧ wiener lstsq y x length noise J base = .error .runtimeError := by
  have h2 := padded_pos hl
  rw [← hn] at h2
  unfold wiener
  rw [if_neg (by omega)]
  simp only [← hn]
  by_cases h : ∀ k, k ≤ n / 2 → spec n x k = 0
  · right
    rw [if_pos h]
    exact ⟨fun k hk => (spec_zero h2 x k).mp (h k hk), rfl⟩
  · left
    rw [if_neg h, if_pos ⟨k, hk, (spec_zero h2 x k).mpr h0⟩]

theorem spectrum_two {N : Nat} (hN : 2 ≤ N) (k : Nat) : ‖Sync.spectrum N [0, 2] k‖ ^ 2 = 4 := by
  have : Sync.spectrum N [0, 2] k = 2 * tw N (-(k : Int)) := by
    unfold Sync.spectrum rfft dft
    rw [Finset.sum_eq_single 1]
    · simp
    · intro m _ hm
      rcases Nat.eq_zero_or_pos m with h | h
      · subst h; simp
      · simp only [Sync.getD_zero [0, 2] (show [(0 : ℝ), 2].length ≤ m by simp; omega)]
        simp
    · intro h
      exact absurd (mem_range.mpr (by omega)) h
  rw [this, norm_mul, Sync.tw_norm]
  norm_num

/-- A pulse after one sample of silence. -/
example : ∃ lstsq, IsLstsq lstsq ∧ wiener lstsq [0, 2, 4, 6] [0, 2] (some 3) 1 15 2 = .ok (some [1, 2, 3]) := by
  obtain ⟨lstsq, hls⟩ := exists_lstsq
  refine ⟨lstsq, hls, (C103_wiener_exact hls (h := [1, 2, 3]) ⟨by simp, ?_⟩ (by simp) (by simp) rfl (show (0 : ℝ) < 4 by norm_num) ?_ one_pos (by norm_num) two_pos).2⟩
  · intro n
    rcases n with _ | _ | _ | _ | n
    · simp
    · norm_num [antidiagonal, Multiset.Nat.antidiagonal, List.Nat.antidiagonal, List.range_succ]
    · norm_num [antidiagonal, Multiset.Nat.antidiagonal, List.Nat.antidiagonal, List.range_succ]
    · norm_num [antidiagonal, Multiset.Nat.antidiagonal, List.Nat.antidiagonal, List.range_succ]
    · rw [Sync.getD_zero _ (by simp)]
      symm
      apply sum_eq_zero
      intro p hp
      rw [mem_antidiagonal] at hp
      by_cases h : p.2 ≤ 1
      · rw [Sync.getD_zero [1, 2, 3] (by simp; omega), zero_mul]
      · rw [Sync.getD_zero [0, 2] (by simp; omega), mul_zero]
  · intro k _
    exact spectrum_two (by unfold padded; simp) k

end Verif.Deconv
