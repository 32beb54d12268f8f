import Verif.Bands.Cosine

/-!
# C68: Antoni's octave filter bank, the magnitudes
-/

namespace Verif.Bands

open Py (Err)
open Finset Verif.DFT

/-! ## Rounding -/

theorem npRound_bounds (x : ℝ) : x - 1 / 2 ≤ npRound x ∧ (npRound x : ℝ) ≤ x + 1 / 2 := by
  have h1 := Int.floor_add_fract x
  have h2 := Int.fract_nonneg x
  have h3 := Int.fract_lt_one x
  unfold npRound
  split_ifs with h4 h5 h6
  · constructor <;> linarith
  · constructor <;> linarith
  · push_cast; constructor <;> linarith
  · have : 1 / 2 < Int.fract x := lt_of_le_of_ne (not_lt.mp h4) (Ne.symm h5)
    push_cast; constructor <;> linarith

theorem npRound_eq {x : ℝ} {n : Int} (h1 : (n : ℝ) - 1 / 2 < x) (h2 : x < n + 1 / 2) : npRound x = n := by
  have h := npRound_bounds x
  have h3 : (npRound x : ℝ) < n + 1 := by linarith
  have h4 : (n : ℝ) - 1 < npRound x := by linarith
  have h5 : npRound x < n + 1 := by exact_mod_cast h3
  have h6 : n - 1 < npRound x := by exact_mod_cast h4
  omega

/-! ## Specification -/

/-- The transitions between the bands (from `k1 b - P b` to `k1 b + P b`) are inside of the array and do not overlap. -/
structure Separated (a : AntoniBins) : Prop where
  n_pos : 0 < a.n
  P_nonneg : ∀ b, 0 < b → b < a.n → 0 ≤ a.P b
  first : 1 < a.n → 0 ≤ a.k1 1 - a.P 1
  order : ∀ b, 0 < b → b + 1 < a.n → a.k1 b + a.P b ≤ a.k1 (b + 1) - a.P (b + 1)
  last : 1 < a.n → a.k1 (a.n - 1) + a.P (a.n - 1) + 1 ≤ a.nfreq

/-- The rise at the lower end of band `b`. -/
noncomputable def aRise (a : AntoniBins) (slope b : Nat) (k : Int) : ℝ :=
  if b = 0 then 1
  else if k < a.k1 b - a.P b then 0
  else if 0 < a.P b ∧ k ≤ a.k1 b + a.P b then Real.sin (Real.pi / 2 * antoniPhi slope (k - a.k1 b) (a.P b))
  else 1

/-- The fall of the band before `b`. -/
noncomputable def aFall (a : AntoniBins) (slope b : Nat) (k : Int) : ℝ :=
  if a.k1 b + a.P b ≤ k then 0
  else if 0 < a.P b ∧ a.k1 b - a.P b ≤ k then Real.cos (Real.pi / 2 * antoniPhi slope (k - a.k1 b) (a.P b))
  else 1

theorem sin_iter_one (slope : Nat) : (fun x => Real.sin (Real.pi / 2 * x))^[slope] 1 = 1 := by
  induction slope with
  | zero => rfl
  | succ n ih => rw [Function.iterate_succ_apply, mul_one, Real.sin_pi_div_two, ih]

theorem phi_end (slope : Nat) {P : Int} (hP : 0 < P) : antoniPhi slope P P = 1 := by
  unfold antoniPhi
  rw [div_self (by exact_mod_cast hP.ne'), sin_iter_one]; norm_num

theorem aRise_sq_add (a : AntoniBins) (slope : Nat) {b : Nat} (hb : 0 < b) (hP : 0 ≤ a.P b) (k : Int) :
    aRise a slope b k ^ 2 + aFall a slope b k ^ 2 = 1 := by
  unfold aRise aFall
  rw [if_neg (show ¬b = 0 by omega)]
  by_cases h1 : k < a.k1 b - a.P b
  · rw [if_pos h1, if_neg (by omega), if_neg (fun h => absurd h.2 (by omega))]; norm_num
  · rw [if_neg h1]
    by_cases h2 : a.k1 b + a.P b ≤ k
    · rw [if_pos h2]
      by_cases h3 : 0 < a.P b ∧ k ≤ a.k1 b + a.P b
      · have : k - a.k1 b = a.P b := by omega
        rw [if_pos h3, this, phi_end slope h3.1, mul_one, Real.sin_pi_div_two]; norm_num
      · rw [if_neg h3]; norm_num
    · rw [if_neg h2]
      have hp : 0 < a.P b := by omega
      rw [if_pos ⟨hp, by omega⟩, if_pos ⟨hp, by omega⟩, Real.sin_sq_add_cos_sq]

/-- State of the array after `m` passes. -/
theorem antoni_fold (a : AntoniBins) (slope : Nat) (hs : Separated a) (m : Nat) (hm : m ≤ a.n - 1) (b : Nat) (k : Int) :
    (List.range m).foldl (fun G i => antoniStep a slope G (i + 1)) (fun _ _ => 1) b k =
      if b < m then aRise a slope b k * aFall a slope (b + 1) k else if b = m then aRise a slope b k else 1 := by
  induction m generalizing b k with
  | zero =>
    simp only [List.range_zero, List.foldl_nil, Nat.not_lt_zero, if_false]
    by_cases h : b = 0
    · simp [h, aRise]
    · simp [h]
  | succ m ih =>
    rw [List.range_succ, List.foldl_append, List.foldl_cons, List.foldl_nil]
    have ih := ih (by omega)
    generalize (List.range m).foldl (fun G i => antoniStep a slope G (i + 1)) (fun _ _ => (1 : ℝ)) = G at ih
    have hP := hs.P_nonneg (m + 1) (by omega) (by omega)
    unfold antoniStep
    simp only [Nat.add_sub_cancel]
    by_cases hb1 : b = m + 1
    · -- the band that starts here
      have hG : G b k = 1 := by rw [ih, if_neg (by omega), if_neg (by omega)]
      rw [if_neg (show ¬b < m + 1 by omega), if_pos hb1]
      unfold aRise
      rw [if_neg (show ¬b = 0 by omega)]
      subst hb1
      simp only [true_and, show ¬m + 1 = m by omega, false_and, if_false]
      by_cases h1 : k < a.k1 (m + 1) - a.P (m + 1)
      · rw [if_pos h1, if_pos h1]
      · rw [if_neg h1, if_neg h1]
        by_cases h2 : a.P (m + 1) > 0
        · rw [if_pos h2]
          simp only [true_and, show ¬m + 1 = m by omega, false_and, if_false]
          by_cases h3 : k ≤ a.k1 (m + 1) + a.P (m + 1)
          · rw [if_pos (by omega), if_pos ⟨h2, h3⟩]
          · rw [if_neg (by omega), if_neg (fun h => h3 h.2), hG]
        · rw [if_neg h2, if_neg (fun h => h2 h.1), hG]
    · by_cases hb2 : b = m
      · -- the band that ends here
        have hG : G b k = aRise a slope b k := by rw [ih, if_neg (by omega), if_pos hb2]
        rw [if_pos (show b < m + 1 by omega)]
        subst hb2
        simp only [true_and, show ¬b = b + 1 by omega, false_and, if_false]
        unfold aFall
        by_cases h1 : a.k1 (b + 1) + a.P (b + 1) ≤ k
        · rw [if_pos h1, if_pos h1, mul_zero]
        · rw [if_neg h1, if_neg h1]
          by_cases h2 : a.P (b + 1) > 0
          · rw [if_pos h2]
            simp only [true_and, show ¬b = b + 1 by omega, false_and, if_false]
            by_cases h3 : a.k1 (b + 1) - a.P (b + 1) ≤ k
            · rw [if_pos (by omega), if_pos ⟨h2, h3⟩]
              have : aRise a slope b k = 1 := by
                unfold aRise
                by_cases h4 : b = 0
                · rw [if_pos h4]
                · have ho := hs.order b (by omega) (by omega)
                  have hPb := hs.P_nonneg b (by omega) (by omega)
                  rw [if_neg h4, if_neg (by omega)]
                  by_cases h5 : 0 < a.P b ∧ k ≤ a.k1 b + a.P b
                  · have h6 : k - a.k1 b = a.P b := by omega
                    rw [if_pos h5, h6, phi_end slope h5.1, mul_one, Real.sin_pi_div_two]
                  · rw [if_neg h5]
              rw [this, one_mul]
            · rw [if_neg (by omega), if_neg (fun h => h3 h.2), hG, mul_one]
          · rw [if_neg h2, if_neg (fun h => h2 h.1), hG, mul_one]
      · -- the other bands
        have e : (if a.P (m + 1) > 0 then
            fun (b' : Nat) (k' : Int) => if b' = m + 1 ∧ a.k1 (m + 1) - a.P (m + 1) ≤ k' ∧ k' < a.k1 (m + 1) + a.P (m + 1) + 1 then
              Real.sin (Real.pi / 2 * antoniPhi slope (k' - a.k1 (m + 1)) (a.P (m + 1))) else
              if b' = m ∧ a.k1 (m + 1) - a.P (m + 1) ≤ k' ∧ k' < a.k1 (m + 1) + a.P (m + 1) + 1 then
                Real.cos (Real.pi / 2 * antoniPhi slope (k' - a.k1 (m + 1)) (a.P (m + 1))) else G b' k'
            else G) b k = G b k := by
          split
          · simp only [hb1, hb2, false_and, if_false]
          · rfl
        simp only [hb1, hb2, false_and, if_false]
        rw [e, ih]
        by_cases h : b < m
        · rw [if_pos h, if_pos (by omega)]
        · rw [if_neg h, if_neg hb2, if_neg (by omega)]

/-- The magnitudes, if the transitions do not overlap. -/
theorem antoniG_eq (a : AntoniBins) (slope : Nat) (hs : Separated a) {b : Nat} (hb : b < a.n) (k : Int) :
    antoniG a slope b k = if 0 ≤ k ∧ k < a.nfreq then aRise a slope b k * (if b + 1 < a.n then aFall a slope (b + 1) k else 1) else 0 := by
  unfold antoniG
  rw [antoni_fold a slope hs _ (le_refl _)]
  by_cases h : b + 1 < a.n
  · rw [if_pos (show b < a.n - 1 by omega), if_pos h]
  · rw [if_neg (show ¬b < a.n - 1 by omega), if_neg h, if_pos (show b = a.n - 1 by omega), mul_one]

theorem aRise_next (a : AntoniBins) (slope : Nat) (hs : Separated a) {b : Nat} (hb : b + 1 < a.n) {k : Int} (hk : a.k1 (b + 1) - a.P (b + 1) ≤ k) :
    aRise a slope b k = 1 := by
  unfold aRise
  by_cases h4 : b = 0
  · rw [if_pos h4]
  · have ho := hs.order b (by omega) hb
    have hPb := hs.P_nonneg b (by omega) (by omega)
    have hPb' := hs.P_nonneg (b + 1) (by omega) (by omega)
    rw [if_neg h4, if_neg (by omega)]
    by_cases h5 : 0 < a.P b ∧ k ≤ a.k1 b + a.P b
    · have h6 : k - a.k1 b = a.P b := by omega
      rw [if_pos h5, h6, phi_end slope h5.1, mul_one, Real.sin_pi_div_two]
    · rw [if_neg h5]

/-- **C68** If the transitions do not overlap, the squares of the magnitudes of the bands add up to one at every bin. -/
theorem C68_power (a : AntoniBins) (slope : Nat) (hs : Separated a) {k : Int} (h0 : 0 ≤ k) (hk : k < a.nfreq) :
    ∑ b ∈ range a.n, antoniG a slope b k ^ 2 = 1 := by
  have e : ∀ b ∈ range a.n, antoniG a slope b k ^ 2 =
      (fun b => if b < a.n then aRise a slope b k ^ 2 else 0) b - (fun b => if b < a.n then aRise a slope b k ^ 2 else 0) (b + 1) := by
    intro b hb
    have hb := mem_range.mp hb
    rw [antoniG_eq a slope hs hb, if_pos ⟨h0, hk⟩]
    beta_reduce
    rw [if_pos hb]
    by_cases h : b + 1 < a.n
    · rw [if_pos h, if_pos h, mul_pow]
      have h1 := aRise_sq_add a slope (show 0 < b + 1 by omega) (hs.P_nonneg _ (by omega) h) k
      by_cases h2 : a.k1 (b + 1) - a.P (b + 1) ≤ k
      · rw [aRise_next a slope hs h h2]; linarith
      · have h3 : aRise a slope (b + 1) k = 0 := by
          unfold aRise
          rw [if_neg (by omega), if_pos (by omega)]
        rw [h3] at h1 ⊢
        have : aFall a slope (b + 1) k ^ 2 = 1 := by linarith
        rw [this]; ring
    · rw [if_neg h, if_neg h]; ring
  rw [sum_congr rfl e, sum_range_sub' (fun b => if b < a.n then aRise a slope b k ^ 2 else 0)]
  have := hs.n_pos
  simp [this, aRise]

/-- **C68** The magnitude of a band vanishes outside of its range. -/
theorem C68_support (a : AntoniBins) (slope : Nat) (hs : Separated a) {b : Nat} (hb : b < a.n) {k : Int}
    (hk : k < a.low b ∨ a.high b ≤ k) : antoniG a slope b k = 0 := by
  rw [antoniG_eq a slope hs hb]
  unfold AntoniBins.low AntoniBins.high at hk
  by_cases h : 0 ≤ k ∧ k < a.nfreq
  · rw [if_pos h]
    rcases hk with h1 | h1
    · by_cases h2 : b = 0
      · rw [if_pos h2] at h1; omega
      · rw [if_neg h2] at h1
        have : aRise a slope b k = 0 := by unfold aRise; rw [if_neg h2, if_pos h1]
        rw [this, zero_mul]
    · by_cases h2 : b + 1 < a.n
      · rw [if_pos h2] at h1
        have : aFall a slope (b + 1) k = 0 := by unfold aFall; rw [if_pos h1]
        rw [if_pos h2, this, mul_zero]
      · rw [if_neg h2] at h1; omega
  · rw [if_neg h]

/-- **C68** The magnitude of a band is in [-1, 1]. -/
theorem C68_range (a : AntoniBins) (slope : Nat) (hs : Separated a) {b : Nat} (hb : b < a.n) (k : Int) : |antoniG a slope b k| ≤ 1 := by
  rw [← sq_le_one_iff_abs_le_one]
  by_cases h : 0 ≤ k ∧ k < a.nfreq
  · rw [← C68_power a slope hs h.1 h.2]
    exact single_le_sum (f := fun b => antoniG a slope b k ^ 2) (fun i _ => sq_nonneg _) (mem_range.mpr hb)
  · unfold antoniG
    rw [if_neg h]; norm_num

end Verif.Bands
