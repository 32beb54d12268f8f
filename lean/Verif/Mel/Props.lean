import Verif.Mel.Model
import Mathlib.Analysis.SpecialFunctions.Integrals.Basic
import Mathlib.Data.List.GetD

namespace Verif.Mel

open Verif.Py Finset

/-! ## Specification -/

/-- A triangle of unit area with the corners `a`, `b`, `c`. -/
noncomputable def triangle (a b c x : ℝ) : ℝ := 2 / (c - a) * max 0 (min ((x - a) / (b - a)) ((c - x) / (c - b)))

/-- A filter of the bank at a bin. -/
def at' (H : List (List ℝ)) (m k : Nat) : ℝ := (H.getD m []).getD k 0

/-- Corners equally spaced on the mel scale, in bins of a transform of length `N`: `1125 ln(1 + f/700)` of the frequency of the corner. -/
def MelSpaced (M N : Nat) (fs fl fh : ℝ) (e : Nat → ℝ) : Prop :=
  e 0 = N * fl ∧ e (M + 1) = N * fh ∧
  ∀ j, 1125 * Real.log (1 + e (j + 1) * fs / N / 700) - 1125 * Real.log (1 + e j * fs / N / 700) =
    (1125 * Real.log (1 + fh * fs / 700) - 1125 * Real.log (1 + fl * fs / 700)) / (M + 1)

/-! ## The scale -/

/-- The two scales are inverse to each other and increasing. -/
theorem C111_scale : (∀ f, -700 < f → invmelscale (melscale f) = f) ∧ (∀ b, -700 < invmelscale b ∧ melscale (invmelscale b) = b) ∧
    (∀ f g, -700 < f → f < g → melscale f < melscale g) ∧ (∀ b c, b < c → invmelscale b < invmelscale c) ∧ melscale 0 = 0 := by
  refine ⟨?_, ?_, ?_, ?_, ?_⟩
  · intro f hf
    unfold invmelscale melscale
    rw [mul_div_cancel_left₀ _ (by norm_num), Real.exp_log (by linarith)]
    ring
  · intro b
    unfold invmelscale melscale
    have := Real.exp_pos (b / 1125)
    constructor
    · linarith
    · rw [mul_div_cancel_left₀ _ (by norm_num), add_sub_cancel, Real.log_exp]
      ring
  · intro f g hf hg
    unfold melscale
    have := Real.log_lt_log (by linarith : 0 < 1 + f / 700) (by linarith : 1 + f / 700 < 1 + g / 700)
    linarith
  · intro b c h
    unfold invmelscale
    have := Real.exp_lt_exp.mpr (by linarith : b / 1125 < c / 1125)
    linarith
  · simp [melscale]

theorem edge_zero {M N : Nat} {fs fl fh : ℝ} (hs : 0 < fs) (h0 : 0 ≤ fl) : edge M N fs fl fh 0 = N * fl := by
  have h1 : 0 ≤ fl * fs := by positivity
  unfold edge
  rw [Nat.cast_zero, zero_mul, zero_div, add_zero, C111_scale.1 _ (by linarith)]
  field_simp

theorem edge_last {M N : Nat} {fs fl fh : ℝ} (hs : 0 < fs) (h0 : 0 ≤ fh) : edge M N fs fl fh (M + 1) = N * fh := by
  have h1 : 0 ≤ fh * fs := by positivity
  have h2 : (M : ℝ) + 1 ≠ 0 := by positivity
  unfold edge
  rw [Nat.cast_add, Nat.cast_one, mul_div_cancel_left₀ _ h2, add_sub_cancel, C111_scale.1 _ (by linarith)]
  field_simp

theorem edge_mono {M N : Nat} {fs fl fh : ℝ} (hN : 0 < N) (hs : 0 < fs) (h0 : 0 ≤ fl) (h : fl < fh) : StrictMono (edge M N fs fl fh) := by
  apply strictMono_nat_of_lt_succ
  intro j
  have h1 : 0 ≤ fl * fs := by positivity
  have h2 : melscale (fl * fs) < melscale (fh * fs) := C111_scale.2.2.1 _ _ (by linarith) (by nlinarith)
  have h3 : (0 : ℝ) < N / fs := by positivity
  unfold edge
  refine mul_lt_mul_of_pos_left (C111_scale.2.2.2.1 _ _ ?_) h3
  have h4 : (0 : ℝ) < M + 1 := by positivity
  push_cast
  rw [add_lt_add_iff_left]
  apply div_lt_div_of_pos_right _ h4
  nlinarith

theorem edge_anti {M N : Nat} {fs fl fh : ℝ} (hs : 0 < fs) (h0 : 0 ≤ fh) (h : fh ≤ fl) : Antitone (edge M N fs fl fh) := by
  apply antitone_nat_of_succ_le
  intro j
  have h1 : 0 ≤ fh * fs := by positivity
  have h2 : melscale (fh * fs) ≤ melscale (fl * fs) := by
    rcases h.eq_or_lt with h | h
    · rw [h]
    · exact (C111_scale.2.2.1 _ _ (by linarith) (by nlinarith)).le
  have h3 : (0 : ℝ) ≤ N / fs := by positivity
  unfold edge
  refine mul_le_mul_of_nonneg_left ?_ h3
  have h4 : (0 : ℝ) < M + 1 := by positivity
  have h5 : melscale (fl * fs) + ((j + 1 : ℕ) * (melscale (fh * fs) - melscale (fl * fs)) / (M + 1)) ≤ melscale (fl * fs) + (j * (melscale (fh * fs) - melscale (fl * fs)) / (M + 1)) := by
    push_cast
    rw [add_le_add_iff_left]
    apply div_le_div_of_nonneg_right _ h4.le
    nlinarith
  rcases h5.eq_or_lt with h | h
  · rw [h]
  · exact (C111_scale.2.2.2.1 _ _ h).le

theorem edge_spaced {M N : Nat} {fs fl fh : ℝ} (hN : 0 < N) (hs : 0 < fs) (h0 : 0 ≤ fl) (h : 0 ≤ fh) : MelSpaced M N fs fl fh (edge M N fs fl fh) := by
  refine ⟨edge_zero hs h0, edge_last hs h, ?_⟩
  have hm : ∀ j, 1125 * Real.log (1 + edge M N fs fl fh j * fs / N / 700) = melscale (fl * fs) + (j * (melscale (fh * fs) - melscale (fl * fs)) / (M + 1)) := by
    intro j
    have h1 : edge M N fs fl fh j * fs / N = invmelscale (melscale (fl * fs) + (j * (melscale (fh * fs) - melscale (fl * fs)) / (M + 1))) := by
      have : (N : ℝ) ≠ 0 := by positivity
      unfold edge
      field_simp
    rw [h1]
    exact (C111_scale.2.1 _).2
  intro j
  rw [hm, hm]
  unfold melscale
  push_cast
  ring

/-! ## The filters -/

theorem entry_triangle {f : Nat → ℝ} (hf : StrictMono f) (m k : Nat) : entry f m k = triangle (f m) (f (m + 1)) (f (m + 2)) k := by
  have h1 : f m < f (m + 1) := hf (by omega)
  have h2 : f (m + 1) < f (m + 2) := hf (by omega)
  unfold entry triangle
  have ha : 0 < f (m + 1) - f m := by linarith
  have hb : 0 < f (m + 2) - f (m + 1) := by linarith
  have hc : 0 < f (m + 2) - f m := by linarith
  by_cases h3 : f (m + 1) ≤ k ∧ (k : ℝ) < f (m + 2)
  · rw [if_pos h3]
    have h4 : (f (m + 2) - k) / (f (m + 2) - f (m + 1)) ≤ 1 := (div_le_one hb).mpr (by linarith [h3.1])
    have h5 : 1 ≤ ((k : ℝ) - f m) / (f (m + 1) - f m) := (one_le_div ha).mpr (by linarith [h3.1])
    have h6 : 0 ≤ (f (m + 2) - k) / (f (m + 2) - f (m + 1)) := div_nonneg (by linarith [h3.2]) hb.le
    rw [min_eq_right (by linarith), max_eq_right h6]
    field_simp
  · rw [if_neg h3]
    by_cases h4 : f m < k ∧ (k : ℝ) < f (m + 1)
    · rw [if_pos h4]
      have h5 : 1 ≤ (f (m + 2) - k) / (f (m + 2) - f (m + 1)) := (one_le_div hb).mpr (by linarith [h4.2])
      have h6 : ((k : ℝ) - f m) / (f (m + 1) - f m) ≤ 1 := (div_le_one ha).mpr (by linarith [h4.2])
      have h7 : 0 ≤ ((k : ℝ) - f m) / (f (m + 1) - f m) := div_nonneg (by linarith [h4.1]) ha.le
      rw [min_eq_left (by linarith), max_eq_right h7]
      field_simp
    · rw [if_neg h4]
      have h5 : min (((k : ℝ) - f m) / (f (m + 1) - f m)) ((f (m + 2) - k) / (f (m + 2) - f (m + 1))) ≤ 0 := by
        by_cases h6 : (k : ℝ) ≤ f m
        · exact (min_le_left _ _).trans (div_nonpos_of_nonpos_of_nonneg (by linarith) ha.le)
        · refine (min_le_right _ _).trans (div_nonpos_of_nonpos_of_nonneg ?_ hb.le)
          push Not at h3 h4 h6
          have := h3 (h4 h6)
          linarith
      rw [max_eq_left h5, mul_zero]

theorem bank_at {M N : Nat} {fs fl fh : ℝ} {H : List (List ℝ)} (hs : 0 < fs) (hH : melfilterbank M N fs fl fh = .ok H) {m k : Nat} (hm : m < M) (hk : k ≤ N / 2) :
    at' H m k = entry (edge M N fs fl fh) m k := by
  unfold melfilterbank at hH
  rw [if_neg hs.ne'] at hH
  cases hH
  unfold at'
  rw [List.getD_eq_getElem (n := m) _ _ (by simpa using hm), List.getElem_map, List.getElem_range, List.getD_eq_getElem _ _ (by simpa using Nat.lt_succ_of_le hk), List.getElem_map, List.getElem_range]

/-- The bank has `M` filters of `N // 2 + 1` bins: triangles of unit area whose corners are equally spaced on the mel scale. -/
theorem C111_bank {M N : Nat} {fs fl fh : ℝ} (hN : 0 < N) (hs : 0 < fs) (h0 : 0 ≤ fl) (h : fl < fh) :
    ∃ H e, melfilterbank M N fs fl fh = .ok H ∧ StrictMono e ∧ MelSpaced M N fs fl fh e ∧ H.length = M ∧ (∀ row ∈ H, row.length = N / 2 + 1) ∧
      ∀ m k, m < M → k ≤ N / 2 → at' H m k = triangle (e m) (e (m + 1)) (e (m + 2)) k := by
  have hH : ∃ H, melfilterbank M N fs fl fh = .ok H := ⟨_, if_neg hs.ne'⟩
  obtain ⟨H, hH⟩ := hH
  refine ⟨H, edge M N fs fl fh, hH, edge_mono hN hs h0 h, edge_spaced hN hs h0 (h0.trans h.le), ?_, ?_, ?_⟩
  · unfold melfilterbank at hH
    rw [if_neg hs.ne'] at hH
    cases hH
    simp
  · unfold melfilterbank at hH
    rw [if_neg hs.ne'] at hH
    cases hH
    intro row hrow
    obtain ⟨m, _, rfl⟩ := List.mem_map.mp hrow
    simp
  · intro m k hm hk
    rw [bank_at hs hH hm hk, entry_triangle (edge_mono hN hs h0 h)]

/-- The corners are known from the specification. -/
theorem spaced_unique {M N : Nat} {fs fl fh : ℝ} (hN : 0 < N) (hs : 0 < fs) {e g : Nat → ℝ} (he : MelSpaced M N fs fl fh e) (hg : MelSpaced M N fs fl fh g)
    (h0 : 0 ≤ fl) (hem : Monotone e) (hgm : Monotone g) : e = g := by
  have hpos : ∀ x : Nat → ℝ, MelSpaced M N fs fl fh x → Monotone x → ∀ j, 0 < 1 + x j * fs / N / 700 := by
    intro x hx hm j
    have h1 : 0 ≤ x j := by
      have := hm (Nat.zero_le j)
      rw [hx.1] at this
      exact le_trans (by positivity) this
    positivity
  funext j
  induction j with
  | zero => rw [he.1, hg.1]
  | succ j ih =>
    have h1 := he.2.2 j
    have h2 := hg.2.2 j
    rw [ih] at h1
    have h3 : Real.log (1 + e (j + 1) * fs / N / 700) = Real.log (1 + g (j + 1) * fs / N / 700) := by linarith
    have h4 := Real.log_injOn_pos (Set.mem_Ioi.mpr (hpos e he hem (j + 1))) (Set.mem_Ioi.mpr (hpos g hg hgm (j + 1))) h3
    have h5 : (N : ℝ) ≠ 0 := by positivity
    field_simp at h4
    exact mul_left_cancel₀ hs.ne' (by linarith)

/-- Every filter is nonnegative, positive exactly at the bins strictly between its outer corners, and at most `2 / width`. -/
theorem C111_support {M N : Nat} {fs fl fh : ℝ} (hN : 0 < N) (hs : 0 < fs) (h0 : 0 ≤ fl) (h : fl < fh) {H : List (List ℝ)} (hH : melfilterbank M N fs fl fh = .ok H)
    {e : Nat → ℝ} (he : MelSpaced M N fs fl fh e) (hem : Monotone e) {m k : Nat} (hm : m < M) (hk : k ≤ N / 2) :
    0 ≤ at' H m k ∧ at' H m k ≤ 2 / (e (m + 2) - e m) ∧ (at' H m k ≠ 0 ↔ e m < k ∧ (k : ℝ) < e (m + 2)) := by
  have hmono := edge_mono (M := M) hN hs h0 h
  rw [spaced_unique hN hs he (edge_spaced hN hs h0 (h0.trans h.le)) h0 hem hmono.monotone, bank_at hs hH hm hk, entry_triangle hmono]
  set f := edge M N fs fl fh
  have h1 : f m < f (m + 1) := hmono (by omega)
  have h2 : f (m + 1) < f (m + 2) := hmono (by omega)
  have ha : 0 < f (m + 1) - f m := by linarith
  have hb : 0 < f (m + 2) - f (m + 1) := by linarith
  have hc : 0 < 2 / (f (m + 2) - f m) := div_pos two_pos (by linarith)
  unfold triangle
  refine ⟨mul_nonneg hc.le (le_max_left _ _), ?_, ?_⟩
  · refine mul_le_of_le_one_right hc.le (max_le zero_le_one ?_)
    by_cases h3 : (k : ℝ) ≤ f (m + 1)
    · exact (min_le_left _ _).trans ((div_le_one ha).mpr (by linarith))
    · exact (min_le_right _ _).trans ((div_le_one hb).mpr (by linarith))
  · rw [ne_eq, mul_eq_zero, not_or]
    constructor
    · rintro ⟨_, h3⟩
      by_contra h4
      apply h3
      refine max_eq_left ?_
      by_cases h5 : f m < k
      · exact (min_le_right _ _).trans (div_nonpos_of_nonpos_of_nonneg (by have := not_and.mp h4 h5; linarith) hb.le)
      · exact (min_le_left _ _).trans (div_nonpos_of_nonpos_of_nonneg (by linarith) ha.le)
    · rintro ⟨h3, h4⟩
      refine ⟨hc.ne', ?_⟩
      have : 0 < min (((k : ℝ) - f m) / (f (m + 1) - f m)) ((f (m + 2) - k) / (f (m + 2) - f (m + 1))) := lt_min (div_pos (by linarith) ha) (div_pos (by linarith) hb)
      rw [max_eq_right this.le]
      exact this.ne'

/-- The hats add up to one between the first and the last centre. -/
theorem hat_sum {f : Nat → ℝ} (hf : StrictMono f) (x : ℝ) (h1 : f 1 ≤ x) (M : Nat) :
    ∑ m ∈ range M, max 0 (min ((x - f m) / (f (m + 1) - f m)) ((f (m + 2) - x) / (f (m + 2) - f (m + 1)))) = max 0 (min 1 ((f (M + 1) - x) / (f (M + 1) - f M))) := by
  induction M with
  | zero =>
    have h2 : f 0 < f 1 := hf (by omega)
    rw [range_zero, sum_empty, max_eq_left]
    exact (min_le_right _ _).trans (div_nonpos_of_nonpos_of_nonneg (by simpa using h1) (by simpa using h2.le))
  | succ M ih =>
    rw [sum_range_succ, ih]
    have ha : 0 < f (M + 1) - f M := by have : f M < f (M + 1) := hf (by omega); linarith
    have hb : 0 < f (M + 2) - f (M + 1) := by have : f (M + 1) < f (M + 2) := hf (by omega); linarith
    have hd : (x - f M) / (f (M + 1) - f M) = 1 - (f (M + 1) - x) / (f (M + 1) - f M) := by
      field_simp
      ring
    rw [hd]
    by_cases hx : x ≤ f (M + 1)
    · have h3 : 0 ≤ (f (M + 1) - x) / (f (M + 1) - f M) := div_nonneg (by linarith) ha.le
      have h4 : 1 ≤ (f (M + 2) - x) / (f (M + 2) - f (M + 1)) := (one_le_div hb).mpr (by linarith)
      rw [min_eq_left (a := 1 - _) (by linarith), min_eq_left (a := (1 : ℝ)) (b := (f (M + 1 + 1) - x) / _) h4, max_eq_right (zero_le_one)]
      rcases le_total 1 ((f (M + 1) - x) / (f (M + 1) - f M)) with h5 | h5
      · rw [min_eq_left h5, max_eq_right zero_le_one, max_eq_left (by linarith)]
        ring
      · rw [min_eq_right h5, max_eq_right h3, max_eq_right (by linarith)]
        ring
    · have h3 : (f (M + 1) - x) / (f (M + 1) - f M) ≤ 0 := div_nonpos_of_nonpos_of_nonneg (by linarith) ha.le
      have h4 : (f (M + 2) - x) / (f (M + 2) - f (M + 1)) ≤ 1 := (div_le_one hb).mpr (by linarith)
      rw [min_eq_right (a := (1 : ℝ)) (b := (f (M + 1) - x) / _) (by linarith), max_eq_left h3, zero_add, min_eq_right (a := 1 - _) (by linarith),
        min_eq_right (a := (1 : ℝ)) (b := (f (M + 1 + 1) - x) / _) h4]

/-- Weighted with half their widths the filters add up to one at every bin between the first and the last centre. -/
theorem C111_partition {M N : Nat} {fs fl fh : ℝ} (hN : 0 < N) (hs : 0 < fs) (h0 : 0 ≤ fl) (h : fl < fh) {H : List (List ℝ)} (hH : melfilterbank M N fs fl fh = .ok H)
    {e : Nat → ℝ} (he : MelSpaced M N fs fl fh e) (hem : Monotone e) {k : Nat} (hk : k ≤ N / 2) (h1 : e 1 ≤ k) (h2 : (k : ℝ) ≤ e M) :
    ∑ m ∈ range M, (e (m + 2) - e m) / 2 * at' H m k = 1 := by
  have hmono := edge_mono (M := M) hN hs h0 h
  have hee := spaced_unique hN hs he (edge_spaced hN hs h0 (h0.trans h.le)) h0 hem hmono.monotone
  rw [hee] at h1 h2 ⊢
  have h3 := hat_sum hmono k h1 M
  have h4 : edge M N fs fl fh M < edge M N fs fl fh (M + 1) := hmono (by omega)
  rw [min_eq_left ((one_le_div (by linarith)).mpr (by linarith)), max_eq_right zero_le_one] at h3
  rw [← h3]
  refine sum_congr rfl fun m hm => ?_
  rw [bank_at hs hH (mem_range.mp hm) hk, entry_triangle hmono]
  unfold triangle
  have h5 : edge M N fs fl fh m < edge M N fs fl fh (m + 2) := hmono (by omega)
  have h6 : edge M N fs fl fh (m + 2) - edge M N fs fl fh m ≠ 0 := by linarith [sub_pos.mpr h5]
  rw [← mul_assoc, div_mul_div_comm, mul_comm _ (2 : ℝ), div_self (mul_ne_zero two_ne_zero h6), one_mul]

/-- The triangles have unit area. -/
theorem C111_area {a b c : ℝ} (h1 : a < b) (h2 : b < c) : ∫ x in a..c, triangle a b c x = 1 := by
  have ha : 0 < b - a := by linarith
  have hb : 0 < c - b := by linarith
  have hc : 0 < c - a := by linarith
  have hl : Set.EqOn (triangle a b c) (fun x => 2 / (c - a) * ((x - a) / (b - a))) (Set.uIcc a b) := by
    intro x hx
    rw [Set.uIcc_of_le h1.le] at hx
    have h3 : (x - a) / (b - a) ≤ 1 := (div_le_one ha).mpr (by linarith [hx.2])
    have h4 : 1 ≤ (c - x) / (c - b) := (one_le_div hb).mpr (by linarith [hx.2])
    have h5 : 0 ≤ (x - a) / (b - a) := div_nonneg (by linarith [hx.1]) ha.le
    unfold triangle
    beta_reduce
    rw [min_eq_left (by linarith), max_eq_right h5]
  have hr : Set.EqOn (triangle a b c) (fun x => 2 / (c - a) * ((c - x) / (c - b))) (Set.uIcc b c) := by
    intro x hx
    rw [Set.uIcc_of_le h2.le] at hx
    have h3 : (c - x) / (c - b) ≤ 1 := (div_le_one hb).mpr (by linarith [hx.1])
    have h4 : 1 ≤ (x - a) / (b - a) := (one_le_div ha).mpr (by linarith [hx.1])
    have h5 : 0 ≤ (c - x) / (c - b) := div_nonneg (by linarith [hx.2]) hb.le
    unfold triangle
    beta_reduce
    rw [min_eq_right (by linarith), max_eq_right h5]
  have hcont : Continuous (triangle a b c) := by
    unfold triangle
    fun_prop
  rw [← intervalIntegral.integral_add_adjacent_intervals (hcont.intervalIntegrable a b) (hcont.intervalIntegrable b c), intervalIntegral.integral_congr hl,
    intervalIntegral.integral_congr hr]
  have e1 : ∫ x in a..b, (x - a) = (b - a) ^ 2 / 2 := by
    rw [intervalIntegral.integral_sub (Continuous.intervalIntegrable (by fun_prop) _ _) (Continuous.intervalIntegrable (by fun_prop) _ _)]
    simp
    ring
  have e2 : ∫ x in b..c, (c - x) = (c - b) ^ 2 / 2 := by
    rw [intervalIntegral.integral_sub (Continuous.intervalIntegrable (by fun_prop) _ _) (Continuous.intervalIntegrable (by fun_prop) _ _)]
    simp
    ring
  rw [intervalIntegral.integral_const_mul, intervalIntegral.integral_const_mul, intervalIntegral.integral_div, intervalIntegral.integral_div, e1, e2]
  field_simp
  ring

/-- If the band is empty or reversed all the filters are zero. -/
theorem C111_reversed {M N : Nat} {fs fl fh : ℝ} (hs : 0 < fs) (h0 : 0 ≤ fh) (h : fh ≤ fl) {H : List (List ℝ)} (hH : melfilterbank M N fs fl fh = .ok H) {m k : Nat}
    (hm : m < M) (hk : k ≤ N / 2) : at' H m k = 0 := by
  rw [bank_at hs hH hm hk]
  have ha := edge_anti (M := M) (N := N) hs h0 h
  have h1 := ha (show m ≤ m + 1 by omega)
  have h2 := ha (show m + 1 ≤ m + 2 by omega)
  unfold entry
  rw [if_neg (by rintro ⟨h3, h4⟩; linarith), if_neg (by rintro ⟨h3, h4⟩; linarith)]

/-- With many filters the lowest ones contain no bin, so that they are zero (and the logarithm of their energy is infinite): a deviation for every transform length. -/
theorem C111_empty_deviation {N : Nat} {fs fh : ℝ} (hs : 0 < fs) (h : 0 < fh) :
    ∃ M0, ∀ M, M0 ≤ M → ∃ H, melfilterbank M N fs 0 fh = .ok H ∧ ∀ k, k ≤ N / 2 → at' H 0 k = 0 := by
  have hmel : 0 < melscale (fh * fs) := by
    have := C111_scale.2.2.1 0 (fh * fs) (by norm_num) (by positivity)
    rwa [C111_scale.2.2.2.2] at this
  -- the second corner tends to zero
  have htend : Filter.Tendsto (fun M : ℕ => (N / fs) * invmelscale (2 * melscale (fh * fs) / ((M : ℝ) + 1))) Filter.atTop (nhds ((N / fs) * invmelscale 0)) := by
    have hc : Continuous fun b => (N / fs) * invmelscale b := by
      unfold invmelscale
      fun_prop
    refine (hc.tendsto 0).comp ?_
    have := (tendsto_one_div_add_atTop_nhds_zero_nat (𝕜 := ℝ)).const_mul (2 * melscale (fh * fs))
    simpa [div_eq_mul_inv] using this
  have h0 : (N / fs) * invmelscale 0 = 0 := by simp [invmelscale]
  rw [h0] at htend
  obtain ⟨M0, hM0⟩ := Filter.eventually_atTop.mp (htend.eventually (gt_mem_nhds one_pos))
  refine ⟨M0 + 1, fun M hM => ⟨_, if_neg hs.ne', fun k hk => ?_⟩⟩
  rw [bank_at (H := _) hs (if_neg hs.ne') (by omega) hk]
  have h2 : edge M N fs 0 fh 2 < 1 := by
    have := hM0 M (by omega)
    unfold edge
    rw [zero_mul, C111_scale.2.2.2.2, sub_zero, zero_add]
    exact_mod_cast this
  have h3 : edge M N fs 0 fh 0 = 0 := by rw [edge_zero hs le_rfl, mul_zero]
  unfold entry
  rcases Nat.eq_zero_or_pos k with hk0 | hk0
  · subst hk0
    have h1 : 0 ≤ edge M N fs 0 fh 1 := by
      unfold edge
      refine mul_nonneg (by positivity) ?_
      unfold invmelscale
      rw [zero_mul, C111_scale.2.2.2.2, sub_zero, zero_add]
      have := Real.one_le_exp (show 0 ≤ (1 : ℕ) * melscale (fh * fs) / (M + 1) / 1125 by positivity)
      linarith
    by_cases hN : N = 0
    · have hz : ∀ j, edge M N fs 0 fh j = 0 := by
        intro j
        unfold edge
        rw [hN]
        simp
      rw [if_neg (by rw [hz]; simp [hz]), if_neg (by rw [hz]; simp)]
    · have hm := edge_mono (M := M) (Nat.pos_of_ne_zero hN) hs le_rfl h
      have h5 : edge M N fs 0 fh 0 < edge M N fs 0 fh 1 := hm (by omega)
      rw [if_neg (by push_cast; rintro ⟨h6, _⟩; linarith), if_neg (by push_cast; rintro ⟨h6, _⟩; linarith)]
  · have h4 : (1 : ℝ) ≤ k := by exact_mod_cast hk0
    by_cases hN : N = 0
    · omega
    · have hm := edge_mono (M := M) (Nat.pos_of_ne_zero hN) hs le_rfl h
      have h5 : edge M N fs 0 fh 1 < edge M N fs 0 fh 2 := hm (by omega)
      rw [if_neg (by rintro ⟨_, h6⟩; linarith), if_neg (by rintro ⟨_, h6⟩; linarith)]

/-! ## Examples -/

example : melscale 700 = 1125 * Real.log 2 ∧ invmelscale (melscale 1000) = 1000 := by
  refine ⟨?_, C111_scale.1 _ (by norm_num)⟩
  unfold melscale
  norm_num

example : ∃ H, ∃ e : Nat → ℝ, melfilterbank 14 128 8000 0 (1 / 2) = .ok H ∧ StrictMono e ∧ H.length = 14 ∧ e 0 = 0 ∧ e 15 = 64 := by
  obtain ⟨H, e, h1, h2, h3, h4, _⟩ := C111_bank (M := 14) (N := 128) (fs := 8000) (fl := 0) (fh := 1 / 2) (by norm_num) (by norm_num) le_rfl (by norm_num)
  refine ⟨H, e, h1, h2, h4, ?_, ?_⟩
  · rw [h3.1]; norm_num
  · rw [h3.2.1]; norm_num

/-- There are bins between the first and the last centre. -/
example : ∃ H e, melfilterbank 2 64 8000 0 (1 / 2) = .ok H ∧ Monotone e ∧ MelSpaced 2 64 8000 0 (1 / 2) e ∧ ∃ k : ℕ, k ≤ 32 ∧ e 1 ≤ k ∧ (k : ℝ) ≤ e 2 ∧
    ∑ m ∈ range 2, (e (m + 2) - e m) / 2 * at' H m k = 1 := by
  obtain ⟨H, e, h1, h2, h3, h4, _⟩ := C111_bank (M := 2) (N := 64) (fs := 8000) (fl := 0) (fh := 1 / 2) (by norm_num) (by norm_num) le_rfl (by norm_num)
  have hed := spaced_unique (by norm_num) (by norm_num) h3 (edge_spaced (by norm_num) (by norm_num) le_rfl (by norm_num)) le_rfl h2.monotone
    (edge_mono (by norm_num) (by norm_num) le_rfl (by norm_num)).monotone
  -- the corners are the cube roots of `47 / 7`
  have hcorner : ∀ j : ℕ, e j = 28 / 5 * (Real.exp (j * Real.log (47 / 7) / 3) - 1) := by
    intro j
    rw [hed]
    unfold edge invmelscale melscale
    norm_num
    ring_nf
  set r := Real.exp (Real.log (47 / 7) / 3) with hr
  have hr3 : r ^ 3 = 47 / 7 := by
    rw [hr, ← Real.exp_nat_mul]
    push_cast
    rw [mul_div_cancel₀ _ (by norm_num), Real.exp_log (by norm_num)]
  have hr0 : 0 < r := Real.exp_pos _
  have e1 : e 1 = 28 / 5 * (r - 1) := by rw [hcorner]; simp [hr]
  have e2 : e 2 = 28 / 5 * (r ^ 2 - 1) := by
    rw [hcorner, hr, ← Real.exp_nat_mul]
    push_cast
    ring_nf
  have hr1 : r ≤ 2 := by
    by_contra h
    push Not at h
    have : (2 : ℝ) ^ 3 < r ^ 3 := pow_lt_pow_left₀ h (by norm_num) (by norm_num)
    rw [hr3] at this
    norm_num at this
  have hr2 : 3 / 2 ≤ r := by
    by_contra h
    push Not at h
    have : r ^ 3 < (3 / 2 : ℝ) ^ 3 := pow_lt_pow_left₀ h hr0.le (by norm_num)
    rw [hr3] at this
    norm_num at this
  have h5 : e 1 ≤ (6 : ℕ) := by rw [e1]; push_cast; linarith
  have h6 : ((6 : ℕ) : ℝ) ≤ e 2 := by rw [e2]; push_cast; nlinarith
  exact ⟨H, e, h1, h2.monotone, h3, 6, by norm_num, h5, h6, C111_partition (by norm_num) (by norm_num) le_rfl (by norm_num) h1 h3 h2.monotone (by norm_num) h5 h6⟩

example : ∃ H, melfilterbank 3 16 8000 (1 / 2) (1 / 4) = .ok H ∧ at' H 1 5 = 0 :=
  ⟨_, if_neg (by norm_num), C111_reversed (N := 16) (M := 3) (by norm_num) (by norm_num) (by norm_num) (if_neg (by norm_num)) (by norm_num) (by norm_num)⟩

example : ∃ M H, melfilterbank M 128 8000 0 (1 / 2) = .ok H ∧ at' H 0 1 = 0 := by
  obtain ⟨M, hM⟩ := C111_empty_deviation (N := 128) (fs := 8000) (fh := 1 / 2) (by norm_num) (by norm_num)
  obtain ⟨H, h1, h2⟩ := hM M le_rfl
  exact ⟨M, H, h1, h2 1 (by norm_num)⟩

example : ∫ x in (0 : ℝ)..3, triangle 0 1 3 x = 1 := C111_area (by norm_num) (by norm_num)

end Verif.Mel
