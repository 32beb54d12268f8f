import Verif.Rt60.Model
import Mathlib.Tactic.IntervalCases
import Mathlib.Tactic.Linarith
import Mathlib.Tactic.Positivity
import Mathlib.Tactic.FieldSimp
import Mathlib.Data.List.GetD
import Mathlib.Algebra.Order.Chebyshev

/-!
# Measurement of the reverberation time: property C78
-/

namespace Verif.Rt60

open Verif.Py Finset

/-! ## Least squares -/

section LeastSquares

variable {m : Nat} {t y : Nat → ℝ}

theorem sum_sub_mean (hm : 1 ≤ m) (f : Nat → ℝ) : ∑ k ∈ range m, (f k - mean m f) = 0 := by
  have : (m : ℝ) ≠ 0 := by positivity
  rw [Finset.sum_sub_distrib, Finset.sum_const, Finset.card_range, nsmul_eq_mul, mean, mul_div_cancel₀ _ this, sub_self]

theorem var_pos (hm : 2 ≤ m) (ht : t 0 ≠ t 1) : 0 < ∑ k ∈ range m, (t k - mean m t) ^ 2 := by
  have h0 : ∀ k ∈ range m, 0 ≤ (t k - mean m t) ^ 2 := fun k _ => sq_nonneg _
  rcases (Finset.sum_nonneg h0).lt_or_eq with h | h
  · exact h
  · exfalso
    have hz := (Finset.sum_eq_zero_iff_of_nonneg h0).mp h.symm
    have e0 := pow_eq_zero_iff (two_ne_zero) |>.mp (hz 0 (Finset.mem_range.mpr (by omega)))
    have e1 := pow_eq_zero_iff (two_ne_zero) |>.mp (hz 1 (Finset.mem_range.mpr (by omega)))
    apply ht
    linarith

/-- The line through the means with the slope `slope` has the least squares of all lines. -/
theorem slope_least (hm : 2 ≤ m) (ht : t 0 ≠ t 1) (a b : ℝ) :
    ∑ k ∈ range m, (slope m t y * (t k - mean m t) + mean m y - y k) ^ 2 ≤ ∑ k ∈ range m, (a * t k + b - y k) ^ 2 := by
  have hV := var_pos hm ht
  set V := ∑ k ∈ range m, (t k - mean m t) ^ 2 with hVd
  set p := slope m t y with hp
  have hpV : ∑ k ∈ range m, (t k - mean m t) * (y k - mean m y) = p * V := by
    rw [hp, slope, ← hVd]; field_simp
  have ht0 := sum_sub_mean (by omega : 1 ≤ m) t
  have hy0 := sum_sub_mean (by omega : 1 ≤ m) y
  set d := a * mean m t + b - mean m y with hd
  have key : ∑ k ∈ range m, (a * t k + b - y k) ^ 2 - ∑ k ∈ range m, (p * (t k - mean m t) + mean m y - y k) ^ 2 = (a - p) ^ 2 * V + m * d ^ 2 := by
    rw [← Finset.sum_sub_distrib]
    have : ∀ k ∈ range m, (a * t k + b - y k) ^ 2 - (p * (t k - mean m t) + mean m y - y k) ^ 2 =
        (a ^ 2 - p ^ 2) * (t k - mean m t) ^ 2 - 2 * (a - p) * ((t k - mean m t) * (y k - mean m y)) + d ^ 2 + 2 * a * d * (t k - mean m t) - 2 * d * (y k - mean m y) := by
      intro k _
      rw [hd]
      ring
    rw [Finset.sum_congr rfl this, Finset.sum_sub_distrib, Finset.sum_add_distrib, Finset.sum_add_distrib, Finset.sum_sub_distrib, ← Finset.mul_sum, ← Finset.mul_sum, ← Finset.mul_sum, ← Finset.mul_sum, ht0, hy0, hpV, ← hVd,
      Finset.sum_const, Finset.card_range, nsmul_eq_mul]
    ring
  have : 0 ≤ (a - p) ^ 2 * V + m * d ^ 2 := by positivity
  linarith

theorem slope_line (hm : 2 ≤ m) (ht : t 0 ≠ t 1) {a b : ℝ} (hy : ∀ k, k < m → y k = a * t k + b) : slope m t y = a := by
  have hV := var_pos hm ht
  have hmean : mean m y = a * mean m t + b := by
    have : (m : ℝ) ≠ 0 := by positivity
    unfold mean
    rw [Finset.sum_congr rfl fun k hk => hy k (Finset.mem_range.mp hk), Finset.sum_add_distrib, ← Finset.mul_sum, Finset.sum_const, Finset.card_range, nsmul_eq_mul]
    field_simp
  unfold slope
  have : ∑ k ∈ range m, (t k - mean m t) * (y k - mean m y) = a * ∑ k ∈ range m, (t k - mean m t) ^ 2 := by
    rw [Finset.mul_sum]
    apply Finset.sum_congr rfl
    intro k hk
    rw [hy k (Finset.mem_range.mp hk), hmean]
    ring
  rw [this, mul_div_assoc, div_self hV.ne', mul_one]

/-- A curve that does not increase has no positive slope. -/
theorem slope_nonpos (hm : 1 ≤ m) (ht : ∀ i j, i < m → j < m → i ≤ j → t i ≤ t j) (hy : ∀ i j, i < m → j < m → i ≤ j → y j ≤ y i) : slope m t y ≤ 0 := by
  unfold slope
  apply div_nonpos_of_nonpos_of_nonneg _ (Finset.sum_nonneg fun k _ => sq_nonneg _)
  have hm0 : (0 : ℝ) < m := by exact_mod_cast hm
  have hcheb : (m : ℝ) * ∑ k ∈ range m, t k * y k ≤ (∑ k ∈ range m, t k) * ∑ k ∈ range m, y k := by
    have hanti : AntivaryOn t y (range m) := by
      intro i hi j hj hij
      have hi' := Finset.mem_range.mp (Finset.mem_coe.mp hi)
      have hj' := Finset.mem_range.mp (Finset.mem_coe.mp hj)
      rcases Nat.le_total i j with h | h
      · exact absurd (hy i j hi' hj' h) (not_le.mpr hij)
      · exact ht j i hj' hi' h
    have := hanti.card_mul_sum_le_sum_mul_sum
    rwa [Finset.card_range] at this
  have hexp : ∑ k ∈ range m, (t k - mean m t) * (y k - mean m y) = ∑ k ∈ range m, t k * y k - (∑ k ∈ range m, t k) * (∑ k ∈ range m, y k) / m := by
    have : ∀ k ∈ range m, (t k - mean m t) * (y k - mean m y) = t k * y k - mean m y * t k - mean m t * y k + mean m t * mean m y := fun k _ => by ring
    rw [Finset.sum_congr rfl this, Finset.sum_add_distrib, Finset.sum_sub_distrib, Finset.sum_sub_distrib, ← Finset.mul_sum, ← Finset.mul_sum, Finset.sum_const, Finset.card_range, nsmul_eq_mul]
    unfold mean
    field_simp
    ring
  rw [hexp, sub_nonpos, le_div_iff₀ hm0]
  linarith

end LeastSquares

/-- **C78** The line of the fit is the best in the sense of least squares. -/
theorem C78_fit {data : List ℝ} {fs x : ℝ} (hfs : fs ≠ 0) (h : fit data fs = .ok (some x)) :
    ∃ p q, p ≠ 0 ∧ x = -60 / p ∧ ∀ a b : ℝ, ∑ k ∈ range data.length, (p * (k / fs) + q - (data.getD k 0 - data.getD 0 0)) ^ 2 ≤
      ∑ k ∈ range data.length, (a * (k / fs) + b - (data.getD k 0 - data.getD 0 0)) ^ 2 := by
  unfold fit at h
  split at h
  · exact nomatch h
  · split at h
    · exact nomatch h
    · dsimp only at h
      split at h
      · exact nomatch h
      · rename_i h0 h1 hp
        simp only [Except.ok.injEq, Option.some.injEq] at h
        have hm : 2 ≤ data.length := by omega
        have ht : (fun k : Nat => (k : ℝ) / fs) 0 ≠ (fun k : Nat => (k : ℝ) / fs) 1 := by
          simp [Ne.symm hfs]
        refine ⟨_, mean data.length (fun k => data.getD k 0 - data.getD 0 0) - slope data.length (fun k => (k : ℝ) / fs) (fun k => data.getD k 0 - data.getD 0 0) * mean data.length (fun k => (k : ℝ) / fs), hp, h.symm, fun a b => ?_⟩
        refine le_trans (le_of_eq ?_) (slope_least (y := fun k => data.getD k 0 - data.getD 0 0) hm ht a b)
        apply Finset.sum_congr rfl
        intro k _
        ring

/-! ## Schroeder's curve -/

theorem energy_anti (h : List ℝ) {i j : Nat} (hij : i ≤ j) : energy h j ≤ energy h i := by
  unfold energy
  exact Finset.sum_le_sum_of_subset_of_nonneg (Finset.Ico_subset_Ico_left hij) fun _ _ _ => sq_nonneg _

theorem curve_anti (h : List ℝ) (thres : ℝ) {i j : Nat} (hij : i ≤ j) : curve h thres j ≤ curve h thres i := by
  have := energy_anti h hij
  unfold curve
  split
  · exact max_le_max (by linarith) (le_refl _)
  · exact this

theorem toDb_anti {e : Nat → ℝ} {i j : Nat} (hij : e j ≤ e i) (hj : 0 < e j) : toDb e j ≤ toDb e i := by
  unfold toDb
  have := Real.logb_le_logb_of_le (b := 10) (by norm_num) hj hij
  linarith

open Classical in
/-- The last number with energy. -/
theorem sup_spec {N : Nat} {p : Nat → Prop} (hne : (range N).filter p ≠ ∅) : ((range N).filter p).sup id < N ∧ p (((range N).filter p).sup id) ∧ ∀ n, n < N → p n → n ≤ ((range N).filter p).sup id := by
  obtain ⟨k, hk, hke⟩ := Finset.exists_mem_eq_sup _ (Finset.nonempty_iff_ne_empty.mpr hne) id
  rw [Finset.mem_filter, Finset.mem_range] at hk
  simp only [id] at hke
  change _ = k at hke
  rw [hke]
  exact ⟨hk.1, hk.2, fun n hn hp => by rw [← hke]; exact Finset.le_sup (f := id) (Finset.mem_filter.mpr ⟨Finset.mem_range.mpr hn, hp⟩)⟩

/-- The list does not increase. -/
def Falls (l : List ℝ) : Prop := ∀ i j, i < l.length → j < l.length → i ≤ j → l.getD j 0 ≤ l.getD i 0

theorem fit_nonneg {data : List ℝ} (hd : Falls data) {fs x : ℝ} (hfs : 0 < fs) (h : fit data fs = .ok (some x)) : 0 < x := by
  unfold fit at h
  split at h
  · exact nomatch h
  · split at h
    · exact nomatch h
    · dsimp only at h
      split at h
      · exact nomatch h
      · rename_i h0 h1 hp
        simp only [Except.ok.injEq, Option.some.injEq] at h
        have hle := slope_nonpos (m := data.length) (t := fun k => (k : ℝ) / fs) (y := fun k => data.getD k 0 - data.getD 0 0) (by omega)
          (fun i j _ _ hij => by
            have : (i : ℝ) ≤ j := by exact_mod_cast hij
            exact div_le_div_of_nonneg_right this hfs.le)
          (fun i j hi hj hij => by have := hd i j hi hj hij; linarith)
        have hlt := lt_of_le_of_ne hle hp
        rw [← h]
        exact div_pos_of_neg_of_neg (by norm_num) hlt

theorem getD_window (l : List ℝ) (i m k : Nat) (hk : k < ((l.drop i).take m).length) : ((l.drop i).take m).getD k 0 = l.getD (i + k) 0 := by
  have h1 := hk
  rw [List.length_take, List.length_drop] at h1
  rw [List.getD_eq_getElem _ _ hk, List.getD_eq_getElem _ _ (by omega)]
  simp

theorem falls_window {l : List ℝ} (hl : Falls l) (i m : Nat) : Falls ((l.drop i).take m) := by
  intro a b ha hb hab
  rw [getD_window l i m a ha, getD_window l i m b hb]
  rw [List.length_take, List.length_drop] at ha hb
  exact hl _ _ (by omega) (by omega) (by omega)

theorem fromDb_nonneg {l : List ℝ} (hl : Falls l) {fs decay x : ℝ} (hfs : 0 < fs) (h : fromDb l fs decay = .ok (some x)) : 0 ≤ x := by
  unfold fromDb at h
  dsimp only at h
  split at h
  · simp only [Except.ok.injEq, Option.some.injEq] at h
    exact h.le
  · exact (fit_nonneg (falls_window hl _ _) hfs h).le

theorem falls_toDb {h : List ℝ} {thres : ℝ} {nz : Nat} (hnz : 0 < curve h thres nz) : Falls ((List.range nz).map (toDb (curve h thres))) := by
  intro i j hi hj hij
  rw [List.length_map, List.length_range] at hi hj
  rw [List.getD_eq_getElem _ _ (by simpa using hj), List.getD_eq_getElem _ _ (by simpa using hi)]
  simp only [List.getElem_map, List.getElem_range]
  exact toDb_anti (curve_anti h thres hij) (lt_of_lt_of_le hnz (curve_anti h thres hj.le))

/-- **C78** A measured reverberation time is not negative. -/
theorem C78_nonneg {h : List ℝ} {fs decay thres x : ℝ} (hfs : 0 < fs) (hx : measure h fs decay thres = .ok (some x)) : 0 ≤ x := by
  classical
  unfold measure at hx
  split at hx
  · exact nomatch hx
  · split at hx
    · exact nomatch hx
    · dsimp only at hx
      split at hx
      · simp only [Except.ok.injEq, Option.some.injEq] at hx
        exact hx.le
      · rename_i hne
        split at hx
        · exact nomatch hx
        · exact fromDb_nonneg (falls_toDb (sup_spec hne).2.1) hfs hx

/-! ## Scale and sampling rate -/

theorem energy_scale (h : List ℝ) (c : ℝ) (n : Nat) : energy (h.map (c * ·)) n = c ^ 2 * energy h n := by
  unfold energy
  rw [List.length_map, Finset.mul_sum]
  apply Finset.sum_congr rfl
  intro m hm
  have hm' := (Finset.mem_Ico.mp hm).2
  rw [List.getD_eq_getElem _ _ (by simpa using hm'), List.getD_eq_getElem _ _ hm', List.getElem_map]
  ring

theorem curve_scale (h : List ℝ) (c thres : ℝ) (n : Nat) : curve (h.map (c * ·)) thres n = c ^ 2 * curve h thres n := by
  unfold curve
  rw [energy_scale, energy_scale]
  split
  · rw [mul_max_of_nonneg _ _ (sq_nonneg c), mul_zero]
    congr 1
    ring
  · rfl

/-- **C78** The measurement does not depend on the scale of the impulse response. -/
theorem C78_scale (h : List ℝ) {c : ℝ} (hc : c ≠ 0) (fs decay thres : ℝ) : measure (h.map (c * ·)) fs decay thres = measure h fs decay thres := by
  classical
  have hc2 : 0 < c ^ 2 := by positivity
  unfold measure
  rw [List.length_map]
  split
  · rfl
  · split
    · rfl
    · dsimp only
      have hset : (range h.length).filter (fun n => curve (h.map (c * ·)) thres n > 0) = (range h.length).filter fun n => curve h thres n > 0 := by
        apply Finset.filter_congr
        intro n _
        rw [curve_scale]
        exact mul_pos_iff_of_pos_left hc2
      rw [hset]
      split
      · rfl
      · rename_i hne
        split
        · rfl
        · congr 1
          apply List.map_congr_left
          intro n hn
          have hn' := List.mem_range.mp hn
          have hpos := (sup_spec hne).2.1
          have h1 : 0 < curve h thres n := lt_of_lt_of_le hpos (curve_anti h thres hn'.le)
          have h0 : 0 < curve h thres 0 := lt_of_lt_of_le h1 (curve_anti h thres (Nat.zero_le n))
          unfold toDb
          rw [curve_scale, curve_scale, Real.logb_mul hc2.ne' h1.ne', Real.logb_mul hc2.ne' h0.ne']
          ring

theorem slope_rate (m : Nat) (y : Nat → ℝ) {fs : ℝ} (hfs : fs ≠ 0) : slope m (fun k => (k : ℝ) / fs) y = slope m (fun k => (k : ℝ) / 1) y * fs := by
  have hmean : mean m (fun k => (k : ℝ) / fs) = mean m (fun k => (k : ℝ) / 1) / fs := by
    unfold mean
    simp only [div_one]
    rw [← Finset.sum_div]
    ring
  unfold slope
  rw [hmean]
  have h1 : ∑ k ∈ range m, ((k : ℝ) / fs - mean m (fun k => (k : ℝ) / 1) / fs) * (y k - mean m y) = (∑ k ∈ range m, ((k : ℝ) / 1 - mean m (fun k => (k : ℝ) / 1)) * (y k - mean m y)) / fs := by
    rw [Finset.sum_div]
    apply Finset.sum_congr rfl
    intro k _
    ring
  have h2 : ∑ k ∈ range m, ((k : ℝ) / fs - mean m (fun k => (k : ℝ) / 1) / fs) ^ 2 = (∑ k ∈ range m, ((k : ℝ) / 1 - mean m (fun k => (k : ℝ) / 1)) ^ 2) / fs ^ 2 := by
    rw [Finset.sum_div]
    apply Finset.sum_congr rfl
    intro k _
    field_simp
  rw [h1, h2]
  rcases eq_or_ne (∑ k ∈ range m, ((k : ℝ) / 1 - mean m (fun k => (k : ℝ) / 1)) ^ 2) 0 with h0 | h0
  · rw [h0]; simp
  · field_simp

theorem fit_rate (data : List ℝ) {fs : ℝ} (hfs : fs ≠ 0) : fit data fs = (fit data 1).map (Option.map (· / fs)) := by
  unfold fit
  split
  · rfl
  · split
    · rfl
    · dsimp only
      rw [slope_rate _ _ hfs]
      by_cases hp : slope data.length (fun k => (k : ℝ) / 1) (fun k => data.getD k 0 - data.getD 0 0) = 0
      · rw [if_pos (by rw [hp, zero_mul]), if_pos hp]
        rfl
      · rw [if_neg (mul_ne_zero hp hfs), if_neg hp]
        simp only [Except.map, Option.map_some]
        congr 2
        field_simp

/-- **C78** The result is in seconds: it is the number of samples over the sampling frequency. -/
theorem C78_rate (h : List ℝ) {fs : ℝ} (hfs : fs ≠ 0) (decay thres : ℝ) : measure h fs decay thres = (measure h 1 decay thres).map (Option.map (· / fs)) := by
  classical
  unfold measure
  split
  · rfl
  · split
    · rfl
    · dsimp only
      split
      · simp [Except.map]
      · split
        · rfl
        · unfold fromDb
          dsimp only
          split
          · simp [Except.map]
          · exact fit_rate _ hfs

/-! ## Exponential decay -/

theorem foldl_min_le (l : List ℝ) (m : ℝ) : l.foldl min m ≤ m ∧ ∀ x ∈ l, l.foldl min m ≤ x := by
  induction l generalizing m with
  | nil => simp
  | cons a l ih =>
    obtain ⟨h1, h2⟩ := ih (min m a)
    simp only [List.foldl_cons]
    refine ⟨h1.trans (min_le_left _ _), fun x hx => ?_⟩
    rw [List.mem_cons] at hx
    rcases hx with rfl | hx
    · exact h1.trans (min_le_right _ _)
    · exact h2 x hx

theorem fit_line {data : List ℝ} (hm : 2 ≤ data.length) {a fs : ℝ} (ha : 0 < a) (hfs : 0 < fs) (hd : ∀ k, k < data.length → data.getD k 0 = data.getD 0 0 - a * k) :
    fit data fs = .ok (some (60 / (a * fs))) := by
  unfold fit
  rw [if_neg (by omega), if_neg (by omega)]
  dsimp only
  have hs : slope data.length (fun k => (k : ℝ) / fs) (fun k => data.getD k 0 - data.getD 0 0) = -(a * fs) := by
    apply slope_line (b := 0) hm
    · intro k hk
      rw [hd k hk]
      field_simp
      ring
    · simp [hfs.ne]
  have hpos : 0 < a * fs := mul_pos ha hfs
  rw [hs, if_neg (by linarith), neg_div_neg_eq]

/-- A straight line in decibels. -/
theorem fromDb_line {M : Nat} {a fs decay : ℝ} (ha : 0 < a) (hfs : 0 < fs) (hdec : a ≤ decay) (hlong : 5 / a + 3 ≤ M) :
    fromDb ((List.range M).map fun n : Nat => -(a * n)) fs decay = .ok (some (60 / (a * fs))) := by
  classical
  set l := (List.range M).map fun n : Nat => -(a * n) with hl
  have hlen : l.length = M := by simp [hl]
  have hget : ∀ n, n < M → l.getD n 0 = -(a * n) := by
    intro n hn
    rw [List.getD_eq_getElem _ _ (by rw [hlen]; exact hn)]
    simp [hl]
  have hgetE : ∀ n (hn : n < l.length), l[n] = -(a * n) := by
    intro n hn
    simp [hl]
  set i5 := ⌊5 / a⌋.toNat + 1 with hi5
  have hfl : ((⌊5 / a⌋.toNat : Nat) : ℝ) = (⌊5 / a⌋ : ℝ) := by
    have : (0 : Int) ≤ ⌊5 / a⌋ := Int.floor_nonneg.mpr (by positivity)
    rw [← Int.cast_natCast, Int.toNat_of_nonneg this]
  have h1 : 5 / a < (i5 : ℝ) := by
    rw [hi5, Nat.cast_add, hfl, Nat.cast_one]
    exact Int.lt_floor_add_one _
  have h2 : (i5 : ℝ) - 1 ≤ 5 / a := by
    rw [hi5, Nat.cast_add, hfl, Nat.cast_one]
    have := Int.floor_le (5 / a)
    linarith
  have hM : i5 + 2 ≤ M := by
    have : (i5 : ℝ) + 2 ≤ M := by linarith
    exact_mod_cast this
  rw [div_lt_iff₀ ha] at h1
  rw [le_div_iff₀ ha] at h2
  have hfind : l.findIdx? (fun x => decide (x < -5)) = some i5 := by
    rw [List.findIdx?_eq_some_iff_getElem]
    refine ⟨by omega, ?_, fun j hj => ?_⟩
    · rw [hgetE, decide_eq_true_eq]; linarith
    · rw [hgetE]
      have : (j : ℝ) ≤ (i5 : ℝ) - 1 := by
        have : (j : ℝ) + 1 ≤ i5 := by exact_mod_cast hj
        linarith
      have := mul_le_mul_of_nonneg_left this ha.le
      simp only [decide_eq_true_eq, not_lt]
      linarith
  unfold fromDb
  dsimp only
  rw [hfind]
  dsimp only
  set dec := if -l.foldl min (l.headD 0) - 5 < decay then -l.foldl min (l.headD 0) else decay with hdecd
  have hdec' : a ≤ dec := by
    rw [hdecd]
    split
    · have := (foldl_min_le l (l.headD 0)).2 (-(a * (1 : Nat))) (by
        rw [hl, List.mem_map]
        exact ⟨1, List.mem_range.mpr (by omega), rfl⟩)
      push_cast at this
      linarith
    · exact hdec
  set i := (l.findIdx? fun x => decide (x < l.getD i5 0 - dec)).getD l.length with hi
  have hi2 : i5 + 2 ≤ i ∧ i ≤ M := by
    rw [hi]
    cases hf : l.findIdx? fun x => decide (x < l.getD i5 0 - dec) with
    | none => simp only [Option.getD_none]; omega
    | some j =>
      simp only [Option.getD_some]
      rw [List.findIdx?_eq_some_iff_getElem] at hf
      obtain ⟨hj, hlt, _⟩ := hf
      rw [hgetE, decide_eq_true_eq, hget i5 (by omega)] at hlt
      have : (i5 : ℝ) + 1 < j := by
        have : a * ((i5 : ℝ) + 1) < a * j := by linarith
        exact lt_of_mul_lt_mul_left this ha.le
      have : i5 + 1 < j := by exact_mod_cast this
      omega
  have hwl : ((l.drop i5).take (i - i5)).length = i - i5 := by
    rw [List.length_take, List.length_drop, hlen]
    omega
  apply fit_line (by omega) ha hfs
  intro k hk
  rw [getD_window l i5 (i - i5) k hk, getD_window l i5 (i - i5) 0 (by omega)]
  rw [hwl] at hk
  rw [hget _ (by omega), hget _ (by omega)]
  push_cast
  ring

open Classical in
theorem sup_range {N : Nat} (hN : 1 ≤ N) {p : Nat → Prop} (hp : ∀ n, n < N → p n) : (range N).filter p ≠ ∅ ∧ ((range N).filter p).sup id = N - 1 := by
  have hne : (range N).filter p ≠ ∅ := by
    rw [← Finset.nonempty_iff_ne_empty]
    exact ⟨0, Finset.mem_filter.mpr ⟨Finset.mem_range.mpr (by omega), hp 0 (by omega)⟩⟩
  refine ⟨hne, ?_⟩
  obtain ⟨h1, _, h3⟩ := sup_spec hne
  have := h3 (N - 1) (by omega) (hp _ (by omega))
  omega

/-- **C78** Exponential decay of the energy: the measured time is the time in which the energy falls by 60 dB, to the millionth, for every sampling frequency and any
decay that is at least that of one sample, if the response is long enough to fall by 5 dB and some samples. -/
theorem C78_exact {h : List ℝ} {E q fs decay : ℝ} (hE : 0 < E) (hq : 0 < q) (hq1 : q < 1) (hfs : 0 < fs) (henergy : ∀ n, n < h.length → ∑ m ∈ Ico n h.length, h.getD m 0 ^ 2 = E * q ^ n)
    (hdec : -(10 * Real.logb 10 q) ≤ decay) (hlong : 5 / -(10 * Real.logb 10 q) + 4 ≤ h.length) :
    ∃ x, measure h fs decay 1 = .ok (some x) ∧ q ^ (x * fs) = 1 / 10 ^ 6 := by
  classical
  set a := -(10 * Real.logb 10 q) with ha
  have hlog : Real.logb 10 q < 0 := Real.logb_neg (by norm_num) hq hq1
  have hapos : 0 < a := by rw [ha]; linarith
  have hlen : 4 ≤ h.length := by
    have h5 : 0 < 5 / a := by positivity
    have : (4 : ℝ) ≤ h.length := by linarith
    exact_mod_cast this
  have hcurve : ∀ n, n < h.length → curve h 1 n = E * q ^ n := by
    intro n hn
    unfold curve
    rw [if_neg (lt_irrefl _)]
    exact henergy n hn
  have hpos : ∀ n, n < h.length → curve h 1 n > 0 := fun n hn => by rw [hcurve n hn]; positivity
  obtain ⟨hne, hsup⟩ := sup_range (by omega : 1 ≤ h.length) hpos
  refine ⟨60 / (a * fs), ?_, ?_⟩
  · unfold measure
    rw [if_neg (by omega), if_neg (by simp)]
    dsimp only
    rw [if_neg hne, hsup, if_neg (by omega)]
    have hdb : (List.range (h.length - 1)).map (toDb (curve h 1)) = (List.range (h.length - 1)).map fun n : Nat => -(a * n) := by
      apply List.map_congr_left
      intro n hn
      have hn' := List.mem_range.mp hn
      unfold toDb
      rw [hcurve n (by omega), hcurve 0 (by omega), Real.logb_mul hE.ne' (by positivity), Real.logb_mul hE.ne' (by positivity), Real.logb_pow, pow_zero, Real.logb_one, ha]
      ring
    rw [hdb]
    apply fromDb_line hapos hfs hdec
    rw [Nat.cast_sub (by omega)]
    push_cast
    linarith
  · have h1 : 60 / (a * fs) * fs = 60 / a := by field_simp
    have h2 : q = (10 : ℝ) ^ Real.logb 10 q := (Real.rpow_logb (by norm_num) (by norm_num) hq).symm
    rw [h1]
    nth_rewrite 1 [h2]
    rw [← Real.rpow_mul (by norm_num)]
    have h3 : Real.logb 10 q * (60 / a) = -6 := by
      rw [ha]
      have := hlog.ne
      field_simp
      norm_num
    rw [h3, Real.rpow_neg (by norm_num)]
    norm_num

/-! ## Edge cases -/

/-- **C78** Without any energy the result is zero. -/
theorem C78_silent {n : Nat} (hn : 1 ≤ n) (fs decay : ℝ) {thres : ℝ} (ht : 0 < thres) : measure (List.replicate n 0) fs decay thres = .ok (some 0) := by
  classical
  have he : ∀ k, energy (List.replicate n 0) k = 0 := by
    intro k
    unfold energy
    apply Finset.sum_eq_zero
    intro m _
    rw [List.getD_eq_getElem?_getD, List.getElem?_replicate]
    split <;> simp
  have hc : ∀ k, curve (List.replicate n 0) thres k = 0 := by
    intro k
    unfold curve
    rw [he, he]
    split <;> simp
  unfold measure
  rw [if_neg (by simp; omega), if_neg (by simp [ht])]
  dsimp only
  rw [if_pos]
  rw [Finset.filter_eq_empty_iff]
  intro k _
  rw [hc]
  exact lt_irrefl _

/-- **C78** Deviation: a response with all its energy in the first sample raises `IndexError` (the last sample with energy is cut off). -/
theorem C78_first_deviation {x : ℝ} (hx : x ≠ 0) (n : Nat) (fs decay : ℝ) : measure (x :: List.replicate n 0) fs decay 1 = .error .indexError := by
  classical
  have he : ∀ k, curve (x :: List.replicate n 0) 1 (k + 1) = 0 := by
    intro k
    unfold curve energy
    rw [if_neg (lt_irrefl _)]
    apply Finset.sum_eq_zero
    intro m hm
    have := (Finset.mem_Ico.mp hm).1
    obtain ⟨m', rfl⟩ : ∃ m', m = m' + 1 := ⟨m - 1, by omega⟩
    rw [List.getD_cons_succ, List.getD_eq_getElem?_getD, List.getElem?_replicate]
    split <;> simp
  have h0 : curve (x :: List.replicate n 0) 1 0 > 0 := by
    unfold curve energy
    rw [if_neg (lt_irrefl _)]
    refine lt_of_lt_of_le ?_ (Finset.single_le_sum (f := fun m => (x :: List.replicate n 0).getD m 0 ^ 2) (fun m _ => sq_nonneg _) (Finset.mem_Ico.mpr ⟨le_refl 0, by simp⟩))
    simp only [List.getD_cons_zero]
    positivity
  have hset : (range (x :: List.replicate n 0).length).filter (fun k => curve (x :: List.replicate n 0) 1 k > 0) = {0} := by
    ext k
    rw [Finset.mem_filter, Finset.mem_range, Finset.mem_singleton]
    constructor
    · rintro ⟨_, hk⟩
      by_contra hne
      obtain ⟨k', rfl⟩ : ∃ k', k = k' + 1 := ⟨k - 1, by omega⟩
      rw [he] at hk
      exact lt_irrefl _ hk
    · rintro rfl
      exact ⟨by simp, h0⟩
  unfold measure
  rw [if_neg (by simp), if_neg (by simp)]
  dsimp only
  rw [hset, if_neg (by simp), if_pos (by simp)]

/-- **C78** Deviation: when the energy falls by more than 5 dB at the last point that is kept, the line is fitted to one point and the result is a division by zero. -/
theorem C78_steep_deviation {x y z : ℝ} (hz : z ≠ 0) (hsteep : 10 * Real.logb 10 (y ^ 2 + z ^ 2) - 10 * Real.logb 10 (x ^ 2 + y ^ 2 + z ^ 2) < -5) (fs : ℝ) {decay : ℝ} (hd : 0 ≤ decay) :
    measure [x, y, z] fs decay 1 = .ok none := by
  classical
  have hc : ∀ n, curve [x, y, z] 1 n = energy [x, y, z] n := fun n => by unfold curve; rw [if_neg (lt_irrefl _)]
  have e0 : energy [x, y, z] 0 = x ^ 2 + y ^ 2 + z ^ 2 := by simp [energy, Finset.sum_range_succ]
  have e1 : energy [x, y, z] 1 = y ^ 2 + z ^ 2 := by simp [energy, Finset.sum_Ico_succ_top]
  have e2 : energy [x, y, z] 2 = z ^ 2 := by simp [energy]
  have hpos : ∀ n, n < [x, y, z].length → curve [x, y, z] 1 n > 0 := by
    intro n hn
    have hn : n < 3 := hn
    have hz2 : 0 < z ^ 2 := by positivity
    rw [hc]
    obtain rfl | rfl | rfl : n = 0 ∨ n = 1 ∨ n = 2 := by omega
    · rw [e0]; positivity
    · rw [e1]; positivity
    · rw [e2]; exact hz2
  obtain ⟨hne, hsup⟩ := sup_range (by simp) hpos
  unfold measure
  rw [if_neg (by simp), if_neg (by simp)]
  dsimp only
  rw [if_neg hne, hsup, if_neg (by simp)]
  have hl : (List.range ([x, y, z].length - 1)).map (toDb (curve [x, y, z] 1)) = [0, 10 * Real.logb 10 (y ^ 2 + z ^ 2) - 10 * Real.logb 10 (x ^ 2 + y ^ 2 + z ^ 2)] := by
    change [toDb (curve [x, y, z] 1) 0, toDb (curve [x, y, z] 1) 1] = _
    unfold toDb
    rw [hc, hc, e0, e1, sub_self]
  rw [hl]
  set d := 10 * Real.logb 10 (y ^ 2 + z ^ 2) - 10 * Real.logb 10 (x ^ 2 + y ^ 2 + z ^ 2) with hdd
  have hf : [0, d].findIdx? (fun v => decide (v < -5)) = some 1 := by
    simp [List.findIdx?_cons, hsteep]
  unfold fromDb
  dsimp only
  rw [hf]
  dsimp only
  have hmin : -[0, d].foldl min ([0, d].headD 0) = -d := by
    simp only [List.foldl_cons, List.foldl_nil, List.headD_cons, min_self]
    rw [min_eq_right (by linarith)]
  rw [hmin]
  have hdec : 0 ≤ (if -d - 5 < decay then -d else decay) := by
    split <;> linarith
  have hf2 : [0, d].findIdx? (fun v => decide (v < [0, d].getD 1 0 - if -d - 5 < decay then -d else decay)) = none := by
    simp only [List.getD_cons_succ, List.getD_cons_zero]
    rw [List.findIdx?_eq_none_iff]
    intro v hv
    simp only [List.mem_cons, List.not_mem_nil, or_false] at hv
    rw [decide_eq_false_iff_not, not_lt]
    rcases hv with rfl | rfl <;> linarith
  rw [hf2]
  rfl

/-! ## The hypotheses can be met -/

/-- Energies 1, 1/2, 1/4, …: a fall of 3 dB per sample. -/
example : ∃ (h : List ℝ) (x : ℝ), h.length = 8 ∧ measure h 16000 60 1 = .ok (some x) ∧ (1 / 2 : ℝ) ^ (x * 16000) = 1 / 10 ^ 6 := by
  have hl : 0 < Real.logb 10 2 := Real.logb_pos (by norm_num) (by norm_num)
  have hl8 : 1 / 8 ≤ Real.logb 10 2 := by
    have h1 : Real.logb 10 (10 : ℝ) ≤ Real.logb 10 (2 ^ 8) := Real.logb_le_logb_of_le (by norm_num) (by norm_num) (by norm_num)
    rw [Real.logb_self_eq_one (by norm_num), Real.logb_pow] at h1
    push_cast at h1
    linarith
  have hl6 : Real.logb 10 2 ≤ 1 := by
    have h1 : Real.logb 10 (2 : ℝ) ≤ Real.logb 10 10 := Real.logb_le_logb_of_le (by norm_num) (by norm_num) (by norm_num)
    rwa [Real.logb_self_eq_one (by norm_num)] at h1
  have hh : Real.logb 10 (1 / 2) = -Real.logb 10 2 := by rw [one_div, Real.logb_inv]
  let g : Nat → ℝ := fun n => if n = 7 then 1 / 2 ^ 7 else 1 / 2 ^ (n + 1)
  have hg : ∀ n, 0 ≤ g n := fun n => by dsimp only [g]; split <;> positivity
  obtain ⟨x, h1, h2⟩ := C78_exact (h := (List.range 8).map fun n => Real.sqrt (g n)) (E := 1) (q := 1 / 2) (fs := 16000) (decay := 60) (by norm_num) (by norm_num) (by norm_num) (by norm_num)
    (by
      intro n hn
      have hs : ∑ m ∈ Ico n ((List.range 8).map fun n => Real.sqrt (g n)).length, ((List.range 8).map fun n => Real.sqrt (g n)).getD m 0 ^ 2 = ∑ m ∈ Ico n 8, g m := by
        apply Finset.sum_congr (by simp)
        intro m hm
        have hm' : m < ((List.range 8).map fun n => Real.sqrt (g n)).length := by simpa using (Finset.mem_Ico.mp hm).2
        rw [List.getD_eq_getElem _ _ hm', List.getElem_map, List.getElem_range, Real.sq_sqrt (hg _)]
      rw [hs]
      have hn : n < 8 := by simpa using hn
      interval_cases n <;> norm_num [Finset.sum_Ico_eq_sum_range, Finset.sum_range_succ, g])
    (by rw [hh]; linarith)
    (by
      rw [hh]
      simp only [mul_neg, neg_neg, List.length_map, List.length_range]
      rw [← le_sub_iff_add_le, div_le_iff₀ (by linarith)]
      push_cast
      linarith)
  exact ⟨_, x, by simp, h1, h2⟩

/-- An energy that falls by more than 5 dB in one sample. -/
example : measure [1, 1 / 10, 1 / 100] 16000 60 1 = .ok none := by
  apply C78_steep_deviation (by norm_num) _ _ (by norm_num)
  have h1 : Real.logb 10 ((1 / 10 : ℝ) ^ 2 + (1 / 100) ^ 2) ≤ Real.logb 10 (1 / 10) := Real.logb_le_logb_of_le (by norm_num) (by norm_num) (by norm_num)
  have h2 : 0 ≤ Real.logb 10 ((1 : ℝ) ^ 2 + (1 / 10) ^ 2 + (1 / 100) ^ 2) := Real.logb_nonneg (by norm_num) (by norm_num)
  have h3 : Real.logb 10 (1 / 10 : ℝ) = -1 := by rw [one_div, Real.logb_inv, Real.logb_self_eq_one (by norm_num)]
  rw [h3] at h1
  linarith

end Verif.Rt60
