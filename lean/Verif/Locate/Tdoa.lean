import Verif.Locate.Props

/-!
# C102: the time difference of two signals

Small specification: the cross-correlation at a lag (`Sync.corrAt`), a copy of a signal that is delayed, scaled and followed by zeros (`Sync.delayed`).
-/

namespace Verif.Locate

open Verif.Py Verif.DFT Finset

theorem padded_ge (n1 n2 : Nat) : n1 + n2 - 1 ≤ padded n1 n2 := by unfold padded; split <;> omega

theorem padded_even (n1 n2 : Nat) : padded n1 n2 % 2 = 0 := by unfold padded; split <;> omega

theorem padded_pos {n1 n2 : Nat} (h : 2 ≤ n1 + n2) : 2 ≤ padded n1 n2 := by
  have h1 := padded_ge n1 n2
  have h2 := padded_even n1 n2
  omega

/-- The position of an entry of the reordered array. -/
def pos (M t j : Nat) : Nat := if j < t then M - t + j else j - t

theorem reorder_length {α : Type} {t : Nat} {l : List α} (ht : 0 < t) (h : t ≤ l.length) : (reorder t l).length = 2 * t := by
  unfold reorder slice sliceStart sliceStop
  simp only [clampIdx_neg _ ht, clampIdx_nat]
  simp only [List.length_append, List.length_take, List.length_drop]
  omega

theorem reorder_getD {α : Type} {t : Nat} {l : List α} (ht : 0 < t) (h : t ≤ l.length) {j : Nat} (hj : j < 2 * t) (a : α) : (reorder t l).getD j a = l.getD (pos l.length t j) a := by
  unfold reorder slice sliceStart sliceStop pos
  simp only [clampIdx_neg _ ht, clampIdx_nat]
  by_cases hjt : j < t
  · rw [if_pos hjt, List.getD_append _ _ _ _ (by simp only [List.length_take, List.length_drop]; omega)]
    simp only [List.getD_eq_getElem?_getD]
    rw [List.getElem?_take_of_lt (by omega), List.getElem?_drop]
  · rw [if_neg hjt, List.getD_append_right _ _ _ _ (by simp only [List.length_take, List.length_drop]; omega)]
    simp only [List.length_take, List.length_drop, List.drop_zero, List.getD_eq_getElem?_getD]
    rw [List.getElem?_take_of_lt (by omega)]
    congr 2
    omega

/-- The values searched. -/
theorem tdoa_eq (x1 x2 : List ℝ) {interp : Nat} (hi : interp ≠ 0) (fs : ℝ) (phat : Bool) (hx : 2 ≤ x1.length + x2.length) {n : Nat} (hn : n = padded x1.length x2.length) :
    ∃ L : List (Option ℝ), L.length = 2 * (n / 2 + 1) ∧
      (∀ j, j < 2 * (n / 2 + 1) → L.getD j none = ((cross n x1 x2 phat).map fun S => irfft (n * interp) (fun k => if k ≤ n / 2 then S k else 0) (pos (n * interp) (n / 2 + 1) j)).map abs) ∧
      tdoa x1 x2 interp fs phat = match Sync.argmax L with
        | .error e => .error e
        | .ok p => .ok (((p : ℝ) - ((n / 2 + 1 : Nat) : ℝ)) / (fs * interp)) := by
  have h2 := padded_pos hx
  rw [← hn] at h2
  have hle : n ≤ n * interp := Nat.le_mul_of_pos_right _ (Nat.pos_of_ne_zero hi)
  set cc := Sync.irfftPad n (n * interp) (cross n x1 x2 phat) with hcc
  have hcl : cc.length = n * interp := by rw [hcc, Sync.irfftPad_length]
  refine ⟨(reorder (n / 2 + 1) cc).map (Option.map abs), ?_, ?_, ?_⟩
  · rw [List.length_map, reorder_length (by omega) (by omega)]
  · intro j hj
    rw [Sync.map_abs_getD, reorder_getD (by omega) (by omega) hj, hcl, hcc, Sync.irfftPad_getD]
    unfold pos
    split <;> omega
  · unfold tdoa
    rw [if_neg (by omega)]
    simp only [← hn]
    rw [if_neg (Nat.mul_ne_zero hi (by omega))]
    rfl

/-- **C102, range.** The time is a whole number of steps of `1 / (fs * interp)`, from minus half the padded length minus one to half the padded length, for all signals. -/
theorem C102_tdoa_range (x1 x2 : List ℝ) {interp : Nat} (hi : interp ≠ 0) (fs : ℝ) (phat : Bool) (hx : 2 ≤ x1.length + x2.length) :
    ∃ lag : Int, tdoa x1 x2 interp fs phat = .ok ((lag : ℝ) / (fs * interp)) ∧ -((padded x1.length x2.length : Int) / 2 + 1) ≤ lag ∧ lag ≤ (padded x1.length x2.length : Int) / 2 := by
  obtain ⟨L, hl, -, e⟩ := tdoa_eq x1 x2 hi fs phat hx rfl
  obtain ⟨p, hp, hlt⟩ := Sync.argmax_lt L (by omega)
  rw [hp] at e
  refine ⟨(p : Int) - ((padded x1.length x2.length / 2 + 1 : Nat) : Int), ?_, ?_, ?_⟩
  · rw [e]; push_cast; rfl
  · omega
  · omega

/-- **C102, errors.** No samples, or one in total: `ValueError`. Also for no interpolation at all. -/
theorem C102_tdoa_error (x1 x2 : List ℝ) (interp : Nat) (fs : ℝ) (phat : Bool) : (∃ e, tdoa x1 x2 interp fs phat = .error e) ↔ x1.length + x2.length ≤ 1 ∨ interp = 0 := by
  constructor
  · rintro ⟨e, he⟩
    by_contra h
    push Not at h
    obtain ⟨lag, h', -⟩ := C102_tdoa_range x1 x2 h.2 fs phat (by omega)
    rw [h'] at he
    cases he
  · rintro (h | h)
    · exact ⟨.valueError, by unfold tdoa; rw [if_pos h]⟩
    · refine ⟨.valueError, ?_⟩
      unfold tdoa
      split
      · rfl
      · simp [h]

theorem circ_corr (x1 x2 : List ℝ) {N : Nat} (hN : x1.length + x2.length - 1 ≤ N) {n : Nat} (hn : n < N) :
    irfft N (fun k => Sync.spectrum N x1 k * (starRingEnd ℂ) (Sync.spectrum N x2 k)) n = if n < x1.length then Sync.corrAt x1 x2 n else Sync.corrAt x1 x2 ((n : Int) - N) := by
  unfold Sync.spectrum
  rw [Sync.irfft_mul_conj _ _ hn]
  by_cases h0 : x1.length = 0
  · have : x1 = [] := List.length_eq_zero_iff.mp h0
    subst this
    simp [Sync.corrAt, Sync.at0]
  rw [← Finset.sum_range_add_sum_Ico _ (show x2.length ≤ N by omega), Finset.sum_eq_zero (s := Ico _ _), add_zero]
  · split
    · unfold Sync.corrAt
      apply Finset.sum_congr rfl
      intro b hb
      rw [mem_range] at hb
      congr 1
      by_cases hnb : n + b < N
      · rw [Nat.mod_eq_of_lt hnb, show ((b : Int) + n) = ((n + b : Nat) : Int) by omega, Sync.at0_natCast]
      · omega
    · unfold Sync.corrAt
      apply Finset.sum_congr rfl
      intro b hb
      rw [mem_range] at hb
      congr 1
      by_cases hnb : n + b < N
      · rw [Nat.mod_eq_of_lt hnb, Sync.getD_zero _ (by omega), Sync.at0_neg _ (by omega)]
      · rw [Nat.mod_eq_sub_mod (by omega), Nat.mod_eq_of_lt (by omega), show ((b : Int) + ((n : Int) - N)) = ((n + b - N : Nat) : Int) by omega, Sync.at0_natCast]
  · intro b hb
    rw [mem_Ico] at hb
    rw [Sync.getD_zero x2 hb.1, mul_zero]

theorem corrAt_out (x1 x2 : List ℝ) {l : Int} (h : l ≤ -(x2.length : Int) ∨ (x1.length : Int) ≤ l) : Sync.corrAt x1 x2 l = 0 := by
  unfold Sync.corrAt
  apply sum_eq_zero
  intro k hk
  rw [mem_range] at hk
  rcases h with h | h
  · rw [Sync.at0_neg _ (by omega), zero_mul]
  · rw [Sync.at0_ge _ (by omega), zero_mul]

/-- **C102, cross-correlation.** Without the phase transform and interpolation, the time is, up to a multiple of the padded length, that of a lag at which the cross-correlation is largest in absolute value among
all lags. -/
theorem C102_tdoa_correlation (x1 x2 : List ℝ) (fs : ℝ) (h1 : 1 ≤ x1.length) (h2 : 1 ≤ x2.length) :
    ∃ lag best : Int, tdoa x1 x2 1 fs false = .ok ((lag : ℝ) / fs) ∧ (padded x1.length x2.length : Int) ∣ lag - best ∧ ∀ l, |Sync.corrAt x1 x2 l| ≤ |Sync.corrAt x1 x2 best| := by
  set n := padded x1.length x2.length with hn
  obtain ⟨L, hl, hg, e⟩ := tdoa_eq x1 x2 one_ne_zero fs false (by omega) hn
  have h2n := padded_pos (show 2 ≤ x1.length + x2.length by omega)
  have hge := padded_ge x1.length x2.length
  have hev := padded_even x1.length x2.length
  rw [← hn] at h2n hge hev
  let v : Nat → ℝ := fun j => |if pos n (n / 2 + 1) j < x1.length then Sync.corrAt x1 x2 (pos n (n / 2 + 1) j) else Sync.corrAt x1 x2 ((pos n (n / 2 + 1) j : Int) - n)|
  have hv : ∀ j, j < L.length → L.getD j none = some (v j) := by
    intro j hj
    have hp : pos n (n / 2 + 1) j < n := by unfold pos; split <;> omega
    rw [hg j (by omega)]
    unfold cross
    simp only [Bool.false_eq_true, if_false, Option.map_some, Nat.mul_one]
    congr 2
    rw [← circ_corr x1 x2 hge hp]
    apply Sync.irfft_congr
    intro k hk
    rw [if_pos hk]
  obtain ⟨p, hp, hlt, hmax, -⟩ := Sync.argmax_spec L v (by omega) hv
  rw [hp] at e
  refine ⟨(p : Int) - ((n / 2 + 1 : Nat) : Int), if pos n (n / 2 + 1) p < x1.length then (pos n (n / 2 + 1) p : Int) else (pos n (n / 2 + 1) p : Int) - n, ?_, ?_, ?_⟩
  · rw [e]
    simp only [Nat.cast_one, mul_one]
    push_cast
    rfl
  · unfold pos
    by_cases hpt : p < n / 2 + 1
    · simp only [if_pos hpt]
      split
      · exact ⟨-1, by omega⟩
      · exact ⟨0, by omega⟩
    · simp only [if_neg hpt]
      split
      · exact ⟨0, by omega⟩
      · exact ⟨1, by omega⟩
  · intro l
    have hvp : |Sync.corrAt x1 x2 (if pos n (n / 2 + 1) p < x1.length then (pos n (n / 2 + 1) p : Int) else (pos n (n / 2 + 1) p : Int) - n)| = v p := by
      simp only [v]
      split <;> rfl
    rw [hvp]
    by_cases hout : l ≤ -(x2.length : Int) ∨ (x1.length : Int) ≤ l
    · rw [corrAt_out x1 x2 hout, abs_zero]; exact abs_nonneg _
    push Not at hout
    -- an entry of the array at this lag
    have hj : ∃ j, j < 2 * (n / 2 + 1) ∧ (pos n (n / 2 + 1) j : Int) = if 0 ≤ l then l else l + n := by
      by_cases h0 : 0 ≤ l
      · by_cases hl2 : l ≤ (n / 2 : Nat)
        · refine ⟨l.toNat + (n / 2 + 1), by omega, ?_⟩
          unfold pos
          rw [if_neg (by omega), if_pos h0]; omega
        · refine ⟨l.toNat - (n - (n / 2 + 1)), by omega, ?_⟩
          unfold pos
          rw [if_pos (by omega), if_pos h0]; omega
      · by_cases hl2 : -((n / 2 + 1 : Nat) : Int) ≤ l
        · refine ⟨(l + (n / 2 + 1 : Nat)).toNat, by omega, ?_⟩
          unfold pos
          rw [if_pos (by omega), if_neg h0]; omega
        · refine ⟨(l + n).toNat + (n / 2 + 1), by omega, ?_⟩
          unfold pos
          rw [if_neg (by omega), if_neg h0]; omega
    obtain ⟨j, hj1, hj2⟩ := hj
    have hvj : |Sync.corrAt x1 x2 l| = v j := by
      simp only [v]
      by_cases h0 : 0 ≤ l
      · rw [if_pos h0] at hj2
        rw [if_pos (by omega), hj2]
      · rw [if_neg h0] at hj2
        rw [if_neg (by omega), hj2]
        congr 2
        omega
    rw [hvj]
    exact hmax j (by omega)

/-- The phase transform of a delayed copy. -/
theorem cross_phat {ref : List ℝ} {D T : Nat} {a : ℝ} (ha : a ≠ 0) {N : Nat} (hN : D + ref.length ≤ N) (hz : ∀ k, k ≤ N / 2 → Sync.spectrum N ref k ≠ 0) :
    ∃ S1 S2 : Nat → ℂ, cross N (Sync.delayed ref D T a) ref true = some S1 ∧ cross N ref (Sync.delayed ref D T a) true = some S2 ∧
      ∀ k, k ≤ N / 2 → S1 k = ((a / |a| : ℝ) : ℂ) * tw N (-((k : Int) * D)) ∧ S2 k = ((a / |a| : ℝ) : ℂ) * tw N ((k : Int) * D) := by
  have hX := Sync.spectrum_delayed ref D T a hN
  have hne : ∀ k, k ≤ N / 2 → Sync.spectrum N (Sync.delayed ref D T a) k ≠ 0 := by
    intro k hk
    rw [hX]
    refine mul_ne_zero (by exact_mod_cast ha) (mul_ne_zero ?_ (hz k hk))
    intro h
    have := Sync.tw_norm N (-((k : Int) * D))
    rw [h, norm_zero] at this
    exact zero_ne_one this
  have w1 : whiten N (Sync.spectrum N ref) = some fun k => Sync.spectrum N ref k / (‖Sync.spectrum N ref k‖ : ℂ) := by
    unfold whiten; rw [if_neg]; rintro ⟨k, hk, h⟩; exact hz k hk h
  have w2 : whiten N (Sync.spectrum N (Sync.delayed ref D T a)) = some fun k => Sync.spectrum N (Sync.delayed ref D T a) k / (‖Sync.spectrum N (Sync.delayed ref D T a) k‖ : ℂ) := by
    unfold whiten; rw [if_neg]; rintro ⟨k, hk, h⟩; exact hne k hk h
  refine ⟨_, _, by unfold cross; simp only [if_true, w1, w2, Option.bind_some, Option.map_some]; rfl,
    by unfold cross; simp only [if_true, w1, w2, Option.bind_some, Option.map_some]; rfl, ?_⟩
  intro k hk
  have hn : ‖Sync.spectrum N (Sync.delayed ref D T a) k‖ = |a| * ‖Sync.spectrum N ref k‖ := by
    rw [hX k, norm_mul, norm_mul, Sync.tw_norm, one_mul, Complex.norm_real, Real.norm_eq_abs]
  rw [hn, hX k]
  have h0 := hz k hk
  generalize Sync.spectrum N ref k = X at *
  have hXn : (‖X‖ : ℂ) ≠ 0 := by exact_mod_cast norm_ne_zero_iff.mpr h0
  have hac : ((|a| : ℝ) : ℂ) ≠ 0 := by exact_mod_cast abs_ne_zero.mpr ha
  have hm := Complex.mul_conj' X
  constructor
  · rw [map_div₀, Complex.conj_ofReal]
    push_cast
    field_simp
    rw [mul_assoc, hm]
  · rw [map_div₀, Complex.conj_ofReal, map_mul, map_mul, Complex.conj_ofReal, tw_conj, neg_neg]
    push_cast
    field_simp
    linear_combination (a : ℂ) * tw N ((k : Int) * D) * hm

/-- A phase is a pulse. -/
theorem irfft_pulse {N : Nat} (c : ℝ) {D : Nat} (hD : D < N) {n : Nat} (hn : n < N) : irfft N (fun k => (c : ℂ) * tw N (-((k : Int) * D))) n = if n = D then c else 0 := by
  rw [← irfft_rfft (fun n => if n = D then c else 0) hn]
  congr 1
  funext k
  unfold rfft dft
  rw [Finset.sum_eq_single D]
  · simp only [if_true]
    rw [mul_comm (D : Int)]
  · intro m _ hm
    simp [hm]
  · intro h
    exact absurd (mem_range.mpr hD) h

/-- The index chosen when the array is a pulse. -/
theorem tdoa_pulse {x1 x2 : List ℝ} (hx : 2 ≤ x1.length + x2.length) (fs : ℝ) {n : Nat} (hn : n = padded x1.length x2.length) {c : ℝ} (hc : c ≠ 0) {D : Nat} (hD : D < n) {S : Nat → ℂ}
    (hS : cross n x1 x2 true = some S) (hSk : ∀ k, k ≤ n / 2 → S k = (c : ℂ) * tw n (-((k : Int) * D))) {p : Nat} (hp : p < 2 * (n / 2 + 1)) (hpD : pos n (n / 2 + 1) p = D)
    (hfirst : ∀ j, j < p → pos n (n / 2 + 1) j ≠ D) : tdoa x1 x2 1 fs true = .ok (((p : ℝ) - ((n / 2 + 1 : Nat) : ℝ)) / fs) := by
  obtain ⟨L, hl, hg, e⟩ := tdoa_eq x1 x2 one_ne_zero fs true hx hn
  have h2n := padded_pos hx
  rw [← hn] at h2n
  have hpos : ∀ j, j < 2 * (n / 2 + 1) → pos n (n / 2 + 1) j < n := by
    have := padded_even x1.length x2.length
    rw [← hn] at this
    intro j hj
    unfold pos; split <;> omega
  have ha : Sync.argmax L = .ok p := by
    refine Sync.argmax_unique L (fun j => if pos n (n / 2 + 1) j = D then |c| else 0) (by omega) ?_ ?_ ?_
    · intro j hj
      rw [hg j (by omega), hS]
      simp only [Option.map_some, Nat.mul_one]
      congr 1
      rw [Sync.irfft_congr (Y := fun k => (c : ℂ) * tw n (-((k : Int) * D))) (fun k hk => by rw [if_pos hk, hSk k hk]), irfft_pulse c hD (hpos j (by omega))]
      split <;> simp
    · intro j _
      simp only [if_pos hpD]
      split
      · exact le_refl _
      · exact abs_nonneg _
    · intro j hj
      simp only [if_pos hpD, if_neg (hfirst j hj)]
      exact abs_pos.mpr hc
  rw [e, ha]
  simp

/-- **C102, delay.** The first signal is a copy of the second, delayed, scaled and followed by zeros. With the phase transform the time is exactly the delay, if no coefficient is zero and the delay is less than
half the padded length minus one. If it is the second signal that is delayed the time is minus the delay. -/
theorem C102_tdoa_delay {ref : List ℝ} (D T : Nat) {a : ℝ} (ha : a ≠ 0) (fs : ℝ) (hx : 1 ≤ ref.length)
    (hz : ∀ k, k ≤ padded (D + ref.length + T) ref.length / 2 → Sync.spectrum (padded (D + ref.length + T) ref.length) ref k ≠ 0) :
    (D + 2 ≤ padded (D + ref.length + T) ref.length / 2 → tdoa (Sync.delayed ref D T a) ref 1 fs true = .ok ((D : ℝ) / fs)) ∧
      (1 ≤ D → D ≤ padded (D + ref.length + T) ref.length / 2 + 1 → tdoa ref (Sync.delayed ref D T a) 1 fs true = .ok (-(D : ℝ) / fs)) := by
  have hc : a / |a| ≠ 0 := div_ne_zero ha (abs_ne_zero.mpr ha)
  have hl := Sync.delayed_length ref D T a
  set n := padded (D + ref.length + T) ref.length with hn
  have hge := padded_ge (D + ref.length + T) ref.length
  rw [← hn] at hge
  have hev := padded_even (D + ref.length + T) ref.length
  rw [← hn] at hev
  have hcomm : padded ref.length (D + ref.length + T) = n := by rw [hn]; unfold padded; rw [Nat.add_comm]
  have h2 := padded_pos (show 2 ≤ D + ref.length + T + ref.length by omega)
  rw [← hn] at h2
  obtain ⟨S1, S2, e1, e2, hS⟩ := cross_phat (T := T) ha (show D + ref.length ≤ n by omega) hz
  constructor
  · intro hD
    rw [tdoa_pulse (by rw [hl]; omega) fs (by rw [hl]) hc (show D < n by omega) e1 (fun k hk => (hS k hk).1) (p := D + (n / 2 + 1)) (by omega)]
    · push_cast; congr 1; ring
    · unfold pos; rw [if_neg (by omega)]; omega
    · intro j hj
      unfold pos; split <;> omega
  · intro h1 hD
    rw [tdoa_pulse (by rw [hl]; omega) fs (by rw [hl, hcomm]) hc (show n - D < n by omega) e2 (p := n / 2 + 1 - D) ?_ (by omega)]
    · rw [Nat.cast_sub hD]; push_cast; congr 1; ring
    · unfold pos; split <;> omega
    · intro j hj
      unfold pos; split <;> omega
    · intro k hk
      rw [(hS k hk).2]
      congr 1
      apply Sync.tw_congr (by omega)
      rw [Nat.cast_sub (by omega)]
      exact ⟨k, by ring⟩

/-- **C102, deviation.** A delay of the first signal which is at least half the padded length minus one is returned as a negative time: the padded length is subtracted. This happens for lags that a
cross-correlation of the two signals can have. -/
theorem C102_tdoa_alias_deviation {ref : List ℝ} (D T : Nat) {a : ℝ} (ha : a ≠ 0) (fs : ℝ) (hx : 1 ≤ ref.length)
    (hz : ∀ k, k ≤ padded (D + ref.length + T) ref.length / 2 → Sync.spectrum (padded (D + ref.length + T) ref.length) ref k ≠ 0)
    (hD : padded (D + ref.length + T) ref.length / 2 ≤ D + 1) :
    tdoa (Sync.delayed ref D T a) ref 1 fs true = .ok (((D : ℝ) - (padded (D + ref.length + T) ref.length : Nat)) / fs) := by
  have hc : a / |a| ≠ 0 := div_ne_zero ha (abs_ne_zero.mpr ha)
  have hl := Sync.delayed_length ref D T a
  set n := padded (D + ref.length + T) ref.length with hn
  have hge := padded_ge (D + ref.length + T) ref.length
  rw [← hn] at hge
  have hev := padded_even (D + ref.length + T) ref.length
  rw [← hn] at hev
  have h2 := padded_pos (show 2 ≤ D + ref.length + T + ref.length by omega)
  rw [← hn] at h2
  obtain ⟨S1, S2, e1, e2, hS⟩ := cross_phat (T := T) ha (show D + ref.length ≤ n by omega) hz
  have hDn : D < n := by omega
  rw [tdoa_pulse (by rw [hl]; omega) fs (by rw [hl]) hc hDn e1 (fun k hk => (hS k hk).1) (p := D + (n / 2 + 1) - n) (by omega)]
  · rw [Nat.cast_sub (by omega)]; push_cast; congr 1; ring
  · unfold pos; split <;> omega
  · intro j hj
    unfold pos; split <;> omega

/-- **C102, deviation.** If a coefficient of a signal is zero, as for silence, the phase transform is not a number: the answer is always the lowest time searched, without an error. -/
theorem C102_tdoa_zero_deviation {x1 x2 : List ℝ} (hx : 2 ≤ x1.length + x2.length) {interp : Nat} (hi : interp ≠ 0) (fs : ℝ) {k : Nat} (hk : k ≤ padded x1.length x2.length / 2)
    (hz : Sync.spectrum (padded x1.length x2.length) x1 k = 0 ∨ Sync.spectrum (padded x1.length x2.length) x2 k = 0) :
    tdoa x1 x2 interp fs true = .ok (-((padded x1.length x2.length / 2 + 1 : Nat) : ℝ) / (fs * interp)) := by
  obtain ⟨L, hl, hg, e⟩ := tdoa_eq x1 x2 hi fs true hx rfl
  have hnone : cross (padded x1.length x2.length) x1 x2 true = none := by
    unfold cross
    simp only [if_true]
    rcases hz with hz | hz
    · rw [show whiten (padded x1.length x2.length) (Sync.spectrum (padded x1.length x2.length) x1) = none by unfold whiten; rw [if_pos ⟨k, hk, hz⟩]]
      rfl
    · rw [show whiten (padded x1.length x2.length) (Sync.spectrum (padded x1.length x2.length) x2) = none by unfold whiten; rw [if_pos ⟨k, hk, hz⟩]]
      cases whiten (padded x1.length x2.length) (Sync.spectrum (padded x1.length x2.length) x1) <;> rfl
  have ha : Sync.argmax L = .ok 0 := by
    cases hL : L with
    | nil => rw [hL] at hl; simp at hl
    | cons v t =>
      have hv : v = none := by
        have := hg 0 (by omega)
        rw [hL, hnone] at this
        simpa using this
      subst hv
      have : ∀ (t : List (Option ℝ)) (i idx : Nat), Sync.argmaxFrom i none idx t = idx := by
        intro t
        induction t with
        | nil => intro i idx; rfl
        | cons a t ih => intro i idx; simp only [Sync.argmaxFrom, Sync.better, Bool.false_eq_true, if_false]; exact ih _ _
      exact congrArg Except.ok (this t 1 0)
  rw [e, ha]
  simp

/-- **C102, deviation.** With interpolation only half the padded length of interpolated lags is searched: a delay that is longer is not found, whatever the signals. -/
theorem C102_tdoa_interp_deviation (x1 x2 : List ℝ) {interp : Nat} (hi : interp ≠ 0) {fs : ℝ} (hfs : fs ≠ 0) (phat : Bool) (hx : 2 ≤ x1.length + x2.length) {D : Nat}
    (hD : padded x1.length x2.length / 2 < D * interp) : tdoa x1 x2 interp fs phat ≠ .ok ((D : ℝ) / fs) := by
  obtain ⟨lag, e, -, h⟩ := C102_tdoa_range x1 x2 hi fs phat hx
  rw [e]
  intro heq
  injection heq with heq
  have hi' : (interp : ℝ) ≠ 0 := by exact_mod_cast hi
  rw [div_eq_div_iff (mul_ne_zero hfs hi') hfs] at heq
  have h3 : (lag : ℝ) = (D : ℝ) * interp := mul_right_cancel₀ hfs (by linear_combination heq)
  have h4 : lag = (D : Int) * interp := by exact_mod_cast h3
  have h5 : ((D * interp : Nat) : Int) = (D : Int) * interp := by push_cast; ring
  omega

theorem spectrum_one (N : Nat) (hN : 1 ≤ N) (k : Nat) : Sync.spectrum N [1] k = 1 := by
  unfold Sync.spectrum rfft dft
  rw [Finset.sum_eq_single 0]
  · simp [tw_zero]
  · intro m _ hm
    simp only [Sync.getD_zero [1] (show [(1 : ℝ)].length ≤ m by simp; omega)]
    simp
  · intro h
    exact absurd (mem_range.mpr (by omega)) h

/-- A pulse at one sample, and five samples in which it comes one sample later. -/
example : tdoa [0, 2, 0, 0, 0] [1] 1 16000 true = .ok ((1 : ℝ) / 16000) := by
  have := (C102_tdoa_delay (ref := [1]) 1 3 (a := 2) two_ne_zero 16000 (by simp) (by
    intro k _; rw [spectrum_one _ (by unfold padded; simp)]; exact one_ne_zero)).1 (by unfold padded; simp)
  simpa [Sync.delayed] using this

/-- The same with two samples: a delay of one sample is returned as minus one. -/
example : tdoa [0, 2] [1] 1 16000 true = .ok ((-1 : ℝ) / 16000) := by
  have := C102_tdoa_alias_deviation (ref := [1]) 1 0 (a := 2) two_ne_zero 16000 (by simp) (by
    intro k _; rw [spectrum_one _ (by unfold padded; simp)]; exact one_ne_zero) (by unfold padded; simp)
  simp [Sync.delayed, padded] at this
  rw [this]
  norm_num

end Verif.Locate
