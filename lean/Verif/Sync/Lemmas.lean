import Verif.Sync.Model
import Mathlib.Tactic.Linarith
import Mathlib.Data.List.GetD

namespace Verif.Sync

open Verif.Py Verif.DFT Finset

theorem neg_mod_bij (N : Nat) (hN : 0 < N) (g : Nat → ℂ) :
    ∑ n ∈ range N, g ((N - n) % N) = ∑ m ∈ range N, g m := by
  refine Finset.sum_nbij' (fun n => (N - n) % N) (fun n => (N - n) % N) ?_ ?_ ?_ ?_ ?_
  · intro n _; rw [mem_range]; exact Nat.mod_lt _ hN
  · intro n _; rw [mem_range]; exact Nat.mod_lt _ hN
  · intro n hn
    rw [mem_range] at hn
    rcases Nat.eq_zero_or_pos n with h | h
    · subst h; simp
    · rw [Nat.mod_eq_of_lt (show N - n < N by omega), Nat.mod_eq_of_lt (by omega)]; omega
  · intro n hn
    rw [mem_range] at hn
    rcases Nat.eq_zero_or_pos n with h | h
    · subst h; simp
    · rw [Nat.mod_eq_of_lt (show N - n < N by omega), Nat.mod_eq_of_lt (by omega)]; omega
  · intro n _; rfl

theorem neg_mod_invol {N n : Nat} (hn : n < N) : (N - (N - n) % N) % N = n := by
  rcases Nat.eq_zero_or_pos n with h | h
  · subst h; simp
  · rw [Nat.mod_eq_of_lt (show N - n < N by omega), Nat.mod_eq_of_lt (by omega)]; omega

theorem tw_congr {N : Nat} (hN : 0 < N) {a b : Int} (h : (N : Int) ∣ a - b) : tw N a = tw N b := by
  rw [show a = b + (a - b) by ring, tw_add, tw_dvd hN h, mul_one]

theorem dft_rev {N : Nat} (hN : 0 < N) (x : Nat → ℝ) (k : Nat) :
    dft N (fun n => (x ((N - n) % N) : ℂ)) k = (starRingEnd ℂ) (dft N (fun n => (x n : ℂ)) k) := by
  unfold dft
  rw [map_sum]
  simp only [map_mul, Complex.conj_ofReal, tw_conj, neg_neg]
  rw [← neg_mod_bij N hN (fun m => (x m : ℂ) * tw N ((m : Int) * k))]
  apply Finset.sum_congr rfl
  intro n hn
  rw [mem_range] at hn
  congr 1
  apply tw_congr hN
  rcases Nat.eq_zero_or_pos n with h | h
  · subst h; simp
  · rw [Nat.mod_eq_of_lt (show N - n < N by omega), Nat.cast_sub (by omega)]
    exact ⟨-k, by ring⟩

/-- Circular correlation theorem. -/
theorem irfft_mul_conj {N : Nat} (x y : Nat → ℝ) {n : Nat} (hn : n < N) :
    irfft N (fun k => rfft N x k * (starRingEnd ℂ) (rfft N y k)) n =
      ∑ b ∈ range N, x ((n + b) % N) * y b := by
  have hN : 0 < N := by omega
  have h1 : (fun k => rfft N x k * (starRingEnd ℂ) (rfft N y k)) =
      fun k => rfft N x k * rfft N (fun n => y ((N - n) % N)) k := by
    funext k
    congr 1
    exact (dft_rev hN y k).symm
  rw [h1, irfft_mul _ _ hn, Finset.sum_comm]
  have h2 : ∀ b ∈ range N, (∑ a ∈ range N, if (a + b) % N = n then x a * y ((N - b) % N) else 0) =
      x ((n + (N - b) % N) % N) * y ((N - b) % N) := by
    intro b hb
    rw [mem_range] at hb
    have : ∀ a ∈ range N, ((a + b) % N = n ↔ a = (n + (N - b) % N) % N) := by
      intro a ha
      rw [mem_range] at ha
      rcases Nat.eq_zero_or_pos b with h | h
      · subst h
        simp [Nat.mod_eq_of_lt ha, Nat.mod_eq_of_lt hn]
      · rw [Nat.mod_eq_of_lt (show N - b < N by omega)]
        by_cases hab : a + b < N
        · rw [Nat.mod_eq_of_lt hab]
          by_cases hnb : n + (N - b) < N
          · rw [Nat.mod_eq_of_lt hnb]; omega
          · rw [Nat.mod_eq_sub_mod (by omega), Nat.mod_eq_of_lt (by omega)]; omega
        · rw [Nat.mod_eq_sub_mod (a := a + b) (by omega), Nat.mod_eq_of_lt (show a + b - N < N by omega)]
          by_cases hnb : n + (N - b) < N
          · rw [Nat.mod_eq_of_lt hnb]; omega
          · rw [Nat.mod_eq_sub_mod (by omega), Nat.mod_eq_of_lt (by omega)]; omega
    rw [Finset.sum_congr rfl (fun a h => by rw [if_congr (this a h) rfl rfl])]
    rw [Finset.sum_ite_eq', if_pos (mem_range.mpr (Nat.mod_lt _ hN))]
  rw [Finset.sum_congr rfl h2]
  have := neg_mod_bij N hN (fun m => ((x ((n + m) % N) * y m : ℝ) : ℂ))
  exact_mod_cast this

theorem getD_zero (x : List ℝ) {n : Nat} (h : x.length ≤ n) : x.getD n 0 = 0 := by
  rw [List.getD_eq_getElem?_getD, List.getElem?_eq_none h]; rfl

theorem irfft_congr {N : Nat} {X Y : Nat → ℂ} (h : ∀ k, k ≤ N / 2 → X k = Y k) (n : Nat) :
    irfft N X n = irfft N Y n := by
  unfold irfft
  rw [idft_congr]
  intro k hk
  unfold hermExt
  split
  · exact h k (by assumption)
  · rw [h (N - k) (by omega)]

/-- Samples `0, 1, ...` of the list read at a possibly negative time. -/
def at0 (x : List ℝ) (k : Int) : ℝ := if 0 ≤ k then x.getD k.toNat 0 else 0

/-- Cross-correlation at a lag: the sum of `x1[k + lag] * x2[k]`. -/
def corrAt (x1 x2 : List ℝ) (lag : Int) : ℝ := ∑ k ∈ range x2.length, at0 x1 (k + lag) * x2.getD k 0

theorem at0_natCast (x : List ℝ) (k : Nat) : at0 x k = x.getD k 0 := by
  unfold at0; rw [if_pos (by omega)]; simp

theorem at0_neg (x : List ℝ) {k : Int} (h : k < 0) : at0 x k = 0 := by
  unfold at0; rw [if_neg (by omega)]

theorem at0_ge (x : List ℝ) {k : Int} (h : (x.length : Int) ≤ k) : at0 x k = 0 := by
  unfold at0
  split
  · exact getD_zero x (by omega)
  · rfl

theorem circ_eq_corr (x1 x2 : List ℝ) (h1 : 1 ≤ x1.length) (h2 : 1 ≤ x2.length) {n : Nat} {lag : Int}
    (hl : -((x2.length : Int) - 1) ≤ lag) (hu : lag ≤ (x1.length : Int) - 1)
    (hn : (n : Int) = if 0 ≤ lag then lag else lag + (x1.length + x2.length - 1)) :
    irfft (x1.length + x2.length - 1)
      (fun k => spectrum (x1.length + x2.length - 1) x1 k * (starRingEnd ℂ) (spectrum (x1.length + x2.length - 1) x2 k)) n =
      corrAt x1 x2 lag := by
  have hnN : n < x1.length + x2.length - 1 := by split at hn <;> omega
  unfold spectrum
  rw [irfft_mul_conj _ _ hnN]
  unfold corrAt
  rw [← Finset.sum_range_add_sum_Ico _ (show x2.length ≤ x1.length + x2.length - 1 by omega)]
  rw [Finset.sum_eq_zero (s := Ico _ _)]
  · rw [add_zero]
    apply Finset.sum_congr rfl
    intro b hb
    rw [mem_range] at hb
    congr 1
    by_cases hlag : 0 ≤ lag
    · rw [if_pos hlag] at hn
      by_cases hnb : n + b < x1.length + x2.length - 1
      · rw [Nat.mod_eq_of_lt hnb, show ((b : Int) + lag) = ((n + b : Nat) : Int) by omega, at0_natCast]
      · omega
    · rw [if_neg hlag] at hn
      by_cases hnb : n + b < x1.length + x2.length - 1
      · rw [Nat.mod_eq_of_lt hnb, at0_neg _ (by omega), getD_zero _ (by omega)]
      · rw [Nat.mod_eq_sub_mod (by omega), Nat.mod_eq_of_lt (by omega),
          show ((b : Int) + lag) = ((n + b - (x1.length + x2.length - 1) : Nat) : Int) by omega, at0_natCast]
  · intro b hb
    rw [mem_Ico] at hb
    rw [getD_zero x2 hb.1, mul_zero]

/-! ## argmax -/

theorem argmaxFrom_spec (t : List (Option ℝ)) (i idx : Nat) (b : ℝ) (v : Nat → ℝ)
    (ht : ∀ j, j < t.length → t.getD j none = some (v (i + j))) (hidx : idx < i) (hb : b = v idx)
    (hfirst : ∀ j, j < i → j < idx → v j < v idx) (hmax : ∀ j, j < i → v j ≤ v idx) :
    let p := argmaxFrom i (some b) idx t
    p < i + t.length ∧ (∀ j, j < i + t.length → v j ≤ v p) ∧ ∀ j, j < p → v j < v p := by
  induction t generalizing i idx b with
  | nil =>
    simp only [argmaxFrom, List.length_nil, Nat.add_zero]
    exact ⟨hidx, hmax, fun j hj => hfirst j (by omega) hj⟩
  | cons a t ih =>
    have ha : a = some (v i) := by simpa using ht 0 (by simp)
    have ht' : ∀ j, j < t.length → t.getD j none = some (v (i + 1 + j)) := by
      intro j hj
      have := ht (j + 1) (by simp; omega)
      rw [List.getD_cons_succ] at this
      rw [this]; congr 2; omega
    subst ha
    simp only [argmaxFrom, List.length_cons]
    rw [show i + (t.length + 1) = i + 1 + t.length by omega]
    by_cases hlt : b < v i
    · rw [if_pos (show better (some b) (some (v i)) = true by simp [better, hlt])]
      refine ih (i + 1) i (v i) ht' (by omega) rfl ?_ ?_
      · intro j _ hj; exact lt_of_le_of_lt (hmax j hj) (hb ▸ hlt)
      · intro j hj
        rcases Nat.lt_succ_iff_lt_or_eq.mp hj with h | h
        · exact (lt_of_le_of_lt (hmax j h) (hb ▸ hlt)).le
        · rw [h]
    · rw [if_neg (show ¬better (some b) (some (v i)) = true by simpa [better] using hlt)]
      refine ih (i + 1) idx b ht' (by omega) hb ?_ ?_
      · intro j _ hj; exact hfirst j (by omega) hj
      · intro j hj
        rcases Nat.lt_succ_iff_lt_or_eq.mp hj with h | h
        · exact hmax j h
        · rw [h, ← hb]; exact not_lt.mp hlt

/-- `argmax` of finite values is the first largest position. -/
theorem argmax_spec (l : List (Option ℝ)) (v : Nat → ℝ) (hl : 1 ≤ l.length)
    (hv : ∀ j, j < l.length → l.getD j none = some (v j)) :
    ∃ p, argmax l = .ok p ∧ p < l.length ∧ (∀ j, j < l.length → v j ≤ v p) ∧ ∀ j, j < p → v j < v p := by
  cases l with
  | nil => simp at hl
  | cons a t =>
    have ha : a = some (v 0) := by simpa using hv 0 (by simp)
    subst ha
    have := argmaxFrom_spec t 1 0 (v 0) v (by
      intro j hj
      have := hv (j + 1) (by simp; omega)
      rw [List.getD_cons_succ] at this
      rw [this]; congr 2; omega) (by omega) rfl (by intro j _ h; omega)
      (by intro j h; rw [show j = 0 by omega])
    simp only at this
    refine ⟨_, rfl, ?_⟩
    simp only [List.length_cons]
    rw [Nat.add_comm t.length 1]
    exact this

theorem argmax_unique (l : List (Option ℝ)) (v : Nat → ℝ) {p : Nat} (hp : p < l.length)
    (hv : ∀ j, j < l.length → l.getD j none = some (v j)) (hmax : ∀ j, j < l.length → v j ≤ v p)
    (hfirst : ∀ j, j < p → v j < v p) : argmax l = .ok p := by
  obtain ⟨q, e, hq, hqm, hqf⟩ := argmax_spec l v (by omega) hv
  rw [e]
  congr 1
  rcases Nat.lt_trichotomy p q with h | h | h
  · exact absurd (hqf p h) (not_lt.mpr (hmax q hq))
  · exact h.symm
  · exact absurd (hfirst q h) (not_lt.mpr (hqm p hp))

theorem argmax_lt (l : List (Option ℝ)) (hl : 1 ≤ l.length) : ∃ p, argmax l = .ok p ∧ p < l.length := by
  cases l with
  | nil => simp at hl
  | cons a t =>
    refine ⟨_, rfl, ?_⟩
    have : ∀ (t : List (Option ℝ)) (i idx : Nat) (b : Option ℝ), idx < i → argmaxFrom i b idx t < i + t.length := by
      intro t
      induction t with
      | nil => intro i idx b h; simpa [argmaxFrom] using h
      | cons a t ih =>
        intro i idx b h
        simp only [argmaxFrom, List.length_cons]
        split
        · have := ih (i + 1) i a (by omega); omega
        · have := ih (i + 1) idx b (by omega); omega
    have := this t 1 0 a (by omega)
    simp only [List.length_cons]; omega

end Verif.Sync
