import Verif.LinPred.Model
import Mathlib.Data.List.GetD
import Mathlib.Algebra.BigOperators.Intervals
import Mathlib.Algebra.BigOperators.Module
import Mathlib.Tactic.FieldSimp
import Mathlib.Tactic.Linarith
import Mathlib.Tactic.IntervalCases
import Mathlib.Tactic.LinearCombination

/-!
# Levinson recursion: specification, invariant, property C23
-/

namespace Verif.LinPred

open Verif.Py Finset

variable {K V : Type} [RCLike K] [AddCommGroup V] [Module K V]

/-- The Hermitian Toeplitz matrix with first row `r`. -/
def rowToep (r : List K) (i k : Nat) : K :=
  if k ≤ i then (starRingEnd K) (r.getD (i - k) 0) else r.getD (k - i) 0

/-- The Hermitian Toeplitz matrix with first column `r` (`scipy.linalg.toeplitz(r)`). -/
def colToep (r : List K) (i k : Nat) : K :=
  if k ≤ i then r.getD (i - k) 0 else (starRingEnd K) (r.getD (k - i) 0)

/-- `M x = b` for the leading `n × n` part of `M`. -/
def Solves (M : Nat → Nat → K) (n : Nat) (x b : Nat → V) : Prop :=
  ∀ i, i < n → ∑ k ∈ range n, M i k • x k = b i

/-! ## Helpers -/

theorem sum_zipWith {α β γ : Type} [AddCommMonoid γ] (f : α → β → γ) (u : List α) (v : List β) (a : α) (b : β)
    (h : u.length = v.length) : (List.zipWith f u v).sum = ∑ m ∈ range u.length, f (u.getD m a) (v.getD m b) := by
  induction u generalizing v with
  | nil => simp
  | cons c u ih =>
    cases v with
    | nil => simp at h
    | cons d v =>
      simp only [List.zipWith_cons_cons, List.sum_cons, List.length_cons]
      rw [Finset.sum_range_succ', ih v (by simpa using h)]
      simp [add_comm]

theorem getD_reverse {α : Type} (l : List α) (d : α) {m : Nat} (hm : m < l.length) :
    l.reverse.getD m d = l.getD (l.length - 1 - m) d := by
  rw [List.getD_eq_getElem?_getD, List.getElem?_reverse hm, List.getD_eq_getElem?_getD]

theorem getD_map0 {α β : Type} (f : α → β) (l : List α) (d : α) (d' : β) {m : Nat} (hm : m < l.length) :
    (l.map f).getD m d' = f (l.getD m d) := by
  rw [List.getD_eq_getElem?_getD, List.getElem?_map, List.getD_eq_getElem?_getD, List.getElem?_eq_getElem hm]
  simp

theorem getD_zipWith {α β γ : Type} (f : α → β → γ) (u : List α) (v : List β) (a : α) (b : β) (c : γ) {m : Nat}
    (h1 : m < u.length) (h2 : m < v.length) : (List.zipWith f u v).getD m c = f (u.getD m a) (v.getD m b) := by
  rw [List.getD_eq_getElem _ _ (by simp; omega), List.getD_eq_getElem _ _ h1, List.getD_eq_getElem _ _ h2,
    List.getElem_zipWith]

/-- Entry of the Toeplitz matrix as a function of the difference. -/
def tt (r : List K) (m : Int) : K :=
  if 0 ≤ m then (starRingEnd K) (r.getD m.toNat 0) else r.getD (-m).toNat 0

theorem rowToep_eq (r : List K) (i k : Nat) : rowToep r i k = tt r ((i : Int) - k) := by
  unfold rowToep tt
  by_cases h : k ≤ i
  · rw [if_pos h, if_pos (by omega)]; congr 2; omega
  · rw [if_neg h, if_neg (by omega)]; congr 1; omega

theorem tt_neg (r : List K) (h0 : (starRingEnd K) (r.getD 0 0) = r.getD 0 0) (m : Int) : tt r (-m) = (starRingEnd K) (tt r m) := by
  unfold tt
  rcases lt_trichotomy m 0 with h | h | h
  · rw [if_pos (by omega), if_neg (by omega)]
  · subst h; rw [neg_zero, if_pos (le_refl 0), Int.toNat_zero, if_pos (le_refl 0), RCLike.conj_conj, h0]
  · rw [if_neg (by omega), if_pos (by omega), neg_neg, RCLike.conj_conj]

/-- The invariant of the recursion for size `n`. -/
structure LevInv (r : List K) (b : List V) (n : Nat) (s : Lev K V) : Prop where
  la : s.a.length = n
  lx : s.x.length = n
  a0 : s.a.getD 0 0 = 1
  real : (starRingEnd K) s.eps = s.eps
  ne : s.eps ≠ 0
  ha : ∀ i, i < n → ∑ k ∈ range n, tt r ((i : Int) - k) * s.a.getD k 0 = if i = 0 then s.eps else 0
  hx : ∀ i, i < n → ∑ k ∈ range n, tt r ((i : Int) - k) • s.x.getD k 0 = b.getD i 0

theorem rc_spec (r : List K) {n : Nat} (hn : n < r.length) :
    ((slice r (some 1) (some ((n : Int) + 1))).map (starRingEnd K)).length = n ∧
    ∀ m, m < n → ((slice r (some 1) (some ((n : Int) + 1))).map (starRingEnd K)).getD m 0 = tt r (((m + 1 : Nat) : Int)) := by
  have hs : slice r (some 1) (some ((n : Int) + 1)) = (r.drop 1).take n := by
    unfold slice
    simp only [sliceStart, sliceStop]
    rw [show (1 : Int) = ((1 : Nat) : Int) by rfl, ← Nat.cast_add, clampIdx_nat, clampIdx_nat,
      Nat.min_eq_left (by omega), Nat.min_eq_left (by omega)]
    congr 1
  have hl : ((r.drop 1).take n).length = n := by simp; omega
  rw [hs]
  refine ⟨by rw [List.length_map, hl], ?_⟩
  intro m hm
  rw [getD_map0 _ _ 0 0 (by rw [hl]; exact hm)]
  unfold tt
  rw [if_pos (by omega), Int.toNat_natCast]
  congr 1
  rw [List.getD_eq_getElem?_getD, List.getElem?_take_of_lt hm, List.getElem?_drop, List.getD_eq_getElem?_getD, Nat.add_comm]

/-- The reversed conjugated vector is mapped to the reversed conjugated image. -/
theorem flip_rows (r : List K) (h0 : (starRingEnd K) (r.getD 0 0) = r.getD 0 0) (n : Nat) (a : Nat → K) (i : Nat) (hi : i ≤ n) :
    ∑ k ∈ range (n + 1), tt r ((i : Int) - k) * (starRingEnd K) (a (n - k)) =
      (starRingEnd K) (∑ k ∈ range (n + 1), tt r (((n - i : Nat) : Int) - k) * a k) := by
  rw [map_sum, ← Finset.sum_range_reflect]
  apply Finset.sum_congr rfl
  intro k hk
  rw [mem_range] at hk
  rw [map_mul, ← tt_neg r h0, show n + 1 - 1 - k = n - k by omega, show n - (n - k) = k by omega]
  congr 2
  omega

theorem lev_step (r : List K) (b : List V) {n : Nat} (hn1 : 1 ≤ n) (hr : n < r.length) (hb : n < b.length)
    (h0 : (starRingEnd K) (r.getD 0 0) = r.getD 0 0) {s : Lev K V} (inv : LevInv r b n s) :
    (∃ s', levStep r b n s = .ok (some s') ∧ LevInv r b (n + 1) s') ∨
    (levStep r b n s = .ok none ∧ ∃ v : Nat → K, v 0 = 1 ∧ Solves (rowToep r) (n + 1) v (fun _ => 0)) := by
  obtain ⟨la, lx, a0, hreal, hne, ha, hx⟩ := inv
  obtain ⟨hrcl, hrc⟩ := rc_spec r hr
  set rc := (slice r (some 1) (some ((n : Int) + 1))).map (starRingEnd K) with hrcdef
  set g : K := (List.zipWith (· * ·) rc s.a.reverse).sum with hg
  -- the last row of the extended vectors
  have hlast : ∀ {W : Type} [AddCommGroup W] [Module K W] (y : List W), y.length = n →
      (List.zipWith (fun c v => c • v) rc y.reverse).sum = ∑ k ∈ range n, tt r ((n : Int) - k) • y.getD k 0 := by
    intro W _ _ y hy
    rw [sum_zipWith (fun (c : K) (v : W) => c • v) rc y.reverse 0 0 (by rw [hrcl, List.length_reverse, hy]), hrcl,
      ← Finset.sum_range_reflect]
    apply Finset.sum_congr rfl
    intro k hk
    rw [mem_range] at hk
    rw [hrc _ (by omega), getD_reverse _ _ (by omega), hy, show n - 1 - (n - 1 - k) = k by omega]
    congr 2
    omega
  have hgv : g = ∑ k ∈ range n, tt r ((n : Int) - k) * s.a.getD k 0 := by
    have := hlast s.a la
    simpa only [smul_eq_mul] using this
  set gamma : K := -g / s.eps with hgamma
  set a1 := List.zipWith (· + ·) (s.a ++ [0]) ((0 :: s.a.reverse.map (starRingEnd K)).map (gamma * ·)) with ha1
  set eps1 : K := s.eps * (1 - (‖gamma‖ : K) ^ 2) with heps1
  have ha1l : a1.length = n + 1 := by rw [ha1]; simp [la]
  -- the extension of a by zero
  set e : Nat → K := fun k => if k < n then s.a.getD k 0 else 0 with he
  have ha1v : ∀ k, k ≤ n → a1.getD k 0 = e k + gamma * (starRingEnd K) (e (n - k)) := by
    intro k hk
    rw [ha1, getD_zipWith _ _ _ 0 0 0 (by simp [la]; omega) (by simp [la]; omega)]
    congr 1
    · simp only [he]
      split
      · rw [List.getD_append _ _ _ _ (by omega)]
      · rw [List.getD_append_right _ _ _ _ (by omega), la, show k - n = 0 by omega]; rfl
    · rw [getD_map0 _ _ 0 0 (by simp [la]; omega)]
      congr 1
      cases k with
      | zero => simp [he]
      | succ k =>
        rw [List.getD_cons_succ, getD_map0 _ _ 0 0 (by simp [la]; omega), getD_reverse _ _ (by omega), la]
        simp only [he]
        rw [if_pos (by omega), show n - 1 - k = n - (k + 1) by omega]
  have hrowe : ∀ i, i ≤ n → ∑ k ∈ range (n + 1), tt r ((i : Int) - k) * e k = if i = 0 then s.eps else if i = n then g else 0 := by
    intro i hi
    have hen : e n = 0 := by simp only [he]; rw [if_neg (by omega)]
    rw [Finset.sum_range_succ, hen, mul_zero, add_zero]
    have : ∑ k ∈ range n, tt r ((i : Int) - k) * e k = ∑ k ∈ range n, tt r ((i : Int) - k) * s.a.getD k 0 := by
      apply Finset.sum_congr rfl
      intro k hk
      rw [mem_range] at hk
      simp only [he]
      rw [if_pos hk]
    rw [this]
    by_cases hin : i = n
    · subst hin
      rw [if_neg (by omega), if_pos rfl, hgv]
    · rw [ha i (by omega), if_neg hin]
  have hconj_g : gamma * s.eps = -g := by rw [hgamma]; field_simp
  have hnorm : ((‖gamma‖ : K)) ^ 2 = gamma * (starRingEnd K) gamma := by
    rw [RCLike.mul_conj]
  have hrowa : ∀ i, i ≤ n → ∑ k ∈ range (n + 1), tt r ((i : Int) - k) * a1.getD k 0 = if i = 0 then eps1 else 0 := by
    intro i hi
    have : ∀ k ∈ range (n + 1), tt r ((i : Int) - k) * a1.getD k 0 =
        tt r ((i : Int) - k) * e k + gamma * (tt r ((i : Int) - k) * (starRingEnd K) (e (n - k))) := by
      intro k hk
      rw [mem_range] at hk
      rw [ha1v k (by omega)]; ring
    rw [Finset.sum_congr rfl this, Finset.sum_add_distrib, ← Finset.mul_sum, hrowe i hi, flip_rows r h0 n e i hi,
      hrowe (n - i) (by omega)]
    by_cases hi0 : i = 0
    · subst hi0
      rw [if_pos rfl, if_pos rfl, if_neg (by omega), if_pos (by omega), heps1, hnorm]
      have hcg : (starRingEnd K) g = -((starRingEnd K) gamma * s.eps) := by
        
        have h2 := congrArg (starRingEnd K) hconj_g
        rw [map_mul, hreal, map_neg] at h2
        rw [h2, neg_neg]
      rw [hcg]; ring
    · by_cases hin : i = n
      · subst hin
        rw [if_neg hi0, if_pos rfl, if_pos (by omega), if_neg hi0, hreal, hconj_g]; ring
      · rw [if_neg hi0, if_neg hin, if_neg (by omega), if_neg (by omega), if_neg hi0]; simp
  have ha10 : a1.getD 0 0 = 1 := by
    rw [ha1v 0 (by omega)]
    simp only [he]
    rw [if_pos (by omega), a0, Nat.sub_zero, if_neg (by omega)]; simp
  obtain ⟨bj, hbj⟩ : ∃ bj, get b (n : Int) = .ok bj ∧ bj = b.getD n 0 := by
    exact ⟨b[n], get_nat b hb, by rw [List.getD_eq_getElem _ _ hb]⟩
  set delta : V := (List.zipWith (fun c v => c • v) rc s.x.reverse).sum with hdelta
  have hstep : levStep r b n s = if eps1 = 0 then .ok none else
      .ok (some ⟨a1, List.zipWith (· + ·) (s.x ++ [0]) ((a1.reverse.map (starRingEnd K)).map (fun c => c • (eps1⁻¹ • (bj - delta)))), eps1⟩) := by
    unfold levStep
    simp only
    rw [if_neg (by rw [← hrcdef, hrcl, lx]; simp), hbj.1]
    simp only
    rw [if_neg hne]
  by_cases hz : eps1 = 0
  · right
    refine ⟨by rw [hstep, if_pos hz], fun k => a1.getD k 0, ha10, ?_⟩
    intro i hi
    have := hrowa i (by omega)
    simp only [rowToep_eq, smul_eq_mul]
    rw [this, hz]; simp
  · left
    refine ⟨_, by rw [hstep, if_neg hz], ?_⟩
    set q : V := eps1⁻¹ • (bj - delta) with hq
    set x1 := List.zipWith (· + ·) (s.x ++ [0]) ((a1.reverse.map (starRingEnd K)).map (fun c => c • q)) with hx1
    have hreal1 : (starRingEnd K) eps1 = eps1 := by
      rw [heps1, map_mul, hreal, map_sub, map_one, map_pow, RCLike.conj_ofReal]
    have hx1v : ∀ k, k ≤ n → x1.getD k 0 = (if k < n then s.x.getD k 0 else 0) + (starRingEnd K) (a1.getD (n - k) 0) • q := by
      intro k hk
      rw [hx1, getD_zipWith _ _ _ 0 0 0 (by simp [lx]; omega) (by simp [ha1l]; omega)]
      congr 1
      · split
        · rw [List.getD_append _ _ _ _ (by omega)]
        · rw [List.getD_append_right _ _ _ _ (by omega), lx, show k - n = 0 by omega]; rfl
      · rw [getD_map0 _ _ 0 0 (by simp [ha1l]; omega), getD_map0 _ _ 0 0 (by simp [ha1l]; omega), getD_reverse _ _ (by omega),
          ha1l, Nat.add_sub_cancel]
    refine ⟨ha1l, by simp [hx1, lx, ha1l], ha10, hreal1, hz, fun i hi => hrowa i (by omega), ?_⟩
    intro i hi
    have : ∀ k ∈ range (n + 1), tt r ((i : Int) - k) • x1.getD k 0 =
        tt r ((i : Int) - k) • (if k < n then s.x.getD k 0 else 0) + (tt r ((i : Int) - k) * (starRingEnd K) (a1.getD (n - k) 0)) • q := by
      intro k hk
      rw [mem_range] at hk
      rw [hx1v k (by omega), smul_add, smul_smul]
    change ∑ k ∈ range (n + 1), tt r ((i : Int) - k) • x1.getD k 0 = b.getD i 0
    rw [Finset.sum_congr rfl this, Finset.sum_add_distrib, ← Finset.sum_smul,
      flip_rows r h0 n (fun k => a1.getD k 0) i (by omega), hrowa (n - i) (by omega), Finset.sum_range_succ,
      if_neg (lt_irrefl n), smul_zero, add_zero]
    have hxs : ∑ k ∈ range n, tt r ((i : Int) - k) • (if k < n then s.x.getD k 0 else 0) =
        ∑ k ∈ range n, tt r ((i : Int) - k) • s.x.getD k 0 := by
      apply Finset.sum_congr rfl
      intro k hk
      rw [mem_range] at hk
      rw [if_pos hk]
    rw [hxs]
    by_cases hin : i = n
    · subst hin
      rw [if_pos (by omega), hreal1, hq, smul_smul, mul_inv_cancel₀ hz, one_smul, hbj.2, hdelta, hlast s.x lx]
      abel
    · rw [if_neg (by omega), map_zero, zero_smul, add_zero, hx i (by omega)]

theorem lev_loop (r : List K) (b : List V) (h0 : (starRingEnd K) (r.getD 0 0) = r.getD 0 0) (n : Nat) (hr : n < r.length)
    (hb : n < b.length) :
    (∃ s, levLoop r b n = .ok (some s) ∧ LevInv r b (n + 1) s) ∨
    (levLoop r b n = .ok none ∧ ∃ m, m ≤ n ∧ ∃ v : Nat → K, v 0 = 1 ∧ Solves (rowToep r) (m + 1) v (fun _ => 0)) := by
  induction n with
  | zero =>
    have er := get_nat r (k := 0) hr
    have eb := get_nat b (k := 0) hb
    rw [Nat.cast_zero] at er eb
    have hr0 : r.getD 0 0 = r[0] := List.getD_eq_getElem _ _ hr
    have hb0 : b.getD 0 0 = b[0] := List.getD_eq_getElem _ _ hb
    unfold levLoop
    rw [er, eb]
    simp only
    by_cases hz : r[0] = 0
    · right
      rw [if_pos hz]
      refine ⟨rfl, 0, le_refl 0, fun _ => 1, rfl, ?_⟩
      intro i hi
      have : i = 0 := by omega
      subst this
      simp only [zero_add, Finset.sum_range_one, rowToep, if_pos (le_refl 0), Nat.sub_zero, hr0, hz, map_zero, zero_smul]
    · left
      rw [if_neg hz]
      have htt : tt r 0 = r[0] := by
        unfold tt
        rw [if_pos (le_refl 0), Int.toNat_zero, h0, hr0]
      refine ⟨_, rfl, rfl, rfl, rfl, by rw [← hr0]; exact h0, hz, ?_, ?_⟩
      · intro i hi
        have : i = 0 := by omega
        subst this
        simp [htt]
      · intro i hi
        have : i = 0 := by omega
        subst this
        simp only [zero_add, Finset.sum_range_one, Nat.cast_zero, sub_zero, htt, List.getD_cons_zero]
        rw [smul_smul, mul_inv_cancel₀ hz, one_smul, hb0]
  | succ n ih =>
    rcases ih (by omega) (by omega) with ⟨s, e, inv⟩ | ⟨e, m, hm, v, hv⟩
    · rw [show levLoop r b (n + 1) = levStep r b (n + 1) s by rw [levLoop, e]]
      rcases lev_step r b (by omega) hr hb h0 inv with ⟨s', e', inv'⟩ | ⟨e', v, hv⟩
      · exact Or.inl ⟨s', e', inv'⟩
      · exact Or.inr ⟨e', n + 1, le_refl _, v, hv⟩
    · right
      refine ⟨?_, m, by omega, v, hv⟩
      rw [levLoop, e]
      simp only
      rw [if_neg (by omega)]

/-! ## C23 -/

/-- **C23** `levinson(r, b)`: whenever it returns finite numbers they solve the system with the
Hermitian Toeplitz matrix whose first *row* is `r`. It fails to do so only if one of the
leading principal submatrices is singular. Vector and matrix right-hand sides; `r` real or complex with
a real first entry. -/
theorem C23_levinson (r : List K) (b : List V) (hb : 1 ≤ b.length) (hr : b.length ≤ r.length)
    (h0 : (starRingEnd K) (r.getD 0 0) = r.getD 0 0) :
    (∃ x, levinson r b = .ok (some x) ∧ x.length = b.length ∧
      Solves (rowToep r) b.length (fun k => x.getD k 0) (fun k => b.getD k 0)) ∨
    (levinson r b = .ok none ∧ ∃ m, 1 ≤ m ∧ m ≤ b.length ∧ ∃ v : Nat → K, v 0 = 1 ∧ Solves (rowToep r) m v (fun _ => 0)) := by
  unfold levinson
  rcases lev_loop r b h0 (b.length - 1) (by omega) (by omega) with ⟨s, e, inv⟩ | ⟨e, m, hm, v, hv⟩
  · left
    rw [Nat.sub_add_cancel hb] at inv
    rw [e]
    refine ⟨s.x, rfl, inv.lx, ?_⟩
    intro i hi
    simp only [rowToep_eq]
    exact inv.hx i hi
  · right
    rw [e]
    exact ⟨rfl, m + 1, by omega, by omega, v, hv⟩

/-- **C23** For real `r` this is the system of `scipy.linalg.toeplitz(r)`; it is solved whenever
all leading principal submatrices are regular. -/
theorem C23_levinson_real {V : Type} [AddCommGroup V] [Module ℝ V] (r : List ℝ) (b : List V) (hb : 1 ≤ b.length)
    (hr : b.length ≤ r.length)
    (hreg : ∀ m, 1 ≤ m → m ≤ b.length → ∀ v : Nat → ℝ, Solves (colToep r) m v (fun _ => 0) → ∀ k, k < m → v k = 0) :
    ∃ x, levinson r b = .ok (some x) ∧ x.length = b.length ∧
      Solves (colToep r) b.length (fun k => x.getD k 0) (fun k => b.getD k 0) := by
  have hrc : rowToep r = colToep r := by
    funext i k
    unfold rowToep colToep
    split <;> simp
  rcases C23_levinson r b hb hr (by simp) with h | ⟨_, m, hm1, hm2, v, hv0, hv⟩
  · rw [← hrc]; exact h
  · exfalso
    rw [hrc] at hv
    have := hreg m hm1 hm2 v hv 0 (by omega)
    rw [this] at hv0
    exact zero_ne_one hv0

/-- **C23** If the matrix is positive definite, the recursion succeeds. -/
theorem C23_posdef (r : List K) (b : List V) (hb : 1 ≤ b.length) (hr : b.length ≤ r.length)
    (h0 : (starRingEnd K) (r.getD 0 0) = r.getD 0 0)
    (hpd : ∀ v : Nat → K, (∃ k, k < b.length ∧ v k ≠ 0) →
      ∑ i ∈ range b.length, (starRingEnd K) (v i) * ∑ k ∈ range b.length, rowToep r i k * v k ≠ 0) :
    ∃ x, levinson r b = .ok (some x) ∧ x.length = b.length ∧
      Solves (rowToep r) b.length (fun k => x.getD k 0) (fun k => b.getD k 0) := by
  rcases C23_levinson r b hb hr h0 with h | ⟨_, m, hm1, hm2, v, hv0, hv⟩
  · exact h
  · exfalso
    apply hpd (fun k => if k < m then v k else 0) ⟨0, by omega, by rw [if_pos (by omega), hv0]; exact one_ne_zero⟩
    apply Finset.sum_eq_zero
    intro i _
    by_cases him : i < m
    · have h1 := hv i him
      obtain ⟨c, hc⟩ : ∃ c, b.length = m + c := ⟨b.length - m, by omega⟩
      rw [hc, Finset.sum_range_add, Finset.sum_eq_zero (s := range c), add_zero]
      · have : ∑ k ∈ range m, rowToep r i k * (if k < m then v k else 0) = 0 := by
          refine Eq.trans ?_ h1
          apply Finset.sum_congr rfl
          intro k hk
          rw [if_pos (mem_range.mp hk), smul_eq_mul]
        rw [this, mul_zero]
      · intro k _
        rw [if_neg (by omega), mul_zero]
    · rw [if_neg him, map_zero, zero_mul]

/-- **C23**, deviation: the documentation says that `r` is the first *column*. For complex `r`
the result does not solve that system. -/
theorem C23_complex_deviation : ∃ (r b : List ℂ) (x : List ℂ), levinson r b = .ok (some x) ∧
    ¬Solves (colToep r) 2 (fun k => x.getD k 0) (fun k => b.getD k 0) := by
  have hpd : ∀ v : Nat → ℂ, (∃ k, k < 2 ∧ v k ≠ 0) →
      ∑ i ∈ range 2, (starRingEnd ℂ) (v i) * ∑ k ∈ range 2, rowToep [2, Complex.I] i k * v k ≠ 0 := by
    rintro v ⟨k, hk, hvk⟩ h
    simp [Finset.sum_range_succ, rowToep] at h
    have hre := congrArg Complex.re h
    simp at hre
    have : (v 0).re ^ 2 + (v 0).im ^ 2 + (v 1).re ^ 2 + (v 1).im ^ 2 +
      ((v 0).re - (v 1).im) ^ 2 + ((v 0).im + (v 1).re) ^ 2 = 0 := by nlinarith
    have h1 : (v 0).re = 0 := by nlinarith [sq_nonneg (v 0).re, sq_nonneg (v 0).im, sq_nonneg (v 1).re, sq_nonneg (v 1).im, sq_nonneg ((v 0).re - (v 1).im), sq_nonneg ((v 0).im + (v 1).re)]
    have h2 : (v 0).im = 0 := by nlinarith [sq_nonneg (v 0).re, sq_nonneg (v 0).im, sq_nonneg (v 1).re, sq_nonneg (v 1).im, sq_nonneg ((v 0).re - (v 1).im), sq_nonneg ((v 0).im + (v 1).re)]
    have h3 : (v 1).re = 0 := by nlinarith [sq_nonneg (v 0).re, sq_nonneg (v 0).im, sq_nonneg (v 1).re, sq_nonneg (v 1).im, sq_nonneg ((v 0).re - (v 1).im), sq_nonneg ((v 0).im + (v 1).re)]
    have h4 : (v 1).im = 0 := by nlinarith [sq_nonneg (v 0).re, sq_nonneg (v 0).im, sq_nonneg (v 1).re, sq_nonneg (v 1).im, sq_nonneg ((v 0).re - (v 1).im), sq_nonneg ((v 0).im + (v 1).re)]
    apply hvk
    interval_cases k
    · exact Complex.ext h1 h2
    · exact Complex.ext h3 h4
  have hc2 : (starRingEnd ℂ) 2 = 2 := Complex.conj_ofNat 2
  obtain ⟨x, e, _, hx⟩ := C23_posdef ([2, Complex.I] : List ℂ) ([1, 0] : List ℂ) (by simp) (by simp) (by simpa using hc2) hpd
  refine ⟨_, _, x, e, ?_⟩
  intro hc
  have h1 := hx 0 (by simp)
  have h2 := hx 1 (by simp)
  have h3 := hc 1 (by norm_num)
  simp [Finset.sum_range_succ, rowToep, hc2] at h1 h2
  simp [Finset.sum_range_succ, colToep] at h3
  generalize x[0]?.getD 0 = u at *
  generalize x[1]?.getD 0 = w at *
  have hw : w = 0 := by linear_combination (1 / 4 : ℂ) * h2 + (1 / 4 : ℂ) * h3
  have hu : u = 0 := by
    rw [hw] at h3
    have : Complex.I * u = 0 := by linear_combination h3
    rcases mul_eq_zero.mp this with h | h
    · exact absurd h Complex.I_ne_zero
    · exact h
  rw [hu, hw] at h1
  simp at h1

/-- Non-vacuity of C23: a positive definite matrix of size two. -/
example : ∀ m, 1 ≤ m → m ≤ ([1, 1] : List ℝ).length → ∀ v : Nat → ℝ, Solves (colToep ([2, 1] : List ℝ)) m v (fun _ => 0) →
    ∀ k, k < m → v k = 0 := by
  intro m h1 h2 v hv k hk
  have : m = 1 ∨ m = 2 := by simp at h2; omega
  rcases this with rfl | rfl
  · have e := hv 0 (by norm_num)
    simp [colToep] at e
    interval_cases k; exact e
  · have e := hv 0 (by norm_num)
    have e' := hv 1 (by norm_num)
    simp [Finset.sum_range_succ, colToep] at e e'
    interval_cases k <;> linarith

end Verif.LinPred
