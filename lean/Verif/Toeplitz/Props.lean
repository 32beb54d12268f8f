import Verif.Toeplitz.Model
import Mathlib.Tactic.Linarith
import Mathlib.Data.List.GetD
import Mathlib.Tactic.FieldSimp
import Mathlib.Algebra.Order.BigOperators.Ring.Finset
import Mathlib.Algebra.BigOperators.Intervals

/-!
# Properties C20, C21, C61: Toeplitz, Hankel and circulant matrices
-/

namespace Verif.Toeplitz

open Verif.Py Verif.DFT Finset

/-! ## Specification -/

/-- `scipy.linalg.toeplitz(c, r)`: first column `c`, first row `r` (except its first entry). -/
def toep (c r : List ℝ) (i k : Nat) : ℝ := if k ≤ i then c.getD (i - k) 0 else r.getD (k - i) 0

/-- `scipy.linalg.hankel(c, r)`: first column `c`, last row `r` (except its first entry). -/
def hank (c r : List ℝ) (i k : Nat) : ℝ :=
  if i + k < c.length then c.getD (i + k) 0 else r.getD (i + k - (c.length - 1)) 0

/-- `B` is the product of the `m × n` matrix `M` with `A`. -/
def IsProduct (m n : Nat) (M : Nat → Nat → ℝ) (A B : Arr) : Prop :=
  B.twoD = A.twoD ∧ B.rows = m ∧ B.cols = A.cols ∧
    ∀ i j, i < m → B.val i j = ∑ k ∈ range n, M i k * A.val k j

/-! ## Lemmas -/

theorem le_fftLen {k : Nat} (hk : 1 ≤ k) : k ≤ fftLen k := by
  unfold fftLen
  have hpos : (0 : ℝ) < k := by exact_mod_cast hk
  have h1 : (k : ℝ) = 2 ^ Real.logb 2 (k : ℝ) := (Real.rpow_logb (by norm_num) (by norm_num) hpos).symm
  have h2 : (2 : ℝ) ^ Real.logb 2 (k : ℝ) ≤ (2 : ℝ) ^ (⌈Real.logb 2 (k : ℝ)⌉₊ : ℝ) :=
    Real.rpow_le_rpow_of_exponent_le (by norm_num) (Nat.le_ceil _)
  rw [← h1, Real.rpow_natCast] at h2
  exact_mod_cast h2

theorem embed_getD {c r x : List ℝ} {zp : Int} (h : embed c r zp = .ok x) :
    0 ≤ zp ∧ (x.length : Int) = c.length + zp + (r.length - 1 : Nat) ∧ (∀ i, i < c.length → x.getD i 0 = c.getD i 0) ∧
      ∀ t, 1 ≤ t → t < r.length → x.getD (x.length - t) 0 = r.getD t 0 := by
  unfold embed at h
  split at h
  · exact absurd h (by simp)
  · rename_i hz
    push Not at hz
    injection h with h
    subst h
    have hl : (c ++ List.replicate zp.toNat 0 ++ (r.drop 1).reverse).length = c.length + zp.toNat + (r.length - 1) := by
      simp [Nat.add_assoc]
    refine ⟨hz, ?_, ?_, ?_⟩
    · rw [hl]; omega
    · intro i hi
      rw [List.append_assoc, List.getD_append _ _ _ _ hi]
    · intro t h1 h2
      rw [hl, List.getD_append_right _ _ _ _ (by simp; omega)]
      rw [List.getD_eq_getElem?_getD, List.getElem?_reverse (by simp; omega)]
      rw [List.getElem?_drop, List.getD_eq_getElem?_getD]
      congr 2
      simp
      omega

/-- The circulant embedding computes the product as soon as it is long enough and the
argument is zero after row `n`. -/
theorem fftMul_eq {c r x : List ℝ} {N : Nat} (hc : 1 ≤ c.length) (hr : 1 ≤ r.length)
    (hx : embed c r ((N : Int) - c.length - r.length + 1) = .ok x) (A : Arr)
    (hA : ∀ k j, r.length ≤ k → k < A.rows → A.val k j = 0) (hAr : r.length ≤ A.rows) {i : Nat} (hi : i < c.length)
    (j : Nat) : fftMul N x A i j = ∑ k ∈ range r.length, toep c r i k * A.val k j := by
  obtain ⟨hz, hxl, hxc, hxr⟩ := embed_getD hx
  have hxN : x.length = N := by omega
  have hN : c.length + r.length ≤ N + 1 := by omega
  unfold fftMul
  rw [irfft_mul _ _ (by omega)]
  have hinner : ∀ a ∈ range N, (∑ b ∈ range N, if (a + b) % N = i then padCol A j a * x.getD b 0 else 0) =
      if a < r.length then toep c r i a * A.val a j else 0 := by
    intro a ha
    rw [mem_range] at ha
    by_cases han : a < r.length
    · rw [if_pos han]
      have hb : ∀ b ∈ range N, ((a + b) % N = i ↔ b = if a ≤ i then i - a else N + i - a) := by
        intro b hb
        rw [mem_range] at hb
        by_cases hab : a + b < N
        · rw [Nat.mod_eq_of_lt hab]; split <;> omega
        · rw [Nat.mod_eq_sub_mod (by omega), Nat.mod_eq_of_lt (by omega)]; split <;> omega
      rw [Finset.sum_congr rfl (fun b h => by rw [if_congr (hb b h) rfl rfl])]
      rw [Finset.sum_ite_eq']
      rw [if_pos (by rw [mem_range]; split <;> omega)]
      unfold padCol toep
      rw [if_pos (by omega)]
      split
      · rw [hxc _ (by omega)]; ring
      · rename_i h
        have := hxr (a - i) (by omega) (by omega)
        rw [hxN] at this
        rw [show N + i - a = N - (a - i) by omega, this]; ring
    · rw [if_neg han]
      apply Finset.sum_eq_zero
      intro b _
      have : padCol A j a = 0 := by
        unfold padCol
        split
        · exact hA a j (by omega) (by assumption)
        · rfl
      simp [this]
  rw [Finset.sum_congr rfl hinner, ← Finset.sum_filter]
  congr 1
  ext a
  simp only [mem_filter, mem_range]
  omega

/-! ## C20 -/

/-- **C20** `toeplitz_multiplication(c, r, A)` is the product of the dense Toeplitz matrix
with `A`; it raises exactly if `A` does not have one row per column of the matrix. -/
theorem C20_toeplitz (c r : List ℝ) (hc : 1 ≤ c.length) (hr : 1 ≤ r.length) (A : Arr) :
    (A.rows = r.length → ∃ B, toeplitzMul c r A = .ok B ∧ IsProduct c.length r.length (toep c r) A B) ∧
    (A.rows ≠ r.length → toeplitzMul c r A = .error .valueError) := by
  have hN := le_fftLen (k := c.length + r.length - 1) (by omega)
  unfold toeplitzMul
  rw [if_neg (by omega)]
  simp only
  constructor
  · intro h
    rw [if_neg (not_not.mpr h)]
    obtain ⟨x, hx⟩ : ∃ x, embed c r ((fftLen (c.length + r.length - 1) : Int) - c.length - r.length + 1) = .ok x := by
      unfold embed
      rw [if_neg (by omega)]
      exact ⟨_, rfl⟩
    rw [hx]
    refine ⟨_, rfl, rfl, ?_, rfl, ?_⟩
    · simp only; omega
    · intro i j hi
      exact fftMul_eq hc hr hx A (fun k j h1 h2 => by omega) (by omega) hi j
  · intro h
    rw [if_pos h]

/-- **C20** The variant for `mkl_fft`, with its optional transform length and an argument
that may already be padded with zeros: the same product whenever the transform is long
enough, an error otherwise. -/
theorem C20_mkl_toeplitz (c r : List ℝ) (hc : 1 ≤ c.length) (hr : 1 ≤ r.length) (A : Arr) (h2 : A.twoD = true)
    (k : MklArgs) (N : Nat) (hN : k.fftLen = some N ∨ (k.fftLen = none ∧ N = fftLen (c.length + r.length - 1)))
    (hA : if k.padded then A.rows = N else A.rows = r.length)
    (hpad : k.padded = true → ∀ i j, r.length ≤ i → i < N → A.val i j = 0) :
    (c.length + r.length - 1 ≤ N → ∃ B, mklToeplitzMul true c r A k = .ok B ∧ IsProduct c.length r.length (toep c r) A B) ∧
    (N < c.length + r.length - 1 → mklToeplitzMul true c r A k = .error .valueError) := by
  have hNe : k.len (c.length + r.length - 1) = N := by
    unfold MklArgs.len
    rcases hN with h | ⟨h, h'⟩
    · rw [h]
    · rw [h, h']
  unfold mklToeplitzMul
  rw [if_neg (by simp), if_neg (by omega)]
  simp only [hNe]
  rw [if_neg (by
    rintro (⟨h, h'⟩ | ⟨h, h'⟩)
    · rw [h] at hA; exact h' (by simpa using hA)
    · rw [h] at hA; exact h' (by simpa using hA))]
  constructor
  · intro hle
    obtain ⟨x, hx⟩ : ∃ x, embed c r ((N : Int) - c.length - r.length + 1) = .ok x := by
      unfold embed
      rw [if_neg (by omega)]
      exact ⟨_, rfl⟩
    rw [hx]
    simp only [h2]
    refine ⟨_, rfl, h2.symm, ?_, rfl, ?_⟩
    · simp only; omega
    · intro i j hi
      cases hp : k.padded with
      | false =>
        rw [hp] at hA
        have hA' : A.rows = r.length := by simpa using hA
        exact fftMul_eq hc hr hx A (fun k j h1 h2 => by omega) (by omega) hi j
      | true =>
        rw [hp] at hA
        have hA' : A.rows = N := by simpa using hA
        exact fftMul_eq hc hr hx A (fun k' j h1 h2 => hpad hp k' j h1 (by omega)) (by omega) hi j
  · intro hlt
    unfold embed
    rw [if_pos (by omega)]

theorem toep_reverse (c r : List ℝ) {i k : Nat} (hi : i < c.length) :
    toep c.reverse r (c.length - 1 - i) k = hank c r i k := by
  unfold toep hank
  by_cases h : i + k < c.length
  · rw [if_pos (by omega), if_pos h, List.getD_eq_getElem?_getD, List.getElem?_reverse (by omega),
      List.getD_eq_getElem?_getD]
    congr 2; omega
  · rw [if_neg (by omega), if_neg h]
    congr 1; omega

/-- **C20** `hankel_multiplication(c, r, A)` is the product of the dense Hankel matrix with
`A`, with either Fourier transform back end. -/
theorem C20_hankel (hasMkl mkl : Bool) (c r : List ℝ) (hc : 1 ≤ c.length) (hr : 1 ≤ r.length) (A : Arr)
    (h2 : A.twoD = true) (hA : A.rows = r.length) :
    ∃ B, hankelMul hasMkl c r A mkl = .ok B ∧ IsProduct c.length r.length (hank c r) A B := by
  have hfin : ∀ B, IsProduct c.reverse.length r.length (toep c.reverse r) A B →
      IsProduct c.length r.length (hank c r) A { B with val := fun i j => B.val (B.rows - 1 - i) j } := by
    rintro B ⟨b1, b2, b3, b4⟩
    rw [List.length_reverse] at b2 b4
    refine ⟨b1, b2, b3, ?_⟩
    intro i j hi
    simp only
    rw [b4 _ _ (by omega), b2]
    apply Finset.sum_congr rfl
    intro k _
    rw [toep_reverse c r hi]
  unfold hankelMul
  by_cases hm : (mkl && hasMkl) = true
  · have hmk : hasMkl = true := by
      rw [Bool.and_eq_true] at hm; exact hm.2
    obtain ⟨h, _⟩ := C20_mkl_toeplitz c.reverse r (by simpa using hc) hr A h2 {} _ (Or.inr ⟨rfl, rfl⟩)
      (by simpa using hA) (by intro h; exact absurd h (by decide))
    obtain ⟨B, e, hB⟩ := h (by simpa using le_fftLen (k := c.length + r.length - 1) (by omega))
    simp only [hm, if_true]
    rw [hmk, e]
    exact ⟨_, rfl, hfin B hB⟩
  · have hA' : ({ A with rows := min A.rows r.length } : Arr) = A := by
      rw [hA, min_self, ← hA]
    obtain ⟨h, _⟩ := C20_toeplitz c.reverse r (by simpa using hc) hr A
    obtain ⟨B, e, hB⟩ := h hA
    simp only [hm, h2, Bool.not_true, Bool.false_eq_true, if_false]
    rw [show ({ A with rows := min A.rows r.length, twoD := true } : Arr) = A by rw [← h2]; exact hA', e]
    exact ⟨_, rfl, hfin B hB⟩

/-- **C20**, deviation: without `mkl_fft` surplus rows of the argument of
`hankel_multiplication` are ignored instead of rejected, and a vector argument raises. -/
theorem C20_hankel_shape_deviation (c r : List ℝ) (hc : 1 ≤ c.length) (hr : 1 ≤ r.length) (A : Arr) (mkl : Bool) :
    (A.twoD = true → r.length < A.rows → ∃ B, hankelMul false c r A mkl = .ok B ∧
      ∀ i j, i < c.length → B.val i j = ∑ k ∈ range r.length, hank c r i k * A.val k j) ∧
    (A.twoD = false → hankelMul false c r A mkl = .error .indexError) := by
  constructor
  · intro h2 hlt
    obtain ⟨B, e, _, _, _, hv⟩ := C20_hankel false mkl c r hc hr { A with rows := r.length } h2 rfl
    refine ⟨B, ?_, fun i j hi => hv i j hi⟩
    rw [← e]
    unfold hankelMul
    simp [h2, Nat.min_eq_right hlt.le]
  · intro h2
    unfold hankelMul
    simp [h2]

/-- Non-vacuity of C20: a 2 × 3 Toeplitz matrix and a 3 × 2 argument. -/
example : ∃ B, toeplitzMul [1, 2] [1, 5, 7] ⟨true, 3, 2, fun i j => i + 10 * j⟩ = .ok B ∧
    B.rows = 2 ∧ B.val 1 1 = 2 * 10 + 1 * 11 + 5 * 12 := by
  obtain ⟨B, e, _, h1, _, h2⟩ := (C20_toeplitz [1, 2] [1, 5, 7] (by simp) (by simp) ⟨true, 3, 2, fun i j => i + 10 * j⟩).1 rfl
  refine ⟨B, e, h1, ?_⟩
  rw [h2 1 1 (by simp)]
  simp [Finset.sum_range_succ, toep]
  norm_num

/-! ## C21 -/

/-- Squared Frobenius distance of two `n × n` matrices. -/
def frobSq (n : Nat) (S T : Nat → Nat → ℝ) : ℝ := ∑ i ∈ range n, ∑ j ∈ range n, (S i j - T i j) ^ 2

theorem optCirc_length (r : List ℝ) : (optCirc r).length = r.length := by
  unfold optCirc
  cases r with
  | nil => simp
  | cons a t => simp [Nat.add_comm]

theorem optCirc_getD (r : List ℝ) {i : Nat} (hi : i < r.length) :
    (optCirc r).getD i 0 = ((i : ℝ) * r.getD (r.length - i) 0 + ((r.length : ℝ) - i) * r.getD i 0) / r.length := by
  have hn : 0 < r.length := by omega
  -- the entries before the final reversal
  have hraw : ∀ i, i < r.length → (((0 : ℝ) :: (r.drop 1).reverse).getD i 0 * (i : ℝ)) = (i : ℝ) * r.getD (r.length - i) 0 := by
    intro i hi
    cases i with
    | zero => simp
    | succ i =>
      rw [List.getD_cons_succ, List.getD_eq_getElem?_getD, List.getElem?_reverse (by simp; omega), List.getElem?_drop,
        List.getD_eq_getElem?_getD, mul_comm]
      congr 3
      simp
      omega
  set f : Nat → ℝ := fun i => ((i : ℝ) * r.getD (r.length - i) 0 + ((r.length : ℝ) - i) * r.getD i 0) / r.length with hf
  have hlist : (List.range r.length).map (fun i : Nat => ((i : ℝ) * ((0 : ℝ) :: (r.drop 1).reverse).getD i 0 +
      ((r.length : ℝ) - i) * r.getD i 0) / r.length) = (List.range r.length).map f := by
    apply List.map_congr_left
    intro i hi
    rw [List.mem_range] at hi
    rw [hf]
    simp only
    rw [← hraw i hi, mul_comm]
  unfold optCirc
  simp only
  rw [hlist]
  cases i with
  | zero =>
    rw [List.getD_append _ _ _ _ (by simp; omega)]
    rw [List.getD_eq_getElem?_getD, List.getElem?_take_of_lt (by omega), List.getElem?_map,
      List.getElem?_range hn]
    simp [hf]
  | succ i =>
    rw [List.getD_append_right _ _ _ _ (by simp)]
    have hmin : ((List.range r.length).map f |>.take 1).length = 1 := by simp; omega
    rw [hmin, Nat.add_sub_cancel, List.getD_eq_getElem?_getD, List.getElem?_reverse (by simp; omega),
      List.getElem?_drop, List.getElem?_map, List.getElem?_range (by simp; omega)]
    simp only [List.length_drop, List.length_map, List.length_range, Option.map_some, Option.getD_some]
    rw [show 1 + (r.length - 1 - 1 - i) = r.length - (i + 1) by omega]
    change f (r.length - (i + 1)) = f (i + 1)
    simp only [hf]
    rw [show r.length - (r.length - (i + 1)) = i + 1 by omega, Nat.cast_sub (by omega)]
    ring

theorem sum_shift (n i : Nat) (hi : i < n) (g : Nat → Nat → ℝ) :
    ∑ j ∈ range n, g j ((i + n - j) % n) = ∑ d ∈ range n, g (if d ≤ i then i - d else i + n - d) d := by
  have hinv : ∀ d, d < n → (i + n - (if d ≤ i then i - d else i + n - d)) % n = d := by
    intro d hd
    split
    · rw [show i + n - (i - d) = d + n by omega, Nat.add_mod_right, Nat.mod_eq_of_lt hd]
    · rw [show i + n - (i + n - d) = d by omega, Nat.mod_eq_of_lt hd]
  have hmod : ∀ j, j < n → (i + n - j) % n = if j ≤ i then i - j else i + n - j := by
    intro j hj
    split
    · rw [show i + n - j = i - j + n by omega, Nat.add_mod_right, Nat.mod_eq_of_lt (by omega)]
    · rw [Nat.mod_eq_of_lt (by omega)]
  refine Finset.sum_nbij' (fun j => (i + n - j) % n) (fun d => if d ≤ i then i - d else i + n - d) ?_ ?_ ?_ ?_ ?_
  · intro j _; rw [mem_range]; exact Nat.mod_lt _ (by omega)
  · intro d hd; rw [mem_range] at hd ⊢; split <;> omega
  · intro j hj
    rw [mem_range] at hj
    simp only [hmod j hj]
    split <;> split <;> omega
  · intro d hd
    rw [mem_range] at hd
    exact hinv d hd
  · intro j hj
    rw [mem_range] at hj
    congr 1
    rw [hmod j hj]
    split <;> split <;> omega

theorem sum_threshold (n d : Nat) (hd : d ≤ n) (p q : ℝ) :
    ∑ i ∈ range n, (if d ≤ i then p else q) = ((n : ℝ) - d) * p + d * q := by
  rw [← Finset.sum_range_add_sum_Ico _ hd]
  rw [Finset.sum_congr rfl (fun i hi => if_neg (by rw [mem_range] at hi; omega)),
    Finset.sum_congr rfl (fun i hi => if_pos (by rw [mem_Ico] at hi; omega))]
  simp only [Finset.sum_const, Finset.card_range, Nat.card_Ico, nsmul_eq_mul]
  rw [Nat.cast_sub hd]; ring

/-- The distance of a symmetric Toeplitz matrix to a circulant one, one circulant diagonal
at a time. -/
theorem frob_circ (r c : List ℝ) (h : c.length = r.length) :
    frobSq r.length (toep r r) (circulant c) =
      ∑ d ∈ range r.length, (((r.length : ℝ) - d) * (r.getD d 0 - c.getD d 0) ^ 2 +
        d * (r.getD (r.length - d) 0 - c.getD d 0) ^ 2) := by
  unfold frobSq
  have h1 : ∀ i ∈ range r.length, ∑ j ∈ range r.length, (toep r r i j - circulant c i j) ^ 2 =
      ∑ d ∈ range r.length, (if d ≤ i then (r.getD d 0 - c.getD d 0) ^ 2 else (r.getD (r.length - d) 0 - c.getD d 0) ^ 2) := by
    intro i hi
    rw [mem_range] at hi
    unfold circulant
    rw [h]
    rw [sum_shift r.length i hi (fun j e => (toep r r i j - c.getD e 0) ^ 2)]
    apply Finset.sum_congr rfl
    intro d hd
    rw [mem_range] at hd
    by_cases hdi : d ≤ i
    · rw [if_pos hdi, if_pos hdi]
      unfold toep
      rw [if_pos (by omega), show i - (i - d) = d by omega]
    · rw [if_neg hdi, if_neg hdi]
      unfold toep
      rw [if_neg (by omega), show i + r.length - d - i = r.length - d by omega]
  rw [Finset.sum_congr rfl h1, Finset.sum_comm]
  apply Finset.sum_congr rfl
  intro d hd
  rw [mem_range] at hd
  exact sum_threshold _ _ hd.le _ _

/-- **C21** Among all circulant matrices the one given by `toeplitz_opt_circ_approx` is the
unique closest to the symmetric Toeplitz matrix: every other one is farther, by exactly the
stated amount. -/
theorem C21_optimal (r c : List ℝ) (h : c.length = r.length) :
    (optCirc r).length = r.length ∧
    frobSq r.length (toep r r) (circulant c) = frobSq r.length (toep r r) (circulant (optCirc r)) +
      r.length * ∑ d ∈ range r.length, (c.getD d 0 - (optCirc r).getD d 0) ^ 2 ∧
    (c ≠ optCirc r → frobSq r.length (toep r r) (circulant (optCirc r)) < frobSq r.length (toep r r) (circulant c)) := by
  have hmain : frobSq r.length (toep r r) (circulant c) = frobSq r.length (toep r r) (circulant (optCirc r)) +
      r.length * ∑ d ∈ range r.length, (c.getD d 0 - (optCirc r).getD d 0) ^ 2 := by
    rw [frob_circ r c h, frob_circ r _ (optCirc_length r), Finset.mul_sum, ← Finset.sum_add_distrib]
    apply Finset.sum_congr rfl
    intro d hd
    rw [mem_range] at hd
    have hn : (r.length : ℝ) ≠ 0 := by
      have : 0 < r.length := by omega
      exact_mod_cast this.ne'
    rw [optCirc_getD r hd]
    generalize r.getD d 0 = p
    generalize r.getD (r.length - d) 0 = q
    generalize c.getD d 0 = z
    field_simp
    ring
  refine ⟨optCirc_length r, hmain, ?_⟩
  intro hne
  rw [hmain]
  have hex : ∃ d, d < r.length ∧ c.getD d 0 ≠ (optCirc r).getD d 0 := by
    by_contra hall
    push Not at hall
    apply hne
    apply List.ext_getElem (by rw [h, optCirc_length])
    intro d h1 h2
    have := hall d (by omega)
    rwa [List.getD_eq_getElem _ _ h1, List.getD_eq_getElem _ _ h2] at this
  obtain ⟨d, hd, hdne⟩ := hex
  have hpos : 0 < ∑ d ∈ range r.length, (c.getD d 0 - (optCirc r).getD d 0) ^ 2 := by
    apply Finset.sum_pos'
    · intro i _; positivity
    · refine ⟨d, mem_range.mpr hd, ?_⟩
      have : c.getD d 0 - (optCirc r).getD d 0 ≠ 0 := sub_ne_zero.mpr hdne
      positivity
  have hn : (0 : ℝ) < r.length := by
    have : 0 < r.length := by omega
    exact_mod_cast this
  have := mul_pos hn hpos
  linarith

/-- Non-vacuity of C21: a non-trivial approximation. -/
example : optCirc [4, 2, 0] = [4, 4 / 3, 4 / 3] := by
  simp [optCirc, List.range_succ]
  norm_num

/-! ## C61: Strang's approximation -/

theorem setSlice_all (l v : List ℝ) (s : Int) (a : Nat) (hs : sliceStart l.length (some s) = a)
    (ha : a ≤ l.length) (hv : v.length = l.length - a) : setSlice l (some s) none v = .ok (l.take a ++ v) := by
  revert hv
  simp only [setSlice, hs, sliceStop]
  rw [Nat.max_eq_right ha]
  intro hlen
  match v, hlen with
  | [y], hlen =>
    simp only [List.length_singleton] at hlen
    simp [← hlen]
  | [], hlen => simp only; rw [if_pos (by simpa using hlen)]; simp
  | y :: z :: t, hlen => simp only; rw [if_pos (by simpa using hlen)]; simp

/-- **C61** For at least two entries, `toeplitz_strang_circ_approx` copies the central diagonals:
the entry at distance `k` is `r[k]` or `r[n-k]`, whichever diagonal is closer; the
result is symmetric. -/
theorem C61_strang (r : List ℝ) (hn : 2 ≤ r.length) :
    ∃ c, strang r = .ok c ∧ c.length = r.length ∧ (∀ k, k < r.length → c.getD k 0 = r.getD (min k (r.length - k)) 0) ∧
      ∀ i j, i < r.length → j < r.length → circulant c i j = circulant c j i := by
  obtain ⟨m, hm, hm1, hm2, hm3⟩ : ∃ m, (if r.length % 2 = 0 then r.length / 2 else (r.length - 1) / 2) = m ∧
      1 ≤ m ∧ 2 * m ≤ r.length ∧ r.length ≤ 2 * m + 1 := by
    refine ⟨_, rfl, ?_⟩
    split <;> omega
  set v := ((r.take (m + 1)).drop 1).reverse with hv
  have hvl : v.length = m := by rw [hv]; simp; omega
  have hset : strang r = .ok (r.take (r.length - m) ++ v) := by
    unfold strang
    simp only [hm]
    rw [← hv]
    exact setSlice_all _ _ _ _ (clampIdx_neg _ (by omega)) (by omega) (by omega)
  have hval : ∀ k, k < r.length → (r.take (r.length - m) ++ v).getD k 0 = r.getD (min k (r.length - k)) 0 := by
    intro k hk
    by_cases hkm : k < r.length - m
    · rw [List.getD_append _ _ _ _ (by simp; omega), List.getD_eq_getElem?_getD, List.getElem?_take_of_lt hkm,
        List.getD_eq_getElem?_getD]
      congr 2; omega
    · rw [List.getD_append_right _ _ _ _ (by simp; omega), hv, List.getD_eq_getElem?_getD,
        List.getElem?_reverse (by simp; omega), List.getElem?_drop, List.getElem?_take_of_lt (by simp; omega),
        List.getD_eq_getElem?_getD]
      congr 2; simp; omega
  have hlen : (r.take (r.length - m) ++ v).length = r.length := by simp [hvl]; omega
  refine ⟨_, hset, hlen, hval, ?_⟩
  intro i j hi hj
  unfold circulant
  rw [hlen]
  have hmod : ∀ i j, i < r.length → j < r.length → (i + r.length - j) % r.length = if j ≤ i then i - j else i + r.length - j := by
    intro i j hi hj
    split
    · rw [show i + r.length - j = i - j + r.length by omega, Nat.add_mod_right, Nat.mod_eq_of_lt (by omega)]
    · rw [Nat.mod_eq_of_lt (by omega)]
  rw [hval _ (Nat.mod_lt _ (by omega)), hval _ (Nat.mod_lt _ (by omega)), hmod i j hi hj, hmod j i hj hi]
  congr 1
  split <;> split <;> omega

/-- Non-vacuity of C61. -/
example : strang [4, 2, 1, 0] = .ok [4, 2, 1, 2] := by
  simp [strang, setSlice, sliceStart, sliceStop, clampIdx]

/-- **C61**, deviation: a single entry raises. -/
theorem C61_single_deviation (a : ℝ) : strang [a] = .error .valueError := by
  simp [strang, setSlice, sliceStart, sliceStop, clampIdx]

end Verif.Toeplitz
