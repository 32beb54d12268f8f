import Verif.RegGrid.Model
import Mathlib.Tactic.Linarith
import Mathlib.Analysis.Real.Pi.Bounds

namespace Verif.RegGrid

open Verif.Py

/-! ## Specification -/

/-- The points `(az, col)` are those of the product of the two lists, each once, in any order. -/
def IsGrid (az col A C : List ℝ) : Prop := az.length = col.length ∧ (List.zip az col).Perm (C.flatMap fun c => A.map fun a => (a, c))

/-- The azimuths are spread uniformly over a turn, up to the relative tolerance 1e-5 and the absolute tolerance 1e-8 on their distances. -/
def Spread (A : List ℝ) : Prop :=
  A.Pairwise (· < ·) ∧ (∀ i (h : i + 1 < A.length), |(A[i + 1] - A[i]) - 2 * Real.pi / A.length| ≤ 1e-8 + 1e-5 * (2 * Real.pi / A.length)) ∧
    ∀ h : A ≠ [], |(A.head h + 2 * Real.pi - A.getLast h) - 2 * Real.pi / A.length| ≤ 1e-8 + 1e-5 * (2 * Real.pi / A.length)

/-! ## Lemmas -/

instance : IsTrans (ℝ × ℝ) LexLe := ⟨by
  intro p q r h1 h2
  unfold LexLe at *
  rcases h1 with h1 | ⟨h1, h1'⟩ <;> rcases h2 with h2 | ⟨h2, h2'⟩
  · left; linarith
  · left; linarith
  · left; linarith
  · right; exact ⟨by linarith, by linarith⟩⟩

instance : Std.Total LexLe := ⟨by
  intro p q
  unfold LexLe
  rcases lt_trichotomy p.2 q.2 with h | h | h
  · exact Or.inl (Or.inl h)
  · rcases le_total p.1 q.1 with h' | h'
    · exact Or.inl (Or.inr ⟨h, h'⟩)
    · exact Or.inr (Or.inr ⟨h.symm, h'⟩)
  · exact Or.inr (Or.inl h)⟩

instance : Std.Antisymm LexLe := ⟨by
  intro p q h1 h2
  unfold LexLe at *
  rcases h1 with h1 | ⟨h1, h1'⟩ <;> rcases h2 with h2 | ⟨h2, h2'⟩
  · linarith
  · linarith
  · linarith
  · exact Prod.ext (le_antisymm h1' h2') h1⟩

theorem unique_lt (l : List ℝ) : (unique l).Pairwise (· < ·) := List.sortedLT_iff_pairwise.mp (Finset.sortedLT_sort _)

theorem mem_unique {l : List ℝ} {x : ℝ} : x ∈ unique l ↔ x ∈ l := by
  unfold unique
  rw [Finset.mem_sort, List.mem_toFinset]

/-- A sorted list with the same members is the list of the unique values. -/
theorem unique_eq {l A : List ℝ} (hA : A.Pairwise (· < ·)) (h : ∀ x, x ∈ A ↔ x ∈ l) : unique l = A :=
  List.Pairwise.eq_of_mem_iff (unique_lt l) hA fun x => by rw [mem_unique, h]

theorem mesh_length (A C : List ℝ) : (mesh A C).length = C.length * A.length := by
  unfold mesh
  induction C with
  | nil => simp
  | cons c t ih =>
    rw [List.flatMap_cons, List.length_append, ih, List.length_map, List.length_cons]
    ring

theorem mesh_get? (A C : List ℝ) (q r : ℕ) (hq : q < C.length) (hr : r < A.length) : (mesh A C)[q * A.length + r]? = some (A[r], C[q]) := by
  unfold mesh
  induction C generalizing q with
  | nil => simp at hq
  | cons c t ih =>
    rw [List.flatMap_cons]
    cases q with
    | zero =>
      rw [List.getElem?_append_left (by simpa using hr)]
      simp [hr]
    | succ q =>
      rw [List.getElem?_append_right (by rw [List.length_map]; nlinarith)]
      have := ih q (by simpa using hq)
      rw [List.length_map, show (q + 1) * A.length + r - A.length = q * A.length + r by rw [Nat.add_mul]; omega, this]
      simp

theorem mesh_sorted {A C : List ℝ} (hA : A.Pairwise (· < ·)) (hC : C.Pairwise (· < ·)) : (mesh A C).Pairwise LexLe := by
  unfold mesh
  rw [List.pairwise_flatMap]
  constructor
  · intro c _
    rw [List.pairwise_map]
    exact hA.imp fun h => Or.inr ⟨rfl, h.le⟩
  · refine hC.imp ?_
    intro c d hcd x hx y hy
    obtain ⟨a, _, rfl⟩ := List.mem_map.mp hx
    obtain ⟨b, _, rfl⟩ := List.mem_map.mp hy
    exact Or.inl hcd

open Classical in
theorem lexsort_mesh {A C : List ℝ} (hA : A.Pairwise (· < ·)) (hC : C.Pairwise (· < ·)) : lexsort (mesh A C) = mesh A C := (mesh_sorted hA hC).insertionSort_eq

open Classical in
theorem lexsort_perm (l : List (ℝ × ℝ)) : (lexsort l).Perm l := List.perm_insertionSort _ _

open Classical in
theorem lexsort_sorted (l : List (ℝ × ℝ)) : (lexsort l).Pairwise LexLe := List.pairwise_insertionSort _ _

/-- The differences around the circle. -/
theorem loopDiff_mem {A : List ℝ} (h : A ≠ []) (P : ℝ → Prop) : (∀ d ∈ loopDiff A (A.head h), P d) ↔
    (∀ i (hi : i + 1 < A.length), P (A[i + 1] - A[i])) ∧ P (A.head h + 2 * Real.pi - A.getLast h) := by
  obtain ⟨n, hn⟩ : ∃ n, A.length = n + 1 := ⟨A.length - 1, by have := List.length_pos_iff.mpr h; omega⟩
  have hlen : (loopDiff A (A.head h)).length = n + 1 := by
    simp [loopDiff, hn]
  have hget : ∀ i (hi : i < (loopDiff A (A.head h)).length), (loopDiff A (A.head h))[i] =
      if hi2 : i + 1 < A.length then A[i + 1] - A[i] else A.head h + 2 * Real.pi - A.getLast h := by
    intro i hi'
    have hi : i < n + 1 := hlen ▸ hi'
    rw [show (loopDiff A (A.head h))[i] = (A ++ [A.head h + 2 * Real.pi])[i + 1]'(by simp; omega) - (A ++ [A.head h + 2 * Real.pi])[i]'(by simp; omega) by
      simp [loopDiff]]
    split
    · rename_i hi2
      rw [List.getElem_append_left hi2, List.getElem_append_left (by omega)]
    · rename_i hi2
      have : i = n := by omega
      subst this
      rw [List.getElem_append_right (by omega), List.getElem_append_left (by omega), List.getLast_eq_getElem]
      simp [hn]
  constructor
  · intro hall
    constructor
    · intro i hi
      have := hall _ (List.getElem_mem (show i < (loopDiff A (A.head h)).length by omega))
      rwa [hget, dif_pos hi] at this
    · have := hall _ (List.getElem_mem (show n < (loopDiff A (A.head h)).length by omega))
      rwa [hget, dif_neg (by omega)] at this
  · rintro ⟨h1, h2⟩ d hd
    obtain ⟨i, hi, rfl⟩ := List.mem_iff_getElem.mp hd
    rw [hget]
    split
    · exact h1 _ _
    · exact h2

theorem spread_iff {A : List ℝ} (h : A ≠ []) : Spread A ↔ A.Pairwise (· < ·) ∧ ∀ d ∈ loopDiff A (A.head h), Close d (2 * Real.pi / A.length) := by
  rw [loopDiff_mem h (fun d => Close d (2 * Real.pi / A.length))]
  have hp : |2 * Real.pi / A.length| = 2 * Real.pi / A.length := abs_of_nonneg (by positivity)
  unfold Spread Close
  rw [hp]
  exact ⟨fun ⟨a, b, c⟩ => ⟨a, b, c h⟩, fun ⟨a, b, c⟩ => ⟨a, b, fun _ => c⟩⟩

/-- Indices that increase strictly within the same range are the identity. -/
theorem increasing_id {M : ℕ} (j : ℕ → ℕ) (hj : ∀ q, q < M → j q < M) (hs : ∀ q, q + 1 < M → j q < j (q + 1)) : ∀ q, q < M → j q = q := by
  have hstep : ∀ d q, q + d < M → j q + d ≤ j (q + d) := by
    intro d
    induction d with
    | zero => intro q _; simp
    | succ d ih =>
      intro q hq
      have h1 := ih q (by omega)
      have h2 := hs (q + d) (by omega)
      rw [← Nat.add_assoc q d 1]
      omega
  intro q hq
  have h1 := hstep q 0 (by omega)
  have h2 := hstep (M - 1 - q) q (by omega)
  have h3 := hj (M - 1) (by omega)
  rw [Nat.zero_add] at h1
  rw [show q + (M - 1 - q) = M - 1 by omega] at h2
  omega

/-- Points in lexicographic order with the azimuths of the grid and as many points as the grid are the grid. -/
theorem blocks {A C : List ℝ} (hA : A.Pairwise (· < ·)) (hC : C.Pairwise (· < ·)) (hne : A ≠ []) {L : List (ℝ × ℝ)} (hL : L.Pairwise LexLe) (hlen : L.length = C.length * A.length)
    (haz : ∀ i (h : i < L.length), L[i].1 = A[i % A.length]'(Nat.mod_lt _ (List.length_pos_iff.mpr hne)))
    (hcol : ∀ c, c ∈ C ↔ c ∈ L.map Prod.snd) : L = mesh A C := by
  set N := A.length with hN
  set M := C.length with hM
  have hN0 : 0 < N := List.length_pos_iff.mpr hne
  have hle : ∀ i k (hk : k < L.length) (_ : i ≤ k), (L[i]'(by omega)).2 ≤ L[k].2 := by
    intro i k hk hik
    rcases hik.eq_or_lt with rfl | hlt
    · exact le_rfl
    · rcases List.pairwise_iff_getElem.mp hL i k (by omega) hk hlt with h | ⟨h, _⟩
      · exact h.le
      · exact h.le
  have hidx : ∀ i (h : i < L.length), ∃ j, ∃ hj : j < M, L[i].2 = C[j] := by
    intro i h
    have : L[i].2 ∈ C := (hcol _).mpr (List.mem_map_of_mem (List.getElem_mem h))
    obtain ⟨j, hj, he⟩ := List.mem_iff_getElem.mp this
    exact ⟨j, hj, he.symm⟩
  have hCmono : ∀ i j (hi : i < M) (hj : j < M), C[i] < C[j] ↔ i < j := by
    intro i j hi hj
    constructor
    · intro h
      by_contra hn
      rcases (Nat.le_of_not_lt hn).eq_or_lt with rfl | hlt
      · exact lt_irrefl _ h
      · exact absurd (List.pairwise_iff_getElem.mp hC j i hj hi hlt) (not_lt.mpr h.le)
    · exact fun h => List.pairwise_iff_getElem.mp hC i j hi hj h
  have hlt_of : ∀ q r, q < M → r < N → q * N + r < L.length := by
    intro q r hq hr
    rw [hlen]
    nlinarith
  -- from one block to the next the colatitude grows
  have hgrow : ∀ q (h : q + 1 < M), (L[q * N + (N - 1)]'(hlt_of q _ (by omega) (by omega))).2 < (L[(q + 1) * N + 0]'(hlt_of _ 0 h hN0)).2 := by
    intro q h
    have hb1 := hlt_of q (N - 1) (by omega) (by omega)
    have hb2 := hlt_of (q + 1) 0 h hN0
    have hnext : q * N + (N - 1) < (q + 1) * N + 0 := by rw [Nat.add_mul]; omega
    rcases Nat.eq_or_lt_of_le hN0 with h1 | h1
    · -- one azimuth: all colatitudes are different
      have hcard : (L.map Prod.snd).Nodup := by
        classical
        have hsub : C.toFinset ⊆ (L.map Prod.snd).toFinset := by
          intro x hx
          rw [List.mem_toFinset] at hx ⊢
          exact (hcol x).mp hx
        have h2 := Finset.card_le_card hsub
        rw [List.toFinset_card_of_nodup (hC.imp ne_of_lt)] at h2
        have h3 := List.toFinset_card_le (L.map Prod.snd)
        rw [List.length_map, hlen, ← h1] at h3
        rw [← Multiset.coe_nodup, ← Multiset.toFinset_card_eq_card_iff_nodup]
        show (L.map Prod.snd).toFinset.card = (L.map Prod.snd).length
        rw [List.length_map, hlen, ← h1]
        omega
      refine lt_of_le_of_ne (hle _ _ hb2 hnext.le) ?_
      have := List.pairwise_iff_getElem.mp hcard (q * N + (N - 1)) ((q + 1) * N + 0) (by simpa using hb1) (by simpa using hb2) hnext
      simpa using this
    · rcases List.pairwise_iff_getElem.mp hL _ _ hb1 hb2 hnext with h2 | ⟨_, h2⟩
      · exact h2
      · exfalso
        rw [haz _ hb1, haz _ hb2] at h2
        have e1 : (q * N + (N - 1)) % N = N - 1 := by rw [Nat.mul_add_mod_self_right, Nat.mod_eq_of_lt (by omega)]
        have e2 : ((q + 1) * N + 0) % N = 0 := by simp
        simp only [← hN, e1, e2] at h2
        exact absurd (List.pairwise_iff_getElem.mp hA 0 (N - 1) (by omega) (by omega) (by omega)) (not_lt.mpr h2)
  have hex : ∀ q, ∃ j, ∀ hq : q < M, ∃ hj : j < M, (L[q * N + 0]'(hlt_of q 0 hq hN0)).2 = C[j] := by
    intro q
    by_cases hq : q < M
    · obtain ⟨j, hj, he⟩ := hidx _ (hlt_of q 0 hq hN0)
      exact ⟨j, fun _ => ⟨hj, he⟩⟩
    · exact ⟨0, fun h => absurd h hq⟩
  choose j hj using hex
  have hid := increasing_id (M := M) j (fun q hq => (hj q hq).1) (by
    intro q hq
    obtain ⟨h1, h2⟩ := hj q (by omega)
    obtain ⟨h3, h4⟩ := hj (q + 1) hq
    rw [← hCmono _ _ h1 h3, ← h2, ← h4]
    exact lt_of_le_of_lt (hle _ _ _ (by omega)) (hgrow q hq))
  have hstart : ∀ q (hq : q < M), (L[q * N + 0]'(hlt_of q 0 hq hN0)).2 = C[q] := by
    intro q hq
    obtain ⟨h1, h2⟩ := hj q hq
    rw [h2]
    simp only [hid q hq]
  have hblock : ∀ q r (hq : q < M) (hr : r < N), (L[q * N + r]'(hlt_of q r hq hr)).2 = C[q] := by
    intro q r hq hr
    obtain ⟨k, hk, he⟩ := hidx _ (hlt_of q r hq hr)
    rw [he]
    have h1 : C[q] ≤ C[k] := by
      rw [← hstart q hq, ← he]
      exact hle _ _ _ (by omega)
    have h2 : q ≤ k := by
      by_contra hn
      exact absurd ((hCmono k q hk hq).mpr (by omega)) (not_lt.mpr h1)
    have h3 : k < q + 1 := by
      by_cases hq1 : q + 1 < M
      · rw [← hCmono k (q + 1) hk hq1, ← he, ← hstart (q + 1) hq1]
        exact lt_of_le_of_lt (hle _ _ (hlt_of q (N - 1) hq (by omega)) (by omega)) (hgrow q hq1)
      · omega
    have : k = q := by omega
    subst this
    rfl
  apply List.ext_getElem?
  intro i
  by_cases hi : i < L.length
  · have hq : i / N < M := by
      rw [Nat.div_lt_iff_lt_mul hN0, ← hlen]
      exact hi
    have hr : i % N < N := Nat.mod_lt _ hN0
    have hdm : i / N * N + i % N = i := Nat.div_add_mod' i N
    have hm := mesh_get? A C (i / N) (i % N) hq hr
    have hb := hblock (i / N) (i % N) hq hr
    rw [← hN, hdm] at hm
    simp only [hdm] at hb
    rw [hm, List.getElem?_eq_getElem hi]
    congr 1
    exact Prod.ext (haz i hi) hb
  · rw [List.getElem?_eq_none (by omega), List.getElem?_eq_none]
    rw [mesh_length, ← hN, ← hM, ← hlen]
    omega

/-- Two azimuths of a spread list within the tolerance are the same. -/
theorem spread_close {A : List ℝ} (hA : Spread A) (hN : A.length ≤ 50000) {i j : ℕ} (hi : i < A.length) (hj : j < A.length) (hb : |A[j]| ≤ 2 * Real.pi)
    (h : Close A[i] A[j]) : i = j := by
  have hpi := Real.pi_gt_three
  have hpi2 := Real.pi_lt_d2
  have hs : ∀ a b (ha : a < A.length) (hb : b < A.length), a < b → 1e-4 < A[b] - A[a] := by
    intro a b ha hb hab
    have h1 := hA.2.1 a (by omega)
    have h2 : A[a + 1] ≤ A[b] := by
      rcases (show a + 1 ≤ b by omega).eq_or_lt with he | hlt
      · simp only [he, le_refl]
      · exact (List.pairwise_iff_getElem.mp hA.1 (a + 1) b (by omega) hb hlt).le
    have h3 : (12e-5 : ℝ) ≤ 2 * Real.pi / A.length := by
      rw [le_div_iff₀ (by exact_mod_cast (show 0 < A.length by omega))]
      have : (A.length : ℝ) ≤ 50000 := by exact_mod_cast hN
      nlinarith
    rw [abs_le] at h1
    nlinarith [h1.1]
  unfold Close at h
  rw [abs_le] at h
  by_contra hne
  rcases Nat.lt_or_gt_of_ne hne with hlt | hlt
  · have := hs i j hi hj hlt
    nlinarith [h.1]
  · have := hs j i hj hi hlt
    nlinarith [h.2]

/-! ## Theorems -/

/-- If a regular grid is found, the points are exactly the points of the grid, each once, although they are compared with a tolerance; both lists are sorted and without
repetitions, and the azimuths are spread uniformly. The azimuths have to be in one turn and not more than 50000. -/
theorem C114_sound {az col A C : List ℝ} (hb : ∀ a ∈ az, |a| ≤ 2 * Real.pi) (h : detectRegularGrid az col = .ok (some (A, C))) (hN : A.length ≤ 50000) :
    IsGrid az col A C ∧ Spread A ∧ C.Pairwise (· < ·) := by
  unfold detectRegularGrid at h
  by_cases hlen : az.length ≠ col.length
  · rw [if_pos hlen] at h
    simp at h
  rw [if_neg hlen] at h
  push Not at hlen
  simp only at h
  by_cases hprod : (unique az).length * (unique col).length = az.length
  swap
  · rw [if_neg hprod] at h
    simp at h
  rw [if_pos hprod] at h
  by_cases hne : unique az = []
  · rw [hne] at h
    simp at h
  rw [List.head?_eq_some_head hne] at h
  simp only at h
  split at h
  swap
  · simp at h
  rename_i hd
  split at h
  swap
  · simp at h
  rename_i hg
  simp only [Except.ok.injEq, Option.some.injEq, Prod.mk.injEq] at h
  obtain ⟨rfl, rfl⟩ := h
  have hsp := (spread_iff hne).mpr ⟨unique_lt az, hd⟩
  rw [lexsort_mesh (unique_lt az) (unique_lt col)] at hg
  have hzl : (lexsort (List.zip az col)).length = (unique col).length * (unique az).length := by
    rw [(lexsort_perm _).length_eq, List.length_zip, ← hlen, min_self, ← hprod, mul_comm]
  have hN0 := List.length_pos_iff.mpr hne
  have hL := blocks (unique_lt az) (unique_lt col) hne (lexsort_sorted (List.zip az col)) hzl (by
    intro i hi
    have hq : i / (unique az).length < (unique col).length := by
      rw [Nat.div_lt_iff_lt_mul hN0, ← hzl]
      exact hi
    have hm := mesh_get? (unique az) (unique col) (i / (unique az).length) (i % (unique az).length) hq (Nat.mod_lt _ hN0)
    rw [Nat.div_add_mod' i (unique az).length] at hm
    have hclose := (List.forall₂_iff_get.mp hg).2 i (by rw [mesh_length, ← hzl]; exact hi) hi
    rw [List.getElem?_eq_some_iff] at hm
    obtain ⟨hmi, hm⟩ := hm
    simp only [List.get_eq_getElem, hm] at hclose
    have hmem : ((lexsort (List.zip az col))[i]).1 ∈ az := (List.of_mem_zip ((lexsort_perm _).mem_iff.mp (List.getElem_mem hi) : ((lexsort (List.zip az col))[i].1, (lexsort (List.zip az col))[i].2) ∈ _)).1
    obtain ⟨k, hk, he⟩ := List.mem_iff_getElem.mp (mem_unique.mpr hmem)
    have h1 := hclose.1
    rw [← he] at h1 ⊢
    have := spread_close hsp hN (Nat.mod_lt _ hN0) hk (by rw [he]; exact hb _ hmem) h1
    simp only [this]) (by
    intro c
    rw [mem_unique, ((lexsort_perm (List.zip az col)).map Prod.snd).mem_iff, ← List.unzip_snd, List.unzip_zip hlen])
  refine ⟨⟨hlen, ?_⟩, hsp, unique_lt col⟩
  have := lexsort_perm (List.zip az col)
  rw [hL] at this
  exact this.symm

/-- Every regular grid is found, in whatever order the points come. -/
theorem C114_complete {az col A C : List ℝ} (h : IsGrid az col A C) (hA : Spread A) (hC : C.Pairwise (· < ·)) (hA0 : A ≠ []) (hC0 : C ≠ []) :
    detectRegularGrid az col = .ok (some (A, C)) := by
  obtain ⟨hlen, hperm⟩ := h
  have haz : ∀ x, x ∈ A ↔ x ∈ az := by
    intro x
    rw [show az = (List.zip az col).map Prod.fst by rw [← List.unzip_fst, List.unzip_zip hlen], (hperm.map Prod.fst).mem_iff]
    constructor
    · intro hx
      exact List.mem_map.mpr ⟨(x, C.head hC0), List.mem_flatMap.mpr ⟨_, List.head_mem hC0, List.mem_map.mpr ⟨x, hx, rfl⟩⟩, rfl⟩
    · intro hx
      obtain ⟨p, hp, rfl⟩ := List.mem_map.mp hx
      obtain ⟨c, _, hp⟩ := List.mem_flatMap.mp hp
      obtain ⟨a, ha, rfl⟩ := List.mem_map.mp hp
      exact ha
  have hcol : ∀ x, x ∈ C ↔ x ∈ col := by
    intro x
    rw [show col = (List.zip az col).map Prod.snd by rw [← List.unzip_snd, List.unzip_zip hlen], (hperm.map Prod.snd).mem_iff]
    constructor
    · intro hx
      exact List.mem_map.mpr ⟨(A.head hA0, x), List.mem_flatMap.mpr ⟨_, hx, List.mem_map.mpr ⟨_, List.head_mem hA0, rfl⟩⟩, rfl⟩
    · intro hx
      obtain ⟨p, hp, rfl⟩ := List.mem_map.mp hx
      obtain ⟨c, hc, hp⟩ := List.mem_flatMap.mp hp
      obtain ⟨a, ha, rfl⟩ := List.mem_map.mp hp
      exact hc
  have hpl := hperm.length_eq
  rw [show (C.flatMap fun c => A.map fun a => (a, c)) = mesh A C from rfl, mesh_length, List.length_zip, ← hlen, min_self] at hpl
  unfold detectRegularGrid
  rw [if_neg (by simpa using hlen)]
  rw [unique_eq hA.1 haz, unique_eq hC hcol]
  simp only
  rw [if_pos (by rw [hpl, mul_comm]), List.head?_eq_some_head hA0]
  simp only
  rw [if_pos ((spread_iff hA0).mp hA).2, lexsort_mesh hA.1 hC]
  have he : lexsort (List.zip az col) = mesh A C :=
    ((lexsort_perm _).trans hperm).eq_of_pairwise' (lexsort_sorted _) (mesh_sorted hA.1 hC)
  rw [he, if_pos]
  unfold GridClose
  rw [List.forall₂_same]
  intro p _
  unfold Close
  simp only [sub_self, abs_zero]
  constructor <;> positivity

/-- The only exception is for no points at all; lists of different lengths are no grid. -/
theorem C114_raises (az col : List ℝ) : ((∃ e, detectRegularGrid az col = .error e) ↔ az = [] ∧ col = []) ∧ (az.length ≠ col.length → detectRegularGrid az col = .ok none) := by
  refine ⟨?_, fun h => by unfold detectRegularGrid; rw [if_pos h]⟩
  unfold detectRegularGrid
  constructor
  · rintro ⟨e, he⟩
    by_cases hlen : az.length ≠ col.length
    · rw [if_pos hlen] at he
      simp at he
    rw [if_neg hlen] at he
    push Not at hlen
    have h0 : az = [] := by
      by_contra hz
      have hne : unique az ≠ [] := by
        intro hu
        have : az.head hz ∈ unique az := mem_unique.mpr (List.head_mem hz)
        rw [hu] at this
        simp at this
      simp only at he
      split at he
      · rw [List.head?_eq_some_head hne] at he
        simp only at he
        split at he
        · split at he <;> simp at he
        · simp at he
      · simp at he
    refine ⟨h0, ?_⟩
    rw [h0] at hlen
    exact List.length_eq_zero_iff.mp hlen.symm
  · rintro ⟨rfl, rfl⟩
    exact ⟨.indexError, by simp [unique]⟩

/-! ## Examples -/

theorem spread_two : Spread [0, Real.pi] := by
  have hpi := Real.pi_pos
  refine ⟨by simp [hpi], ?_, ?_⟩
  · intro i hi
    simp only [List.length_cons, List.length_nil] at hi
    obtain rfl : i = 0 := by omega
    simp only [List.getElem_cons_succ, List.getElem_cons_zero, List.length_cons, List.length_nil]
    rw [show Real.pi - 0 - 2 * Real.pi / ((0 + 1 + 1 : ℕ) : ℝ) = 0 by push_cast; ring, abs_zero]
    positivity
  · intro h
    simp only [List.head_cons, List.getLast_cons_cons, List.getLast_singleton, List.length_cons, List.length_nil]
    rw [show 0 + 2 * Real.pi - Real.pi - 2 * Real.pi / ((0 + 1 + 1 : ℕ) : ℝ) = 0 by push_cast; ring, abs_zero]
    positivity

/-- Four points, not in order. -/
theorem four : detectRegularGrid [Real.pi, 0, 0, Real.pi] [1, 2, 1, 2] = .ok (some ([0, Real.pi], [1, 2])) := by
  refine C114_complete ⟨rfl, ?_⟩ spread_two (by norm_num) (by simp) (by simp)
  show List.Perm [(Real.pi, (1 : ℝ)), (0, 2), (0, 1), (Real.pi, 2)] [(0, 1), (Real.pi, 1), (0, 2), (Real.pi, 2)]
  refine List.Perm.trans (List.Perm.cons _ (List.Perm.swap _ _ _)) (List.Perm.swap _ _ _)

example : IsGrid [Real.pi, 0, 0, Real.pi] [1, 2, 1, 2] [0, Real.pi] [1, 2] := by
  have hpi := Real.pi_pos
  refine (C114_sound ?_ four (by simp)).1
  intro a ha
  simp only [List.mem_cons, List.not_mem_nil, or_false] at ha
  rcases ha with rfl | rfl | rfl | rfl <;> simp only [abs_zero, abs_of_pos hpi] <;> linarith

example : ∃ e, detectRegularGrid [] [] = .error e := (C114_raises [] []).1.mpr ⟨rfl, rfl⟩

end Verif.RegGrid
