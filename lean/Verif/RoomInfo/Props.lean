import Verif.RoomInfo.Model
import Mathlib.Analysis.Convex.Combination
import Mathlib.Tactic.FieldSimp
import Mathlib.Tactic.Linarith

/-!
# C128: walls by name, bounding boxes, levels, adding sources and air absorption of a room
-/

namespace Verif.RoomInfo

open Py

/-! ## Walls by name -/

/-- Wall `i` is the last one of name `n`. -/
def LastNamed (names : List (Option String)) (n : String) (i : ℕ) : Prop :=
  names[i]? = some (some n) ∧ ∀ j, i < j → names[j]? ≠ some (some n)

theorem mapping_spec (names : List (Option String)) (n : String) (m : ℕ) (hm : m ≤ names.length) :
    match ((List.range m).foldl (mapStep names) (fun _ => none) : String → Option ℕ) n with
    | some i => i < m ∧ names[i]? = some (some n) ∧ ∀ j, i < j → j < m → names[j]? ≠ some (some n)
    | none => ∀ j, j < m → names[j]? ≠ some (some n) := by
  induction m with
  | zero => simp
  | succ m ih =>
    have ih := ih (by omega)
    rw [List.range_succ, List.foldl_append, List.foldl_cons, List.foldl_nil]
    generalize ((List.range m).foldl (mapStep names) (fun _ => none) : String → Option ℕ) = d at ih
    unfold mapStep
    have hlt : m < names.length := by omega
    have hg : names[m]? = some (names.getD m none) := by
      rw [List.getD_eq_getElem?_getD, List.getElem?_eq_getElem hlt]; rfl
    cases hc : names.getD m none with
    | none =>
      rw [hc] at hg
      have hne : names[m]? ≠ some (some n) := by rw [hg]; simp
      simp only
      cases hd : d n with
      | none =>
        rw [hd] at ih
        intro j hj
        rcases Nat.lt_succ_iff_lt_or_eq.mp hj with h | h
        · exact ih j h
        · exact h ▸ hne
      | some i =>
        rw [hd] at ih
        refine ⟨by have := ih.1; omega, ih.2.1, fun j hij hj => ?_⟩
        rcases Nat.lt_succ_iff_lt_or_eq.mp hj with h | h
        · exact ih.2.2 j hij h
        · exact h ▸ hne
    | some q =>
      rw [hc] at hg
      simp only
      by_cases hq : n = q
      · subst hq
        rw [Function.update_self]
        exact ⟨by omega, hg, fun j h1 h2 => by omega⟩
      · rw [Function.update_of_ne hq]
        have hne : names[m]? ≠ some (some n) := by
          rw [hg]; intro h; simp only [Option.some.injEq] at h; exact hq h.symm
        cases hd : d n with
        | none =>
          rw [hd] at ih
          intro j hj
          rcases Nat.lt_succ_iff_lt_or_eq.mp hj with h | h
          · exact ih j h
          · exact h ▸ hne
        | some i =>
          rw [hd] at ih
          refine ⟨by have := ih.1; omega, ih.2.1, fun j hij hj => ?_⟩
          rcases Nat.lt_succ_iff_lt_or_eq.mp hj with h | h
          · exact ih.2.2 j hij h
          · exact h ▸ hne

/-- **C128** (names). `get_wall_by_name` gives wall `i` if and only if it is the last wall of that name. -/
theorem C128_wall_by_name (names : List (Option String)) (n : String) (i : ℕ) :
    wallByName names n = .ok i ↔ LastNamed names n i := by
  have h := mapping_spec names n names.length le_rfl
  have hout : ∀ j, names.length ≤ j → names[j]? ≠ some (some n) := fun j hj => by
    rw [List.getElem?_eq_none hj]; simp
  unfold wallByName wallMapping
  split
  · rename_i q hq
    rw [hq] at h
    have hl : LastNamed names n q := ⟨h.2.1, fun j hj => by
      by_cases hjl : j < names.length
      · exact h.2.2 j hj hjl
      · exact hout j (by omega)⟩
    constructor
    · intro he
      simp only [Except.ok.injEq] at he
      exact he ▸ hl
    · intro hi
      rcases Nat.lt_trichotomy q i with hlt | heq | hgt
      · exact absurd hi.1 (hl.2 i hlt)
      · rw [heq]
      · exact absurd hl.1 (hi.2 q hgt)
  · rename_i hq
    rw [hq] at h
    constructor
    · intro he; simp at he
    · intro hi
      by_cases hil : i < names.length
      · exact absurd hi.1 (h i hil)
      · exact absurd hi.1 (hout i (by omega))

/-- **C128** (names). It raises (a ValueError) if and only if no wall has the name. -/
theorem C128_wall_missing (names : List (Option String)) (n : String) :
    wallByName names n = .error .valueError ↔ some n ∉ names := by
  have h := mapping_spec names n names.length le_rfl
  unfold wallByName wallMapping
  split
  · rename_i q hq
    rw [hq] at h
    simp only [reduceCtorEq, false_iff, not_not]
    exact List.mem_of_getElem? h.2.1
  · rename_i hq
    rw [hq] at h
    simp only [true_iff]
    intro hmem
    obtain ⟨j, hj⟩ := List.mem_iff_getElem?.mp hmem
    by_cases hjl : j < names.length
    · exact h j hjl hj
    · rw [List.getElem?_eq_none (by omega)] at hj; simp at hj

example : wallByName [some "a", none, some "b", some "a"] "a" = .ok 3 :=
  (C128_wall_by_name _ _ _).mpr ⟨rfl, fun j hj => by
    rw [List.getElem?_eq_none (by simp; omega)]; simp⟩
example : wallByName [some "a", none] "c" = .error .valueError := (C128_wall_missing _ _).mpr (by decide)

/-! ## Boxes -/

theorem foldl_min_spec {α : Type} [LinearOrder α] (l : List α) (a : α) :
    (l.foldl min a = a ∨ l.foldl min a ∈ l) ∧ l.foldl min a ≤ a ∧ ∀ x ∈ l, l.foldl min a ≤ x := by
  induction l generalizing a with
  | nil => simp
  | cons b t ih =>
    obtain ⟨h1, h2, h3⟩ := ih (min a b)
    rw [List.foldl_cons]
    refine ⟨?_, h2.trans (min_le_left _ _), ?_⟩
    · rcases h1 with h1 | h1
      · rcases min_choice a b with hm | hm
        · exact Or.inl (h1.trans hm)
        · exact Or.inr (by rw [h1, hm]; exact List.mem_cons_self)
      · exact Or.inr (List.mem_cons_of_mem _ h1)
    · intro x hx
      rcases List.mem_cons.mp hx with hx | hx
      · exact hx ▸ h2.trans (min_le_right _ _)
      · exact h3 x hx

theorem foldl_max_spec {α : Type} [LinearOrder α] (l : List α) (a : α) :
    (l.foldl max a = a ∨ l.foldl max a ∈ l) ∧ a ≤ l.foldl max a ∧ ∀ x ∈ l, x ≤ l.foldl max a := by
  induction l generalizing a with
  | nil => simp
  | cons b t ih =>
    obtain ⟨h1, h2, h3⟩ := ih (max a b)
    rw [List.foldl_cons]
    refine ⟨?_, (le_max_left _ _).trans h2, ?_⟩
    · rcases h1 with h1 | h1
      · rcases max_choice a b with hm | hm
        · exact Or.inl (h1.trans hm)
        · exact Or.inr (by rw [h1, hm]; exact List.mem_cons_self)
      · exact Or.inr (List.mem_cons_of_mem _ h1)
    · intro x hx
      rcases List.mem_cons.mp hx with hx | hx
      · rw [hx]; exact (le_max_right _ _).trans h2
      · exact h3 x hx

/-- The values of coordinate `k` over the corners of all walls. -/
def cornerValues {dim : ℕ} (walls : List (List (Fin dim → ℝ))) (k : Fin dim) : Set ℝ :=
  {v | ∃ w ∈ walls, ∃ c ∈ w, c k = v}

/-- **C128** (box). `get_bbox` gives the least and the greatest value of each coordinate over the corners of the walls. -/
theorem C128_bbox {dim : ℕ} (walls : List (List (Fin dim → ℝ))) (k : Fin dim) (lo hi : ℝ) :
    bbox walls k = .ok (lo, hi) ↔ IsLeast (cornerValues walls k) lo ∧ IsGreatest (cornerValues walls k) hi := by
  have hset : cornerValues walls k = {v | v ∈ walls.flatten.map (· k)} := by
    ext v
    simp only [cornerValues, Set.mem_ofPred_eq, List.mem_map, List.mem_flatten]
    constructor
    · rintro ⟨w, hw, c, hc, hv⟩; exact ⟨c, ⟨w, hw, hc⟩, hv⟩
    · rintro ⟨c, ⟨w, hw, hc⟩, hv⟩; exact ⟨w, hw, c, hc, hv⟩
  unfold bbox
  rw [hset]
  split
  · rename_i he
    rw [he]
    simp [IsLeast]
  · rename_i c t he
    rw [he]
    obtain ⟨a1, a2, a3⟩ := foldl_min_spec (t.map (· k)) (c k)
    obtain ⟨b1, b2, b3⟩ := foldl_max_spec (t.map (· k)) (c k)
    have hL : IsLeast {v | v ∈ (c :: t).map (· k)} ((t.map (· k)).foldl min (c k)) := by
      refine ⟨?_, ?_⟩
      · rw [Set.mem_ofPred_eq, List.map_cons]
        rcases a1 with h | h
        · rw [h]; exact List.mem_cons_self
        · exact List.mem_cons_of_mem _ h
      · intro v hv
        rw [Set.mem_ofPred_eq, List.map_cons] at hv
        rcases List.mem_cons.mp hv with h | h
        · exact h ▸ a2
        · exact a3 v h
    have hG : IsGreatest {v | v ∈ (c :: t).map (· k)} ((t.map (· k)).foldl max (c k)) := by
      refine ⟨?_, ?_⟩
      · rw [Set.mem_ofPred_eq, List.map_cons]
        rcases b1 with h | h
        · rw [h]; exact List.mem_cons_self
        · exact List.mem_cons_of_mem _ h
      · intro v hv
        rw [Set.mem_ofPred_eq, List.map_cons] at hv
        rcases List.mem_cons.mp hv with h | h
        · exact h ▸ b2
        · exact b3 v h
    constructor
    · intro h
      simp only [Except.ok.injEq, Prod.mk.injEq] at h
      exact ⟨h.1 ▸ hL, h.2 ▸ hG⟩
    · rintro ⟨h1, h2⟩
      rw [h1.unique hL, h2.unique hG]

/-- **C128** (box). It raises if and only if there is no corner at all. -/
theorem C128_bbox_empty {dim : ℕ} (walls : List (List (Fin dim → ℝ))) (k : Fin dim) :
    bbox walls k = .error .valueError ↔ ∀ w ∈ walls, w = [] := by
  rw [← List.flatten_eq_nil_iff]
  unfold bbox
  split
  · rename_i h; simp [h]
  · rename_i h; simp [h]

/-- **C128** (box). Every point of the convex hull of the corners is within the box. -/
theorem C128_bbox_hull {dim : ℕ} (walls : List (List (Fin dim → ℝ))) (k : Fin dim) (lo hi : ℝ) (h : bbox walls k = .ok (lo, hi))
    (p : Fin dim → ℝ) (hp : p ∈ convexHull ℝ {c | ∃ w ∈ walls, c ∈ w}) : lo ≤ p k ∧ p k ≤ hi := by
  obtain ⟨hL, hG⟩ := (C128_bbox walls k lo hi).mp h
  have hconv : Convex ℝ {q : Fin dim → ℝ | lo ≤ q k ∧ q k ≤ hi} := by
    intro x hx y hy a b ha hb hab
    simp only [Set.mem_ofPred_eq, Pi.add_apply, Pi.smul_apply, smul_eq_mul] at *
    have h1 : b = 1 - a := by linarith
    subst h1
    constructor
    · nlinarith [mul_le_mul_of_nonneg_left hx.1 ha, mul_le_mul_of_nonneg_left hy.1 hb]
    · nlinarith [mul_le_mul_of_nonneg_left hx.2 ha, mul_le_mul_of_nonneg_left hy.2 hb]
  refine convexHull_min ?_ hconv hp
  rintro c ⟨w, hw, hc⟩
  exact ⟨hL.2 ⟨w, hw, c, hc, rfl⟩, hG.2 ⟨w, hw, c, hc, rfl⟩⟩

example : bbox [[![0, 3], ![2, 1]], [![5, -1]]] (0 : Fin 2) = .ok (0, 5) := by
  rw [C128_bbox]
  constructor
  · refine ⟨⟨_, List.mem_cons_self, _, List.mem_cons_self, rfl⟩, ?_⟩
    rintro v ⟨w, hw, c, hc, rfl⟩
    simp only [List.mem_cons, List.not_mem_nil, or_false] at hw
    rcases hw with rfl | rfl <;> simp only [List.mem_cons, List.not_mem_nil, or_false] at hc
    · rcases hc with rfl | rfl <;> simp
    · subst hc; simp
  · refine ⟨⟨[![5, -1]], by simp, ![5, -1], by simp, rfl⟩, ?_⟩
    rintro v ⟨w, hw, c, hc, rfl⟩
    simp only [List.mem_cons, List.not_mem_nil, or_false] at hw
    rcases hw with rfl | rfl <;> simp only [List.mem_cons, List.not_mem_nil, or_false] at hc
    · rcases hc with rfl | rfl <;> simp
      norm_num
    · subst hc; simp

/-- The values of coordinate `k` over the microphones and the sources. -/
def placedValues {dim : ℕ} (mics sources : List (Fin dim → ℝ)) (k : Fin dim) : Set EReal :=
  {v | ∃ p, (p ∈ mics ∨ p ∈ sources) ∧ v = ((p k : ℝ) : EReal)}

/-- **C128** (box). The box of an anechoic room is the infimum and the supremum of each coordinate over the microphones and the sources: the least and greatest values when there is any of them. -/
theorem C128_anechoic {dim : ℕ} (mics : Option (List (Fin dim → ℝ))) (sources : List (Fin dim → ℝ)) (k : Fin dim) (hne : ¬ (mics = none ∧ sources = [])) :
    ∃ lo hi : EReal, anechoicBbox mics sources k = .ok (lo, hi) ∧ IsGLB (placedValues (mics.getD []) sources k) lo ∧ IsLUB (placedValues (mics.getD []) sources k) hi ∧
      ((mics.getD [] ≠ [] ∨ sources ≠ []) → lo ∈ placedValues (mics.getD []) sources k ∧ hi ∈ placedValues (mics.getD []) sources k) := by
  set M := mics.getD [] with hM
  have e1 : ∀ (f : EReal → EReal → EReal) (a : EReal), (sources.map fun s => ((s k : ℝ) : EReal)).foldl f ((M.map fun m => ((m k : ℝ) : EReal)).foldl f a) =
      ((M ++ sources).map fun s => ((s k : ℝ) : EReal)).foldl f a := by
    intro f a; rw [List.map_append, List.foldl_append]
  have hmem : ∀ v, v ∈ placedValues M sources k ↔ v ∈ (M ++ sources).map fun s => ((s k : ℝ) : EReal) := by
    intro v
    simp only [placedValues, Set.mem_ofPred_eq, List.mem_map, List.mem_append]
    constructor
    · rintro ⟨p, hp, hv⟩; exact ⟨p, hp, hv.symm⟩
    · rintro ⟨p, hp, hv⟩; exact ⟨p, hp, hv.symm⟩
  obtain ⟨a1, a2, a3⟩ := foldl_min_spec ((M ++ sources).map fun s => ((s k : ℝ) : EReal)) ⊤
  obtain ⟨b1, b2, b3⟩ := foldl_max_spec ((M ++ sources).map fun s => ((s k : ℝ) : EReal)) ⊥
  refine ⟨((M ++ sources).map fun s => ((s k : ℝ) : EReal)).foldl min ⊤, ((M ++ sources).map fun s => ((s k : ℝ) : EReal)).foldl max ⊥, ?_, ?_, ?_, ?_⟩
  · unfold anechoicBbox
    rw [if_neg hne]
    simp only [← hM]
    rw [e1, e1]
  · refine ⟨fun v hv => a3 v ((hmem v).mp hv), fun b hb => ?_⟩
    rcases a1 with h | h
    · rw [h]; exact le_top
    · exact hb ((hmem _).mpr h)
  · refine ⟨fun v hv => b3 v ((hmem v).mp hv), fun b hb => ?_⟩
    rcases b1 with h | h
    · rw [h]; exact bot_le
    · exact hb ((hmem _).mpr h)
  · intro hsome
    have hex : ∃ p, p ∈ M ++ sources := by
      rcases hsome with h | h
      · obtain ⟨p, hp⟩ := List.exists_mem_of_ne_nil _ h; exact ⟨p, List.mem_append_left _ hp⟩
      · obtain ⟨p, hp⟩ := List.exists_mem_of_ne_nil _ h; exact ⟨p, List.mem_append_right _ hp⟩
    obtain ⟨p, hp⟩ := hex
    have hpm : ((p k : ℝ) : EReal) ∈ (M ++ sources).map fun s => ((s k : ℝ) : EReal) := List.mem_map_of_mem (f := fun s : Fin dim → ℝ => ((s k : ℝ) : EReal)) hp
    constructor
    · rcases a1 with h | h
      · have := a3 _ hpm
        rw [h] at this
        exact absurd (top_le_iff.mp this) (EReal.coe_ne_top _)
      · exact (hmem _).mpr h
    · rcases b1 with h | h
      · have := b3 _ hpm
        rw [h] at this
        exact absurd (le_bot_iff.mp this) (EReal.coe_ne_bot _)
      · exact (hmem _).mpr h

/-- **C128** (box). Nothing placed is a ValueError. -/
theorem C128_anechoic_empty {dim : ℕ} (k : Fin dim) : anechoicBbox none ([] : List (Fin dim → ℝ)) k = .error .valueError := by
  simp [anechoicBbox]

/-- **C128** (deviation). An array without microphones and no source: the box is from infinity to minus infinity instead of an error. -/
theorem C128_anechoic_deviation {dim : ℕ} (k : Fin dim) : anechoicBbox (some []) ([] : List (Fin dim → ℝ)) k = .ok (⊤, ⊥) := by
  simp [anechoicBbox]

example : ¬ ((none : Option (List (Fin 2 → ℝ))) = none ∧ [![(1 : ℝ), 2]] = []) := by simp

/-! ## Level of the direct sound -/

/-- The mean square of a source's signal, at distance `√d2`, over the variance of the noise. -/
noncomputable def trueSnr (sig : List ℝ) (v d2 : ℝ) : ℝ := ((sig.map (· ^ 2)).sum / sig.length) * (1 / (4 * Real.pi * Real.sqrt d2)) ^ 2 / v

/-- **C128** (level). For the first source `direct_snr` is the power of the direct sound (the signal through the free-field gain `1/(4π d)`) over the variance of the noise. -/
theorem C128_snr {dim : ℕ} (s : Source dim) (rest : List (Source dim)) (sig : List ℝ) (hs : s.signal = some sig) (hsig : sig ≠ []) (v : ℝ) (hv : v ≠ 0) (x : Fin dim → ℝ) (hx : x ≠ s.position) :
    directSnr (s :: rest) (some v) x 0 = .ok ((trueSnr sig v (∑ k, (x k - s.position k) ^ 2) : ℝ) : EReal) := by
  have hd : 0 < ∑ k, (x k - s.position k) ^ 2 := by
    obtain ⟨k, hk⟩ := Function.ne_iff.mp hx
    exact Finset.sum_pos' (fun _ _ => sq_nonneg _) ⟨k, Finset.mem_univ _, by have := sub_ne_zero.mpr hk; positivity⟩
  unfold directSnr
  simp only [List.getElem?_cons_zero, Option.bind_some, hs]
  rw [if_neg (by simp), if_neg hsig, if_neg (by push Not; exact ⟨hv, hd.ne'⟩)]
  congr 2
  unfold trueSnr power
  generalize (∑ k, (x k - s.position k) ^ 2) = D at hd
  rw [div_pow, mul_pow, mul_pow, Real.sq_sqrt hd.le]
  have := Real.pi_ne_zero
  field_simp
  norm_num

/-- **C128** (deviation). For any other source the power is still that of the first source, not that of the source asked for. -/
theorem C128_snr_deviation {dim : ℕ} (sources : List (Source dim)) (j : ℕ) (s s0 : Source dim) (sig sig0 : List ℝ) (h0 : sources[0]? = some s0) (hj : sources[j]? = some s) (hs : s.signal = some sig) (hs0 : s0.signal = some sig0)
    (hsig : sig0 ≠ []) (v : ℝ) (hv : v ≠ 0) (x : Fin dim → ℝ) (hx : x ≠ s.position) :
    directSnr sources (some v) x j = .ok ((trueSnr sig0 v (∑ k, (x k - s.position k) ^ 2) : ℝ) : EReal) := by
  have hd : 0 < ∑ k, (x k - s.position k) ^ 2 := by
    obtain ⟨k, hk⟩ := Function.ne_iff.mp hx
    exact Finset.sum_pos' (fun _ _ => sq_nonneg _) ⟨k, Finset.mem_univ _, by have := sub_ne_zero.mpr hk; positivity⟩
  unfold directSnr
  simp only [h0, hj, Option.bind_some, hs, hs0]
  rw [if_neg (by simp), if_neg hsig, if_neg (by push Not; exact ⟨hv, hd.ne'⟩)]
  congr 2
  unfold trueSnr power
  generalize (∑ k, (x k - s.position k) ^ 2) = D at hd
  rw [div_pow, mul_pow, mul_pow, Real.sq_sqrt hd.le]
  have := Real.pi_ne_zero
  field_simp
  norm_num

/-- **C128** (deviation). When the first source has no signal, a source that has one raises a TypeError. -/
theorem C128_snr_type_deviation {dim : ℕ} (sources : List (Source dim)) (j : ℕ) (s s0 : Source dim) (sig : List ℝ) (h0 : sources[0]? = some s0) (hj : sources[j]? = some s) (hs : s.signal = some sig) (hs0 : s0.signal = none) (v : ℝ) (x : Fin dim → ℝ) :
    directSnr sources (some v) x j = .error .typeError := by
  unfold directSnr
  simp [h0, hj, hs, hs0]

/-- **C128** (level). It is a ValueError exactly when there is no such source, or it has no signal; without noise the level is infinite. -/
theorem C128_snr_errors {dim : ℕ} (sources : List (Source dim)) (sigma2 : Option ℝ) (x : Fin dim → ℝ) (j : ℕ) :
    (directSnr sources sigma2 x j = .error .valueError ↔ ∀ s, sources[j]? = some s → s.signal = none) ∧
    ((∃ s, sources[j]? = some s ∧ s.signal ≠ none) → directSnr sources none x j = .ok ⊤) := by
  unfold directSnr
  constructor
  · split
    · rename_i h; simp [h]
    · rename_i s h
      rw [h]
      split_ifs with hs
      · simp [hs]
      · simp only [Option.some.injEq, forall_eq', hs, iff_false]
        split
        · simp
        · split
          · simp
          · split_ifs <;> simp
  · rintro ⟨s, h, hs⟩
    simp [h, hs]

example : ∃ (s : Source 2) (x : Fin 2 → ℝ), s.signal = some [1, 2] ∧ x ≠ s.position := ⟨⟨![0, 0], some [1, 2]⟩, ![1, 0], rfl, by
  intro h; have := congrFun h 0; simp at this⟩

/-! ## Adding sources -/

section add

variable {P S : Type} (dimOf : S → ℕ) (inside : S → Bool) (mk : P → Dir → Except Err S) (dim : ℕ)

/-- **C128** (add). Whatever `add_source` does, the earlier sources stay in place, and at most one is added, of the room's dimension and inside. -/
theorem C128_add_frame (sources out : List S) (pos : Pos P S) (d : Dir) (h : addSource dimOf inside mk dim sources pos d = .ok out) :
    out = sources ∨ ∃ s, out = sources ++ [s] ∧ dimOf s = dim ∧ inside s = true := by
  have key : ∀ s, addObj dimOf inside dim sources s = .ok out → ∃ s, out = sources ++ [s] ∧ dimOf s = dim ∧ inside s = true := by
    intro s hs
    unfold addObj at hs
    split_ifs at hs with h1 h2
    simp only [Except.ok.injEq] at hs
    exact ⟨s, hs.symm, not_not.mp h1, by simpa using h2⟩
  unfold addSource at h
  by_cases h0 : dim ≠ 3 ∧ d ≠ .none_
  · rw [if_pos h0] at h; simp at h
  rw [if_neg h0] at h
  cases pos with
  | source s =>
    simp only at h
    split_ifs at h
    · exact Or.inr (key _ h)
    · simp only [Except.ok.injEq] at h; exact Or.inl h.symm
  | coords p =>
    simp only at h
    split_ifs at h
    · split at h
      · simp at h
      · exact Or.inr (key _ h)
    · simp only [Except.ok.injEq] at h; exact Or.inl h.symm

/-- **C128** (add). Coordinates with a known kind of directivity (or none): accepted exactly when the source can be made, has the dimension of the room, lies inside, and a directivity is only given in 3D; then exactly that source is appended. -/
theorem C128_add_coords (sources out : List S) (p : P) (d : Dir) (hd : d ≠ .other) :
    addSource dimOf inside mk dim sources (.coords p) d = .ok out ↔
      (d = .none_ ∨ dim = 3) ∧ ∃ s, mk p d = .ok s ∧ dimOf s = dim ∧ inside s = true ∧ out = sources ++ [s] := by
  have hk : d = .none_ ∨ d = .cardioid ∨ d = .measured := by cases d <;> simp_all
  unfold addSource
  by_cases h0 : dim ≠ 3 ∧ d ≠ .none_
  · rw [if_pos h0]
    constructor
    · intro h; simp at h
    · rintro ⟨h | h, _⟩
      · exact absurd h h0.2
      · exact absurd h h0.1
  · rw [if_neg h0]
    have h0' : d = .none_ ∨ dim = 3 := by tauto
    simp only [if_pos hk, h0', true_and]
    cases hm : mk p d with
    | error e => simp
    | ok s =>
      simp only [addObj, Except.ok.injEq, exists_eq_left']
      by_cases h1 : dimOf s = dim
      · cases h2 : inside s
        · simp [h1]
        · simp [h1, eq_comm]
      · simp [h1]

/-- **C128** (add). A source object without directivity is appended as it is, exactly when its dimension is that of the room and it lies inside. -/
theorem C128_add_object (sources out : List S) (s : S) :
    addSource dimOf inside mk dim sources (.source s) .none_ = .ok out ↔ dimOf s = dim ∧ inside s = true ∧ out = sources ++ [s] := by
  simp only [addSource, ne_eq, not_true_eq_false, and_false, if_false, if_true, addObj]
  by_cases h1 : dimOf s = dim
  · cases h2 : inside s
    · simp [h1]
    · simp [h1, eq_comm]
  · simp [h1]

/-- **C128** (add). A directivity in a room that is not 3D is refused. -/
theorem C128_add_refused (sources : List S) (pos : Pos P S) (d : Dir) (hd : d ≠ .none_) (h3 : dim ≠ 3) :
    addSource dimOf inside mk dim sources pos d = .error .notImplemented := by
  unfold addSource
  rw [if_pos ⟨h3, hd⟩]

/-- **C128** (deviation). With a directivity of any other class nothing is added and no error is raised. -/
theorem C128_add_deviation (sources : List S) (pos : Pos P S) : addSource dimOf inside mk 3 sources pos .other = .ok sources := by
  cases pos <;> simp [addSource]

/-- **C128** (deviation). A source object together with a directivity is always an IndexError. -/
theorem C128_add_object_deviation (sources : List S) (s : S) (d : Dir) (hd : d = .cardioid ∨ d = .measured) :
    addSource dimOf inside mk 3 sources (.source s) d = .error .indexError := by
  rcases hd with rfl | rfl <;> simp [addSource]

end add

example : addSource (P := ℕ) (fun _ => 3) (fun _ => true) (fun p _ => .ok p) 3 [7] (.coords 8) .cardioid = .ok [7, 8] :=
  (C128_add_coords _ _ _ _ _ _ _ _ (by decide)).mpr ⟨Or.inr rfl, 8, rfl, rfl, rfl, rfl⟩
example : addSource (P := ℕ) (fun _ => 3) (fun n => n < 5) (fun p _ => .ok p) 3 [7] (.source 4) .none_ = .ok [7, 4] :=
  (C128_add_object _ _ _ _ _ _ _).mpr ⟨rfl, rfl, rfl⟩

/-! ## Air absorption -/

/-- The coefficients given by the last `set`, if there is any. -/
def lastSet (physics : List ℝ) (bands : List ℝ → List ℝ) : List AirCall → Option (List ℝ) → Option (List ℝ)
  | [], c => c
  | .set none :: t, _ => lastSet physics bands t (some (bands physics))
  | .set (some c) :: t, _ => lastSet physics bands t (some (bands c))
  | .unset :: t, c => lastSet physics bands t c

/-- **C128** (air). Whatever calls are made, the coefficients used by the simulation are those of the last `set_air_absorption` (given, or of the temperature and humidity). -/
theorem C128_air (physics : List ℝ) (bands : List ℝ → List ℝ) (calls : List AirCall) (a : Air) :
    (calls.foldl (Air.call physics bands) a).used = lastSet physics bands calls a.used := by
  induction calls generalizing a with
  | nil => rfl
  | cons c t ih =>
    rw [List.foldl_cons, ih]
    rcases c with (_ | c) | _ <;> rfl

/-- **C128** (deviation). `unset_air_absorption` has no effect on the simulation: removing all calls to it changes no coefficient used. -/
theorem C128_air_deviation (physics : List ℝ) (bands : List ℝ → List ℝ) (calls : List AirCall) (a : Air) :
    (calls.foldl (Air.call physics bands) a).used = ((calls.filter fun c => match c with | .unset => false | .set _ => true).foldl (Air.call physics bands) a).used := by
  rw [C128_air, C128_air]
  generalize a.used = c
  induction calls generalizing c with
  | nil => rfl
  | cons q t ih =>
    rcases q with (_ | q) | _
    · rw [List.filter_cons_of_pos rfl]; exact ih _
    · rw [List.filter_cons_of_pos rfl]; exact ih _
    · rw [List.filter_cons_of_neg (by simp)]; exact ih _

/-- **C128** (air). The flag is on exactly after a `set` as the last call. -/
theorem C128_air_flag (physics : List ℝ) (bands : List ℝ → List ℝ) (calls : List AirCall) (q : AirCall) (a : Air) :
    ((calls ++ [q]).foldl (Air.call physics bands) a).needed = true ↔ ∃ c, q = .set c := by
  rw [List.foldl_append, List.foldl_cons, List.foldl_nil]
  rcases q with (_ | c) | _ <;> simp [Air.call]

example : (([.set (some [1]), .unset] : List AirCall).foldl (Air.call [0] id) ⟨false, none⟩).used = some [1] := by
  rw [C128_air]; rfl

end Verif.RoomInfo
