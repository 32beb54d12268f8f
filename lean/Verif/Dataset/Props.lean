import Verif.Dataset.Model
import Mathlib.Tactic.Common

/-!
# Properties of the data sets (C48)
-/

namespace Verif.Dataset

open Verif.Py (Err)

variable {V : Type} [DecidableEq V] {D : Type}

/-! ## Specification -/

/-- Number of the samples whose metadata has `val` under `key`. -/
def occurrences (l : List (Sample V D)) (key : String) (val : V) : Nat := (l.filter fun s => s.md.lookup key = some val).length

/-- Metadata names are names of attributes: each at most once. -/
def WellFormed (s : Sample V D) : Prop := (s.md.map Prod.fst).Nodup

/-- All criteria are met by attributes that the sample has. -/
def Meets (kwargs : List (String × Criterion V)) (s : Sample V D) : Prop :=
  ∀ p ∈ kwargs, ∃ attr, s.md.lookup p.1 = some attr ∧
    ((∃ f, p.2.fn = some f ∧ f attr = true) ∨ (∃ l, p.2.list = some l ∧ attr ∈ l) ∨ attr = p.2.val)

/-- The entry of a value in the information of a corpus. -/
def tally (d : Corpus V D) (key : String) (val : V) : Option Nat := (d.info.lookup key).bind (·.lookup val)

/-- The information is right: exactly the names that occur, and for each value that occurs the number of the samples with it. -/
def Counts (d : Corpus V D) : Prop :=
  (∀ key, (d.info.lookup key).isSome ↔ ∃ s ∈ d.samples, (s.md.lookup key).isSome) ∧
    ∀ key val, tally d key val = if occurrences d.samples key val = 0 then none else some (occurrences d.samples key val)

/-! ## Dictionaries -/

theorem lookup_isSome {α β : Type} [DecidableEq α] (d : List (α × β)) (k : α) : (d.lookup k).isSome = d.any (fun p => p.1 = k) := by
  induction d with
  | nil => rfl
  | cons p t ih =>
    rw [List.lookup_cons, List.any_cons]
    by_cases h : k = p.1
    · subst h; simp
    · rw [show (k == p.1) = false by simpa using h]
      simp only [ih]
      rw [show decide (p.1 = k) = false by simpa using fun e => h e.symm]
      simp

theorem lookup_assign {α β : Type} [DecidableEq α] (d : List (α × β)) (k k' : α) (v : β) :
    (assign d k v).lookup k' = if k' = k then some v else d.lookup k' := by
  unfold assign
  split
  · rename_i h
    have hm : ∀ (d : List (α × β)), (d.map fun p => if p.1 = k then (k, v) else p).lookup k' = if k' = k ∧ d.any (fun p => p.1 = k) then some v else if k' = k then none else d.lookup k' := by
      intro d
      induction d with
      | nil => simp
      | cons p t ih =>
        rw [List.map_cons]
        by_cases hp : p.1 = k
        · rw [if_pos hp]
          rw [List.lookup_cons]
          by_cases hk : k' = k
          · simp [hk, hp]
          · rw [show (k' == k) = false by simpa using hk]
            simp only
            rw [ih, List.lookup_cons, show (k' == p.1) = false by rw [hp]; simpa using hk]
            simp [hk]
        · rw [if_neg hp, List.lookup_cons]
          by_cases hk : k' = k
          · have : (k' == p.1) = false := by
              rw [hk]; simpa using fun e => hp e.symm
            rw [this]
            simp only
            rw [ih, List.any_cons, show decide (p.1 = k) = false by simpa using hp]
            simp only [Bool.false_or]
            rw [if_pos hk, if_pos hk]
          · rw [List.lookup_cons]
            by_cases hkp : k' = p.1
            · simp [hkp, hp]
            · rw [show (k' == p.1) = false by simpa using hkp]
              simp only
              rw [ih]; simp [hk]
    rw [hm]
    by_cases hk : k' = k
    · rw [if_pos ⟨hk, h⟩, if_pos hk]
    · rw [if_neg (fun hc => hk hc.1), if_neg hk, if_neg hk]
  · rename_i h
    have hnone : d.lookup k = none := by
      rw [← Option.not_isSome_iff_eq_none, lookup_isSome]; exact h
    rw [List.lookup_append]
    by_cases hk : k' = k
    · rw [if_pos hk, hk, hnone]; simp
    · rw [if_neg hk, List.lookup_cons, show (k' == k) = false by simpa using hk]
      simp

/-- Lookup in the information after counting one attribute. -/
theorem count_ok {hashable : V → Bool} (info : List (String × List (V × Nat))) (key : String) {val : V} (h : hashable val = true) :
    (count hashable info key val).2 = none ∧
      (∀ k, ((count hashable info key val).1.lookup k).isSome ↔ k = key ∨ (info.lookup k).isSome) ∧
      ∀ k v, ((count hashable info key val).1.lookup k).bind (·.lookup v) =
        if k = key ∧ v = val then some ((((info.lookup k).bind (·.lookup v)).getD 0) + 1) else (info.lookup k).bind (·.lookup v) := by
  unfold count
  simp only
  rw [if_pos h]
  have h1 : ∀ k, ((if (info.lookup key).isNone then assign info key [] else info).lookup k) =
      if k = key then some ((info.lookup key).getD []) else info.lookup k := by
    intro k
    split
    · rename_i hn
      rw [lookup_assign]
      rw [Option.isNone_iff_eq_none.mp hn]; rfl
    · rename_i hn
      split
      · rename_i hk
        rw [hk]
        cases hl : info.lookup key with
        | none => rw [hl] at hn; simp at hn
        | some x => rfl
      · rfl
  generalize (if (info.lookup key).isNone then assign info key [] else info) = info' at *
  have hkey : info'.lookup key = some ((info.lookup key).getD []) := by rw [h1, if_pos rfl]
  rw [hkey]
  simp only [Option.getD_some]
  generalize hd : (info.lookup key).getD [] = d at *
  have hbind : ∀ v, (info.lookup key).bind (·.lookup v) = d.lookup v := by
    intro v
    rw [← hd]
    cases info.lookup key <;> rfl
  have fin : ∀ n : Nat, (∀ k, ((assign info' key (assign d val n)).lookup k).isSome ↔ k = key ∨ (info.lookup k).isSome) := by
    intro n k
    rw [lookup_assign]
    split
    · rename_i hk; simp [hk]
    · rename_i hk
      rw [h1, if_neg hk]; simp [hk]
  have fin2 : ∀ (n : Nat) k v, ((assign info' key (assign d val n)).lookup k).bind (·.lookup v) =
      if k = key ∧ v = val then some n else (info.lookup k).bind (·.lookup v) := by
    intro n k v
    rw [lookup_assign]
    by_cases hk : k = key
    · rw [if_pos hk, Option.bind_some, lookup_assign, hk, hbind]
      by_cases hv : v = val
      · simp [hv]
      · simp [hv]
    · rw [if_neg hk, h1, if_neg hk, if_neg fun hc => hk hc.1]
  cases hl : d.lookup val with
  | none =>
    refine ⟨rfl, fin 1, fun k v => ?_⟩
    rw [fin2]
    split
    · rename_i hc
      rw [hc.1, hbind, hc.2, hl]; rfl
    · rfl
  | some n =>
    refine ⟨rfl, fin (n + 1), fun k v => ?_⟩
    rw [fin2]
    split
    · rename_i hc
      rw [hc.1, hbind, hc.2, hl]; rfl
    · rfl

/-- All attributes of a sample. -/
theorem countAll_ok {hashable : V → Bool} (info : List (String × List (V × Nat))) {m : Meta V} (hn : (m.map Prod.fst).Nodup) (h : ∀ p ∈ m, hashable p.2 = true) :
    (countAll hashable info m).2 = none ∧
      (∀ k, ((countAll hashable info m).1.lookup k).isSome ↔ (m.lookup k).isSome ∨ (info.lookup k).isSome) ∧
      ∀ k v, ((countAll hashable info m).1.lookup k).bind (·.lookup v) =
        if m.lookup k = some v then some ((((info.lookup k).bind (·.lookup v)).getD 0) + 1) else (info.lookup k).bind (·.lookup v) := by
  induction m generalizing info with
  | nil => exact ⟨rfl, fun k => by simp [countAll], fun k v => by simp [countAll]⟩
  | cons p t ih =>
    obtain ⟨key, val⟩ := p
    obtain ⟨c1, c2, c3⟩ := count_ok info key (h (key, val) (by simp))
    rw [List.map_cons, List.nodup_cons] at hn
    have e : countAll hashable info ((key, val) :: t) = countAll hashable (count hashable info key val).1 t := by
      rw [countAll]
      generalize count hashable info key val = r at *
      obtain ⟨a, b⟩ := r
      simp only at c1
      subst c1
      rfl
    obtain ⟨i1, i2, i3⟩ := ih (count hashable info key val).1 hn.2 (fun p hp => h p (List.mem_cons_of_mem _ hp))
    have hkt : t.lookup key = none := by
      rw [← Option.not_isSome_iff_eq_none, lookup_isSome]
      simp only [List.any_eq_true, decide_eq_true_eq, not_exists, not_and]
      intro p hp hpk
      exact hn.1 (List.mem_map.mpr ⟨p, hp, hpk⟩)
    rw [e]
    refine ⟨i1, fun k => ?_, fun k v => ?_⟩
    · rw [i2, c2, List.lookup_cons]
      by_cases hk : k = key
      · simp [hk]
      · rw [show (k == key) = false by simpa using hk]; simp [hk]
    · rw [i3, c3, List.lookup_cons]
      by_cases hk : k = key
      · subst hk
        rw [hkt]
        simp only [reduceCtorEq, if_false, true_and, beq_self_eq_true, Option.some.injEq]
        by_cases hv : v = val
        · rw [if_pos hv, if_pos hv.symm]
        · rw [if_neg hv, if_neg fun e => hv e.symm]
      · rw [show (k == key) = false by simpa using hk]
        simp [hk]

/-! ## Theorems -/

/-- Adding a sample keeps the information right. -/
theorem addSample_ok {hashable : V → Bool} {d : Corpus V D} (hd : Counts d) {s : Sample V D} (hs : WellFormed s) (hh : ∀ p ∈ s.md, hashable p.2 = true) :
    (addSample hashable d s).2 = none ∧ (addSample hashable d s).1.samples = d.samples ++ [s] ∧ Counts (addSample hashable d s).1 := by
  obtain ⟨c1, c2, c3⟩ := countAll_ok d.info hs hh
  have e : addSample hashable d s = (⟨d.samples ++ [s], (countAll hashable d.info s.md).1⟩, none) := by
    unfold addSample
    generalize countAll hashable d.info s.md = r at *
    obtain ⟨a, b⟩ := r
    simp only at c1
    subst c1
    rfl
  rw [e]
  refine ⟨rfl, rfl, ?_, ?_⟩
  · intro key
    simp only
    rw [c2, hd.1]
    simp only [List.mem_append, List.mem_singleton]
    constructor
    · rintro (h | ⟨s', hs', h⟩)
      · exact ⟨s, Or.inr rfl, h⟩
      · exact ⟨s', Or.inl hs', h⟩
    · rintro ⟨s', hs' | rfl, h⟩
      · exact Or.inr ⟨s', hs', h⟩
      · exact Or.inl h
  · intro key val
    unfold tally
    simp only
    rw [c3]
    have hocc : occurrences (d.samples ++ [s]) key val = occurrences d.samples key val + if s.md.lookup key = some val then 1 else 0 := by
      unfold occurrences
      rw [List.filter_append, List.length_append]
      congr 1
      split
      · rename_i h; simp [List.filter, h]
      · rename_i h; simp [List.filter, h]
    have ht := hd.2 key val
    unfold tally at ht
    rw [hocc, ht]
    by_cases hm : s.md.lookup key = some val
    · rw [if_pos hm, if_pos hm, if_neg (Nat.succ_ne_zero _)]
      by_cases h0 : occurrences d.samples key val = 0
      · simp [h0]
      · simp [h0]
    · rw [if_neg hm, if_neg hm, Nat.add_zero]

theorem counts_empty : Counts (empty : Corpus V D) := by
  refine ⟨fun key => by simp [empty], fun key val => by simp [tally, empty, occurrences]⟩

/-- **C48, information.** After every history of additions the corpus has exactly the samples added, in order; its information has exactly the
names of the metadata of its samples and, for each value that occurs, the number of samples with it. -/
theorem C48_info (hashable : V → Bool) (l : List (Sample V D)) (hl : ∀ s ∈ l, WellFormed s ∧ ∀ p ∈ s.md, hashable p.2 = true) :
    (addAll hashable empty l).samples = l ∧ Counts (addAll hashable (empty : Corpus V D) l) := by
  have key : ∀ (l : List (Sample V D)) (d : Corpus V D), Counts d → (∀ s ∈ l, WellFormed s ∧ ∀ p ∈ s.md, hashable p.2 = true) →
      (addAll hashable d l).samples = d.samples ++ l ∧ Counts (addAll hashable d l) := by
    intro l
    induction l with
    | nil => intro d hd _; exact ⟨by simp [addAll], hd⟩
    | cons s t ih =>
      intro d hd h
      obtain ⟨_, h2, h3⟩ := addSample_ok (hashable := hashable) hd (h s (by simp)).1 (h s (by simp)).2
      obtain ⟨i1, i2⟩ := ih (addSample hashable d s).1 h3 fun s hs => h s (List.mem_cons_of_mem _ hs)
      refine ⟨?_, i2⟩
      have : (addAll hashable d (s :: t)).samples = (addAll hashable (addSample hashable d s).1 t).samples := rfl
      rw [this, i1, h2, List.append_assoc]; rfl
  have := key l empty counts_empty hl
  simpa [empty] using this

theorem accepts_iff (c : Criterion V) (attr : V) : c.accepts attr = true ↔ (∃ f, c.fn = some f ∧ f attr = true) ∨ (∃ l, c.list = some l ∧ attr ∈ l) ∨ attr = c.val := by
  unfold Criterion.accepts
  cases h1 : c.fn <;> cases h2 : c.list <;> simp [or_assoc]

theorem matches_spec (m : Meta V) (kwargs : List (String × Criterion V)) (d : D) (hk : ∀ p ∈ kwargs, (m.lookup p.1).isSome) :
    ∃ b, matches_ m kwargs = .ok b ∧ (b = true ↔ Meets kwargs (⟨d, m⟩ : Sample V D)) := by
  induction kwargs with
  | nil => exact ⟨true, rfl, by simp [Meets]⟩
  | cons p t ih =>
    obtain ⟨key, c⟩ := p
    obtain ⟨attr, ha⟩ := Option.isSome_iff_exists.mp (hk (key, c) (by simp))
    obtain ⟨b, hb, hbm⟩ := ih fun p hp => hk p (List.mem_cons_of_mem _ hp)
    simp only [matches_]
    rw [ha]
    simp only
    by_cases hacc : c.accepts attr = true
    · rw [if_pos hacc]
      refine ⟨b, hb, ?_⟩
      rw [hbm]
      unfold Meets
      simp only [List.mem_cons, forall_eq_or_imp]
      constructor
      · intro h; exact ⟨⟨attr, ha, (accepts_iff c attr).mp hacc⟩, h⟩
      · exact fun h => h.2
    · rw [if_neg hacc]
      refine ⟨false, rfl, ?_⟩
      simp only [Bool.false_eq_true, false_iff]
      intro h
      obtain ⟨a, ha', hm⟩ := h (key, c) (by simp)
      simp only at ha' hm
      rw [ha] at ha'
      simp only [Option.some.injEq] at ha'
      subst ha'
      exact hacc ((accepts_iff c attr).mpr hm)

open Classical in
/-- **C48, filter.** If every sample has the attributes asked for, `filter` returns a corpus with exactly the samples that meet all criteria, in
order, and the right information; the corpus itself is not changed. -/
theorem C48_filter (hashable : V → Bool) (d : Corpus V D) (kwargs : List (String × Criterion V))
    (hl : ∀ s ∈ d.samples, WellFormed s ∧ ∀ p ∈ s.md, hashable p.2 = true) (hk : ∀ s ∈ d.samples, ∀ p ∈ kwargs, (s.md.lookup p.1).isSome) :
    ∃ r, filter hashable d kwargs = .ok r ∧ r.samples = d.samples.filter (fun s => Meets kwargs s) ∧ Counts r := by
  have key : ∀ (l : List (Sample V D)) (r : Corpus V D), Counts r → (∀ s ∈ l, WellFormed s ∧ ∀ p ∈ s.md, hashable p.2 = true) →
      (∀ s ∈ l, ∀ p ∈ kwargs, (s.md.lookup p.1).isSome) →
      ∃ r', filterFrom hashable kwargs r l = .ok r' ∧ r'.samples = r.samples ++ l.filter (fun s => Meets kwargs s) ∧ Counts r' := by
    intro l
    induction l with
    | nil => intro r hr _ _; exact ⟨r, rfl, by simp, hr⟩
    | cons s t ih =>
      intro r hr h1 h2
      obtain ⟨b, hb, hbm⟩ := matches_spec s.md kwargs s.data (h2 s (by simp))
      have t1 : ∀ s ∈ t, WellFormed s ∧ ∀ p ∈ s.md, hashable p.2 = true := fun s hs => h1 s (List.mem_cons_of_mem _ hs)
      have t2 : ∀ s ∈ t, ∀ p ∈ kwargs, (s.md.lookup p.1).isSome := fun s hs => h2 s (List.mem_cons_of_mem _ hs)
      simp only [filterFrom, addMatching]
      rw [hb]
      cases b with
      | false =>
        simp only
        obtain ⟨r', e, hs, hc⟩ := ih r hr t1 t2
        refine ⟨r', e, ?_, hc⟩
        have hnm : ¬ Meets kwargs s := fun hm => by simpa using hbm.mpr hm
        rw [hs, List.filter_cons, if_neg (by simpa using hnm)]
      | true =>
        simp only
        obtain ⟨a1, a2, a3⟩ := addSample_ok (hashable := hashable) hr (h1 s (by simp)).1 (h1 s (by simp)).2
        obtain ⟨r', e, hs, hc⟩ := ih (addSample hashable r s).1 a3 t1 t2
        refine ⟨r', ?_, ?_, hc⟩
        · rw [← e]
          generalize addSample hashable r s = x at *
          obtain ⟨a, b⟩ := x
          simp only at a1
          subst a1
          rfl
        · have hm : Meets kwargs s := hbm.mp rfl
          rw [hs, a2, List.filter_cons, if_pos (by simpa using hm), List.append_assoc]; rfl
  obtain ⟨r, e, hs, hc⟩ := key d.samples empty counts_empty hl hk
  exact ⟨r, e, by simpa [empty] using hs, hc⟩

/-- **C48, missing attributes.** Whether a sample without an attribute that is asked for raises or is left out depends on the criteria before. -/
theorem C48_missing (m : Meta V) (pre post : List (String × Criterion V)) (key : String) (c : Criterion V) (hk : m.lookup key = none)
    (hp : ∀ p ∈ pre, (m.lookup p.1).isSome) (d : D) :
    (Meets pre (⟨d, m⟩ : Sample V D) → matches_ m (pre ++ (key, c) :: post) = .error .attributeError) ∧
      (¬ Meets pre (⟨d, m⟩ : Sample V D) → matches_ m (pre ++ (key, c) :: post) = .ok false) := by
  induction pre with
  | nil =>
    refine ⟨fun _ => ?_, fun h => absurd (fun p hp => by simp at hp) h⟩
    simp only [List.nil_append, matches_]
    rw [hk]
  | cons p t ih =>
    obtain ⟨k, c'⟩ := p
    obtain ⟨attr, ha⟩ := Option.isSome_iff_exists.mp (hp (k, c') (by simp))
    obtain ⟨i1, i2⟩ := ih fun p h => hp p (List.mem_cons_of_mem _ h)
    simp only [List.cons_append, matches_]
    rw [ha]
    simp only
    by_cases hacc : c'.accepts attr = true
    · rw [if_pos hacc]
      refine ⟨fun h => i1 fun p hp => h p (List.mem_cons_of_mem _ hp), fun h => i2 fun h' => h ?_⟩
      intro p hp
      rcases List.mem_cons.mp hp with rfl | hp
      · exact ⟨attr, ha, (accepts_iff c' attr).mp hacc⟩
      · exact h' p hp
    · rw [if_neg hacc]
      refine ⟨fun h => ?_, fun _ => rfl⟩
      obtain ⟨a, ha', hm⟩ := h (k, c') (by simp)
      simp only at ha' hm
      rw [ha] at ha'
      simp only [Option.some.injEq] at ha'
      subst ha'
      exact absurd ((accepts_iff c' attr).mpr hm) hacc

/-- **C48, deviation.** A sample with a value that is not hashable is refused after the values before it were counted: the information of the corpus then
counts a sample that it does not have. -/
theorem C48_unhashable_deviation (hashable : V → Bool) (d : Corpus V D) (hd : Counts d) (data : D) (k1 k2 : String) (v1 v2 : V) (h1 : hashable v1 = true)
    (h2 : hashable v2 = false) :
    (addSample hashable d ⟨data, [(k1, v1), (k2, v2)]⟩).2 = some .typeError ∧ (addSample hashable d ⟨data, [(k1, v1), (k2, v2)]⟩).1.samples = d.samples ∧
      tally (addSample hashable d ⟨data, [(k1, v1), (k2, v2)]⟩).1 k1 v1 = some (occurrences d.samples k1 v1 + 1) := by
  obtain ⟨c1, c2, c3⟩ := count_ok d.info k1 h1
  have e2 : ∀ info, (count hashable info k2 v2).2 = some Err.typeError ∧ ((count hashable info k2 v2).1.lookup k1).bind (·.lookup v1) = (info.lookup k1).bind (·.lookup v1) := by
    intro info
    unfold count
    simp only
    rw [if_neg (by rw [h2]; simp)]
    refine ⟨rfl, ?_⟩
    simp only
    split
    · rename_i hn
      rw [lookup_assign]
      split
      · rename_i hk
        rw [hk, Option.isNone_iff_eq_none.mp hn]; rfl
      · rfl
    · rfl
  have e : countAll hashable d.info [(k1, v1), (k2, v2)] = ((count hashable (count hashable d.info k1 v1).1 k2 v2).1, some Err.typeError) := by
    simp only [countAll]
    have h := e2 (count hashable d.info k1 v1).1
    generalize count hashable d.info k1 v1 = r at *
    obtain ⟨a, b⟩ := r
    simp only at c1
    subst c1
    simp only at h ⊢
    generalize count hashable a k2 v2 = r at *
    obtain ⟨a', b'⟩ := r
    simp only at h
    rw [h.1]
  unfold addSample tally
  rw [e]
  refine ⟨rfl, rfl, ?_⟩
  simp only
  rw [(e2 _).2, c3, if_pos ⟨rfl, rfl⟩]
  have ht := hd.2 k1 v1
  unfold tally at ht
  rw [ht]
  split
  · rename_i h; rw [h]; rfl
  · rfl

/-! ## The hypotheses can be met -/

/-- Samples with two attributes, all hashable, and a criterion that one of them meets. -/
example : (∀ s ∈ [(⟨0, [("sex", 1), ("age", 30)]⟩ : Sample Nat Nat), ⟨1, [("sex", 2), ("age", 30)]⟩], WellFormed s ∧ ∀ p ∈ s.md, (fun _ => true) p.2 = true) ∧
    Meets [("sex", ⟨7, some [2, 3], none⟩), ("age", ⟨0, none, some fun x => x > 20⟩)] (⟨1, [("sex", 2), ("age", 30)]⟩ : Sample Nat Nat) ∧
    ¬ Meets [("sex", ⟨7, some [2, 3], none⟩)] (⟨0, [("sex", 1), ("age", 30)]⟩ : Sample Nat Nat) := by
  refine ⟨?_, ?_, ?_⟩
  · intro s hs
    simp only [List.mem_cons, List.not_mem_nil, or_false] at hs
    rcases hs with rfl | rfl <;> exact ⟨by simp [WellFormed], fun _ _ => rfl⟩
  · intro p hp
    simp only [List.mem_cons, List.not_mem_nil, or_false] at hp
    rcases hp with rfl | rfl
    · exact ⟨2, rfl, Or.inr (Or.inl ⟨[2, 3], rfl, by simp⟩)⟩
    · exact ⟨30, rfl, Or.inl ⟨_, rfl, rfl⟩⟩
  · intro h
    obtain ⟨a, ha, hm⟩ := h _ (List.mem_singleton.mpr rfl)
    have : a = 1 := by simpa using ha.symm
    subst this
    simp at hm

end Verif.Dataset
