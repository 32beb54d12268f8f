import Verif.Download.Model
import Mathlib.Data.List.Nodup
import Mathlib.Tactic.NormNum

/-!
# C133: download of files
-/

namespace Verif.Download

open Verif.Py

variable {C : Type} {server : String → Option C} {overwrite noFail : Bool}

/-- The entry has to be downloaded. -/
def Needed (overwrite : Bool) (fs : String → Option C) (e : Key × String) : Prop := overwrite = true ∨ fs e.1.path = none

/-- What has to be at the path of an entry afterwards: a file that exists stays unless it is overwritten, and a failed download changes nothing. -/
def Right (server : String → Option C) (overwrite : Bool) (fs : String → Option C) (e : Key × String) (r : Option C) : Prop :=
  (¬ Needed overwrite fs e → r = fs e.1.path) ∧ (∀ c, Needed overwrite fs e → server e.2 = some c → r = some c) ∧ (server e.2 = none → r = fs e.1.path)

theorem skip_iff (fs : String → Option C) (k : Key) (u : String) : ((fs k.path).isSome && !overwrite) = true ↔ ¬ Needed overwrite fs (k, u) := by
  cases h : fs k.path <;> cases overwrite <;> simp [Needed, h]

theorem needed_write {s : State C} {p : String} {c : C} {b : Bool} {e : Key × String} (h : e.1.path ≠ p) : Needed overwrite (s.write p c b).fs e ↔ Needed overwrite s.fs e := by
  simp [Needed, State.write, h]

theorem right_write {s : State C} {p : String} {c : C} {b : Bool} {e : Key × String} {r : Option C} (h : e.1.path ≠ p) (hr : Right server overwrite (s.write p c b).fs e r) :
    Right server overwrite s.fs e r := by
  have e : (s.write p c b).fs e.1.path = s.fs e.1.path := by simp [State.write, h]
  simpa only [Right, needed_write h, e] using hr

/-- The files after the loop. -/
theorem loop_files {b : Rat} {last : Option Key} (files : List (Key × String)) (hn : (files.map (·.1.path)).Nodup) (s s' : State C) (h : loop server overwrite noFail b last files s = .done s') :
    (∀ e ∈ files, Right server overwrite s.fs e (s'.fs e.1.path)) ∧ ∀ p, p ∉ files.map (·.1.path) → s'.fs p = s.fs p := by
  induction files generalizing s with
  | nil => simp only [loop, Out.done.injEq] at h; subst h; simp
  | cons e l ih =>
    obtain ⟨k, u⟩ := e
    simp only [List.map_cons, List.nodup_cons] at hn
    obtain ⟨hk, hl⟩ := hn
    have hne : ∀ e ∈ l, e.1.path ≠ k.path := fun e he hc => hk (List.mem_map.mpr ⟨e, he, hc⟩)
    simp only [loop] at h
    split at h
    · rename_i hs
      obtain ⟨h1, h2⟩ := ih hl s h
      have hs' := (skip_iff s.fs k u).mp hs
      refine ⟨?_, fun p hp => h2 p (fun hc => hp (by simp [List.mem_map.mp hc]))⟩
      intro e he
      rcases List.mem_cons.mp he with rfl | he
      · have := h2 k.path hk
        exact ⟨fun _ => this, fun c hc => absurd hc hs', fun _ => this⟩
      · exact h1 e he
    · rename_i hs
      have hs' : Needed overwrite s.fs (k, u) := by
        by_contra hc
        exact hs ((skip_iff s.fs k u).mpr hc)
      split at h
      · rename_i c hc
        obtain ⟨h1, h2⟩ := ih hl _ h
        have e0 := h2 k.path hk
        simp only [State.write, if_true] at e0
        refine ⟨?_, ?_⟩
        · intro e he
          rcases List.mem_cons.mp he with rfl | he
          · exact ⟨fun hx => absurd hs' hx, fun c' _ hc' => by rw [e0]; exact hc.symm.trans hc', fun hx => by simp [hc] at hx⟩
          · exact right_write (hne e he) (h1 e he)
        · intro p hp
          simp only [List.map_cons, List.mem_cons, not_or] at hp
          rw [h2 p hp.2]
          simp [State.write, hp.1]
      · rename_i hc
        split at h
        · obtain ⟨h1, h2⟩ := ih hl s h
          refine ⟨?_, ?_⟩
          · intro e he
            rcases List.mem_cons.mp he with rfl | he
            · have := h2 k.path hk
              exact ⟨fun _ => this, fun c' _ hc' => by simp [hc] at hc', fun _ => this⟩
            · exact h1 e he
          · intro p hp
            simp only [List.map_cons, List.mem_cons, not_or] at hp
            exact h2 p hp.2
        · exact absurd h (by simp)

/-- Part of the loop that meets no failure. -/
theorem loop_append {b : Rat} {last : Option Key} (l₁ l₂ : List (Key × String)) (s : State C) (hn : (l₁.map (·.1.path)).Nodup)
    (ha : noFail = true ∨ ∀ e ∈ l₁, Needed overwrite s.fs e → server e.2 ≠ none) :
    ∃ s', loop server overwrite noFail b last l₁ s = .done s' ∧ loop server overwrite noFail b last (l₁ ++ l₂) s = loop server overwrite noFail b last l₂ s' := by
  induction l₁ generalizing s with
  | nil => exact ⟨s, rfl, rfl⟩
  | cons e l ih =>
    obtain ⟨k, u⟩ := e
    simp only [List.map_cons, List.nodup_cons] at hn
    obtain ⟨hk, hl⟩ := hn
    have hne : ∀ e ∈ l, e.1.path ≠ k.path := fun e he hc => hk (List.mem_map.mpr ⟨e, he, hc⟩)
    have ha' : noFail = true ∨ ∀ e ∈ l, Needed overwrite s.fs e → server e.2 ≠ none := ha.imp id fun h e he => h e (List.mem_cons_of_mem _ he)
    simp only [loop, List.cons_append]
    split
    · exact ih s hl ha'
    · rename_i hs
      have hs' : Needed overwrite s.fs (k, u) := by
        by_contra hc
        exact hs ((skip_iff s.fs k u).mpr hc)
      split
      · refine ih _ hl (ha'.imp id fun h e he hx => h e he ((needed_write (hne e he)).mp hx))
      · rename_i hc
        rcases ha with ha | ha
        · simp only [ha, if_true]
          have := ih s hl ha'
          simpa only [ha] using this
        · exact absurd hc (ha (k, u) (by simp) hs')

/-- C133: after `download_multiple` returns, every path holds what it has to hold, and no other file is touched. -/
theorem C133_files {files : List (Key × String)} (hn : (files.map (·.1.path)).Nodup) {b : Option Rat} {s s' : State C} (h : downloadMultiple server files overwrite noFail b s = .done s') :
    (∀ e ∈ files, Right server overwrite s.fs e (s'.fs e.1.path)) ∧ ∀ p, p ∉ files.map (·.1.path) → s'.fs p = s.fs p := by
  simp only [downloadMultiple] at h
  split at h
  · exact absurd h (by simp)
  · split at h
    · exact absurd h (by simp)
    · exact loop_files files hn s s' h

/-- C133: with a time to wait that is not negative, it returns if every file needed can be had, or if `no_fail=True`. -/
theorem C133_returns {files : List (Key × String)} (hn : (files.map (·.1.path)).Nodup) {b : Rat} (hb : 0 ≤ b) (s : State C)
    (ha : noFail = true ∨ ∀ e ∈ files, Needed overwrite s.fs e → server e.2 ≠ none) : ∃ s', downloadMultiple server files overwrite noFail (some b) s = .done s' := by
  obtain ⟨s', h, _⟩ := loop_append (b := b) (last := files.getLast?.map (·.1)) files [] s hn ha
  exact ⟨s', by simp only [downloadMultiple, if_neg (not_lt.mpr hb), h]⟩

/-- C133: otherwise it stops with the first file that fails: the files before it are there, all others are as they were. -/
theorem C133_stops {l₁ l₂ : List (Key × String)} {k : Key} {u : String} (hn : ((l₁ ++ (k, u) :: l₂).map (·.1.path)).Nodup) {b : Rat} (hb : 0 ≤ b) (s : State C)
    (ha : ∀ e ∈ l₁, Needed overwrite s.fs e → server e.2 ≠ none) (hk : Needed overwrite s.fs (k, u)) (hu : server u = none) :
    ∃ s', downloadMultiple server (l₁ ++ (k, u) :: l₂) overwrite false (some b) s = .urlError s' u ∧
      (∀ e ∈ l₁, Right server overwrite s.fs e (s'.fs e.1.path)) ∧ ∀ p, p ∉ l₁.map (·.1.path) → s'.fs p = s.fs p := by
  rw [List.map_append, List.nodup_append] at hn
  obtain ⟨n1, _, n3⟩ := hn
  obtain ⟨s', h1, h2⟩ := loop_append (noFail := false) (b := b) (last := (l₁ ++ (k, u) :: l₂).getLast?.map (·.1)) l₁ ((k, u) :: l₂) s n1 (Or.inr ha)
  obtain ⟨f1, f2⟩ := loop_files l₁ n1 s s' h1
  refine ⟨s', ?_, f1, f2⟩
  have hkn : k.path ∉ l₁.map (·.1.path) := fun hc => n3 _ hc k.path (by simp) rfl
  have hk' : Needed overwrite s'.fs (k, u) := by simpa only [Needed, f2 _ hkn] using hk
  have hskip : ¬ ((s'.fs k.path).isSome && !overwrite) = true := fun hc => (skip_iff s'.fs k u).mp hc hk'
  simp only [downloadMultiple, if_neg (not_lt.mpr hb), h2, loop, if_neg hskip, hu]
  simp

/-- C133, deviation: with the default time to wait nothing is ever downloaded, `None` is compared with a number. A negative time is refused. -/
theorem C133_default_deviation (files : List (Key × String)) (s : State C) :
    downloadMultiple server files overwrite noFail none s = .raised .typeError ∧ ∀ b : Rat, b < 0 → downloadMultiple server files overwrite noFail (some b) s = .raised .valueError :=
  ⟨rfl, fun b hb => by simp [downloadMultiple, hb]⟩

open Classical in
/-- The files that are fetched. -/
noncomputable def fetched (server : String → Option C) (overwrite : Bool) (fs : String → Option C) (files : List (Key × String)) : List (Key × String) :=
  files.filter fun e => decide (Needed overwrite fs e ∧ server e.2 ≠ none)

theorem fetched_write {s : State C} {p : String} {c : C} {b : Bool} {l : List (Key × String)} (h : ∀ e ∈ l, e.1.path ≠ p) : fetched server overwrite (s.write p c b).fs l = fetched server overwrite s.fs l := by
  classical
  refine List.filter_congr fun e he => ?_
  simp only [needed_write (h e he)]

theorem fetched_cons_yes {fs : String → Option C} {e : Key × String} {l : List (Key × String)} (h : Needed overwrite fs e ∧ server e.2 ≠ none) :
    fetched server overwrite fs (e :: l) = e :: fetched server overwrite fs l := by
  classical
  exact List.filter_cons_of_pos (by simpa using h)

theorem fetched_cons_no {fs : String → Option C} {e : Key × String} {l : List (Key × String)} (h : ¬ (Needed overwrite fs e ∧ server e.2 ≠ none)) :
    fetched server overwrite fs (e :: l) = fetched server overwrite fs l := by
  classical
  exact List.filter_cons_of_neg (by simpa using h)

theorem loop_pauses {b : Rat} (hb : 0 < b) {last : Option Key} (files : List (Key × String)) (hn : (files.map (·.1.path)).Nodup) (s s' : State C)
    (h : loop server overwrite noFail b last files s = .done s') :
    s'.pauses = s.pauses + ((fetched server overwrite s.fs files).filter fun e => decide (some (Key.mk true e.1.path) ≠ last)).length := by
  induction files generalizing s with
  | nil => simp only [loop, Out.done.injEq] at h; subst h; simp [fetched]
  | cons e l ih =>
    obtain ⟨k, u⟩ := e
    simp only [List.map_cons, List.nodup_cons] at hn
    obtain ⟨hk, hl⟩ := hn
    have hne : ∀ e ∈ l, e.1.path ≠ k.path := fun e he hc => hk (List.mem_map.mpr ⟨e, he, hc⟩)
    simp only [loop] at h
    split at h
    · rename_i hs
      rw [ih hl s h, fetched_cons_no fun hc => (skip_iff s.fs k u).mp hs hc.1]
    · rename_i hs
      have hs' : Needed overwrite s.fs (k, u) := by
        by_contra hc
        exact hs ((skip_iff s.fs k u).mpr hc)
      split at h
      · rename_i c hc
        rw [ih hl _ h, fetched_write hne, fetched_cons_yes ⟨hs', by simp [hc]⟩, List.filter_cons]
        by_cases hx : some (Key.mk true k.path) = last
        · simp [State.write, hx]
        · simp [State.write, hx, hb]; omega
      · rename_i hc
        split at h
        · rw [ih hl s h, fetched_cons_no fun hx => hx.2 hc]
        · exact absurd h (by simp)

/-- C133: with `Path` keys and a positive time there is one pause after every file fetched, except after the last entry. -/
theorem C133_pauses {init : List (Key × String)} {k : Key} {u : String} (hn : ((init ++ [(k, u)]).map (·.1.path)).Nodup) (hp : k.isPath = true) {b : Rat} (hb : 0 < b) {s s' : State C}
    (h : downloadMultiple server (init ++ [(k, u)]) overwrite noFail (some b) s = .done s') : s'.pauses = s.pauses + (fetched server overwrite s.fs init).length := by
  classical
  simp only [downloadMultiple, if_neg (not_lt.mpr hb.le)] at h
  have e := loop_pauses hb _ hn s s' h
  rw [e]
  congr 1
  have hk : Key.mk true k.path = k := by cases k; simp_all
  have hl : (init ++ [(k, u)]).getLast?.map (·.1) = some k := by simp
  rw [hl]
  simp only [fetched, List.filter_append]
  rw [List.length_append]
  have h2 : ((List.filter (fun e => decide (Needed overwrite s.fs e ∧ server e.2 ≠ none)) [(k, u)]).filter fun e => decide (some (Key.mk true e.1.path) ≠ some k)) = [] := by
    rw [List.filter_eq_nil_iff]
    intro e he
    have : e = (k, u) := by simpa using (List.mem_filter.mp he).1
    subst this
    simp [hk]
  rw [h2, List.length_nil, Nat.add_zero]
  congr 1
  rw [List.filter_eq_self]
  intro e he
  have he' := (List.mem_filter.mp he).1
  rw [List.map_append, List.nodup_append] at hn
  have hd := hn.2.2 e.1.path (List.mem_map.mpr ⟨e, he', rfl⟩) k.path (by simp)
  have : Key.mk true e.1.path ≠ k := fun hc => hd (by rw [← hc])
  simpa using this

/-- C133, deviation: if the last key is a string there is also a pause after the last file, since a `Path` never equals a string. -/
theorem C133_pause_deviation {init : List (Key × String)} {k : Key} {u : String} (hn : ((init ++ [(k, u)]).map (·.1.path)).Nodup) (hp : k.isPath = false) {b : Rat} (hb : 0 < b) {s s' : State C}
    (h : downloadMultiple server (init ++ [(k, u)]) overwrite noFail (some b) s = .done s') : s'.pauses = s.pauses + (fetched server overwrite s.fs (init ++ [(k, u)])).length := by
  simp only [downloadMultiple, if_neg (not_lt.mpr hb.le)] at h
  rw [loop_pauses hb _ hn s s' h]
  congr 2
  rw [List.filter_eq_self]
  intro e _
  have : Key.mk true e.1.path ≠ k := fun hc => by rw [← hc] at hp; exact absurd hp (by simp)
  simpa using this

theorem loop_keeps {b : Rat} {last : Option Key} (files : List (Key × String)) (s s' : State C) (h : loop server overwrite noFail b last files s = .done s') (p : String) (hp : (s.fs p).isSome) :
    (s'.fs p).isSome := by
  induction files generalizing s with
  | nil => simp only [loop, Out.done.injEq] at h; subst h; exact hp
  | cons e l ih =>
    obtain ⟨k, u⟩ := e
    simp only [loop] at h
    split at h
    · exact ih s h hp
    · split at h
      · refine ih _ h ?_
        simp only [State.write]
        split_ifs
        · rfl
        · exact hp
      · split at h
        · exact ih s h hp
        · exact absurd h (by simp)

theorem loop_exists {b : Rat} {last : Option Key} (files : List (Key × String)) (s s' : State C) (h : loop server overwrite false b last files s = .done s') : ∀ e ∈ files, (s'.fs e.1.path).isSome := by
  induction files generalizing s with
  | nil => simp
  | cons e l ih =>
    obtain ⟨k, u⟩ := e
    intro e he
    simp only [loop] at h
    split at h
    · rename_i hs
      rcases List.mem_cons.mp he with rfl | he
      · exact loop_keeps l s s' h _ (by simp only [Bool.and_eq_true] at hs; exact hs.1)
      · exact ih s h e he
    · split at h
      · rcases List.mem_cons.mp he with rfl | he
        · exact loop_keeps l _ s' h _ (by simp [State.write])
        · exact ih _ h e he
      · exact absurd h (by simp)

/-- C133: `download_sofa_files` returns the paths of the supported files, and without `no_fail` all of them exist when it returns. -/
theorem C133_sofa (dir : String) (info : List Info) (s s' : State C) (h : (downloadSofa server dir info overwrite false s).1 = .done s') :
    (∀ p, p ∈ (downloadSofa server dir info overwrite false s).2 ↔ ∃ i ∈ info, i.supported = true ∧ p = dir ++ "/" ++ i.name ++ ".sofa") ∧
      ∀ p ∈ (downloadSofa server dir info overwrite false s).2, (s'.fs p).isSome := by
  have hb : ¬ (1 / 20 : Rat) < 0 := by norm_num
  simp only [downloadSofa, downloadMultiple, if_neg hb] at h
  refine ⟨?_, ?_⟩
  · intro p
    simp only [downloadSofa, sofaFiles, List.map_map, List.mem_map, List.mem_filter, Function.comp]
    constructor
    · rintro ⟨i, ⟨h1, h2⟩, rfl⟩; exact ⟨i, h1, h2, rfl⟩
    · rintro ⟨i, h1, h2, rfl⟩; exact ⟨i, ⟨h1, h2⟩, rfl⟩
  · intro p hp
    obtain ⟨e, he, rfl⟩ := List.mem_map.mp hp
    exact loop_exists _ s s' h e he

/-- C133, deviation: with `no_fail=True` the list of files downloaded also names files that could not be had. -/
theorem C133_sofa_deviation (dir : String) (i : Info) (hi : i.supported = true) (s : State C) (hs : s.fs (dir ++ "/" ++ i.name ++ ".sofa") = none) (hu : server i.url = none) :
    downloadSofa server dir [i] overwrite true s = (.done s, [dir ++ "/" ++ i.name ++ ".sofa"]) := by
  simp [downloadSofa, downloadMultiple, sofaFiles, hi, loop, hs, hu]

/-- C133: a path of a measured file is taken as it is if it exists, else looked up by its stem, else refused. -/
theorem C133_resolve (isFile : String → Bool) (stem : String → String) (db : String → Option String) (p : String) :
    (∀ q, resolve isFile stem db p = .ok q ↔ (isFile p = true ∧ q = p) ∨ (isFile p = false ∧ db (stem p) = some q)) ∧
      (resolve isFile stem db p = .error .valueError ↔ isFile p = false ∧ db (stem p) = none) := by
  unfold resolve
  cases h : isFile p
  · cases h' : db (stem p) <;> simp [eq_comm]
  · simp [eq_comm]

/-- Two files, of which one exists. -/
def start : State Nat := ⟨fun p => if p = "a" then some 0 else none, 0⟩

/-- A server with one address. -/
def srv : String → Option Nat := fun u => if u = "good" then some 7 else none

/-- Files asked for. -/
def ask : List (Key × String) := [(⟨true, "a"⟩, "good"), (⟨true, "b"⟩, "good")]

example : ∃ s', downloadMultiple srv ask false false (some 1) start = .done s' ∧ s'.fs "a" = some 0 ∧ s'.fs "b" = some 7 := by
  obtain ⟨s', h⟩ := C133_returns (server := srv) (overwrite := false) (noFail := false) (files := ask) (by simp [ask]) (b := 1) (by norm_num) start (Or.inr (by simp [ask, srv]))
  obtain ⟨f, _⟩ := C133_files (by simp [ask]) h
  exact ⟨s', h, (f (⟨true, "a"⟩, "good") (by simp [ask])).1 (by simp [Needed, start]), (f (⟨true, "b"⟩, "good") (by simp [ask])).2.1 7 (by simp [Needed, start]) (by simp [srv])⟩

example := C133_stops (server := srv) (overwrite := true) (l₁ := ask) (l₂ := [(⟨false, "d"⟩, "good")]) (k := ⟨false, "c"⟩) (u := "bad") (by simp [ask]) (b := 0) le_rfl start
  (by simp [ask, srv]) (by simp [Needed]) (by simp [srv])

example : ∃ s', downloadMultiple srv ([(⟨true, "b"⟩, "good")] ++ [(⟨true, "c"⟩, "good")]) false false (some 1) start = .done s' ∧
    s'.pauses = start.pauses + (fetched srv false start.fs [(⟨true, "b"⟩, "good")]).length := by
  obtain ⟨s', h⟩ := C133_returns (server := srv) (overwrite := false) (noFail := false) (files := [(⟨true, "b"⟩, "good")] ++ [(⟨true, "c"⟩, "good")]) (by simp) (b := 1) (by norm_num) start
    (Or.inr (by simp [srv]))
  exact ⟨s', h, C133_pauses (by simp) rfl (by norm_num) h⟩

example : ∃ s', downloadMultiple srv ([] ++ [(⟨false, "c"⟩, "good")]) false false (some 1) start = .done s' ∧ s'.pauses = start.pauses + 1 := by
  obtain ⟨s', h⟩ := C133_returns (server := srv) (overwrite := false) (noFail := false) (files := [] ++ [(⟨false, "c"⟩, "good")]) (by simp) (b := 1) (by norm_num) start (Or.inr (by simp [srv]))
  refine ⟨s', h, ?_⟩
  rw [C133_pause_deviation (by simp) rfl (by norm_num) h, List.nil_append, fetched_cons_yes ⟨by simp [Needed, start], by simp [srv]⟩]
  simp [fetched]

example : ∃ s', (downloadSofa srv "x" [⟨"n", "good", true⟩] false false start).1 = .done s' := by
  simp [downloadSofa, downloadMultiple, sofaFiles, loop, srv, start]
  norm_num

example := C133_sofa_deviation (server := srv) (overwrite := true) "x" ⟨"n", "bad", true⟩ rfl start (by decide) (by simp [srv])

end Verif.Download
