import Verif.Mics.Model
import Mathlib.Tactic.Linarith
import Mathlib.Tactic.FieldSimp
import Mathlib.Tactic.Ring

/-!
# C40, C41: microphones of the engine and consistency of microphone arrays
-/

namespace Verif.Mics

open Py (Err)

variable {Dir : Type}

/-! ## C40 -/

/-- The engine of every room has the microphones of the array of the room, in the same order, and no array belongs to two rooms. -/
def Sync (y : Sys Dir) : Prop :=
  (∀ r, (y.rooms r).engine = match (y.rooms r).micArray with
    | none => []
    | some id => (y.heap id).R) ∧
  ∀ r r' id, (y.rooms r).micArray = some id → (y.rooms r').micArray = some id → r = r'

/-- The array is that of a room. -/
def Owned (y : Sys Dir) (id : Nat) : Prop := ∃ r, (y.rooms r).micArray = some id

/-- Calls that do not add an array that is already that of a room, do not change the array of a room directly, and do not extrude a room with
microphones. -/
def Safe (y : Sys Dir) : Op Dir → Prop
  | .new id _ _ _ _ => ¬Owned y id
  | .add _ id => ¬Owned y id
  | .append self _ => ¬Owned y self
  | .appendLocs self _ _ => ¬Owned y self
  | .setDirectivity _ _ => True
  | .record _ _ _ _ => True
  | .extrude r => (y.rooms r).micArray = none

/-- Every call of the history satisfies the condition when it is made. -/
def During (omni : Dir) (cond : Sys Dir → Op Dir → Prop) : Sys Dir → List (Op Dir) → Prop
  | _, [] => True
  | y, op :: ops => cond y op ∧ During omni cond (run omni y [op]) ops

theorem run_cons (omni : Dir) (y : Sys Dir) (op : Op Dir) (ops : List (Op Dir)) : run omni y (op :: ops) = run omni (run omni y [op]) ops := rfl

theorem sync_heap {y : Sys Dir} (hy : Sync y) {id : Nat} {a : MicArray Dir} (h : ¬Owned y id ∨ a.R = (y.heap id).R) :
    Sync { y with heap := Function.update y.heap id a } := by
  refine ⟨?_, hy.2⟩
  intro r
  have := hy.1 r
  simp only
  rw [this]
  cases hm : (y.rooms r).micArray with
  | none => rfl
  | some k =>
    simp only
    by_cases hk : k = id
    · subst hk
      rw [Function.update_self]
      rcases h with h | h
      · exact absurd ⟨r, hm⟩ h
      · exact h.symm
    · rw [Function.update_of_ne hk]

theorem append_ne {h h' : Heap Dir} {self other : Nat} (hh : append h self other = .ok h') {k : Nat} (hk : k ≠ self) : h' k = h k := by
  unfold append at hh
  split at hh
  · cases hh
  · cases hh
    simp [Function.update_of_ne hk]

theorem append_self {h h' : Heap Dir} {self other : Nat} (hh : append h self other = .ok h') (hne : self ≠ other) :
    (h' self).R = (h self).R ++ (h other).R ∧ (h' self).directivity = (h self).directivity ++ (h other).directivity ∧
    (h' self).signals = padSignals (h self).signals (h other).R.length ∧ (h' self).dim = (h self).dim ∧ (h' self).center = (h self).center := by
  unfold append at hh
  split at hh
  · cases hh
  · cases hh
    simp [Function.update_of_ne hne.symm]

theorem sync_step (omni : Dir) {y y' : Sys Dir} {op : Op Dir} (hy : Sync y) (hs : Safe y op) (h : step omni y op = .ok y') : Sync y' := by
  cases op with
  | new id dim R fs d =>
    simp only [step] at h
    cases ha : MicArray.new dim R fs d with
    | error e => rw [ha] at h; cases h
    | ok a => rw [ha] at h; cases h; exact sync_heap hy (Or.inl hs)
  | append self other =>
    simp only [step] at h
    cases ha : append y.heap self other with
    | error e => rw [ha] at h; cases h
    | ok a =>
      rw [ha] at h; cases h
      refine ⟨?_, hy.2⟩
      intro r
      have := hy.1 r
      simp only
      rw [this]
      cases hm : (y.rooms r).micArray with
      | none => rfl
      | some k =>
        simp only
        have hk : k ≠ self := by
          rintro rfl
          exact hs ⟨r, hm⟩
        rw [append_ne ha hk]
  | appendLocs self dim locs =>
    simp only [step] at h
    cases ha : appendLocs omni (y.heap self) dim locs with
    | error e => rw [ha] at h; cases h
    | ok a => rw [ha] at h; cases h; exact sync_heap hy (Or.inl hs)
  | setDirectivity self d =>
    simp only [step] at h
    cases ha : setDirectivity (y.heap self) d with
    | error e => rw [ha] at h; cases h
    | ok a =>
      rw [ha] at h; cases h
      refine sync_heap hy (Or.inr ?_)
      unfold setDirectivity at ha
      cases d with
      | one d => cases ha; rfl
      | many l =>
        simp only at ha
        split at ha
        · cases ha; rfl
        · cases ha
  | record self signals sameFs resampled =>
    simp only [step] at h
    cases ha : record (y.heap self) signals sameFs resampled with
    | error e => rw [ha] at h; cases h
    | ok a =>
      rw [ha] at h; cases h
      refine sync_heap hy (Or.inr ?_)
      unfold record at ha
      split at ha
      · cases ha
      · split at ha <;> (cases ha; rfl)
  | extrude r =>
    simp only [step] at h
    unfold extrude at h
    split at h
    · cases h
    · cases h
      have hs' : (y.rooms r).micArray = none := hs
      constructor
      · intro k
        by_cases hk : k = r
        · subst hk; simp [hs']
        · simp only [Function.update_of_ne hk]; exact hy.1 k
      · intro a b id ha hb
        have key : ∀ c, (Function.update y.rooms r { y.rooms r with dim := 3, engine := [] } c).micArray = (y.rooms c).micArray := by
          intro c
          by_cases hc : c = r
          · subst hc; simp
          · rw [Function.update_of_ne hc]
        simp only [key] at ha hb
        exact hy.2 a b id ha hb
  | add r id =>
    simp only [step] at h
    unfold addArray at h
    have hs' : ¬Owned y id := hs
    simp only at h
    split at h
    · cases h
    · split at h
      · rename_i hd hm
        cases h
        constructor
        · intro k
          by_cases hk : k = r
          · subst hk
            have := hy.1 k
            rw [hm] at this
            simp [this]
          · simp only [Function.update_of_ne hk]; exact hy.1 k
        · intro a b j ha hb
          by_cases h1 : a = r
          · by_cases h2 : b = r
            · rw [h1, h2]
            · subst h1
              simp only [Function.update_self, Option.some.injEq] at ha
              simp only [Function.update_of_ne h2] at hb
              exact absurd ⟨b, by rw [hb, ha]⟩ hs'
          · by_cases h2 : b = r
            · subst h2
              simp only [Function.update_self, Option.some.injEq] at hb
              simp only [Function.update_of_ne h1] at ha
              exact absurd ⟨a, by rw [ha, hb]⟩ hs'
            · simp only [Function.update_of_ne h1] at ha
              simp only [Function.update_of_ne h2] at hb
              exact hy.2 a b j ha hb
      · rename_i hd own hm
        have hne : own ≠ id := by
          rintro rfl
          exact hs' ⟨r, hm⟩
        cases ha : append y.heap own id with
        | error e => rw [ha] at h; cases h
        | ok hp =>
          rw [ha] at h
          cases h
          obtain ⟨hR, _⟩ := append_self ha hne
          have key : ∀ c, (Function.update y.rooms r { y.rooms r with engine := (y.rooms r).engine ++ (hp id).R } c).micArray = (y.rooms c).micArray := by
            intro c
            by_cases hc : c = r
            · subst hc; simp
            · rw [Function.update_of_ne hc]
          constructor
          · intro k
            simp only
            rw [key]
            by_cases hk : k = r
            · subst hk
              have h1 := hy.1 k
              rw [hm] at h1
              simp only at h1
              rw [Function.update_self, hm]
              simp only
              rw [h1, hR, append_ne ha hne.symm]
            · rw [Function.update_of_ne hk, hy.1 k]
              cases hmk : (y.rooms k).micArray with
              | none => rfl
              | some j =>
                simp only
                have : j ≠ own := by
                  rintro rfl
                  exact hk (hy.2 k r j hmk hm)
                rw [append_ne ha this]
          · intro a b j ha' hb'
            simp only [key] at ha' hb'
            exact hy.2 a b j ha' hb'

/-- **C40** After any history of safe calls the engine of every room has exactly the microphones of its array, in order. -/
theorem C40_sync (omni : Dir) : ∀ {ops : List (Op Dir)} {y : Sys Dir}, Sync y → During omni Safe y ops → Sync (run omni y ops)
  | [], _, hy, _ => hy
  | op :: ops, y, hy, hs => by
    rw [run_cons]
    refine C40_sync omni ?_ hs.2
    show Sync (match step omni y op with
      | .ok y' => y'
      | .error _ => y)
    cases h : step omni y op with
    | error e => exact hy
    | ok y' => exact sync_step omni hy hs.1 h

/-- Rooms in the beginning. -/
theorem C40_init {y : Sys Dir} (h : ∀ r, (y.rooms r).micArray = none ∧ (y.rooms r).engine = []) : Sync y := by
  refine ⟨fun r => by rw [(h r).1, (h r).2], ?_⟩
  intro r r' id h1 _
  rw [(h r).1] at h1
  cases h1

/-- Adding different arrays to a room that has the array `own`. -/
theorem add_many (omni : Dir) (r own : Nat) : ∀ {ids : List Nat} {y : Sys Dir}, (y.rooms r).micArray = some own → own ∉ ids →
    (∀ id ∈ ids, (y.heap id).dim = (y.rooms r).dim) → (y.heap own).dim = (y.rooms r).dim →
    ((run omni y (ids.map fun id => Op.add r id)).rooms r).engine = (y.rooms r).engine ++ ids.flatMap (fun id => (y.heap id).R)
  | [], _, _, _, _, _ => by simp [run]
  | id :: ids, y, hm, hn, hd, hdo => by
    rw [List.map_cons, run_cons]
    have hne : own ≠ id := by rintro rfl; exact hn (by simp)
    have hap : ∃ hp, append y.heap own id = .ok hp := by
      unfold append
      rw [if_neg (by rw [hdo, hd id (by simp)]; simp)]
      exact ⟨_, rfl⟩
    obtain ⟨hp, hap⟩ := hap
    have hst : run omni y [Op.add r id] =
        { heap := hp, rooms := Function.update y.rooms r { y.rooms r with engine := (y.rooms r).engine ++ (hp id).R } } := by
      show (match step omni y (Op.add r id) with
        | .ok y' => y'
        | .error _ => y) = _
      simp only [step]
      unfold addArray
      simp only [hm, hap]
      rw [if_neg (by rw [hd id (by simp)]; simp)]
    rw [hst]
    rw [add_many omni r own (ids := ids)]
    · simp only [Function.update_self, List.flatMap_cons, append_ne hap hne.symm, List.append_assoc]
      congr 2
      have key : ∀ l : List Nat, own ∉ l → l.flatMap (fun id => (hp id).R) = l.flatMap fun id => (y.heap id).R := by
        intro l hl
        induction l with
        | nil => rfl
        | cons a l ih =>
          rw [List.flatMap_cons, List.flatMap_cons, ih (fun h => hl (by simp [h])), append_ne hap (fun h => hl (by simp [h]))]
      exact key ids (fun h => hn (by simp [h]))
    · simp [hm]
    · exact fun h => hn (by simp [h])
    · intro j hj
      have : j ≠ own := by rintro rfl; exact hn (by simp [hj])
      simp only [Function.update_self]
      rw [append_ne hap this, hd j (by simp [hj])]
    · simp only [Function.update_self]
      rw [(append_self hap hne).2.2.2.1, hdo]

/-- **C40** Adding arrays one after the other, the first one only once: the engine has the microphones of all of them, in order. -/
theorem C40_order (omni : Dir) {y : Sys Dir} {r own : Nat} {ids : List Nat} (hm : (y.rooms r).micArray = none) (he : (y.rooms r).engine = [])
    (hn : own ∉ ids) (hd : ∀ id ∈ own :: ids, (y.heap id).dim = (y.rooms r).dim) :
    ((run omni y ((own :: ids).map fun id => Op.add r id)).rooms r).engine = (own :: ids).flatMap fun id => (y.heap id).R := by
  rw [List.map_cons, run_cons]
  have hst : run omni y [Op.add r own] =
      { y with rooms := Function.update y.rooms r { y.rooms r with micArray := some own, engine := (y.rooms r).engine ++ (y.heap own).R } } := by
    show (match step omni y (Op.add r own) with
      | .ok y' => y'
      | .error _ => y) = _
    simp only [step]
    unfold addArray
    simp only [hm]
    rw [if_neg (by rw [hd own (by simp)]; simp)]
  rw [hst, add_many omni r own]
  · simp [he]
  · simp
  · exact hn
  · intro id hid; simpa using hd id (by simp [hid])
  · simpa using hd own (by simp)

theorem run_add_none (omni : Dir) {y : Sys Dir} {r id : Nat} (hm : (y.rooms r).micArray = none) (hd : (y.heap id).dim = (y.rooms r).dim) :
    run omni y [Op.add r id] =
      { y with rooms := Function.update y.rooms r { y.rooms r with micArray := some id, engine := (y.rooms r).engine ++ (y.heap id).R } } := by
  show (match step omni y (Op.add r id) with
    | .ok y' => y'
    | .error _ => y) = _
  simp only [step]
  unfold addArray
  simp only [hm]
  rw [if_neg (by rw [hd]; simp)]

theorem run_add_some (omni : Dir) {y : Sys Dir} {r own id : Nat} {hp : Heap Dir} (hm : (y.rooms r).micArray = some own)
    (hd : (y.heap id).dim = (y.rooms r).dim) (ha : append y.heap own id = .ok hp) :
    run omni y [Op.add r id] = { heap := hp, rooms := Function.update y.rooms r { y.rooms r with engine := (y.rooms r).engine ++ (hp id).R } } := by
  show (match step omni y (Op.add r id) with
    | .ok y' => y'
    | .error _ => y) = _
  simp only [step]
  unfold addArray
  simp only [hm, ha]
  rw [if_neg (by rw [hd]; simp)]

/-- **C40** Deviation: adding the same array twice gives it `2 n` microphones, and the engine `3 n`. -/
theorem C40_same_object_deviation (omni : Dir) {y : Sys Dir} {r id : Nat} (hm : (y.rooms r).micArray = none) (he : (y.rooms r).engine = [])
    (hd : (y.heap id).dim = (y.rooms r).dim) :
    let y' := run omni y [.add r id, .add r id]
    (y'.rooms r).micArray = some id ∧ (y'.heap id).R.length = 2 * (y.heap id).R.length ∧ (y'.rooms r).engine.length = 3 * (y.heap id).R.length := by
  have hap : ∃ hp, append y.heap id id = .ok hp ∧ (hp id).R = (y.heap id).R ++ (y.heap id).R := by
    unfold append
    rw [if_neg (by simp)]
    exact ⟨_, rfl, by simp⟩
  obtain ⟨hp, hap, hR⟩ := hap
  simp only
  rw [run_cons]
  have e1 := run_add_none omni hm hd
  generalize run omni y [Op.add r id] = y1 at *
  have a1 : (y1.rooms r).micArray = some id := by rw [e1]; simp
  have a2 : (y1.heap id).dim = (y1.rooms r).dim := by rw [e1]; simpa using hd
  have a3 : append y1.heap id id = .ok hp := by rw [e1]; exact hap
  have a4 : (y1.rooms r).engine = (y.heap id).R := by rw [e1]; simp [he]
  rw [run_add_some omni a1 a2 a3]
  simp [hR, a1, a4]
  omega

/-- **C40** Deviation: microphones appended to the array of a room do not reach the engine. -/
theorem C40_append_deviation (omni : Dir) {y : Sys Dir} {r id dim : Nat} {locs : List Loc} (hy : Sync y) (hm : (y.rooms r).micArray = some id)
    (hd : dim = (y.heap id).dim) (hl : locs ≠ []) :
    let y' := run omni y [.appendLocs id dim locs]
    (y'.rooms r).micArray = some id ∧ (y'.rooms r).engine.length < (y'.heap id).R.length := by
  have h1 := hy.1 r
  rw [hm] at h1
  simp only at h1
  have := List.length_pos_of_ne_nil hl
  simp only [run, List.foldl_cons, List.foldl_nil, step, appendLocs, hd]
  simp [hm, h1, Except.map]
  exact this

/-- **C40** Deviation: an array that is added to two rooms changes when microphones are added to one of them, and the engine of the other does not see them. -/
theorem C40_shared_deviation (omni : Dir) {y : Sys Dir} {r r' id other : Nat} (hr : r ≠ r') (ho : id ≠ other)
    (hm : (y.rooms r).micArray = none) (he : (y.rooms r).engine = []) (hm' : (y.rooms r').micArray = none)
    (hd : (y.heap id).dim = (y.rooms r).dim) (hd' : (y.heap id).dim = (y.rooms r').dim) (hdo : (y.heap other).dim = (y.heap id).dim)
    (hn : (y.heap other).R ≠ []) :
    let y' := run omni y [.add r id, .add r' id, .add r' other]
    (y'.rooms r).micArray = some id ∧ (y'.rooms r).engine.length < (y'.heap id).R.length := by
  have hpos := List.length_pos_of_ne_nil hn
  have hap : ∃ hp, append y.heap id other = .ok hp := by
    unfold append
    rw [if_neg (by rw [hdo]; simp)]
    exact ⟨_, rfl⟩
  obtain ⟨hp, hap⟩ := hap
  simp only
  rw [run_cons]
  have e1 := run_add_none omni hm hd
  generalize run omni y [Op.add r id] = y1 at *
  have a1 : (y1.rooms r').micArray = none := by rw [e1]; simp [Function.update_of_ne hr.symm, hm']
  have a2 : (y1.heap id).dim = (y1.rooms r').dim := by rw [e1]; simpa [Function.update_of_ne hr.symm] using hd'
  have a3 : (y1.rooms r).engine = (y.heap id).R := by rw [e1]; simp [he]
  have a4 : (y1.rooms r).micArray = some id := by rw [e1]; simp
  have a5 : y1.heap = y.heap := by rw [e1]
  rw [run_cons]
  have e2 := run_add_none omni a1 a2
  generalize run omni y1 [Op.add r' id] = y2 at *
  have b1 : (y2.rooms r').micArray = some id := by rw [e2]; simp
  have b2 : (y2.heap other).dim = (y2.rooms r').dim := by rw [e2]; simp [← a2, a5, hdo]
  have b3 : append y2.heap id other = .ok hp := by rw [e2]; simp only [a5]; exact hap
  have b4 : y2.rooms r = y1.rooms r := by rw [e2]; simp [Function.update_of_ne hr]
  rw [run_add_some omni b1 b2 b3]
  simp [Function.update_of_ne hr, b4, a3, a4, (append_self hap ho).1]
  exact hpos

/-- **C40** Deviation: after extrusion of a room with microphones, the engine has none. -/
theorem C40_extrude_deviation (omni : Dir) {y : Sys Dir} {r id : Nat} (hm : (y.rooms r).micArray = some id) (hd : (y.rooms r).dim = 2) :
    let y' := run omni y [.extrude r]
    (y'.rooms r).micArray = some id ∧ (y'.heap id).R = (y.heap id).R ∧ (y'.rooms r).engine = [] := by
  simp only [run, List.foldl_cons, List.foldl_nil, step, extrude, hd]
  simp [hm]

/-! ## C41 -/

/-- One directivity and one row of the signals for every microphone. -/
def Consistent (a : MicArray Dir) : Prop := a.directivity.length = a.R.length ∧ ∀ rows, a.signals = some rows → rows.length = a.R.length

/-- An array is not appended to itself. -/
def NoSelf (y : Sys Dir) : Op Dir → Prop
  | .append self other => self ≠ other
  | .add r id => (y.rooms r).micArray ≠ some id
  | _ => True

theorem consistent_pad {R : List Loc} {d : List Dir} {s : Option (List (List ℝ))} {n k : Nat} (h : ∀ rows, s = some rows → rows.length = n) :
    ∀ rows, padSignals s k = some rows → rows.length = n + k := by
  intro rows hr
  unfold padSignals at hr
  cases s with
  | none => cases hr
  | some rs =>
    simp only [Option.map_some, Option.some.injEq] at hr
    rw [← hr, List.length_append, List.length_replicate, h rs rfl]

theorem consistent_append {h h' : Heap Dir} {self other : Nat} (hne : self ≠ other) (hc : ∀ k, Consistent (h k)) (ha : append h self other = .ok h') :
    ∀ k, Consistent (h' k) := by
  intro k
  by_cases hk : k = self
  · subst hk
    obtain ⟨h1, h2, h3, _⟩ := append_self ha hne
    refine ⟨by rw [h1, h2, List.length_append, List.length_append, (hc k).1, (hc other).1], ?_⟩
    rw [h1, h3, List.length_append]
    exact consistent_pad (R := (h k).R) (d := (h k).directivity) (hc k).2
  · rw [append_ne ha hk]; exact hc k

theorem consistent_update {h : Heap Dir} {id : Nat} {a : MicArray Dir} (hc : ∀ k, Consistent (h k)) (ha : Consistent a) :
    ∀ k, Consistent (Function.update h id a k) := by
  intro k
  by_cases hk : k = id
  · subst hk; rw [Function.update_self]; exact ha
  · rw [Function.update_of_ne hk]; exact hc k

theorem consistent_setDirectivity {a a' : MicArray Dir} {d : DirArg Dir} (hc : ∀ rows, a.signals = some rows → rows.length = a.R.length)
    (h : setDirectivity a d = .ok a') : Consistent a' ∧ a'.R = a.R := by
  unfold setDirectivity at h
  cases d with
  | one d => cases h; exact ⟨⟨by simp, hc⟩, rfl⟩
  | many l =>
    simp only at h
    split at h
    · rename_i hl; cases h; exact ⟨⟨hl, hc⟩, rfl⟩
    · cases h

theorem consistent_step (omni : Dir) {y y' : Sys Dir} {op : Op Dir} (hc : ∀ k, Consistent (y.heap k)) (hs : NoSelf y op)
    (h : step omni y op = .ok y') : ∀ k, Consistent (y'.heap k) := by
  cases op with
  | new id dim R fs d =>
    simp only [step] at h
    unfold MicArray.new at h
    split at h
    · cases h
    · split at h
      · cases h
      · rename_i a ha
        cases h
        obtain ⟨h1, h2⟩ := consistent_setDirectivity (by intro rows hr; cases hr) ha
        exact consistent_update hc ⟨h1.1, by intro rows hr; cases hr⟩
  | append self other =>
    simp only [step] at h
    cases ha : append y.heap self other with
    | error e => rw [ha] at h; cases h
    | ok a => rw [ha] at h; cases h; exact consistent_append hs hc ha
  | appendLocs self dim locs =>
    simp only [step] at h
    unfold appendLocs at h
    split at h
    · cases h
    · cases h
      refine consistent_update hc ⟨?_, ?_⟩
      · simp [(hc self).1]
      · simp only [List.length_append]
        exact consistent_pad (R := (y.heap self).R) (d := (y.heap self).directivity) (hc self).2
  | setDirectivity self d =>
    simp only [step] at h
    cases ha : setDirectivity (y.heap self) d with
    | error e => rw [ha] at h; cases h
    | ok a => rw [ha] at h; cases h; exact consistent_update hc (consistent_setDirectivity (hc self).2 ha).1
  | record self signals sameFs resampled =>
    simp only [step] at h
    unfold record at h
    split at h
    · cases h
    · rename_i hl
      split at h
      · cases h
        refine consistent_update hc ⟨(hc self).1, ?_⟩
        intro rows hr
        cases hr
        exact not_not.mp hl
      · cases h
        refine consistent_update hc ⟨(hc self).1, ?_⟩
        intro rows hr
        cases hr
        simp
  | extrude r =>
    simp only [step] at h
    unfold extrude at h
    split at h
    · cases h
    · cases h; exact hc
  | add r id =>
    simp only [step] at h
    unfold addArray at h
    simp only at h
    split at h
    · cases h
    · split at h
      · cases h; exact hc
      · rename_i own hm
        cases ha : append y.heap own id with
        | error e => rw [ha] at h; cases h
        | ok hp =>
          rw [ha] at h
          cases h
          refine consistent_append ?_ hc ha
          rintro rfl
          exact hs hm

/-- **C41** After any history of calls (without appending an array to itself) every array has one directivity and one row of signals per microphone. -/
theorem C41_consistent (omni : Dir) : ∀ {ops : List (Op Dir)} {y : Sys Dir}, (∀ k, Consistent (y.heap k)) → During omni NoSelf y ops →
    ∀ k, Consistent ((run omni y ops).heap k)
  | [], _, hy, _ => hy
  | op :: ops, y, hy, hs => by
    rw [run_cons]
    refine C41_consistent omni ?_ hs.2
    show ∀ k, Consistent ((match step omni y op with
      | .ok y' => y'
      | .error _ => y).heap k)
    cases h : step omni y op with
    | error e => exact hy
    | ok y' => exact consistent_step omni hy hs.1 h

/-- **C41** Appending another array: microphones, directivities and signals in front stay as they are, those of the other array follow, with silence as
signals. -/
theorem C41_append {h h' : Heap Dir} {self other : Nat} (hne : self ≠ other) (ha : append h self other = .ok h') :
    (h' self).R = (h self).R ++ (h other).R ∧ (h' self).directivity = (h self).directivity ++ (h other).directivity ∧
    (∀ rows, (h self).signals = some rows → ∃ rows', (h' self).signals = some rows' ∧ rows'.length = rows.length + (h other).R.length ∧
      rows'.take rows.length = rows ∧ ∀ row ∈ rows'.drop rows.length, ∀ v ∈ row, v = 0) ∧
    ∀ k, k ≠ self → h' k = h k := by
  obtain ⟨h1, h2, h3, _⟩ := append_self ha hne
  refine ⟨h1, h2, ?_, fun k hk => append_ne ha hk⟩
  intro rows hr
  rw [h3, hr]
  refine ⟨_, rfl, by simp, by simp, ?_⟩
  intro row hrow v hv
  rw [List.drop_left] at hrow
  rw [List.eq_of_mem_replicate hrow] at hv
  exact List.eq_of_mem_replicate hv

/-- **C41** Deviation: an array with `n` microphones and signals appended to itself has `2 n` microphones, but `3 n` rows of signals. -/
theorem C41_self_append_deviation {h h' : Heap Dir} {self : Nat} {rows : List (List ℝ)} (hc : Consistent (h self)) (hr : (h self).signals = some rows)
    (ha : append h self self = .ok h') :
    (h' self).R.length = 2 * (h self).R.length ∧ (h' self).directivity.length = 2 * (h self).R.length ∧
    ∃ rows', (h' self).signals = some rows' ∧ rows'.length = 3 * (h self).R.length := by
  unfold append at ha
  rw [if_neg (by simp)] at ha
  cases ha
  have h1 := hc.1
  have h2 := hc.2 rows hr
  refine ⟨by simp; omega, by simp [h1]; omega, ?_⟩
  simp only [Function.update_self, padSignals, hr, Option.map_some]
  refine ⟨_, rfl, ?_⟩
  simp [h2]
  omega

/-- **C41** The centre of a new array is the mean of its microphones. -/
theorem C41_center {dim : Nat} {R : List Loc} {fs : ℝ} {d : DirArg Dir} {a : MicArray Dir} (h : MicArray.new dim R fs d = .ok a) :
    (dim = 2 ∨ dim = 3) ∧ a.R = R ∧ ∀ i, a.center i * R.length = (R.map fun r => r i).sum := by
  unfold MicArray.new at h
  split at h
  · cases h
  · rename_i hd
    split at h
    · cases h
    · rename_i b hb
      cases h
      obtain ⟨_, h2⟩ := consistent_setDirectivity (by intro rows hr; cases hr) hb
      refine ⟨by omega, h2, ?_⟩
      intro i
      simp only [meanLoc]
      cases R with
      | nil => simp
      | cons x R =>
        rw [div_mul_cancel₀]
        rw [List.length_cons]
        positivity

/-- **C41** Deviation: the centre is not changed by append; afterwards it is the mean only if the new microphones have the same mean as the old ones. -/
theorem C41_center_deviation {h h' : Heap Dir} {self other : Nat} (hne : self ≠ other) (ha : append h self other = .ok h')
    (hc : (h self).center = meanLoc (h self).R) (h1 : (h self).R ≠ []) (h2 : (h other).R ≠ []) :
    (h' self).center = meanLoc (h' self).R ↔ meanLoc (h self).R = meanLoc (h other).R := by
  obtain ⟨hR, _, _, _, hcen⟩ := append_self ha hne
  rw [hcen, hc, hR]
  have p1 : (0 : ℝ) < (h self).R.length := by exact_mod_cast List.length_pos_of_ne_nil h1
  have p2 : (0 : ℝ) < (h other).R.length := by exact_mod_cast List.length_pos_of_ne_nil h2
  rw [funext_iff, funext_iff]
  apply forall_congr'
  intro i
  unfold meanLoc
  rw [List.map_append, List.sum_append, List.length_append, Nat.cast_add]
  generalize ((h self).R.map fun r => r i).sum = A at *
  generalize ((h other).R.map fun r => r i).sum = B at *
  generalize ((h self).R.length : ℝ) = n at *
  generalize ((h other).R.length : ℝ) = m at *
  rw [div_eq_div_iff p1.ne' (by positivity), div_eq_div_iff p1.ne' p2.ne']
  constructor <;> intro hh <;> linarith

/-! ## Non-vacuity -/

/-- Two arrays of two and one microphones, and a room. -/
noncomputable def exSys : Sys (Option Nat) where
  heap := fun k => if k = 0 then ⟨3, [fun _ => 1, fun _ => 3], 1, [none, none], none, fun _ => 2⟩ else ⟨3, [fun _ => 7], 1, [some 5], none, fun _ => 7⟩
  rooms := fun _ => ⟨3, none, []⟩

example : Sync exSys ∧ During none Safe exSys [.add 0 0, .add 0 1, .add 0 1] := by
  refine ⟨C40_init fun r => ⟨rfl, rfl⟩, ?_, ?_, ?_, trivial⟩
  · rintro ⟨r, hr⟩; cases hr
  · rintro ⟨r, hr⟩
    by_cases h : r = 0
    · subst h; simp [run, step, addArray, exSys] at hr
    · simp [run, step, addArray, exSys, h] at hr
  · rintro ⟨r, hr⟩
    by_cases h : r = 0
    · subst h; simp [run, step, addArray, append, exSys] at hr
    · simp [run, step, addArray, append, exSys, h] at hr

example : (∀ k, Consistent (exSys.heap k)) ∧ meanLoc (exSys.heap 0).R ≠ meanLoc (exSys.heap 1).R ∧ (exSys.heap 0).center = meanLoc (exSys.heap 0).R := by
  refine ⟨?_, ?_, ?_⟩
  · intro k
    unfold exSys
    simp only
    split
    · exact ⟨rfl, by intro rows h; cases h⟩
    · exact ⟨rfl, by intro rows h; cases h⟩
  · intro h
    have := congrFun h 0
    simp [exSys, meanLoc] at this
    norm_num at this
  · funext i
    simp [exSys, meanLoc]
    norm_num

end Verif.Mics
