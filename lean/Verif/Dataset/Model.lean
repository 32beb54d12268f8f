import Mathlib.Data.List.Basic
import Verif.Py

/-!
# Model of the data sets

`pyroomacoustics/datasets/base.py`, 13-57 (`Meta`), 172-237 (`Dataset.add_sample`, `add_sample_matching`, `filter`). Metadata is a list of names
with values of any type `V` whose equality is that of python; a value may fail to be hashable. Names of methods of `Meta`, which
`__getattribute__` finds too, are left out. Dictionaries are lists in order of insertion.
-/

namespace Verif.Dataset

open Verif.Py (Err)

variable {V : Type} [DecidableEq V] {D : Type}

/-- Metadata: names, each once, and values. -/
abbrev Meta (V : Type) := List (String × V)

/-- A sample (88-91). -/
structure Sample (V D : Type) where
  data : D
  md : Meta V

/-- A value of a keyword argument: what it is compared to, its elements if it is a list, its function if it can be called. -/
structure Criterion (V : Type) where
  val : V
  list : Option (List V)
  fn : Option (V → Bool)

/-- Does one of the three ways of lines 42-47 of `datasets/base.py` succeed? -/
def Criterion.accepts (c : Criterion V) (attr : V) : Bool :=
  (match c.fn with | some f => f attr | none => false) || (match c.list with | some l => l.contains attr | none => false) || attr == c.val

/-- `Meta.match(**kwargs)` (27-57). -/
def matches_ (m : Meta V) : List (String × Criterion V) → Except Err Bool
  | [] => .ok true
  | (key, c) :: t =>
    match m.lookup key with
    | none => .error .attributeError
    | some attr => if c.accepts attr then matches_ m t else .ok false

/-- `d[key] = val` for a dictionary. -/
def assign {α β : Type} [DecidableEq α] (d : List (α × β)) (k : α) (v : β) : List (α × β) :=
  if d.any (fun p => p.1 = k) then d.map fun p => if p.1 = k then (k, v) else p else d ++ [(k, v)]

/-- The corpus. -/
structure Corpus (V D : Type) where
  samples : List (Sample V D)
  info : List (String × List (V × Nat))

/-- `Dataset()` (190-192). -/
def empty : Corpus V D := ⟨[], []⟩

/-- Body of the loop of lines 199-206. A value that is not hashable raises when it is looked up, after the entry of the name was made. -/
def count (hashable : V → Bool) (info : List (String × List (V × Nat))) (key : String) (val : V) : List (String × List (V × Nat)) × Option Err :=
  let info := if (info.lookup key).isNone then assign info key [] else info
  if hashable val then
    let d := (info.lookup key).getD []
    match d.lookup val with
    | none => (assign info key (assign d val 1), none)
    | some n => (assign info key (assign d val (n + 1)), none)
  else (info, some .typeError)

/-- The loop of lines 199-206. -/
def countAll (hashable : V → Bool) : List (String × List (V × Nat)) → Meta V → List (String × List (V × Nat)) × Option Err
  | info, [] => (info, none)
  | info, (key, val) :: t =>
    match count hashable info key val with
    | (info, some e) => (info, some e)
    | (info, none) => countAll hashable info t

/-- `add_sample` (194-209): the corpus afterwards and the error, if any. -/
def addSample (hashable : V → Bool) (d : Corpus V D) (s : Sample V D) : Corpus V D × Option Err :=
  match countAll hashable d.info s.md with
  | (info, some e) => ({ d with info := info }, some e)
  | (info, none) => (⟨d.samples ++ [s], info⟩, none)

/-- `add_sample_matching` (211-219). -/
def addMatching (hashable : V → Bool) (d : Corpus V D) (s : Sample V D) (kwargs : List (String × Criterion V)) : Corpus V D × Option Err :=
  match matches_ s.md kwargs with
  | .error e => (d, some e)
  | .ok true => addSample hashable d s
  | .ok false => (d, none)

/-- The loop of `filter` (234-235). -/
def filterFrom (hashable : V → Bool) (kwargs : List (String × Criterion V)) : Corpus V D → List (Sample V D) → Except Err (Corpus V D)
  | d, [] => .ok d
  | d, s :: t =>
    match addMatching hashable d s kwargs with
    | (_, some e) => .error e
    | (d, none) => filterFrom hashable kwargs d t

/-- `filter(**kwargs)` (221-237). -/
def filter (hashable : V → Bool) (d : Corpus V D) (kwargs : List (String × Criterion V)) : Except Err (Corpus V D) :=
  filterFrom hashable kwargs empty d.samples

/-- A history of additions; an addition that raises leaves what it did. -/
def addAll (hashable : V → Bool) (d : Corpus V D) (l : List (Sample V D)) : Corpus V D := l.foldl (fun d s => (addSample hashable d s).1) d

end Verif.Dataset
