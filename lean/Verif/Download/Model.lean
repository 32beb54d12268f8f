import Verif.Py
import Mathlib.Data.Rat.Defs
import Mathlib.Algebra.Order.Ring.Rat

/-!
# Download of files (`pyroomacoustics/datasets/utils.py` 99-153, `datasets/sofa.py` 118-175)

The file system gives the content of a path, if it exists; the server gives the content of an address, or fails with `URLError` before the local file is touched. Paths are written in one way only.
-/

namespace Verif.Download

open Verif.Py

/-- A key of `files_dict`: a `Path` or a string. The two are never equal. -/
structure Key where
  isPath : Bool
  path : String
deriving DecidableEq

/-- Files and the number of pauses made. -/
structure State (C : Type) where
  fs : String → Option C
  pauses : Nat

/-- End of the function: it returns, raises `URLError` for an address, or raises before anything is done. -/
inductive Out (C : Type) where
  | done (s : State C)
  | urlError (s : State C) (url : String)
  | raised (e : Err)

/-- `urlretrieve` writes the file. -/
def State.write {C : Type} (s : State C) (p : String) (c : C) (pause : Bool) : State C :=
  ⟨fun q => if q = p then some c else s.fs q, if pause then s.pauses + 1 else s.pauses⟩

/-- The loop (utils.py 129-153); `last` is `paths_and_urls[-1][0]`, compared with a `Path`. -/
def loop {C : Type} (server : String → Option C) (overwrite noFail : Bool) (backoff : Rat) (last : Option Key) : List (Key × String) → State C → Out C
  | [], s => .done s
  | (k, u) :: l, s =>
    if (s.fs k.path).isSome && !overwrite then loop server overwrite noFail backoff last l s
    else match server u with
      | some c => loop server overwrite noFail backoff last l (s.write k.path c (decide (some ⟨true, k.path⟩ ≠ last) && decide (backoff > 0)))
      | none => if noFail then loop server overwrite noFail backoff last l s else .urlError s u

/-- `download_multiple` (utils.py 99-153). `None < 0.0` is evaluated before the test for `None` (121-124). -/
def downloadMultiple {C : Type} (server : String → Option C) (files : List (Key × String)) (overwrite noFail : Bool) (backoff : Option Rat) (s : State C) : Out C :=
  match backoff with
  | none => .raised .typeError
  | some b =>
    if b < 0 then .raised .valueError
    else loop server overwrite noFail b (files.getLast?.map (·.1)) files s

/-- An entry of the table of known files. -/
structure Info where
  name : String
  url : String
  supported : Bool

/-- The dictionary built in `download_sofa_files` (sofa.py 164-168). -/
def sofaFiles (dir : String) (info : List Info) : List (Key × String) :=
  (info.filter (·.supported)).map fun i => (⟨true, dir ++ "/" ++ i.name ++ ".sofa"⟩, i.url)

/-- `download_sofa_files` (sofa.py 137-175): the end of the download and the list returned after it. The directory is taken to exist. -/
def downloadSofa {C : Type} (server : String → Option C) (dir : String) (info : List Info) (overwrite noFail : Bool) (s : State C) : Out C × List String :=
  (downloadMultiple server (sofaFiles dir info) overwrite noFail (some (1 / 20)) s, (sofaFiles dir info).map (·.1.path))

/-- `resolve_sofa_path` (sofa.py 118-128), with the test for existence, `Path.stem` and the database given. -/
def resolve (isFile : String → Bool) (stem : String → String) (db : String → Option String) (p : String) : Except Err String :=
  if isFile p then .ok p
  else match db (stem p) with
    | some q => .ok q
    | none => .error .valueError

end Verif.Download
