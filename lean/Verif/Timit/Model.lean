import Verif.Py

/-!
# The TIMIT corpus (`datasets/timit.py`)

A line of a text file is the list of its fields (`line.split()`); Python's `int` of a string is a parameter. Names of directories are lists of characters; the entries of a directory are given as
`os.path.splitext` splits them. The text of a sentence, plots and features are not modelled.
-/

namespace Verif.Timit

open Py

/-- A line after `split()`. -/
abbrev Line := List String

/-- A transcribed piece: `{"name": …, "bnd": …}`. -/
structure Mark where
  /-- `bnd[0]`. -/
  b : Int
  /-- `bnd[1]`. -/
  e : Int
  /-- `name`. -/
  name : String
  deriving DecidableEq

/-- `Word` (98-138): the phonems have boundaries relative to the beginning of the word. -/
structure Word where
  /-- `word`. -/
  word : String
  /-- `boundaries[0]`. -/
  b : Int
  /-- `boundaries[1]`. -/
  e : Int
  /-- `phonems`. -/
  phonems : List Mark
  deriving DecidableEq

/-- `Word.samples` (136). -/
def Word.samples {α : Type} (w : Word) (data : List α) : List α := slice data (some w.b) (some w.e)

/-- `t[i]` of a list of strings. -/
def field (t : Line) (i : Nat) : Except Err String :=
  match t[i]? with
  | some s => .ok s
  | none => .error .indexError

/-- The loop over the phonems for a word with the boundaries `wb` and `we` (262-287): the phonems that are added to the sentence, those that are added to the word, and the lines that are left. -/
def takePhonems (int : String → Except Err Int) (wb we : Int) : List Line → Except Err (List Mark × List Mark × List Line)
  | [] => .ok ([], [], [])
  | u :: rest => do
    let b ← int (← field u 0)
    let e ← int (← field u 1)
    if we < e then return ([], [], u :: rest)
    else
      let name ← field u 2
      let r ← takePhonems int wb we rest
      return (⟨b, e, name⟩ :: r.1, if b < wb then r.2.1 else ⟨b - wb, e - wb, name⟩ :: r.2.1, r.2.2)

/-- The loop over the lines of the word file (255-292). -/
def takeWords (int : String → Except Err Int) : List Line → List Line → Except Err (List Word × List Mark × List Line)
  | [], ph => .ok ([], [], ph)
  | t :: ts, ph =>
    if t.length = 3 then do
      let b ← int (← field t 0)
      let e ← int (← field t 1)
      let p ← takePhonems int b e ph
      let name ← field t 2
      let r ← takeWords int ts p.2.2
      return (⟨name, b, e, p.2.1⟩ :: r.1, p.1 ++ r.2.1, r.2.2)
    else takeWords int ts ph

/-- The remaining phonems (294-305). -/
def rest (int : String → Except Err Int) : List Line → Except Err (List Mark)
  | [] => .ok []
  | u :: us =>
    if u.length = 3 then do
      let b ← int (← field u 0)
      let e ← int (← field u 1)
      let name ← field u 2
      let r ← rest int us
      return ⟨b, e, name⟩ :: r
    else rest int us

/-- `Sentence.__init__` (239-305): the words and the phonems. -/
def sentence (int : String → Except Err Int) (wrd phn : List Line) : Except Err (List Word × List Mark) := do
  let r ← takeWords int wrd phn
  let q ← rest int r.2.2
  return (r.1, r.2.1 ++ q)

/-! ## NIST files -/

/-- The values of the header (70-77). -/
inductive Val
  | int (i : Int)
  | str (s : String)
  | real (s : String)

/-- The loop over the fields of the header (59-80); a later field replaces an earlier one. -/
def header (int : String → Except Err Int) : List Line → List (String × Val) → Except Err (List (String × Val))
  | [], d => .ok d
  | [key, ty, v] :: ls, d =>
    match ty.toList[1]? with
    | none => .error .indexError
    | some 'i' => do
      let i ← int v
      header int ls ((key, .int i) :: d)
    | some 's' => header int ls ((key, .str v) :: d)
    | some 'r' => header int ls ((key, .real v) :: d)
    | some _ => .error .valueError
  | _ :: ls, d => header int ls d

/-- `header_dict[key]` where a number is needed. -/
def number (d : List (String × Val)) (key : String) : Except Err Int :=
  match d.lookup key with
  | some (.int i) => .ok i
  | some _ => .error .typeError
  | none => .error .keyError

/-- The value of bytes in the order of the machine (little endian), without sign. -/
def unsigned : List (Fin 256) → Int
  | [] => 0
  | x :: xs => (x : Nat) + 256 * unsigned xs

/-- A number of the types `np.int16` and `np.int32` in two's complement. -/
def signed (l : List (Fin 256)) : Int := if 2 * unsigned l < 256 ^ l.length then unsigned l else unsigned l - 256 ^ l.length

/-- Consecutive pieces of length `n`; `fuel` bounds their number. -/
def pieces {α : Type} (n : Nat) : Nat → List α → List (List α)
  | 0, _ => []
  | _ + 1, [] => []
  | fuel + 1, l => l.take n :: pieces n fuel (l.drop n)

/-- The samples: one number each, or one row for every instant (`array.reshape((-1, nch))`). -/
inductive Samples
  | mono (s : List Int)
  | multi (s : List (List Int))

/-- `_read_nist_wav` (55-95) from the header on; the type of the file and the size of the header have been read. -/
def readNist (int : String → Except Err Int) (lines : List Line) (data : List (Fin 256)) : Except Err (Int × Samples) := do
  let d ← header int lines []
  let nch ← number d "channel_count"
  let fs ← number d "sample_rate"
  let n ← number d "sample_n_bytes"
  if n = 2 ∨ n = 4 then
    if data.length % n.toNat ≠ 0 then throw .valueError
    else
      let a := (pieces n.toNat data.length data).map signed
      if 1 < nch then
        if a.length % nch.toNat ≠ 0 then throw .valueError else return (fs, .multi (pieces nch.toNat a.length a))
      else return (fs, .mono a)
  else throw .valueError

/-! ## The corpus -/

/-- A speaker: the name of the directory and its entries as stems and extensions. -/
structure Speaker where
  /-- The name of the directory. -/
  name : List Char
  /-- Stems and extensions of `os.listdir`. -/
  files : List (List Char × List Char)

/-- The arguments of `build_corpus`. -/
structure Select where
  /-- `sentences`. -/
  sentences : Option (List (List Char))
  /-- `dialect_region`, as strings `"DR" + str(i)`. -/
  dialects : Option (List (List Char))
  /-- `speakers`. -/
  speakers : Option (List (List Char))
  /-- `sex`. -/
  sex : Option Char

/-- `x is not None and v not in x` negated. -/
def allowed {α : Type} [BEq α] (x : Option (List α)) (v : α) : Bool :=
  match x with
  | none => true
  | some l => l.contains v

/-- `speaker[0] != sex` negated; the names are not empty. -/
def sexOk (x : Option Char) (name : List Char) : Bool :=
  match x with
  | none => true
  | some c => name.head? == some c

/-- The paths that are read in one of the directories `TEST` and `TRAIN` (442-467): dialect, speaker and sentence. -/
def paths (sel : Select) (tree : List (List Char × List Speaker)) : List (List Char × List Char × List Char) :=
  tree.flatMap fun d =>
    if allowed sel.dialects d.1 then
      d.2.flatMap fun s =>
        if !sexOk sel.sex s.name then []
        else if !allowed sel.speakers s.name then []
        else s.files.filterMap fun f => if f.2 = ".WAV".toList ∧ allowed sel.sentences f.1 then some (d.1, s.name, f.1) else none
    else []

/-- Adding a word to the dictionary of words (474-478). -/
def addWord {W : Type} (spelling : W → String) (c : List (String × List W)) (w : W) : List (String × List W) :=
  if c.any (·.1 = spelling w) then c.map fun p => if p.1 = spelling w then (p.1, p.2 ++ [w]) else p else c ++ [(spelling w, [w])]

/-- `build_corpus` (442-478) for one of the directories: the sentences and the dictionary of words; `read` is the constructor of a sentence, `words` its words. -/
def build {S W : Type} (read : List Char × List Char × List Char → Except Err S) (words : S → List W) (spelling : W → String) :
    List (List Char × List Char × List Char) → List S → List (String × List W) → Except Err (List S × List (String × List W))
  | [], ss, c => .ok (ss, c)
  | p :: ps, ss, c => do
    let s ← read p
    build read words spelling ps (ss ++ [s]) ((words s).foldl (addWord spelling) c)

/-- `Sentence.speaker` (227): `t[-2][1:5]`. -/
def speakerOf (name : List Char) : List Char := (name.drop 1).take 4

end Verif.Timit
