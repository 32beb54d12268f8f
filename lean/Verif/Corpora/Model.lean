import Verif.Dataset.Model

/-!
# Two corpora (`pyroomacoustics/datasets/google_speech_commands.py`, `pyroomacoustics/datasets/cmu_arctic.py`)

A sample is its metadata and the path it is read from; reading never fails. The counts of the base class are those of C48 and left out.
-/

namespace Verif.Corpora

open Py Dataset

/-- Values of the metadata. -/
inductive V where
  | str (s : String)
  | bool (b : Bool)
deriving DecidableEq

/-- The loop over the candidates of `build_corpus` (Google: 130-147, CMU: 204-221): those that match are added. -/
def addMatches {D : Type} (kwargs : List (String × Criterion V)) : List (Sample V D) → List (Sample V D) → Except Err (List (Sample V D))
  | acc, [] => .ok acc
  | acc, s :: t =>
    match matches_ s.md kwargs with
    | .error e => .error e
    | .ok true => addMatches kwargs (acc ++ [s]) t
    | .ok false => addMatches kwargs acc t

/-! ## Google speech commands -/

/-- `GoogleSpeechCommands`: the samples and `size_by_samples`. -/
structure Google where
  samples : List (Sample V String)
  sizes : List (String × ℕ)

/-- The directory that is not speech (112). -/
def noiseDir : String := "_background_noise_"

/-- The choice of a subset (120-126): `subset` may be None; `perm` the shuffled indices. -/
def chosen (subset : Option Int) (speech : Bool) (perm : List ℕ) (files : List String) : List String :=
  match subset with
  | none => files
  | some k => if k ≠ 0 ∧ speech then (slice perm none (some (min k files.length))).filterMap fun i => files[i]? else files

/-- The metadata of a file (131-144): `stem` the name up to the first point, `loc` the place in the base directory. -/
def fileMeta (stem : String → String) (loc : String → String → String) (word file : String) : Meta V :=
  if word = noiseDir then [("word", .str "NA"), ("noise_type", .str (stem file)), ("speech", .bool false), ("file_loc", .str (loc word file))]
  else [("word", .str word), ("speech", .bool true), ("file_loc", .str (loc word file))]

/-- `GoogleSpeechCommands.build_corpus` (102-147): `dirs` the subdirectories with their files; `shuffle i n` the permutation drawn for the directory `i`. -/
def buildGoogle (stem : String → String) (loc : String → String → String) (subset : Option Int) (shuffle : ℕ → ℕ → List ℕ) (kwargs : List (String × Criterion V)) :
    ℕ → List (String × List String) → Google → Except Err Google
  | _, [], g => .ok g
  | i, (word, files) :: t, g =>
    let files := chosen subset (decide (word ≠ noiseDir)) (shuffle i files.length) files
    let sizes := assign g.sizes word files.length
    match addMatches kwargs g.samples (files.map fun f => ⟨loc word f, fileMeta stem loc word f⟩) with
    | .error e => .error e
    | .ok s => buildGoogle stem loc subset shuffle kwargs (i + 1) t ⟨s, sizes⟩

/-- `GoogleSpeechCommands.filter` (149-171): the new object is built with `build=False`, so its `size_by_samples` stays empty. -/
def filterGoogle (g : Google) (kwargs : List (String × Criterion V)) : Except Err Google :=
  match addMatches kwargs [] g.samples with
  | .error e => .error e
  | .ok s => .ok ⟨s, []⟩

/-! ## CMU Arctic -/

/-- A path: base directory, speaker, the tag of the file. -/
abbrev Path := String × String × String

/-- The entry of a sentence in the dictionary of the module (189-192). -/
structure Entry where
  text : String
  paths : List (String × Path)

/-- `cmu_arctic_sentences` (71), shared by all instances. -/
abbrev Registry := List (String × Entry)

/-- `tag[-5:]` (185). -/
def shortTag (t : String) : String := String.ofList (t.toList.drop (t.toList.length - 5))

/-- Body of the loop over the lines (178-194): a line has a tag and a text. -/
def register (base speaker : String) (reg : Registry) (line : String × String) : Registry :=
  let path : Path := (base, speaker, line.1)
  match reg.lookup (shortTag line.1) with
  | none => assign reg (shortTag line.1) ⟨line.2, [(speaker, path)]⟩
  | some e => assign reg (shortTag line.1) { e with paths := assign e.paths speaker path }

/-- The argument `speaker`: missing, a list, or anything else (`none` if it is not a string). -/
inductive SpeakerArg where
  | missing
  | list (l : List String)
  | value (s : Option String)

/-- The speakers (127-133, 145-148): those that are unknown are removed. -/
def speakersOf (known : List (String × Meta V)) : SpeakerArg → List String
  | .missing => known.map Prod.fst
  | .list l => l.filter fun s => (known.lookup s).isSome
  | .value (some s) => [s].filter fun s => (known.lookup s).isSome
  | .value none => []

/-- `CMUArcticCorpus.__init__` (114-194) without download: the dictionary afterwards; `dir` the lines of the file of a speaker, `none` if the directory is missing. -/
def openArctic (known : List (String × Meta V)) (exists_ : Bool) (dir : String → Option (List (String × String))) (base : String) (arg : SpeakerArg) (reg : Registry) : Except Err Registry :=
  let speakers := speakersOf known arg
  if !exists_ then .error .valueError
  else if speakers.any (fun s => (dir s).isNone) then .error .valueError
  else .ok (speakers.foldl (fun r s => ((dir s).getD []).foldl (register base s) r) reg)

/-- The metadata of a sentence (209-214). -/
def sentenceMeta (known : List (String × Meta V)) (speaker : String) (tag : String) (text : String) : Meta V :=
  [("speaker", .str speaker), ("tag", .str tag), ("text", .str text)] ++ (known.lookup speaker).getD []

/-- All samples the dictionary offers, in order (204-214). -/
def offered (known : List (String × Meta V)) (reg : Registry) : List (Sample V Path) :=
  reg.flatMap fun p => p.2.paths.map fun q => ⟨q.2, sentenceMeta known q.1 p.1 p.2.text⟩

/-- `CMUArcticCorpus.build_corpus` (199-221). -/
def buildArctic (known : List (String × Meta V)) (kwargs : List (String × Criterion V)) (reg : Registry) (samples : List (Sample V Path)) : Except Err (List (Sample V Path)) :=
  addMatches kwargs samples (offered known reg)

end Verif.Corpora
