import Verif.Materials.Model

/-!
# Several materials at once (`pyroomacoustics/parameters.py` 569-634, `make_materials`)

The constructor is the one of `Verif.Materials`; `None` inside of a tuple is left out.
-/

namespace Verif.MakeMat

open Verif.Py Verif.Materials Verif.Params

/-- An argument: one parameter, or a list or tuple of them. -/
inductive Arg where
  | single (a : Spec)
  | seq (l : List Spec)

/-- `Material(*parameters)` or `Material(parameters)` (617-620, 624-627): the constructor takes one or two parameters. -/
noncomputable def construct (absTable scTable : Dict Nat) (h : Heap) : Arg → Except Err (Heap × Material)
  | .single a => materialInit absTable scTable h a none
  | .seq [a] => materialInit absTable scTable h a none
  | .seq [a, b] => materialInit absTable scTable h a (some b)
  | .seq _ => .error .typeError

/-- One loop (615-620). -/
noncomputable def build (absTable scTable : Dict Nat) : Heap → List Arg → Except Err (Heap × List Material)
  | h, [] => .ok (h, [])
  | h, a :: l =>
    match construct absTable scTable h a with
    | .error e => .error e
    | .ok (h', m) =>
      match build absTable scTable h' l with
      | .error e => .error e
      | .ok (h'', ms) => .ok (h'', m :: ms)

/-- What is returned (629-634). -/
inductive Result where
  | list (l : List Material)
  | dict (d : List (String × Material))
  | both (l : List Material) (d : List (String × Material))

/-- `make_materials` (569-634); the keywords are distinct. -/
noncomputable def makeMaterials (absTable scTable : Dict Nat) (h : Heap) (args : List Arg) (kwargs : List (String × Arg)) : Except Err (Heap × Result) :=
  match build absTable scTable h args with
  | .error e => .error e
  | .ok (h', ms) =>
    match build absTable scTable h' (kwargs.map (·.2)) with
    | .error e => .error e
    | .ok (h'', ks) =>
      let d := (kwargs.map (·.1)).zip ks
      if d.length = 0 then .ok (h'', .list ms)
      else if ms.length = 0 then .ok (h'', .dict d)
      else .ok (h'', .both ms d)

end Verif.MakeMat
