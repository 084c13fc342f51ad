import Verif.Model.Config

/-!
Vocabulary for the configuration properties: the value a user expects for a field, and what
the objects of a nested dictionary are.
-/

namespace Verif.Spec

open Verif.Config

variable {A V : Type}

/-- The value of the last command line argument for a field. -/
def lastSet (p : Field) : List (Field × Val A) → Option (Val A)
  | [] => none
  | (q, v) :: rest =>
    match lastSet p rest with
    | some w => some w
    | none => if q = p then some v else none

/-- The first of several sources that has a value. -/
def firstOf : List (Option (Val A)) → Option (Val A)
  | [] => none
  | some v :: _ => some v
  | none :: rest => firstOf rest

/-- A configuration is reloaded from an earlier run. -/
def Reloading (r : ReloadFlags) : Prop := r.logdir ≠ "NONE" ∧ r.useConfigFile = true

/-- The file of the preset asked for, if any: a name refers to the preset directory. -/
def presetFile (f : PresetFlags) : Option String :=
  if f.name ≠ "NONE" then some (osJoin "preset_configs" (f.name ++ ".json"))
  else if f.path ≠ "NONE" then some (osJoin "" f.path) else none

/-- The values given by the preset, none if no preset is asked for. -/
def presetValues (files : String → Option (Cfg A)) (f : PresetFlags) : Cfg A := fun p =>
  match presetFile f with
  | none => none
  | some path => match files path with
    | none => none
    | some c => c p

/-- The value expected for a field of the default configuration: command line, then preset,
then default. -/
def expected (files : String → Option (Cfg A)) (dflt : Cfg A) (f : PresetFlags)
    (ov : List (Field × Val A)) : Cfg A := fun p =>
  firstOf [lastSet p ov, presetValues files f p, dflt p]

mutual
/-- The plain contents of a nested dictionary: path and value of every leaf, and path of
every dictionary, in order. -/
def contents : Obj V → List (Field × Option V)
  | .leaf v => [([], some v)]
  | .dict _ items => ([], none) :: contentsItems items
/-- Contents of the items of a dictionary. -/
def contentsItems : List (String × Obj V) → List (Field × Option V)
  | [] => []
  | (k, o) :: rest => (contents o).map (fun e => (k :: e.1, e.2)) ++ contentsItems rest
end

mutual
/-- Identities of all dictionaries of a nested dictionary, one for every place. -/
def idents : Obj V → List ℕ
  | .leaf _ => []
  | .dict i items => i :: identsItems items
/-- Identities in the items of a dictionary. -/
def identsItems : List (String × Obj V) → List ℕ
  | [] => []
  | (_, o) :: rest => idents o ++ identsItems rest
end

end Verif.Spec
