import Mathlib.Data.List.Basic
import Mathlib.Logic.Function.Basic

/-!
Model of `vmcnet/train/parse_config_flags.py`, of `_copy_all_dicts` and
`choose_model_type_in_model_config` in `vmcnet/train/default_config.py`, and of the log
directory handling at the start of `run_molecule` in `vmcnet/train/runners.py`.

A `ConfigDict` is modelled by the partial map from field paths to leaf values.  Not
represented: type conversion and type conflicts checked by ml_collections (for instance a
preset giving a number where the default has a sub-dictionary), and field references.
-/

namespace Verif.Config

/-- Leaf values: the code branches on strings and booleans only. -/
inductive Val (A : Type) where
  | str (s : String)
  | bool (b : Bool)
  | other (a : A)

/-- Path of a field, `config.vmc.nburn` is `["vmc", "nburn"]`. -/
abbrev Field := List String

/-- A configuration: leaf values by path, `none` where there is no such leaf. -/
abbrev Cfg (A : Type) := Field → Option (Val A)

/-- The exceptions that can end `parse_flags`. -/
inductive Err where
  | bothPresets
  | presetsWithReload
  | missingFile
  | unknownField
  | badModelType
  | missingField
  deriving DecidableEq

variable {A : Type}

/-- `NO_NAME`, `NO_PATH`, `NO_RELOAD_LOG_DIR`, default_config.py:9-11. -/
def noName : String := "NONE"

/-- `DEFAULT_PRESETS_DIR`, default_config.py:13. -/
def presetsDir : String := "preset_configs"

/-- `os.path.join` of two components on POSIX. -/
def osJoin (a b : String) : String :=
  if b.startsWith "/" then b
  else if a = "" then b
  else if a.endsWith "/" then a ++ b
  else a ++ "/" ++ b

/-- `config.a.b = v`. -/
def setField (c : Cfg A) (p : Field) (v : Val A) : Cfg A := Function.update c p (some v)

/-- `base_config.update(presets)`, parse_config_flags.py:38. -/
def updateWith (base presets : Cfg A) : Cfg A := fun p =>
  match presets p with
  | some v => some v
  | none => base p

/-- `flag_values(sys.argv)` with `config` registered, parse_config_flags.py:27 and 46: the
`--config.<path>=<value>` arguments in order.  ml_collections rejects a path that is not a
field of the configuration, whether or not it is locked. -/
def applyOverrides (c : Cfg A) : List (Field × Val A) → Except Err (Cfg A)
  | [] => .ok c
  | (p, v) :: rest =>
    match c p with
    | none => .error .unknownField
    | some _ => applyOverrides (setField c p v) rest

open Classical in
/-- `config.model = choose_model_type_in_model_config(config.model)`,
parse_config_flags.py:48 and default_config.py:97-109.  The sub-dictionary named by
`model.type` becomes the new `model`, with `type` added.  Indexing with a type that has no
sub-dictionary raises. -/
noncomputable def chooseModel (c : Cfg A) : Except Err (Cfg A) :=
  match c ["model", "type"] with
  | some (.str ty) =>
    if ∃ rest v, c ("model" :: ty :: rest) = some v then
      .ok (fun p => match p with
        | "model" :: rest =>
          if rest = ["type"] then some (.str ty) else c ("model" :: ty :: rest)
        | p => c p)
    else .error .badModelType
  | _ => .error .badModelType

/-- The `--reload.*` flags, default_config.py:50-64. -/
structure ReloadFlags where
  logdir : String
  useConfigFile : Bool
  configPath : String
  useCheckpointFile : Bool
  checkpointPath : String
  newOptimizerState : Bool
  reburn : Bool
  append : Bool
  sameLogdir : Bool

/-- `get_default_reload_config`, default_config.py:50-64. -/
def defaultReload : ReloadFlags :=
  { logdir := noName, useConfigFile := true, configPath := "config.json"
    useCheckpointFile := true, checkpointPath := "best_checkpoint.npz"
    newOptimizerState := false, reburn := false, append := true, sameLogdir := false }

/-- The `--presets.*` flags, parse_config_flags.py:90-95. -/
structure PresetFlags where
  name : String
  path : String

/-- `_get_config_from_reload`, parse_config_flags.py:17-28. -/
def configFromReload (files : String → Option (Cfg A)) (reload : ReloadFlags)
    (ov : List (Field × Val A)) : Except Err (Cfg A) :=
  match files (osJoin reload.logdir reload.configPath) with
  | none => .error .missingFile
  | some c =>
    match c ["base_logdir"] with
    | none => .error .missingField
    | some v => applyOverrides (setField c ["logdir"] v) ov

/-- `_get_config_from_default_config`, parse_config_flags.py:31-49. -/
noncomputable def configFromDefault (files : String → Option (Cfg A)) (dflt : Cfg A)
    (presetsPath : Option String) (ov : List (Field × Val A)) : Except Err (Cfg A) :=
  match presetsPath with
  | none =>
    match applyOverrides dflt ov with
    | .error e => .error e
    | .ok c => chooseModel c
  | some path =>
    match files (osJoin "" path) with
    | none => .error .missingFile
    | some presets =>
      match applyOverrides (updateWith dflt presets) ov with
      | .error e => .error e
      | .ok c => chooseModel c

/-- `if config.debug_nans:`.  Simplification: the field is a boolean in every configuration of
the code; a value of another type is taken to be true. -/
def truthy : Val A → Bool
  | .bool b => b
  | _ => true

/-- The end of `parse_flags`, parse_config_flags.py:134-141: `debug_nans` and `base_logdir`.
The second component says whether `jax_debug_nans` was switched on. -/
def finishConfig (c : Cfg A) : Except Err (Cfg A × Bool) :=
  match c ["debug_nans"] with
  | none => .error .missingField
  | some dn =>
    let dbg := truthy dn
    let c := if dbg then setField c ["distribute"] (.bool false) else c
    match c ["logdir"] with
    | none => .error .missingField
    | some l => .ok (setField c ["base_logdir"] l, dbg)

/-- `parse_flags`, parse_config_flags.py:53-142.  `files` gives the configuration stored in
a file, if it exists and can be read. -/
noncomputable def parseFlags (files : String → Option (Cfg A)) (dflt : Cfg A) (presets : PresetFlags)
    (reload : ReloadFlags) (ov : List (Field × Val A)) : Except Err (Cfg A × Bool) :=
  let useReload := reload.logdir != noName && reload.useConfigFile
  let loadPresets := presets.name != noName || presets.path != noName
  if presets.path != noName && presets.name != noName then .error .bothPresets
  else
    let presetsPath :=
      if presets.name != noName then osJoin presetsDir (presets.name ++ ".json")
      else presets.path
    if useReload && loadPresets then .error .presetsWithReload
    else
      let config :=
        if useReload then configFromReload files reload ov
        else if loadPresets then configFromDefault files dflt (some presetsPath) ov
        else configFromDefault files dflt none ov
      match config with
      | .error e => .error e
      | .ok c => finishConfig c

/-- String value of a field. -/
def getStr (c : Cfg A) (p : Field) : Option String :=
  match c p with
  | some (.str s) => some s
  | _ => none

/-- `_get_logdir_and_save_config`, runners.py:43-59: the configuration written to
`config.json`.  `unique` is `add_suffix_for_uniqueness` on the file system of the moment
(modelled in `Model/IO.lean`), `now` the formatted date.  Returns `none` where a needed
field is missing or has the wrong type. -/
def savedConfig (unique : String → String) (now : String) (reload : ReloadFlags) (c : Cfg A) :
    Option (Cfg A) :=
  if reload.sameLogdir then some (setField c ["logdir"] (.str reload.logdir))
  else
    match getStr c ["logdir"], getStr c ["subfolder_name"],
      c ["save_to_current_datetime_subfolder"] with
    | some l, some sub, some (.bool dated) =>
      let l := if sub ≠ noName then osJoin l sub else l
      let l := if dated then osJoin l now else l
      some (setField c ["logdir"] (.str (unique l)))
    | _, _, _ => none

/-! ### Python dictionaries with identity -/

/-- A nested Python dictionary in which every dictionary object carries its identity.  Two
places holding the same object carry the same identity. -/
inductive Obj (V : Type) where
  | leaf (v : V)
  | dict (ident : ℕ) (items : List (String × Obj V))

variable {V : Type}

mutual
/-- `_copy_all_dicts`, default_config.py:16-47, with a counter giving the identity of the
next new object: `result = {}` takes one, then the items are copied in order. -/
def copyAll : Obj V → ℕ → Obj V × ℕ
  | .leaf v, n => (.leaf v, n)
  | .dict _ items, n =>
    let r := copyItems items (n + 1)
    (.dict n r.1, r.2)
/-- The loop over the keys, default_config.py:41-46. -/
def copyItems : List (String × Obj V) → ℕ → List (String × Obj V) × ℕ
  | [], n => ([], n)
  | (k, o) :: rest, n =>
    let r := copyAll o n
    let s := copyItems rest r.2
    ((k, r.1) :: s.1, s.2)
end

mutual
/-- `d[key] = v` executed on the dictionary object with identity `i`: every place holding
that object sees the new value.  (Only existing keys are assigned by the flags.) -/
def assign (i : ℕ) (key : String) (v : V) : Obj V → Obj V
  | .leaf w => .leaf w
  | .dict j items =>
    .dict j (if j = i then (assignItems i key v items).map
        (fun kv => if kv.1 = key then (kv.1, .leaf v) else kv)
      else assignItems i key v items)
/-- Assignment seen from inside the items of a dictionary. -/
def assignItems (i : ℕ) (key : String) (v : V) : List (String × Obj V) → List (String × Obj V)
  | [] => []
  | (k, o) :: rest => (k, assign i key v o) :: assignItems i key v rest
end

/-- `d[k1][k2]...`: the object at a path. -/
def Obj.at (o : Obj V) : Field → Option (Obj V)
  | [] => some o
  | k :: rest =>
    match o with
    | .leaf _ => none
    | .dict _ items =>
      match items.lookup k with
      | none => none
      | some o' => o'.at rest

end Verif.Config
