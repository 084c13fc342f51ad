import Std.Data.String.ToNat
import Verif.Model.Checkpoint

/-!
Model of `vmcnet/utils/io.py` and of the state (re)distribution in
`vmcnet/utils/distribute.py`.
-/

namespace Verif.Files

/-! ### Python values and pytrees -/

/-- Python values as far as saving, reloading and config files are concerned.  `A` is the
type of numpy/jax arrays; `scalar` is any int, float, bool or str; `obj` is an instance of
some other class holding fields (for example a KFAC state), treated as a pytree node.
Simplification: a dict is an association list, compared with its order (jax sorts dict keys
in `tree_map`, but Python dict equality ignores order). NamedTuples are tuples. -/
inductive Py (A : Type) where
  | arr (a : A)
  | scalar (s : String)
  | none
  | tup (l : List (Py A))
  | list (l : List (Py A))
  | dict (l : List (String × Py A))
  | obj (cls : String) (l : List (Py A))

mutual
/-- `jax.tree_map(f, x)` for a function of array leaves.  Scalars inside a pytree are not
touched (they do not occur in replicated states). -/
def Py.map {A B : Type} (f : A → B) : Py A → Py B
  | .arr a => .arr (f a)
  | .scalar s => .scalar s
  | .none => .none
  | .tup l => .tup (Py.mapL f l)
  | .list l => .list (Py.mapL f l)
  | .dict l => .dict (Py.mapD f l)
  | .obj c l => .obj c (Py.mapL f l)
/-- `Py.map` on the entries of a sequence. -/
def Py.mapL {A B : Type} (f : A → B) : List (Py A) → List (Py B)
  | [] => []
  | x :: xs => Py.map f x :: Py.mapL f xs
/-- `Py.map` on the values of a dict. -/
def Py.mapD {A B : Type} (f : A → B) : List (String × Py A) → List (String × Py B)
  | [] => []
  | (k, x) :: xs => (k, Py.map f x) :: Py.mapD f xs
end

/-- An array with a leading device axis of length `n`. -/
abbrev Dev (n : ℕ) (A : Type) := Fin n → A

variable {A : Type} {n : ℕ}

/-- `get_first`, vmcnet/utils/distribute.py:51-57 (`x[0]` on each leaf). -/
def getFirst (h : 0 < n) (x : Py (Dev n A)) : Py A := x.map (fun a => a ⟨0, h⟩)

/-- `replicate_all_local_devices`, vmcnet/utils/distribute.py:35-41, on `n` local devices;
the `None` case is covered by `map` (None is an empty pytree). -/
def replicate (n : ℕ) (x : Py A) : Py (Dev n A) :=
  match x with
  | .none => .none
  | x => x.map (fun a _ => a)

/-- `broadcast_all_local_devices = pmap(lambda x: x)`, vmcnet/utils/distribute.py:32, on
arrays whose leading axis is the device axis. -/
def broadcast (x : Py (Dev n A)) : Py (Dev n A) := x

/-- `wrap_singleton`, vmcnet/utils/io.py:134-140. -/
def wrapSingleton (x : Py A) : Py A := .dict [("single_element", x)]

/-- `unwrap_if_singleton`, vmcnet/utils/io.py:143-151. -/
def unwrapIfSingleton : Py A → Py A
  | .dict [(k, v)] => if k = "single_element" then v else .dict [(k, v)]
  | x => x

/-- One entry of an npz file as produced by `np.savez`, which applies `np.asanyarray`:
arrays stay arrays, numbers become 0-d arrays, tuples and lists become the stacked array of
their entries (container kind lost), and anything else becomes a 0-d object array. -/
inductive NpzEntry (A : Type) where
  | array (a : A)
  | number (s : String)
  | stacked (l : List (Py A))
  | object (x : Py A)

/-- `np.asanyarray` inside `np.savez`, io.py:168-176. -/
def asanyarray : Py A → NpzEntry A
  | .arr a => .array a
  | .scalar s => .number s
  | .tup l => .stacked l
  | .list l => .stacked l
  | x => .object x

/-- `.tolist()` on a loaded entry (io.py:186, 193-196): object arrays give the object back,
numbers the number, stacked arrays a list, plain arrays a nested list (modelled by a list
holding the array). -/
def tolist : NpzEntry A → Py A
  | .array a => .list [.arr a]
  | .number s => .scalar s
  | .stacked l => .list l
  | .object x => x

/-- Reading `d` (io.py:188-194): `.tolist()` only for dtype object. -/
def loadData : NpzEntry A → Py A
  | .object x => x
  | .array a => .arr a
  | .number s => .scalar s
  | .stacked l => .list l

/-- A training state.  `AD` is the array type of data and key, `AP` that of parameters and
optimizer state (they differ because only some of them carry a device axis). -/
structure VmcState (AD AP : Type) where
  epoch : ℕ
  data : Py AD
  params : Py AP
  opt : Py AP
  key : AD

/-- Contents of a checkpoint file. -/
structure NpzFile (AD AP : Type) where
  e : ℕ
  d : NpzEntry AD
  p : NpzEntry AP
  o : NpzEntry AP
  k : AD

/-- `process_checkpoint_data_for_saving` with `is_distributed=True`, io.py:118-131. -/
def processDistributed {AD AP : Type} (h : 0 < n) (s : VmcState AD (Dev n AP)) :
    VmcState AD AP :=
  ⟨s.epoch, s.data, getFirst h s.params, wrapSingleton (getFirst h s.opt), s.key⟩

/-- `process_checkpoint_data_for_saving` with `is_distributed=False`, io.py:118-131. -/
def processSingle {AD AP : Type} (s : VmcState AD AP) : VmcState AD AP :=
  ⟨s.epoch, s.data, s.params, wrapSingleton s.opt, s.key⟩

/-- `save_vmc_state`, io.py:154-176. -/
def saveVmcState {AD AP : Type} (s : VmcState AD AP) : NpzFile AD AP :=
  ⟨s.epoch, asanyarray s.data, asanyarray s.params, asanyarray s.opt, s.key⟩

/-- `reload_vmc_state`, io.py:179-198. -/
def reloadVmcState {AD AP : Type} (f : NpzFile AD AP) : VmcState AD AP :=
  ⟨f.e, loadData f.d, tolist f.p, unwrapIfSingleton (tolist f.o), f.k⟩

/-- `distribute_vmc_state_from_checkpoint`, distribute.py:157-174, on `n` devices. -/
def distributeFromCheckpoint {AD AP : Type} (n : ℕ) (s : VmcState (Dev n AD) AP) :
    VmcState (Dev n AD) (Dev n AP) :=
  ⟨s.epoch, broadcast s.data, replicate n s.params, replicate n s.opt, s.key⟩

/-! ### Metric text files -/

/-- `append_metric_to_file`, io.py:29-34: one line per call. -/
def appendMetric {R : Type} (file : List R) (row : R) : List R := file ++ [row]

/-- `copy_txt_stats` for one file, io.py:37-56.  `if truncate:` is false for `None` and
for `0`. -/
def copyTxtStats {R : Type} (source : List R) (truncate : Option ℕ) : List R :=
  match truncate with
  | Option.none => source
  | some t => if t = 0 then source else source.take t

/-! ### Unique names -/

/-- `s.rstrip(os.sep)`. -/
def rstripSep (s : String) : String :=
  String.ofList ((s.toList.reverse.dropWhile (fun c => c = '/')).reverse)

/-- The candidate tried in round `i` of `add_suffix_for_uniqueness`, io.py:201-217. -/
def candidate (rel : String) (i : ℕ) : String :=
  if i = 0 then rstripSep rel else rel ++ "_" ++ Nat.repr i

/-- The while loop of `add_suffix_for_uniqueness`, io.py:210-214, from round `i` on with at
most `fuel` tests of existence.  `ex` decides `os.path.exists(join(base_dir, p))`. -/
def suffixLoop (ex : String → Bool) (rel trailing : String) : ℕ → ℕ → Option String
  | 0, _ => none
  | fuel + 1, i =>
    if ex (candidate rel i ++ trailing) then suffixLoop ex rel trailing fuel (i + 1)
    else some (candidate rel i)

/-- `add_suffix_for_uniqueness` terminates with `out`. -/
def AddSuffix (ex : String → Bool) (rel trailing out : String) : Prop :=
  ∃ fuel, suffixLoop ex rel trailing fuel 0 = some out

/-! ### Config files -/

mutual
/-- What `json.load` returns after `to_json`/`json.dump`: tuples have become lists. -/
def jsonRoundTrip {A : Type} : Py A → Py A
  | .tup l => .list (jsonRoundTripL l)
  | .list l => .list (jsonRoundTripL l)
  | .dict l => .dict (jsonRoundTripD l)
  | .obj c l => .obj c (jsonRoundTripL l)
  | .arr a => .arr a
  | .scalar s => .scalar s
  | .none => .none
/-- on sequences -/
def jsonRoundTripL {A : Type} : List (Py A) → List (Py A)
  | [] => []
  | x :: xs => jsonRoundTrip x :: jsonRoundTripL xs
/-- on dict values -/
def jsonRoundTripD {A : Type} : List (String × Py A) → List (String × Py A)
  | [] => []
  | (k, x) :: xs => (k, jsonRoundTrip x) :: jsonRoundTripD xs
end

mutual
/-- `_convert_to_tuple_if_list`, io.py:91-94. -/
def convertToTupleIfList {A : Type} : Py A → Py A
  | .list l => .tup (convertToTupleIfListL l)
  | .arr a => .arr a
  | .scalar s => .scalar s
  | .none => .none
  | .tup l => .tup l
  | .dict l => .dict l
  | .obj c l => .obj c l
/-- on the entries -/
def convertToTupleIfListL {A : Type} : List (Py A) → List (Py A)
  | [] => []
  | x :: xs => convertToTupleIfList x :: convertToTupleIfListL xs
end

mutual
/-- `_convert_dict_lists_to_tuples`, io.py:97-102: `tree_map` with lists as leaves.
Lists are handed to `_convert_to_tuple_if_list`, other containers are descended into. -/
def convertDictLists {A : Type} : Py A → Py A
  | .list l => convertToTupleIfList (.list l)
  | .dict l => .dict (convertDictListsD l)
  | .tup l => .tup (convertDictListsL l)
  | .obj c l => .obj c (convertDictListsL l)
  | .arr a => .arr a
  | .scalar s => .scalar s
  | .none => .none
/-- on sequences -/
def convertDictListsL {A : Type} : List (Py A) → List (Py A)
  | [] => []
  | x :: xs => convertDictLists x :: convertDictListsL xs
/-- on dict values -/
def convertDictListsD {A : Type} : List (String × Py A) → List (String × Py A)
  | [] => []
  | (k, x) :: xs => (k, convertDictLists x) :: convertDictListsD xs
end

/-- `load_config_dict` of a file written by `save_config_dict_to_json`, io.py:59-115.
Simplification: the wrapping in `ConfigDict` is the identity. -/
def reloadConfig {A : Type} (c : Py A) : Py A := convertDictLists (jsonRoundTrip c)

end Verif.Files
