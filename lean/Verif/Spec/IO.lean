import Verif.Model.IO

/-! Vocabulary for properties of saved files. -/

namespace Verif.Spec
open Files

/-- A distributed pytree is replicated: it consists of `n` copies of one pytree. -/
def Replicated {n : ℕ} {A : Type} (x : Py (Dev n A)) : Prop :=
  ∃ y : Py A, x = y.map (fun a _ => a)

/-- The value is a dict. -/
def IsDict {A : Type} (x : Py A) : Prop := ∃ l, x = .dict l

/-- The value is a dict or a plain array. -/
def IsDictOrArray {A : Type} (x : Py A) : Prop := (∃ l, x = .dict l) ∨ ∃ a, x = .arr a

mutual
/-- Replace every list by a tuple, everywhere. -/
def tuplify {A : Type} : Py A → Py A
  | .tup l => .tup (tuplifyL l)
  | .list l => .tup (tuplifyL l)
  | .dict l => .dict (tuplifyD l)
  | .obj c l => .obj c (tuplifyL l)
  | .arr a => .arr a
  | .scalar s => .scalar s
  | .none => .none
def tuplifyL {A : Type} : List (Py A) → List (Py A)
  | [] => []
  | x :: xs => tuplify x :: tuplifyL xs
def tuplifyD {A : Type} : List (String × Py A) → List (String × Py A)
  | [] => []
  | (k, x) :: xs => (k, tuplify x) :: tuplifyD xs
end

mutual
/-- Made of scalars, None and sequences of such. -/
def Flat {A : Type} : Py A → Prop
  | .scalar _ => True
  | .none => True
  | .tup l => FlatL l
  | .list l => FlatL l
  | .arr _ => False
  | .dict _ => False
  | .obj _ _ => False
def FlatL {A : Type} : List (Py A) → Prop
  | [] => True
  | x :: xs => Flat x ∧ FlatL xs
end

mutual
/-- A configuration: nested dicts whose leaves are scalars, None or nested sequences of
scalars (no dict inside a sequence). -/
def Config {A : Type} : Py A → Prop
  | .scalar _ => True
  | .none => True
  | .tup l => FlatL l
  | .list l => FlatL l
  | .dict l => ConfigD l
  | .arr _ => False
  | .obj _ _ => False
def ConfigD {A : Type} : List (String × Py A) → Prop
  | [] => True
  | (_, x) :: xs => Config x ∧ ConfigD xs
end

mutual
/-- A JSON-representable configuration with arbitrary nesting of dicts and sequences. -/
def AnyConfig {A : Type} : Py A → Prop
  | .scalar _ => True
  | .none => True
  | .tup l => AnyConfigL l
  | .list l => AnyConfigL l
  | .dict l => AnyConfigD l
  | .arr _ => False
  | .obj _ _ => False
def AnyConfigL {A : Type} : List (Py A) → Prop
  | [] => True
  | x :: xs => AnyConfig x ∧ AnyConfigL xs
def AnyConfigD {A : Type} : List (String × Py A) → Prop
  | [] => True
  | (_, x) :: xs => AnyConfig x ∧ AnyConfigD xs
end

end Verif.Spec
