import Mathlib.Data.Real.Basic

/-!
Initializers by name: `models/weights.py`.
-/

namespace Verif.Construct

/-- The functions of `jax.nn.initializers` which are used. -/
inductive InitKind
  | zeros | ones | uniform | normal | orthogonal | deltaOrthogonal | xavierNormal | xavierUniform
  | kaimingNormal | kaimingUniform | lecunNormal | lecunUniform
  deriving DecidableEq

/-- A configuration entry such as `{"type": "orthogonal", "scale": 2.0}`. -/
structure InitCfg where
  type : String
  scale : Option ℝ := none

/-- An initializer: the function, the scale if one is passed to the constructor, and the width
of the floats.  Without a scale the constructor's own default applies. -/
@[ext] structure Initializer where
  kind : InitKind
  scale : Option ℝ
  dtype : ℕ

/-- `INITIALIZER_CONSTRUCTORS`.  models/weights.py:28-45 -/
def initializerConstructors : List (String × InitKind) :=
  [("zeros", .zeros), ("ones", .ones), ("uniform", .uniform), ("normal", .normal),
    ("orthogonal", .orthogonal), ("delta_orthogonal", .deltaOrthogonal),
    ("xavier_normal", .xavierNormal), ("xavier_uniform", .xavierUniform),
    ("glorot_normal", .xavierNormal), ("glorot_uniform", .xavierUniform),
    ("kaiming_normal", .kaimingNormal), ("kaiming_uniform", .kaimingUniform),
    ("he_normal", .kaimingNormal), ("he_uniform", .kaimingUniform),
    ("lecun_normal", .lecunNormal), ("lecun_uniform", .lecunUniform)]

/-- `VALID_BIAS_INITIALIZERS`.  models/weights.py:49 -/
def validBiasInitializers : List String := ["zeros", "ones", "uniform", "normal"]

/-- `get_kernel_init_from_config` and `get_kernel_initializer`: only the two orthogonal
constructors get a scale, 1 if the configuration has none.  models/weights.py:53-80 -/
noncomputable def getKernelInit (dtype : ℕ) (cfg : InitCfg) : Except String Initializer :=
  match initializerConstructors.lookup cfg.type with
  | none => .error "Invalid kernel initializer requested"
  | some kind =>
    if cfg.type = "orthogonal" ∨ cfg.type = "delta_orthogonal" then
      .ok ⟨kind, some (cfg.scale.getD 1), dtype⟩
    else .ok ⟨kind, none, dtype⟩

/-- `get_bias_init_from_config` and `get_bias_initializer`.  models/weights.py:83-105 -/
def getBiasInit (dtype : ℕ) (cfg : InitCfg) : Except String Initializer :=
  if cfg.type ∈ validBiasInitializers then
    match initializerConstructors.lookup cfg.type with
    | none => .error "KeyError"
    | some kind => .ok ⟨kind, none, dtype⟩
  else .error "Invalid bias initializer requested"

/-- A call `init(key, shape)` or `init(key, shape, dtype)`: the width of the floats of the
result.  `zeros` and `ones` are partial applications with `dtype` by keyword, and a third
positional argument clashes with it; the other constructors return functions with a default
for the third argument (library behaviour).  models/weights.py:29-30 -/
def Initializer.callDtype (init : Initializer) (third : Option ℕ) : Except String ℕ :=
  match init.kind, third with
  | .zeros, some _ | .ones, some _ => .error "TypeError: multiple values for argument 'dtype'"
  | _, some t => .ok t
  | _, none => .ok init.dtype

end Verif.Construct
