import Verif.Model.XRSum

/-!
Sign / log-magnitude arithmetic: `utils/slog_helpers.py` and `utils/log_linear_exp.py`.

An `SLArray` entry is a pair of `XR`.  Arrays are reduced to the axis the operation acts on:
the code maps over all other axes.  Summation order does not matter because there is no
rounding in `XR`.
-/

namespace Verif.Slog

/-- One entry of an `SLArray`: (sign, log of the absolute value). utils/typing.py SLArray. -/
abbrev SL := XR × XR

/-- `array_to_slog`: `(jnp.sign(x), jnp.log(jnp.abs(x)))`.  utils/slog_helpers.py:9-18 -/
noncomputable def arrayToSlog (x : XR) : SL := (XR.sign x, XR.log (XR.abs x))

/-- `array_from_slog`: `x[0] * jnp.exp(x[1])`.  utils/slog_helpers.py:21-32 -/
noncomputable def arrayFromSlog (x : SL) : XR := x.1 * XR.exp x.2

/-- `array_list_to_slog`: elementwise over a list.  utils/slog_helpers.py:35-44 -/
noncomputable def arrayListToSlog (x : List XR) : List SL := x.map arrayToSlog

/-- `array_list_from_slog`: elementwise over a list.  utils/slog_helpers.py:47-56 -/
noncomputable def arrayListFromSlog (x : List SL) : List XR := x.map arrayFromSlog

/-- `slog_multiply`: signs multiplied, logs added.  utils/slog_helpers.py:59-66 -/
noncomputable def slogMultiply (x y : SL) : SL := (x.1 * y.1, x.2 + y.2)

/-- `jnp.max` over an axis of length `d`: nan if any entry is nan.  Simplification: for an
empty axis jax raises; here the result is `-inf`. -/
noncomputable def axisMax {d : ℕ} (v : Fin d → XR) : XR :=
  (List.ofFn v).foldl XR.maximum XR.ninf

/-- `terms_divided_by_max = signs * jnp.exp(vals - max_val)`.
utils/log_linear_exp.py:44-45 -/
noncomputable def termsDividedByMax {d : ℕ} (signs vals : Fin d → XR) (i : Fin d) : XR :=
  signs i * XR.exp (vals i - axisMax vals)

/-- The last three lines: sign, and log of the absolute value plus the maximum.
utils/log_linear_exp.py:58-60 -/
noncomputable def finishLogLinear (t maxVal : XR) : SL :=
  (XR.sign t, XR.log (XR.abs t) + maxVal)

/-- `log_linear_exp` without weights (`jnp.sum` over the axis).
utils/log_linear_exp.py:44-60 -/
noncomputable def logLinearExpSum {d : ℕ} (signs vals : Fin d → XR) : SL :=
  finishLogLinear (∑ i, termsDividedByMax signs vals i) (axisMax vals)

/-- `log_linear_exp` with a `(d, d')` weight matrix (`jnp.dot`), one output per column.
utils/log_linear_exp.py:44-60 -/
noncomputable def logLinearExp {d d' : ℕ} (signs vals : Fin d → XR)
    (weights : Fin d → Fin d' → XR) (j : Fin d') : SL :=
  finishLogLinear (∑ i, termsDividedByMax signs vals i * weights i j) (axisMax vals)

/-- `slog_sum_over_axis`.  utils/slog_helpers.py:69-72 -/
noncomputable def slogSumOverAxis {d : ℕ} (x : Fin d → SL) : SL :=
  logLinearExpSum (fun i => (x i).1) (fun i => (x i).2)

/-- `slog_array_list_sum`: stack the list along a new axis and sum over it.
utils/slog_helpers.py:75-78 -/
noncomputable def slogArrayListSum (x : List SL) : SL :=
  slogSumOverAxis (fun i : Fin x.length => x.get i)

/-- `slog_sum`.  utils/slog_helpers.py:81-83 -/
noncomputable def slogSum (x y : SL) : SL := slogArrayListSum [x, y]

end Verif.Slog
