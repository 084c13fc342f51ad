import Verif.Model.Slog
import Mathlib.Data.Nat.Bitwise
import Mathlib.Algebra.BigOperators.Fin

/-!
Sign symmetrization: `models/sign_symmetry.py`.

The list of `N` input arrays is a family indexed by `Fin N`; array `i` has entries indexed by
any type `ι i`.  The code stacks the `2^N` sign patterns along a new batch axis; `fn` treats that
axis as a batch axis, so it is a function of the arrays at one place of the axis.  Integers do
not overflow.
-/

namespace Verif.SignSym
open Verif.Slog

/-- `_get_sign_array_1d`: entry `s` is `(-1) ** jnp.sign((2**i) & s)`.
models/sign_symmetry.py:18-27 -/
noncomputable def signArray1d (i s : ℕ) : ℝ := (-1) ^ (if 2 ^ i &&& s = 0 then 0 else 1)

/-- `_get_sign_orbit_single_array` at place `s` of the orbit axis.
models/sign_symmetry.py:43-73 -/
noncomputable def orbitSingleArray {ι : Type*} (x : ι → ℝ) (i s : ℕ) : ι → ℝ :=
  fun a => signArray1d i s * x a

/-- `_get_sign_orbit_single_sl_array` at place `s`: multiply by `(sign, 0)` in slog form.
models/sign_symmetry.py:76-111 -/
noncomputable def orbitSingleSlArray {ι : Type*} (x : ι → SL) (i s : ℕ) : ι → SL :=
  fun a => slogMultiply (x a) (.fin (signArray1d i s), .fin 0)

/-- `combined_signs = jnp.prod(stacked_signs, axis=0)`.  models/sign_symmetry.py:147-152 -/
noncomputable def combinedSigns (N s : ℕ) : ℝ := ∏ i : Fin N, signArray1d i s

/-- `make_array_list_fn_sign_covariant(fn)`, one output entry: orbit, `fn`, multiply by the
signs, sum over the orbit axis.  models/sign_symmetry.py:210-217, 220-221, 250-273 -/
noncomputable def arrayListSignCovariant {N : ℕ} {ι : Fin N → Type*} {o : Type*}
    (fn : (∀ i, ι i → ℝ) → o → ℝ) (x : ∀ i, ι i → ℝ) (c : o) : ℝ :=
  ∑ s : Fin (2 ^ N), combinedSigns N s * fn (fun i => orbitSingleArray (x i) i s) c

/-- `make_array_list_fn_sign_invariant(fn)`: the signs are ignored.
models/sign_symmetry.py:276-299 -/
noncomputable def arrayListSignInvariant {N : ℕ} {ι : Fin N → Type*} {o : Type*}
    (fn : (∀ i, ι i → ℝ) → o → ℝ) (x : ∀ i, ι i → ℝ) (c : o) : ℝ :=
  ∑ s : Fin (2 ^ N), fn (fun i => orbitSingleArray (x i) i s) c

/-- `make_sl_array_list_fn_sign_covariant(fn)`: signs multiply the sign part, the sum is
`slog_sum_over_axis`.  models/sign_symmetry.py:224-247 -/
noncomputable def slArrayListSignCovariant {N : ℕ} {ι : Fin N → Type*} {o : Type*}
    (fn : (∀ i, ι i → SL) → o → SL) (x : ∀ i, ι i → SL) (c : o) : SL :=
  slogSumOverAxis fun s : Fin (2 ^ N) =>
    let out := fn (fun i => orbitSingleSlArray (x i) i s) c
    (.fin (combinedSigns N s) * out.1, out.2)

/-- `ProductsSignCovariance.__call__` for exactly two spins: `pairwise_dots`.
models/sign_symmetry.py:336-350 -/
def pairwiseDots {n₁ n₂ d : ℕ} (x : Fin n₁ → Fin d → ℝ) (y : Fin n₂ → Fin d → ℝ) (i : Fin n₁)
    (j : Fin n₂) : ℝ := ∑ k, x i k * y j k

/-- `ProductsSignCovariance.__call__` with `use_weights=False` (one feature).
models/sign_symmetry.py:352-358 -/
def productsCovariance {n₁ n₂ d : ℕ} (x : Fin n₁ → Fin d → ℝ) (y : Fin n₂ → Fin d → ℝ) : ℝ :=
  ∑ i, ∑ j, pairwiseDots x y i j

/-- `ProductsSignCovariance.__call__` with `use_weights=True`: a Dense layer without bias on the
flattened dots, one weight per pair and feature.  models/sign_symmetry.py:360-370 -/
def productsCovarianceWeighted {n₁ n₂ d features : ℕ}
    (kernel : Fin n₁ → Fin n₂ → Fin features → ℝ) (x : Fin n₁ → Fin d → ℝ)
    (y : Fin n₂ → Fin d → ℝ) (c : Fin features) : ℝ :=
  ∑ i, ∑ j, pairwiseDots x y i j * kernel i j c

end Verif.SignSym
