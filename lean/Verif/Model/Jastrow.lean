import Verif.Model.Network

/-!
Jastrow factors: `models/jastrow.py`.  Conventions as in `Model/Network.lean`; the electron axis
is `Fin N` here, as no spin split is used.
-/

namespace Verif.Jastrow
open Verif.Net

/-- `OneBodyExpDecay.__call__`.  `_isotropy_on_leaf` with one orbital has a kernel with a single
entry, so there is one decay rate for all ions, not one rate `a_j` per ion as documented.
models/jastrow.py:65-130, 15-31 -/
noncomputable def oneBodyExpDecay {N nion d : ℕ} (kernel : Fin 1 → ℝ) (logabs : Bool)
    (rei : Fin N → Fin nion → Fin d → ℝ) : ℝ :=
  let absLinCombDistances := ∑ i, ∑ o : Fin 1, ∑ j, norm2 (isotropyOnLeaf kernel (rei i) o j)
  if logabs then -absLinCombDistances else Real.exp (-absLinCombDistances)

/-- `jnp.triu(x)`: entries below the diagonal set to 0. -/
def triu {N : ℕ} (x : Fin N → Fin N → ℝ) (i k : Fin N) : ℝ := if i ≤ k then x i k else 0

/-- `TwoBodyExpDecay.__call__` with current strengths `z` and `q`: trainable strengths are
1x1 dense kernels without bias and fixed ones are factors, which gives the same expression.
models/jastrow.py:165-229 -/
noncomputable def twoBodyExpDecay {N nion d : ℕ} (z : Fin nion → ℝ) (q logScaleFactor : ℝ)
    (logabs : Bool) (rei : Fin N → Fin nion → Fin d → ℝ) (ree : Fin N → Fin N → Fin d → ℝ) : ℝ :=
  let eiDistances := fun i j => norm2 (rei i j)
  let eeDistances := eeNormSafeDiag 0 ree
  let sumEeEffect := fun i => q * ∑ k, triu eeDistances i k
  let sumEiEffect := fun i => ∑ j, z j * eiDistances i j
  let interaction := (∑ i, (sumEeEffect i - sumEiEffect i)) + logScaleFactor
  if logabs then interaction else Real.exp interaction

/-- The scale factor of `get_two_body_decay_scaled_for_chargeless_molecules`.
models/jastrow.py:256-261, physics/potential.py:76-82 -/
noncomputable def chargelessScaleFactor {nion d : ℕ} (ionPos : Fin nion → Fin d → ℝ)
    (charges : Fin nion → ℝ) : ℝ :=
  0.5 * ∑ I, ∑ J, norm2 (displacements ionPos ionPos I J) * (charges I * charges J)

/-- `get_two_body_decay_scaled_for_chargeless_molecules`, at initial parameters.
models/jastrow.py:232-271 -/
noncomputable def scaledTwoBody {N nion d : ℕ} (ionPos : Fin nion → Fin d → ℝ)
    (charges : Fin nion → ℝ) (initEeStrength : ℝ) (logabs : Bool)
    (rei : Fin N → Fin nion → Fin d → ℝ) (ree : Fin N → Fin N → Fin d → ℝ) : ℝ :=
  twoBodyExpDecay charges initEeStrength (chargelessScaleFactor ionPos charges) logabs rei ree

/-- `BackflowJastrow.__call__` from the backflow output on.  models/jastrow.py:325-332 -/
noncomputable def backflowJastrow {N d : ℕ} (logabs : Bool) (stream : Fin N → Fin d → ℝ) : ℝ :=
  let logJastrow := -((∑ i, norm2 (stream i)) / N)
  if logabs then logJastrow else Real.exp logJastrow

end Verif.Jastrow
