import Verif.Model.Arrays
import Verif.Model.Batched
import Verif.Model.Physics

/-!
The potential energies of `physics/potential.py` as array code, for positions with any number of batch axes.
`Model/Physics.lean` has the same functions for one walker.
-/

namespace Verif.Arrays

instance : Inhabited XR := ⟨.nan⟩

/-- `jnp.sqrt(jnp.sum(jnp.square(x), axis=-1) + jnp.square(softening))` of one row.
physics/potential.py:46-48 -/
noncomputable def softNorm (softening : ℝ) (l : List ℝ) : ℝ :=
  Real.sqrt ((l.map (· ^ 2)).sum + softening ^ 2)

/-- `compute_soft_norm`, over the last axis.  physics/potential.py:30-48 -/
noncomputable def softNormA (softening : ℝ) (displacements : Arr ℝ) : Arr ℝ :=
  displacements.reduce (softNorm softening) 0 false

/-- `jnp.sum(a, axis=(-1, -2))` -/
noncomputable def sumPairs (a : Arr XR) : Arr XR := (a.reduce List.sum 0 false).reduce List.sum 0 false

/-- `jnp.triu(a, k=1)` of the matrices in the last two axes. -/
noncomputable def strictTriu (a : Arr XR) : Arr XR :=
  .of a.shape fun i => if i.getD 1 0 + 1 ≤ i.headD 0 then a.get i else 0

/-- `jnp.tril(a, k=-1)` of the matrices in the last two axes. -/
noncomputable def strictTril (a : Arr XR) : Arr XR :=
  .of a.shape fun i => if i.headD 0 + 1 ≤ i.getD 1 0 then a.get i else 0

/-- `a[..., :k, :]` -/
noncomputable def firstRowsA {α : Type} [Inhabited α] (k : ℕ) (a : Arr α) : Arr α :=
  a.slice 1 0 (min k (a.shape.getD 1 0))

/-- The multiplier and the positions which are used.  physics/potential.py:116-119 -/
noncomputable def firstParticles (nparticles : Option ℕ) (x : Arr ℝ) : Except String (ℝ × Arr ℝ) :=
  match nparticles with
  | none => .ok (1, x)
  | some 0 => .error "ZeroDivisionError"
  | some k => .ok ((x.shape.getD 1 0 : ℝ) / k, firstRowsA k x)

/-- `create_electron_ion_coulomb_potential`.  physics/potential.py:114-126 -/
noncomputable def electronIonA (ions charges : Arr ℝ) (strength softening : ℝ) (nparticles : Option ℕ)
    (x : Arr ℝ) : Except String (Arr XR) := do
  let used ← firstParticles nparticles x
  let displacements ← displacementsA used.2 ions
  let attraction ← charges.zip (fun q r => (.fin q / .fin r : XR)) (softNormA softening displacements)
  return (sumPairs attraction).map fun v => .fin (-strength) * v * .fin used.1

/-- `create_electron_electron_coulomb_potential`.  physics/potential.py:158-173 -/
noncomputable def electronElectronA (strength softening : ℝ) (nparticles : Option ℕ) (x : Arr ℝ) :
    Except String (Arr XR) := do
  let displacements ← displacementsA x x
  let repulsion := (softNormA softening displacements).map fun r => (.fin strength / .fin r : XR)
  match nparticles with
  | none => return sumPairs (strictTriu repulsion)
  | some 0 => .error "ZeroDivisionError"
  | some k =>
    let double ← (strictTriu repulsion).zip (· + ·) (strictTril repulsion)
    return (sumPairs (firstRowsA k double)).map fun v => v * .fin ((x.shape.getD 1 0 : ℝ) / k) / .fin 2

/-- `create_ion_ion_coulomb_potential`: one number, whatever the positions are.
physics/potential.py:76-82, 196-205 -/
noncomputable def ionIonA (ions charges : Arr ℝ) (_x : Arr ℝ) : Except String (Arr XR) := do
  let displacements ← displacementsA ions ions
  let products ← (charges.expand 0).zip (· * ·) charges
  let quotients ← products.zip (fun q r => (.fin q / .fin r : XR)) (softNormA 0 displacements)
  return sumPairs (strictTriu quotients)

/-- The loop of `combine_local_energy_terms`: `local_energy_sum + term(params, x)`.  physics/core.py:90-91 -/
noncomputable def addTerms (x : Arr ℝ) : List (Arr ℝ → Except String (Arr XR)) → Arr XR → Except String (Arr XR)
  | [], acc => .ok acc
  | t :: ts, acc => do
    let v ← t x
    let acc' ← acc.zip (· + ·) v
    addTerms x ts acc'

/-- `combine_local_energy_terms`; `local_energy_terms[0]` raises for an empty list.  physics/core.py:72-94 -/
noncomputable def combineTermsA (terms : List (Arr ℝ → Except String (Arr XR))) (x : Arr ℝ) :
    Except String (Arr XR) :=
  match terms with
  | [] => .error "list index out of range"
  | t :: ts => do
    let v ← t x
    addTerms x ts v

end Verif.Arrays
