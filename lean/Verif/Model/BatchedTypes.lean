import Verif.Model.BatchedEpoch

/-!
The other two types of local energies as array code: integrated by parts, and with random particles, and the choice
between the three types, and the estimates of training with random particles.
-/

namespace Verif.Arrays
open Verif.Phys Verif.Energy

variable {K : Type}

/-- The rows of an array with two axes. -/
noncomputable def rowsOf (n d : ℕ) (x : Arr ℝ) : Pos n d := fun i k => x.get [k.val, i.val]

/-- A function which differentiates the log amplitude of one walker: `jax.grad` raises unless the model returns an
array without axes.  physics/core.py:97-182, physics/random_particle.py:41-44, physics/ibp.py:119-127 -/
noncomputable def differentiatedA (logPsi : Arr ℝ → Except String (Arr XR))
    (f : ∀ n d, (Pos n d → ℝ) → Pos n d → XR) (x : Arr ℝ) : Except String (Arr XR) := do
  let y ← logPsi x
  match y.shape, x.shape with
  | [], [d, n] => return .of [] fun _ => f n d (fun pos => scalarOf (logPsi (A2 pos))) (rowsOf n d x)
  | _, _ => .error "Gradient only defined for scalar-output functions"

/-- `create_random_particle_kinetic_energy`; `n / (3 * nparticles)` raises for no particles.
physics/random_particle.py:21-46, physics/core.py:158-160 -/
noncomputable def randomKineticA (logPsi : Arr ℝ → Except String (Arr XR)) (nparticles : ℕ)
    (perm : ∀ n, Equiv.Perm (Fin n)) (x : Arr ℝ) : Except String (Arr XR) :=
  if nparticles = 0 then .error "ZeroDivisionError" else
    differentiatedA logPsi (fun n _ f x => randomParticleKinetic f nparticles x (perm n)) x

/-- `positions[perm, :]` for one walker.  physics/random_particle.py:58 -/
noncomputable def permuteRowsA (perm : ∀ n, Equiv.Perm (Fin n)) (x : Arr ℝ) : Arr ℝ :=
  .of x.shape fun i => x.get [i.headD 0,
    if h : i.getD 1 0 < x.shape.getD 1 0 then (perm _ ⟨i.getD 1 0, h⟩).val else 0]

/-- `create_molecular_random_particle_local_energy`; `permutation key n` is
`jax.random.permutation(key, arange(n))`.  physics/random_particle.py:49-142 -/
noncomputable def randomEnergyA (permutation : K → ∀ n, Equiv.Perm (Fin n))
    (logPsi : Arr ℝ → Except String (Arr XR)) (ions charges : Arr ℝ) (nparticles : ℕ)
    (sampleKinetic sampleEi : Bool) (eiSoft : ℝ) (sampleEe : Bool) (eeSoft : ℝ) (x : Arr ℝ) (key : K) :
    Except String (Arr XR) :=
  (if sampleKinetic then randomKineticA logPsi nparticles (permutation key) x else kineticA logPsi x) >>=
  addTerms (permuteRowsA (permutation key) x) [ionIonA ions charges,
    electronIonA ions charges 1 eiSoft (if sampleEi then some nparticles else none),
    electronElectronA 1 eeSoft (if sampleEe then some nparticles else none)]

/-- `create_ibp_energy_term`; ions of shape (nion, d).  Simplification: `U` and its gradient are not array code here but
the functions of one walker of `Model/Physics.lean`.  physics/ibp.py:49-126 -/
noncomputable def ibpTermA (logPsi : Arr ℝ → Except String (Arr XR)) (ions charges : Arr ℝ)
    (includeKinetic includeEi : Bool) (eiSoft : ℝ) (includeEe : Bool) (eeSoft : ℝ) :
    Arr ℝ → Except String (Arr XR) :=
  differentiatedA logPsi fun _ d f => ibpEnergyTerm f (rowsOf (ions.shape.getD 1 0) d ions)
    (fun j => charges.get [j.val]) includeKinetic includeEi eiSoft includeEe eeSoft

/-- `create_ibp_local_energy`.  physics/ibp.py:129-197 -/
noncomputable def ibpEnergyA (logPsi : Arr ℝ → Except String (Arr XR)) (ions charges : Arr ℝ)
    (ibpKinetic ibpEi : Bool) (eiSoft : ℝ) (ibpEe : Bool) (eeSoft : ℝ) : Arr ℝ → Except String (Arr XR) :=
  combineTermsA ([ibpTermA logPsi ions charges ibpKinetic ibpEi eiSoft ibpEe eeSoft, ionIonA ions charges] ++
    (if !ibpKinetic then [kineticA logPsi] else []) ++
    (if !ibpEi then [electronIonA ions charges 1 eiSoft none] else []) ++
    (if !ibpEe then [electronElectronA 1 eeSoft none] else []))

/-- `_assemble_mol_local_energy_fn`.  train/runners.py:223-280 -/
noncomputable def molEnergyA (permutation : K → ∀ n, Equiv.Perm (Fin n)) (energyType : String)
    (ibpParts : List String) (nparticles : ℕ) (sampleParts : List String) (ions charges : Arr ℝ)
    (eiSoft eeSoft : ℝ) (logPsi : Arr ℝ → Except String (Arr XR)) :
    Except String (Arr ℝ → K → Except String (Arr XR)) :=
  if energyType = "standard" then .ok fun x _ => localEnergyA logPsi ions charges eiSoft eeSoft x
  else if energyType = "ibp" then
    .ok fun x _ => ibpEnergyA logPsi ions charges (ibpParts.contains "kinetic") (ibpParts.contains "ei") eiSoft
      (ibpParts.contains "ee") eeSoft x
  else if energyType = "random_particle" then
    .ok (randomEnergyA permutation logPsi ions charges nparticles (sampleParts.contains "kinetic")
      (sampleParts.contains "ei") eiSoft (sampleParts.contains "ee") eeSoft)
  else .error "ValueError"

/-- `jax.vmap(f, in_axes=(0, 0))` for at least one walker, with the keys of `jax.random.split(key, nbatch)`; with
`in_axes=(0, None)` all keys are the same.  physics/core.py:346-348, 356-363, updates/params.py:249-258 -/
noncomputable def vmapKeysA (f : Arr ℝ → K → Except String (Arr XR)) (x : Arr ℝ) (keys : ℕ → K) :
    Except String (Arr XR) := do
  let ys ← (List.range (x.shape.getLastD 0)).mapM fun t => f (x.part [t]) (keys t)
  match ys with
  | [] => .error "at least one walker"
  | y :: _ => return .of (y.shape ++ [ys.length]) fun i => (ys.getD (i.getLastD 0) y).get i.dropLast

/-- `random_particle_energy_val_and_grad` for the keys `jax.random.split(key, nbatch)`.  physics/core.py:356-367 -/
noncomputable def randomValueAndForwardA {P : Type} (localEnergy : P → Arr ℝ → K → Except String (Arr XR))
    (logPsi : P → Arr ℝ → Except String (Arr XR)) (nchains : ℕ)
    (clipping : Option (List XR → XR → List XR)) (nanSafe : Bool) (params : P) (keys : ℕ → K) (positions : Arr ℝ) :
    Except String (XR × Aux × (P → Except String XR)) := do
  let es ← vmapKeysA (localEnergy params) positions keys
  let r := getClipped [entriesA es] nchains clipping nanSafe
  return (r.1, r.2.2, fun params' =>
    forwardA logPsi nchains nanSafe params' positions (centeredA r.2.1.flatten r.1))

end Verif.Arrays
