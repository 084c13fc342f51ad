import Verif.Model.XRSum
import Mathlib.Analysis.Calculus.Deriv.Basic
import Mathlib.Logic.Equiv.Fin.Basic

/-!
Local-energy terms: `physics/potential.py`, `physics/kinetic.py`, `physics/core.py`
(laplacian and term combination), `physics/ibp.py`, `physics/random_particle.py` and
`train/runners.py:_assemble_mol_local_energy_fn`.

Everything is written for one walker (the code vmaps).  Potential terms are `XR` valued
because the diagonal of a distance matrix is zero and is divided by before `triu` discards it.
Automatic differentiation is modelled by the mathematical derivative (`deriv` along a
coordinate); log-amplitudes are real valued, i.e. walkers sit off the nodes.  Masks such as
`triu` select, they do not multiply.
-/

namespace Verif.Phys

/-- positions of `n` particles in `d` dimensions, array shape `(n, d)` -/
abbrev Pos (n d : ℕ) := Fin n → Fin d → ℝ

variable {n m d : ℕ}

/-- `compute_displacements`: `x_i - y_j`.  physics/potential.py:11-21 -/
def computeDisplacements (x : Pos n d) (y : Pos m d) (i : Fin n) (j : Fin m) (k : Fin d) : ℝ :=
  x i k - y j k

/-- `compute_soft_norm`: `sqrt(sum_k x_k^2 + softening^2)`.  physics/potential.py:29-48 -/
noncomputable def computeSoftNorm (disp : Fin d → ℝ) (softening : ℝ) : ℝ :=
  Real.sqrt ((∑ k, disp k ^ 2) + softening ^ 2)

open Classical in
/-- `_soft_norm_bwd` (displacement part): the custom gradient of the soft norm, 0 where the
norm is 0.  physics/potential.py:63-70 -/
noncomputable def softNormBwd (disp : Fin d → ℝ) (softening : ℝ) (k : Fin d) : ℝ :=
  if computeSoftNorm disp softening = 0 then 0 else disp k / computeSoftNorm disp softening

/-- `jnp.triu(a, k=1)` -/
def triu1 {α : Type*} [Zero α] (a : Fin n → Fin n → α) (i j : Fin n) : α :=
  if i.val + 1 ≤ j.val then a i j else 0

/-- `jnp.tril(a, k=-1)` -/
def tril1 {α : Type*} [Zero α] (a : Fin n → Fin n → α) (i j : Fin n) : α :=
  if j.val + 1 ≤ i.val then a i j else 0

/-- the slice `x[..., :k, :]` -/
def firstRows {α : Type*} (k : ℕ) (x : Fin n → α) : Fin (min k n) → α :=
  fun i => x ⟨i.val, lt_of_lt_of_le i.2 (min_le_right _ _)⟩

/-- `create_electron_ion_coulomb_potential`.  physics/potential.py:85-128.
`multiplier = x.shape[-2] / nparticles` is a real division (nparticles = 0 raises in python). -/
noncomputable def electronIonPotential (ionPos : Pos m d) (charges : Fin m → ℝ)
    (strength softening : ℝ) (nparticles : Option ℕ) (x : Pos n d) : XR :=
  let attraction (y : Fin d → ℝ) (I : Fin m) : XR :=
    .fin (charges I) / .fin (computeSoftNorm (fun k => y k - ionPos I k) softening)
  match nparticles with
  | none => .fin (-strength) * (∑ i, ∑ I, attraction (x i) I) * .fin 1
  | some k =>
    .fin (-strength) * (∑ i, ∑ I, attraction (firstRows k x i) I) * .fin ((n : ℝ) / k)

/-- entries `strength / electron_electron_distances`, diagonal included.
physics/potential.py:158-162 -/
noncomputable def pairRepulsion (strength softening : ℝ) (x : Pos n d) (i j : Fin n) : XR :=
  .fin strength / .fin (computeSoftNorm (computeDisplacements x x i j) softening)

/-- `create_electron_electron_coulomb_potential`.  physics/potential.py:131-175 -/
noncomputable def electronElectronPotential (strength softening : ℝ) (nparticles : Option ℕ)
    (x : Pos n d) : XR :=
  let rep := pairRepulsion strength softening x
  match nparticles with
  | none => ∑ i, ∑ j, triu1 rep i j
  | some k =>
    let double := fun i j => triu1 rep i j + tril1 rep i j
    (∑ i, ∑ j, firstRows k double i j) * .fin ((n : ℝ) / k) / .fin 2

/-- `create_ion_ion_coulomb_potential` (the constant it computes; `_get_ion_ion_info` is the
displacement and charge product).  physics/potential.py:76-82, 178-207 -/
noncomputable def ionIonPotential (ionPos : Pos m d) (charges : Fin m → ℝ) : XR :=
  ∑ I, ∑ J, triu1 (fun I J => (.fin (charges I * charges J) : XR) /
    .fin (computeSoftNorm (computeDisplacements ionPos ionPos I J) 0)) I J

/-- one unit coordinate step: electron `i`, component `k` -/
def unitStep (i : Fin n) (k : Fin d) : Pos n d :=
  fun i' k' => if i' = i ∧ k' = k then 1 else 0

/-- `jax.grad(f, argnums=1)` on positions -/
noncomputable def gradPos (f : Pos n d → ℝ) (x : Pos n d) : Pos n d :=
  fun i k => deriv (fun t : ℝ => f (x + t • unitStep i k)) 0

/-- `jnp.reshape(x, (-1,))` of an `(n, d)` array (row major) -/
def flatten (x : Pos n d) : Fin (n * d) → ℝ := fun a => x a.divNat a.modNat

/-- `jnp.reshape(flat, (n, d))` -/
def unflatten (v : Fin (n * d) → ℝ) : Pos n d := fun i k => v (finProdFinEquiv (i, k))

/-- `jax.jvp` tangent output of a vector function -/
noncomputable def jvpTangent {N : ℕ} (f : (Fin N → ℝ) → Fin N → ℝ) (x v : Fin N → ℝ) :
    Fin N → ℝ := fun a => deriv (fun t : ℝ => f (x + t • v) a) 0

/-- `triple_perm`: flat index `p*d + i` goes to `perm[p]*d + i`.  physics/core.py:159-162 -/
def triplePerm (perm : Equiv.Perm (Fin n)) (a : Fin (n * d)) : Fin (n * d) :=
  finProdFinEquiv (perm a.divNat, a.modNat)

/-- One step of the scan with direction number `i`: the square of the gradient component plus
the second derivative, along the unit vector of flat index `a`.  physics/core.py:165-177 -/
noncomputable def laplacianStep (g : Pos n d → Pos n d) (x : Pos n d) (a : Fin (n * d)) : ℝ :=
  let flatG : (Fin (n * d) → ℝ) → Fin (n * d) → ℝ := fun v => flatten (g (unflatten v))
  let vec : Fin (n * d) → ℝ := Pi.single a 1
  (∑ b, flatG (flatten x) b * vec b) ^ 2 + ∑ b, jvpTangent flatG (flatten x) vec b * vec b

/-- `vecs[i]` with jax's clamping of an out-of-range index: the row number used for step `i`. -/
def clampIndex (N : ℕ) (hN : 0 < N) (i : ℕ) : Fin N := ⟨min i (N - 1), by omega⟩

/-- `laplacian_psi_over_psi`.  `sample = some (nparticles, perm)` is the random-particle call.
The hard-coded `3 * nparticles` of lines 155-156 is kept.  Simplification: with no coordinates
at all (`n * d = 0`) every step contributes 0.  physics/core.py:97-182 -/
noncomputable def laplacianPsiOverPsi (g : Pos n d → Pos n d) (x : Pos n d)
    (sample : Option (ℕ × Equiv.Perm (Fin n))) : ℝ :=
  let step (row : Fin (n * d) → Fin (n * d)) (acc : ℝ) (i : ℕ) : ℝ :=
    acc + if h : 0 < n * d then laplacianStep g x (row (clampIndex (n * d) h i)) else 0
  match sample with
  | none => (List.range (n * d)).foldl (step id) 0 * 1
  | some (k, perm) =>
    (List.range (3 * k)).foldl (step (triplePerm perm)) 0 * (((n * d : ℕ) : ℝ) / (3 * k : ℕ))

/-- `create_laplacian_kinetic_energy`.  physics/kinetic.py:10-32 -/
noncomputable def laplacianKinetic (logPsi : Pos n d → ℝ) (x : Pos n d) : XR :=
  .fin (-0.5 * laplacianPsiOverPsi (gradPos logPsi) x none)

/-- `create_random_particle_kinetic_energy`.  physics/random_particle.py:21-46 -/
noncomputable def randomParticleKinetic (logPsi : Pos n d → ℝ) (nparticles : ℕ) (x : Pos n d)
    (perm : Equiv.Perm (Fin n)) : XR :=
  .fin (-0.5 * laplacianPsiOverPsi (gradPos logPsi) x (some (nparticles, perm)))

/-- `create_gradient_squared_kinetic_energy`.  physics/ibp.py:21-46 -/
noncomputable def gradSquaredKinetic (logPsi : Pos n d → ℝ) (x : Pos n d) : XR :=
  .fin (0.5 * ∑ i, ∑ k, gradPos logPsi x i k ^ 2)

/-- Reverse pass of the electron-ion part of `U`: gradient of
`-sum(charges * dist / 2)` with the custom gradient of the norm.  physics/ibp.py:90-97 -/
noncomputable def gradUei (ionPos : Pos m d) (charges : Fin m → ℝ) (softening : ℝ)
    (x : Pos n d) : Pos n d :=
  fun i k => ∑ I, -(charges I / 2) * softNormBwd (computeDisplacements x ionPos i I) softening k

/-- Reverse pass of the electron-electron part of `U`: gradient of `sum(triu(dist / 4, 1))`;
the displacement `x_i - x_j` passes its cotangent to `x_i` and minus it to `x_j`.
physics/ibp.py:99-109 -/
noncomputable def gradUee (softening : ℝ) (x : Pos n d) : Pos n d :=
  fun a k => ∑ i, ∑ j,
    triu1 (fun _ _ => (1 / 4 : ℝ)) i j * softNormBwd (computeDisplacements x x i j) softening k *
      ((if i = a then 1 else 0) - if j = a then 1 else 0)

/-- The function `U` itself.  physics/ibp.py:86-111 -/
noncomputable def potentialU (ionPos : Pos m d) (charges : Fin m → ℝ) (includeEi includeEe : Bool)
    (eiSoft eeSoft : ℝ) (x : Pos n d) : ℝ :=
  (if includeEi then
    -∑ i, ∑ I, charges I * computeSoftNorm (computeDisplacements x ionPos i I) eiSoft / 2 else 0) +
  (if includeEe then
    ∑ i, ∑ j, triu1 (fun i j => computeSoftNorm (computeDisplacements x x i j) eeSoft / 4) i j
    else 0)

/-- `create_ibp_energy_term`.  physics/ibp.py:49-126 -/
noncomputable def ibpEnergyTerm (logPsi : Pos n d → ℝ) (ionPos : Pos m d) (charges : Fin m → ℝ)
    (includeKinetic includeEi : Bool) (eiSoft : ℝ) (includeEe : Bool) (eeSoft : ℝ)
    (x : Pos n d) : XR :=
  let g := gradPos logPsi x
  let gu : Pos n d := fun i k =>
    (if includeEi then gradUei ionPos charges eiSoft x i k else 0) +
      (if includeEe then gradUee eeSoft x i k else 0)
  let result := -2 * ∑ i, ∑ k, g i k * gu i k
  .fin (if includeKinetic then result + 0.5 * ∑ i, ∑ k, g i k ^ 2 else result)

/-- a local-energy function: positions and key to energy -/
abbrev LocalEnergy (n d : ℕ) (K : Type) := Pos n d → K → XR

/-- `combine_local_energy_terms`: the first term, then the others added.  The list is given by
its head and tail since the code indexes `[0]`.  physics/core.py:72-94 -/
noncomputable def combineTerms {K : Type} (t : Pos n d → XR) (ts : List (Pos n d → XR)) :
    LocalEnergy n d K :=
  fun x _ => ts.foldl (fun acc f => acc + f x) (t x)

/-- `create_ibp_local_energy`.  physics/ibp.py:129-197 -/
noncomputable def ibpLocalEnergy {K : Type} (logPsi : Pos n d → ℝ) (ionPos : Pos m d)
    (charges : Fin m → ℝ) (ibpKinetic ibpEi : Bool) (eiSoft : ℝ) (ibpEe : Bool) (eeSoft : ℝ) :
    LocalEnergy n d K :=
  combineTerms (ibpEnergyTerm logPsi ionPos charges ibpKinetic ibpEi eiSoft ibpEe eeSoft)
    ([fun _ => ionIonPotential ionPos charges] ++
      (if !ibpKinetic then [laplacianKinetic logPsi] else []) ++
      (if !ibpEi then [electronIonPotential ionPos charges 1 eiSoft none] else []) ++
      (if !ibpEe then [electronElectronPotential 1 eeSoft none] else []))

/-- `assemble_random_particle_local_energy`; `permutation key` is
`jax.random.permutation(key, arange(n))`, `positions[perm, :]` permutes rows.
physics/random_particle.py:49-72 -/
noncomputable def assembleRandomParticle {K : Type} (permutation : K → Equiv.Perm (Fin n))
    (kinetic : Pos n d → Equiv.Perm (Fin n) → XR) (kineticFull : Pos n d → XR)
    (potentials : List (Pos n d → XR)) (sampleKinetic : Bool) : LocalEnergy n d K :=
  fun x key =>
    let perm := permutation key
    let permuted : Pos n d := fun i => x (perm i)
    potentials.foldl (fun acc f => acc + f permuted)
      (if sampleKinetic then kinetic x perm else kineticFull x)

/-- `create_molecular_random_particle_local_energy`.  physics/random_particle.py:75-142 -/
noncomputable def randomParticleLocalEnergy {K : Type} (permutation : K → Equiv.Perm (Fin n))
    (logPsi : Pos n d → ℝ) (ionPos : Pos m d) (charges : Fin m → ℝ) (nparticles : ℕ)
    (sampleKinetic sampleEi : Bool) (eiSoft : ℝ) (sampleEe : Bool) (eeSoft : ℝ) :
    LocalEnergy n d K :=
  assembleRandomParticle permutation (randomParticleKinetic logPsi nparticles)
    (laplacianKinetic logPsi)
    [fun _ => ionIonPotential ionPos charges,
     electronIonPotential ionPos charges 1 eiSoft (if sampleEi then some nparticles else none),
     electronElectronPotential 1 eeSoft (if sampleEe then some nparticles else none)]
    sampleKinetic

/-- `_assemble_mol_local_energy_fn`; `none` is the `ValueError` for an unknown type.
train/runners.py:223-280 -/
noncomputable def assembleMolLocalEnergy {K : Type} (permutation : K → Equiv.Perm (Fin n))
    (energyType : String) (ibpParts : List String) (nparticles : ℕ) (sampleParts : List String)
    (ionPos : Pos m d) (charges : Fin m → ℝ) (eiSoft eeSoft : ℝ) (logPsi : Pos n d → ℝ) :
    Option (LocalEnergy n d K) :=
  if energyType = "standard" then
    some (combineTerms (laplacianKinetic logPsi)
      [electronIonPotential ionPos charges 1 eiSoft none,
       electronElectronPotential 1 eeSoft none,
       fun _ => ionIonPotential ionPos charges])
  else if energyType = "ibp" then
    some (ibpLocalEnergy logPsi ionPos charges (ibpParts.contains "kinetic")
      (ibpParts.contains "ei") eiSoft (ibpParts.contains "ee") eeSoft)
  else if energyType = "random_particle" then
    some (randomParticleLocalEnergy permutation logPsi ionPos charges nparticles
      (sampleParts.contains "kinetic") (sampleParts.contains "ei") eiSoft
      (sampleParts.contains "ee") eeSoft)
  else none

end Verif.Phys
