import Verif.Model.BatchedTypes
import Verif.Props.BatchedEpoch
import Verif.Props.LocalEnergy

/-!
Every type of local energy which a configuration can choose, as array code mapped over the walkers of a batch with
one key for each walker, and the estimates of training with random particles.
-/

namespace Verif.Spec

/-- The three types of local energy. -/
def KnownType (t : String) : Prop := t = "standard" ∨ t = "ibp" ∨ t = "random_particle"

/-- The mean over independent uniform choices of one permutation for each walker. -/
noncomputable def independentMean {W N : ℕ} (F : (Fin W → Equiv.Perm (Fin N)) → ℝ) : ℝ :=
  (∑ σ, F σ) / Fintype.card (Fin W → Equiv.Perm (Fin N))

end Verif.Spec

namespace Verif.Props
open Verif.Arrays Verif.MCMC Verif.Phys Verif.Spec Verif.Construct Verif.Net Verif.Energy Verif.Slog

section types

variable {K : Type} {N m d : ℕ}

theorem differentiated_one {logPsi : Arr ℝ → Except String (Arr XR)} (x : Pos N d) {Z : Arr XR}
    (hZ : logPsi (A2 x) = .ok Z) (hs : Z.shape = []) (F : ∀ n d, (Pos n d → ℝ) → Pos n d → XR) :
    differentiatedA logPsi F (A2 x) = .ok (A0 (F N d (fun y => scalarOf (logPsi (A2 y))) x)) := by
  unfold differentiatedA
  rw [hZ, ok_bind]
  show (match Z.shape, [d, N] with
    | [], [d, n] => _
    | _, _ => _) = _
  rw [hs]
  show Except.ok (Arr.of [] _) = _
  unfold A0
  rw [show rowsOf N d (A2 x) = x from positions_A2 x]

theorem kinetic_one {logPsi : Arr ℝ → Except String (Arr XR)} (x : Pos N d) {Z : Arr XR}
    (hZ : logPsi (A2 x) = .ok Z) (hs : Z.shape = []) :
    kineticA logPsi (A2 x) = .ok (A0 (laplacianKinetic (fun y : Pos N d => scalarOf (logPsi (A2 y))) x)) :=
  differentiated_one x hZ hs fun _ _ f x => laplacianKinetic f x

theorem permuteRows_one (perm : ∀ n, Equiv.Perm (Fin n)) (x : Pos N d) :
    permuteRowsA perm (A2 x) = A2 fun i => x (perm N i) := by
  unfold permuteRowsA
  refine eq_A2 rfl fun i k => ?_
  rw [of_get (by exact .cons k.2 (.cons i.2 .nil))]
  show (A2 x).get [k.val, if h : i.val < N then (perm N ⟨i.val, h⟩).val else 0] = _
  rw [dif_pos i.2]
  exact A2_get x (perm N i).2 k.2

/-- A term of a local energy which is one number for one walker. -/
def OneTerm (t : (Arr ℝ → Except String (Arr XR)) × (Pos N d → XR)) : Prop :=
  ∀ x : Pos N d, ∃ Z, t.1 (A2 x) = .ok Z ∧ Z.shape = [] ∧ Z.get [] = t.2 x

theorem add_one_terms (x : Pos N d) (ts : List ((Arr ℝ → Except String (Arr XR)) × (Pos N d → XR)))
    (h : ∀ t ∈ ts, OneTerm t) {V : Arr XR} (hV : V.shape = []) :
    ∃ Y, addTerms (A2 x) (ts.map (·.1)) V = .ok Y ∧ Y.shape = [] ∧
      Y.get [] = (ts.map (·.2)).foldl (fun acc f => acc + f x) (V.get []) := by
  induction ts generalizing V with
  | nil => exact ⟨V, rfl, hV, rfl⟩
  | cons t ts ih =>
    obtain ⟨W, h1, h2, h3⟩ := h t (by simp) x
    obtain ⟨V', h4, h5, h6⟩ := zip_batch (B := []) .nil hV (.inl h2)
    obtain ⟨Y, h7, h8, h9⟩ := ih (fun t ht => h t (by simp [ht])) h5
    refine ⟨Y, ?_, h8, ?_⟩
    · simp only [List.map_cons, addTerms, h1, ok_bind, h4, h7]
    · rw [h9, h6, if_pos h2, h3]
      rfl

theorem combine_one_terms (t : (Arr ℝ → Except String (Arr XR)) × (Pos N d → XR))
    (ts : List ((Arr ℝ → Except String (Arr XR)) × (Pos N d → XR))) (h : ∀ u ∈ t :: ts, OneTerm u)
    (x : Pos N d) (key : K) :
    ∃ Y, combineTermsA ((t :: ts).map (·.1)) (A2 x) = .ok Y ∧ Y.shape = [] ∧
      Y.get [] = combineTerms t.2 (ts.map (·.2)) x key := by
  obtain ⟨W, h1, h2, h3⟩ := h t (by simp) x
  obtain ⟨Y, h4, h5, h6⟩ := add_one_terms x ts (fun u hu => h u (by simp [hu])) h2
  refine ⟨Y, ?_, h5, by rw [h6, h3]; rfl⟩
  show (t.1 (A2 x) >>= fun v => addTerms (A2 x) (ts.map (·.1)) v) = _
  rw [h1, ok_bind, h4]

theorem one_electron_ion (ions : Pos m d) (charges : Fin m → ℝ) (s : ℝ) (k : Option ℕ) (hk : k ≠ some 0) :
    OneTerm (N := N) (electronIonA (A2 ions) (A1 charges) 1 s k, electronIonPotential ions charges 1 s k) := by
  intro x
  obtain ⟨Z, h1, h2, h3⟩ := electron_ion_on_batches (n := N) ions charges 1 s k hk [] (A2 x) rfl [] .nil
  exact ⟨Z, h1, h2, by rw [h3, positions_A2]⟩

theorem one_electron_electron (s : ℝ) (k : Option ℕ) (hk : k ≠ some 0) :
    OneTerm (N := N) (d := d) (electronElectronA 1 s k, electronElectronPotential 1 s k) := by
  intro x
  obtain ⟨Z, h1, h2, h3⟩ := electron_electron_on_batches (n := N) (d := d) 1 s k hk [] (A2 x) rfl [] .nil
  exact ⟨Z, h1, h2, by rw [h3, positions_A2]⟩

theorem one_ion_ion (ions : Pos m d) (charges : Fin m → ℝ) :
    OneTerm (N := N) (d := d) (ionIonA (A2 ions) (A1 charges), fun _ => ionIonPotential ions charges) :=
  fun x => ion_ion_one_number ions charges (A2 x)

theorem one_differentiated {logPsi : Arr ℝ → Except String (Arr XR)}
    (hlog : ∀ y : Pos N d, ∃ Z, logPsi (A2 y) = .ok Z ∧ Z.shape = []) (F : ∀ n d, (Pos n d → ℝ) → Pos n d → XR) :
    OneTerm (differentiatedA logPsi F, F N d fun y => scalarOf (logPsi (A2 y))) := by
  intro x
  obtain ⟨Z, h1, h2⟩ := hlog x
  exact ⟨_, differentiated_one x h1 h2 F, rfl, A0_get _⟩

theorem one_kinetic {logPsi : Arr ℝ → Except String (Arr XR)}
    (hlog : ∀ y : Pos N d, ∃ Z, logPsi (A2 y) = .ok Z ∧ Z.shape = []) :
    OneTerm (kineticA logPsi, laplacianKinetic fun y : Pos N d => scalarOf (logPsi (A2 y))) := by
  intro x
  obtain ⟨Z, h1, h2⟩ := hlog x
  exact ⟨_, kinetic_one x h1 h2, rfl, A0_get _⟩

theorem rows_A2 (R : Pos m d) : rowsOf ((A2 R).shape.getD 1 0) d (A2 R) = R := positions_A2 R

theorem one_ibp {logPsi : Arr ℝ → Except String (Arr XR)}
    (hlog : ∀ y : Pos N d, ∃ Z, logPsi (A2 y) = .ok Z ∧ Z.shape = []) (ions : Pos m d) (charges : Fin m → ℝ)
    (a b : Bool) (s : ℝ) (c : Bool) (s' : ℝ) :
    OneTerm (ibpTermA logPsi (A2 ions) (A1 charges) a b s c s',
      ibpEnergyTerm (fun y : Pos N d => scalarOf (logPsi (A2 y))) ions charges a b s c s') := by
  intro x
  obtain ⟨Z, h1, h2, h3⟩ := one_differentiated hlog (fun _ d f => ibpEnergyTerm f
    (rowsOf ((A2 ions).shape.getD 1 0) d (A2 ions)) (fun j => (A1 charges).get [j.val]) a b s c s') x
  refine ⟨Z, h1, h2, h3.trans ?_⟩
  show ibpEnergyTerm _ (rowsOf m d (A2 ions)) (fun j : Fin m => (A1 charges).get [j.val]) a b s c s' x =
    ibpEnergyTerm _ ions charges a b s c s' x
  rw [show rowsOf m d (A2 ions) = ions from positions_A2 ions,
    show (fun j : Fin m => (A1 charges).get [j.val]) = charges from funext fun j => A1_get charges j.2]

/-- C117, for one walker: the array code of each type of local energy returns the number which the function of that
type for one walker returns. -/
theorem energy_of_one_walker (permutation : K → ∀ n, Equiv.Perm (Fin n)) {energyType : String}
    (ht : Spec.KnownType energyType) (ibpParts sampleParts : List String) {nparticles : ℕ} (hk : nparticles ≠ 0)
    (ions : Pos m d) (charges : Fin m → ℝ) (eiSoft eeSoft : ℝ) {logPsi : Arr ℝ → Except String (Arr XR)}
    (hlog : ∀ y : Pos N d, ∃ Z, logPsi (A2 y) = .ok Z ∧ Z.shape = []) :
    ∃ F E, molEnergyA permutation energyType ibpParts nparticles sampleParts (A2 ions) (A1 charges) eiSoft eeSoft
        logPsi = .ok F ∧
      assembleMolLocalEnergy (fun k => permutation k N) energyType ibpParts nparticles sampleParts ions charges
        eiSoft eeSoft (fun y => scalarOf (logPsi (A2 y))) = some E ∧
      ∀ x key, ∃ Z, F (A2 x) key = .ok Z ∧ Z.shape = [] ∧ Z.get [] = E x key := by
  have hn : (none : Option ℕ) ≠ some 0 := by simp
  have hs : ∀ b : Bool, (if b then some nparticles else none) ≠ some 0 := by
    intro b
    cases b
    · simp
    · simpa using hk
  rcases ht with rfl | rfl | rfl
  · refine ⟨_, _, rfl, rfl, fun x key => ?_⟩
    refine combine_one_terms (_, _) [(_, _), (_, _), (_, _)] (fun u hu => ?_) x key
    simp only [List.mem_cons, List.not_mem_nil, or_false] at hu
    rcases hu with rfl | rfl | rfl | rfl
    · exact one_kinetic hlog
    · exact one_electron_ion ions charges eiSoft none hn
    · exact one_electron_electron eeSoft none hn
    · exact one_ion_ion ions charges
  · refine ⟨_, _, rfl, rfl, fun x key => ?_⟩
    have h := fun a b c => combine_one_terms (K := K)
      (ibpTermA logPsi (A2 ions) (A1 charges) a b eiSoft c eeSoft,
        ibpEnergyTerm (fun y : Pos N d => scalarOf (logPsi (A2 y))) ions charges a b eiSoft c eeSoft)
      ([(ionIonA (A2 ions) (A1 charges), fun _ => ionIonPotential ions charges)] ++
        (if !a then [(kineticA logPsi, laplacianKinetic fun y : Pos N d => scalarOf (logPsi (A2 y)))] else []) ++
        (if !b then [(electronIonA (A2 ions) (A1 charges) 1 eiSoft none,
          electronIonPotential ions charges 1 eiSoft none)] else []) ++
        (if !c then [(electronElectronA 1 eeSoft none, electronElectronPotential 1 eeSoft none)] else []))
      (fun u hu => by
        simp only [List.mem_cons, List.mem_append, List.not_mem_nil, or_false] at hu
        rcases hu with rfl | ((rfl | hu) | hu) | hu
        · exact one_ibp hlog ions charges a b eiSoft c eeSoft
        · exact one_ion_ion ions charges
        all_goals
          split_ifs at hu
          · simp only [List.mem_cons, List.not_mem_nil, or_false] at hu
            subst hu
            first
              | exact one_kinetic hlog
              | exact one_electron_ion ions charges eiSoft none hn
              | exact one_electron_electron eeSoft none hn
          · simp at hu) x key
    have h' := h (ibpParts.contains "kinetic") (ibpParts.contains "ei") (ibpParts.contains "ee")
    revert h'
    show _ → ∃ Z, ibpEnergyA logPsi (A2 ions) (A1 charges) (ibpParts.contains "kinetic") (ibpParts.contains "ei")
      eiSoft (ibpParts.contains "ee") eeSoft (A2 x) = .ok Z ∧ Z.shape = [] ∧ Z.get [] = ibpLocalEnergy _ ions charges
        (ibpParts.contains "kinetic") (ibpParts.contains "ei") eiSoft (ibpParts.contains "ee") eeSoft x key
    unfold ibpEnergyA ibpLocalEnergy
    cases ibpParts.contains "kinetic" <;> cases ibpParts.contains "ei" <;> cases ibpParts.contains "ee" <;>
      exact id
  · refine ⟨_, _, rfl, rfl, fun x key => ?_⟩
    have hkin : ∃ V, (if sampleParts.contains "kinetic" then
          randomKineticA logPsi nparticles (permutation key) (A2 x) else kineticA logPsi (A2 x)) = .ok V ∧
        V.shape = [] ∧ V.get [] = if sampleParts.contains "kinetic" then
          randomParticleKinetic (fun y : Pos N d => scalarOf (logPsi (A2 y))) nparticles x (permutation key N)
          else laplacianKinetic (fun y : Pos N d => scalarOf (logPsi (A2 y))) x := by
      cases sampleParts.contains "kinetic"
      · exact one_kinetic hlog x
      · have h := one_differentiated hlog
          (fun n _ f x => randomParticleKinetic f nparticles x (permutation key n)) x
        simp only [if_true]
        unfold randomKineticA
        rw [if_neg hk]
        exact h
    obtain ⟨V, h1, h2, h3⟩ := hkin
    obtain ⟨Y, h4, h5, h6⟩ := add_one_terms (fun i => x (permutation key N i))
      [(ionIonA (A2 ions) (A1 charges), fun _ => ionIonPotential ions charges),
        (electronIonA (A2 ions) (A1 charges) 1 eiSoft (if sampleParts.contains "ei" then some nparticles else none),
          electronIonPotential ions charges 1 eiSoft (if sampleParts.contains "ei" then some nparticles else none)),
        (electronElectronA 1 eeSoft (if sampleParts.contains "ee" then some nparticles else none),
          electronElectronPotential 1 eeSoft (if sampleParts.contains "ee" then some nparticles else none))]
      (fun u hu => by
        simp only [List.mem_cons, List.not_mem_nil, or_false] at hu
        rcases hu with rfl | rfl | rfl
        · exact one_ion_ion ions charges
        · exact one_electron_ion ions charges eiSoft _ (hs _)
        · exact one_electron_electron eeSoft _ (hs _)) h2
    refine ⟨Y, ?_, h5, ?_⟩
    · unfold randomEnergyA
      rw [h1, ok_bind, permuteRows_one]
      exact h4
    · rw [h6, h3]
      rfl

theorem vmap_keys_numbers {f : Arr ℝ → K → Except String (Arr XR)} {X : Arr ℝ} {s : List ℕ} {W : ℕ}
    (keys : ℕ → K) (hX : X.shape = s ++ [W]) (hW : 0 < W) {g : ℕ → Arr XR} (hs : ∀ t < W, (g t).shape = [])
    (h : ∀ t < W, f (X.part [t]) (keys t) = .ok (g t)) :
    ∃ Y, vmapKeysA f X keys = .ok Y ∧ Y.shape = [W] ∧ ∀ t < W, Y.get [t] = (g t).get [] := by
  obtain ⟨V, rfl⟩ : ∃ V, W = V + 1 := ⟨W - 1, by omega⟩
  have hl : X.shape.getLastD 0 = V + 1 := by rw [hX]; simp
  unfold vmapKeysA
  rw [hl, mapM_range _ h, ok_bind, List.range_succ_eq_map, List.map_cons]
  refine ⟨_, rfl, ?_, fun t ht => ?_⟩
  · show (g 0).shape ++ [_] = _
    rw [hs 0 hW]
    simp
  · rw [of_get (by
      rw [hs 0 hW]
      exact .cons (by simpa using ht) .nil)]
    rw [← List.map_cons, ← List.range_succ_eq_map]
    simp [List.getD_eq_getElem?_getD, ht]

/-- C117: mapped over a batch with one key for each walker, the array code of each type of local energy gives each
walker the local energy of its own positions with its own key. -/
theorem mapped_energies (permutation : K → ∀ n, Equiv.Perm (Fin n)) {energyType : String}
    (ht : Spec.KnownType energyType) (ibpParts sampleParts : List String) {nparticles : ℕ} (hk : nparticles ≠ 0)
    (ions : Pos m d) (charges : Fin m → ℝ) (eiSoft eeSoft : ℝ) {logPsi : Arr ℝ → Except String (Arr XR)}
    (hlog : ∀ y : Pos N d, ∃ Z, logPsi (A2 y) = .ok Z ∧ Z.shape = []) :
    ∃ F E, molEnergyA permutation energyType ibpParts nparticles sampleParts (A2 ions) (A1 charges) eiSoft eeSoft
        logPsi = .ok F ∧
      assembleMolLocalEnergy (fun k => permutation k N) energyType ibpParts nparticles sampleParts ions charges
        eiSoft eeSoft (fun y => scalarOf (logPsi (A2 y))) = some E ∧
      ∀ (W : ℕ) (X : Arr ℝ) (keys : ℕ → K), 0 < W → X.shape = [d, N, W] →
        ∃ Y, vmapKeysA F X keys = .ok Y ∧ Y.shape = [W] ∧
          ∀ t < W, Y.get [t] = E (Spec.positionsOf X [t]) (keys t) := by
  obtain ⟨F, E, h1, h2, h3⟩ := energy_of_one_walker permutation ht ibpParts sampleParts hk ions charges eiSoft eeSoft
    hlog
  refine ⟨F, E, h1, h2, fun W X keys hW hX => ?_⟩
  choose g hg1 hg2 hg3 using h3
  have hpart : ∀ t < W, X.part [t] = A2 (Spec.positionsOf X [t] : Pos N d) := fun t ht =>
    part_positions (B := [W]) hX (.cons ht .nil)
  obtain ⟨Y, h4, h5, h6⟩ := vmap_keys_numbers (s := [d, N]) (f := F) keys hX hW
    (g := fun t => g (Spec.positionsOf X [t]) (keys t)) (fun t _ => hg2 _ _)
    (fun t ht => by rw [hpart t ht, hg1])
  exact ⟨Y, h4, h5, fun t ht => by rw [h6 t ht, hg3]⟩

/-- C117: a function which differentiates accepts one walker at a time only, so that mapping is needed. -/
theorem differentiated_batch_raises {logPsi : Arr ℝ → Except String (Arr XR)} {x : Arr ℝ} {y : Arr XR}
    (h : logPsi x = .ok y) (hy : y.shape ≠ []) (F : ∀ n d, (Pos n d → ℝ) → Pos n d → XR) :
    differentiatedA logPsi F x = .error "Gradient only defined for scalar-output functions" := by
  unfold differentiatedA
  rw [h, ok_bind]
  split
  · next h1 _ => exact absurd h1 hy
  · rfl

/-- C117: any other type is refused. -/
theorem unknown_type_refused (permutation : K → ∀ n, Equiv.Perm (Fin n)) {energyType : String}
    (ht : ¬ Spec.KnownType energyType) (ibpParts sampleParts : List String) (nparticles : ℕ)
    (ions charges : Arr ℝ) (eiSoft eeSoft : ℝ) (logPsi : Arr ℝ → Except String (Arr XR)) :
    molEnergyA permutation energyType ibpParts nparticles sampleParts ions charges eiSoft eeSoft logPsi =
      .error "ValueError" := by
  unfold molEnergyA
  rw [if_neg fun h => ht (.inl h), if_neg fun h => ht (.inr (.inl h)), if_neg fun h => ht (.inr (.inr h))]

end types

section configured

variable {K M d : ℕ} {n : Fin (K + 1) → ℕ} (c : ModelCfg) (ions : Fin (M + 1) → Fin d → ℝ)
  (charges : Fin (M + 1) → ℝ) (dtype : ℕ) (m : Model (M + 1))
  (hm : getModelFromConfig c (counts n) ions charges dtype = .ok m) (hu : Spec.UsesNorms c)
  (hdet : c.ndeterminants ≠ 0) (hn : ∀ s, 0 < n s) (P : Params (K + 1) (M + 1) d)

include hm hu hdet hn

theorem configured_one_walker (hc : Spec.Callable c (K + 1)) :
    ∃ v : Stream1 n d → SL, (∀ q, m.apply P ions q = .ok (v q)) ∧ ∀ y : Pos (∑ s, n s) d, ∃ Z,
      logPsiA (m.onBatch n P ions) (A2 y) = .ok Z ∧ Z.shape = [] ∧ Z.get [] = (v (splitPositions y)).2 := by
  have hcall : ∀ q : Stream1 n d, ∃ v, m.apply P ions q = .ok v := fun q =>
    (configured_model_callable_iff c ions charges dtype m hm hu hn P q).mpr hc
  choose v hv using hcall
  refine ⟨v, hv, fun y => ?_⟩
  have h := configured_model_agrees c ions charges dtype m hm hu hdet hn P [] (A2 y) rfl [] .nil
  rw [walker_split, positions_A2] at h
  obtain ⟨z, hz⟩ := h.2 _ (hv _)
  obtain ⟨h3, h4⟩ := h.1 z hz
  rw [hv] at h4
  refine ⟨z.map Prod.snd, by unfold logPsiA; rw [hz]; rfl, h3, ?_⟩
  show (Arr.of _ _).get [] = _
  rw [of_get (by rw [h3]; exact .nil), Except.ok.inj h4]

end configured

/-- C117: random-particle local energies of a configured model in three dimensions.  If the permutation of one walker
is drawn uniformly, whatever the keys of the other walkers are, the mean of its entry is the Hamiltonian applied to
the wave function, divided by it. -/
theorem mapped_random_particle_mean {K M : ℕ} {n : Fin (K + 1) → ℕ} (c : ModelCfg)
    (ions : Fin (M + 1) → Fin 3 → ℝ) (charges : Fin (M + 1) → ℝ) (dtype : ℕ) (m : Model (M + 1))
    (hm : getModelFromConfig c (counts n) ions charges dtype = .ok m) (hu : Spec.UsesNorms c)
    (hdet : c.ndeterminants ≠ 0) (hn : ∀ s, 0 < n s) (P : Params (K + 1) (M + 1) 3)
    (hc : Spec.Callable c (K + 1)) (nonzero : Stream1 n 3 → Prop)
    (ψ : Stream1 n 3 → ℝ) (hψ : ∀ q, Spec.ModelValue c P ions charges q (nonzero q) (ψ q))
    (eiSoft eeSoft : ℝ) (hR : Distinct ions) {κ : Type} (permutation : κ → ∀ n, Equiv.Perm (Fin n))
    (keyOf : Equiv.Perm (Fin (∑ s, n s)) → κ) (hkey : ∀ σ, permutation (keyOf σ) _ = σ)
    (ibpParts sampleParts : List String) {k : ℕ} (hk : 0 < k) (hkn : k ≤ ∑ s, n s) :
    ∃ F, molEnergyA permutation "random_particle" ibpParts k sampleParts (A2 ions) (A1 charges) eiSoft eeSoft
        (logPsiA (m.onBatch n P ions)) = .ok F ∧
      ∀ (W : ℕ) (X : Arr ℝ), 0 < W → X.shape = [3, ∑ s, n s, W] →
        ∃ Y : (ℕ → κ) → Arr XR, (∀ keys, vmapKeysA F X keys = .ok (Y keys) ∧ (Y keys).shape = [W]) ∧
          ∀ t < W, ∀ x : Pos (∑ s, n s) 3, x = Spec.positionsOf X [t] →
            ψ (splitPositions x) ≠ 0 → SmoothPlace c P ions (splitPositions x) → ∀ keys : ℕ → κ,
            XR.mean (fun σ => (Y (Function.update keys t (keyOf σ))).get [t]) =
              .fin ((-(1 / 2) * (∑ i, ∑ l, partial2 (fun y => ψ (splitPositions y)) i l x) +
                (coulombEI 1 eiSoft ions charges x + coulombEE 1 eeSoft x + coulombII ions charges) *
                  ψ (splitPositions x)) / ψ (splitPositions x)) := by
  obtain ⟨v, hv, hone⟩ := configured_one_walker c ions charges dtype m hm hu hdet hn P hc
  obtain ⟨F, E, h1, h2, h3⟩ := mapped_energies permutation (.inr (.inr rfl) : Spec.KnownType "random_particle")
    ibpParts sampleParts hk.ne' ions charges eiSoft eeSoft (logPsi := logPsiA (m.onBatch n P ions))
    (fun y => (hone y).imp fun Z h => ⟨h.1, h.2.1⟩)
  refine ⟨F, h1, fun W X hW hX => ?_⟩
  choose Y h4 h5 h6 using fun keys => h3 W X keys hW hX
  refine ⟨Y, fun keys => ⟨h4 keys, h5 keys⟩, fun t ht x hx h0 hs keys => ?_⟩
  let f : Pos (∑ s, n s) 3 → ℝ := fun y => scalarOf (logPsiA (m.onBatch n P ions) (A2 y))
  have hf : ∀ y, (v (splitPositions y)).2.isFin → (v (splitPositions y)).2 = .fin (f y) := by
    intro y hy
    obtain ⟨Z, h1, -, h3⟩ := hone y
    simp only [f, h1, scalarOf, h3]
    cases h : (v (splitPositions y)).2 with
    | fin r => rfl
    | nan => rw [h] at hy; cases hy
    | ninf => rw [h] at hy; cases hy
    | pinf => rw [h] at hy; cases hy
  have hreg : Regular eiSoft eeSoft ions x := by
    have hsp : ∀ i, x i = splitPositions (n := n) x (finSigmaFinEquiv.symm i) := fun i => by
      simp [splitPositions]
    refine ⟨.inr fun i I h => ?_, .inr fun i j hij h => ?_, hR⟩
    · rw [hsp] at h
      exact hs.apart.ions _ I h
    · rw [hsp, hsp j] at h
      exact hs.apart.electrons _ _ (finSigmaFinEquiv.symm.injective.ne hij) h
  obtain ⟨E₁, E₀, h7, h8, h9⟩ := random_particle_unbiased_partial ibpParts sampleParts k hk hkn ions charges eiSoft
    eeSoft f x hreg
  obtain ⟨E₂, h10, h11⟩ := configured_local_energy c ions charges dtype m hm P v hv nonzero ψ hψ f hf x h0 hs
    (κ := Equiv.Perm (Fin (∑ s, n s))) id ibpParts sampleParts k eiSoft eeSoft hR 1
  obtain rfl : E₀ = E₂ := Option.some.inj (h8.symm.trans h10)
  rw [← h11, ← h9]
  congr 1
  funext σ
  rw [h6 _ t ht, Function.update_self, ← hx]
  have hE : E x (keyOf σ) = E₁ x σ := by
    have e1 : E = randomParticleLocalEnergy (fun k => permutation k (∑ s, n s)) f ions charges k
        (sampleParts.contains "kinetic") (sampleParts.contains "ei") eiSoft (sampleParts.contains "ee") eeSoft :=
      (Option.some.inj h2).symm
    have e2 : E₁ = randomParticleLocalEnergy id f ions charges k
        (sampleParts.contains "kinetic") (sampleParts.contains "ei") eiSoft (sampleParts.contains "ee") eeSoft :=
      (Option.some.inj h7).symm
    rw [e1, e2]
    unfold randomParticleLocalEnergy assembleRandomParticle
    simp only [hkey, id]
  exact hE

section mean
variable {W N : ℕ}

theorem independent_add (F G : (Fin W → Equiv.Perm (Fin N)) → ℝ) :
    Spec.independentMean (fun σ => F σ + G σ) = Spec.independentMean F + Spec.independentMean G := by
  unfold Spec.independentMean
  rw [Finset.sum_add_distrib, add_div]

theorem independent_mul (a : ℝ) (F : (Fin W → Equiv.Perm (Fin N)) → ℝ) :
    Spec.independentMean (fun σ => a * F σ) = a * Spec.independentMean F := by
  unfold Spec.independentMean
  rw [← Finset.mul_sum, mul_div_assoc]

theorem independent_sum {ι : Type} (s : Finset ι) (F : ι → (Fin W → Equiv.Perm (Fin N)) → ℝ) :
    Spec.independentMean (fun σ => ∑ i ∈ s, F i σ) = ∑ i ∈ s, Spec.independentMean (F i) := by
  unfold Spec.independentMean
  rw [Finset.sum_comm, Finset.sum_div]

theorem independent_one (g : Equiv.Perm (Fin N) → ℝ) (w : Fin W) :
    Spec.independentMean (fun σ => g (σ w)) = permMean g := by
  unfold Spec.independentMean permMean
  rw [← Equiv.sum_comp (Equiv.funSplitAt w (Equiv.Perm (Fin N))).symm,
    Fintype.card_congr (Equiv.funSplitAt w (Equiv.Perm (Fin N))), Fintype.card_prod, Fintype.sum_prod_type]
  have h : ∀ (τ : Equiv.Perm (Fin N)) (ρ : {j // j ≠ w} → Equiv.Perm (Fin N)),
      (Equiv.funSplitAt w (Equiv.Perm (Fin N))).symm (τ, ρ) w = τ := by
    intro τ ρ
    simp [Equiv.funSplitAt, Equiv.piSplitAt]
  simp only [h, Finset.sum_const, Finset.card_univ, nsmul_eq_mul]
  rw [← Finset.mul_sum]
  have h1 : (Fintype.card ({j // j ≠ w} → Equiv.Perm (Fin N)) : ℝ) ≠ 0 := by
    exact_mod_cast Fintype.card_ne_zero
  have h2 : (Fintype.card (Equiv.Perm (Fin N)) : ℝ) ≠ 0 := by exact_mod_cast Fintype.card_ne_zero
  push_cast
  field_simp

end mean

section configured

variable {W S m₀ d : ℕ} {n : Fin (S + 1) → ℕ} (c : ModelCfg) (ions : Fin (m₀ + 1) → Fin d → ℝ)
  (charges : Fin (m₀ + 1) → ℝ) (dtype : ℕ) (m : Model (m₀ + 1))
  (hm : getModelFromConfig c (counts n) ions charges dtype = .ok m) (hu : Spec.UsesNorms c)
  (hdet : c.ndeterminants ≠ 0) (hn : ∀ s, 0 < n s) (hc : Spec.Callable c (S + 1))

include hm hu hdet hn hc

/-- The estimates without clipping from local energies which are numbers. -/
theorem estimates_of_energies {κ : Type} (Q : ℝ → Params (S + 1) (m₀ + 1) d)
    (nonzero : ℝ → Stream1 n d → Prop) (ψ : ℝ → Stream1 n d → ℝ)
    (hψ : ∀ t q, Spec.ModelValue c (Q t) ions charges q (nonzero t q) (ψ t q))
    (hW : 2 ≤ W) {X : Arr ℝ} (hX : X.shape = [d, ∑ s, n s, W])
    (x : Fin W → Pos (∑ s, n s) d) (hx : ∀ w, x w = Spec.positionsOf X [w.val]) (t₀ : ℝ)
    (h0 : ∀ w, ψ t₀ (splitPositions (x w)) ≠ 0) (F : Params (S + 1) (m₀ + 1) d → Arr ℝ → κ → Except String (Arr XR))
    (keys : ℕ → κ) {Y : Arr XR} (hF : vmapKeysA (F (Q t₀)) X keys = .ok Y) (hY : Y.shape = [W])
    (E : Fin W → ℝ) (hE : ∀ w : Fin W, Y.get [w.val] = .fin (E w)) (nanSafe : Bool) :
    ∃ aux forward, randomValueAndForwardA F (fun Q X => logPsiA (m.onBatch n Q ions) X) W none nanSafe (Q t₀)
        keys X = .ok (.fin ((∑ w, E w) / W), aux, forward) ∧
      ∀ r' : Fin W → ℝ, (∀ w, HasDerivAt (fun t => ψ t (splitPositions (x w))) (r' w) t₀) →
        HasDerivAt (fun t => numberOf (forward (Q t))) (2 * W / ((W : ℝ) - 1) *
          ((∑ w, (E w - (∑ u, E u) / W) * (r' w / ψ t₀ (splitPositions (x w)))) / W)) t₀ := by
  have hW0 : 0 < W := by omega
  have hXx : X = A3 x := by
    rw [funext hx]
    exact eq_A3' hX
  have h4 : entriesA Y = List.ofFn fun w => .fin (E w) := entries_of hY hE
  have hstat : ∀ b, getStatistics [List.ofFn fun w => XR.fin (E w)] W b =
      (.fin ((∑ w, E w) / W), .fin ((∑ w, (E w - (∑ u, E u) / W) ^ 2) / ((W : ℝ) - 1))) := by
    intro b
    have h13 := energy_statistics (List.ofFn E) [List.ofFn E] W b
      ⟨by simp, by simp, hW0, by simp⟩ (by simpa using hW)
    rw [List.length_ofFn] at h13
    simp only [List.map_cons, List.map_nil, List.map_ofFn] at h13
    refine h13.trans ?_
    unfold sampleVar avgL
    simp only [List.map_ofFn, List.sum_ofFn, List.length_ofFn, Function.comp]
  refine ⟨⟨.fin ((∑ w, (E w - (∑ u, E u) / W) ^ 2) / ((W : ℝ) - 1)), .fin ((∑ w, E w) / W),
      .fin ((∑ w, (E w - (∑ u, E u) / W) ^ 2) / ((W : ℝ) - 1)),
      [List.ofFn fun w => XR.fin (E w)].map fun l => l.map fun e => e - .fin ((∑ w, E w) / W)⟩,
    fun Q' => forwardA (fun Q X => logPsiA (m.onBatch n Q ions) X) W nanSafe Q' X
    (A1 fun w => .fin (E w - (∑ u, E u) / W)), ?_, ?_⟩
  · unfold randomValueAndForwardA getClipped
    rw [hF, ok_bind]
    simp only [h4, hstat]
    refine congrArg Except.ok (congrArg (Prod.mk _) (congrArg (Prod.mk _) ?_))
    funext Q'
    congr 1
    refine eq_A1 ?_ fun w => ?_
    · unfold centeredA
      simp
    · unfold centeredA
      rw [A1_get _ (by simp)]
      simp
  · intro r' hr
    have h := forward_derivative c ions charges dtype m hm hu hdet hn hc Q hW x
      (fun t w => nonzero t (splitPositions (x w))) (fun t w => ψ t (splitPositions (x w)))
      (fun t w => hψ t _) t₀ h0 r' hr nanSafe fun w => E w - (∑ u, E u) / W
    rw [← hXx] at h
    exact h

end configured

/-- C117: the estimates of an epoch of training with random-particle local energies, without clipping, in three
dimensions, from at least two walkers none of which is at a node or a kink.  If the permutations of the walkers are
independent and uniform, the mean of the energy is the mean of `Hψ/ψ` over the walkers, and the mean of the gradient
along any path of parameters is the gradient which the local energies `Hψ/ψ` give. -/
theorem random_training_unbiased {W S m₀ : ℕ} {n : Fin (S + 1) → ℕ} (c : ModelCfg)
    (ions : Fin (m₀ + 1) → Fin 3 → ℝ) (charges : Fin (m₀ + 1) → ℝ) (dtype : ℕ) (m : Model (m₀ + 1))
    (hm : getModelFromConfig c (counts n) ions charges dtype = .ok m) (hu : Spec.UsesNorms c)
    (hdet : c.ndeterminants ≠ 0) (hn : ∀ s, 0 < n s) (hc : Spec.Callable c (S + 1))
    (Q : ℝ → Params (S + 1) (m₀ + 1) 3) (nonzero : ℝ → Stream1 n 3 → Prop) (ψ : ℝ → Stream1 n 3 → ℝ)
    (hψ : ∀ t q, Spec.ModelValue c (Q t) ions charges q (nonzero t q) (ψ t q))
    (eiSoft eeSoft : ℝ) (hR : Distinct ions) {κ : Type} (permutation : κ → ∀ n, Equiv.Perm (Fin n))
    (ibpParts sampleParts : List String) {k : ℕ} (hk : 0 < k) (hkn : k ≤ ∑ s, n s)
    (hW : 2 ≤ W) {X : Arr ℝ} (hX : X.shape = [3, ∑ s, n s, W])
    (x : Fin W → Pos (∑ s, n s) 3) (hx : ∀ w, x w = Spec.positionsOf X [w.val]) (t₀ : ℝ)
    (h0 : ∀ w, ψ t₀ (splitPositions (x w)) ≠ 0)
    (hs : ∀ w, SmoothPlace c (Q t₀) ions (splitPositions (x w) : Stream1 n 3)) (nanSafe : Bool)
    (E : Fin W → ℝ) (hE : ∀ w, E w = localEnergyOf (ψ t₀) ions charges eiSoft eeSoft (x w))
    (r' : Fin W → ℝ) (hr : ∀ w, HasDerivAt (fun t => ψ t (splitPositions (x w))) (r' w) t₀) :
    let model := fun Q X => logPsiA (m.onBatch n Q ions) X
    ∃ F, (∀ Q, molEnergyA permutation "random_particle" ibpParts k sampleParts (A2 ions) (A1 charges) eiSoft eeSoft
        (model Q) = .ok (F Q)) ∧
      ∃ e g : (Fin W → Equiv.Perm (Fin (∑ s, n s))) → ℝ,
        (∀ (σ : Fin W → Equiv.Perm (Fin (∑ s, n s))) (keys : ℕ → κ),
          (∀ w : Fin W, permutation (keys w.val) _ = σ w) →
          ∃ aux forward, randomValueAndForwardA F model W none nanSafe (Q t₀) keys X =
              .ok (.fin (e σ), aux, forward) ∧
            HasDerivAt (fun t => numberOf (forward (Q t))) (g σ) t₀) ∧
        Spec.independentMean e = (∑ w, E w) / W ∧
        Spec.independentMean g = 2 * W / ((W : ℝ) - 1) *
          ((∑ w, (E w - (∑ u, E u) / W) * (r' w / ψ t₀ (splitPositions (x w)))) / W) := by
  intro model
  have hW0 : 0 < W := by omega
  let f : Pos (∑ s, n s) 3 → ℝ := fun y => scalarOf (model (Q t₀) (A2 y))
  obtain ⟨v, hv, hone⟩ := configured_one_walker c ions charges dtype m hm hu hdet hn (Q t₀) hc
  have hall : ∀ Q, ∃ F, molEnergyA permutation "random_particle" ibpParts k sampleParts (A2 ions) (A1 charges)
      eiSoft eeSoft (model Q) = .ok F := fun Q => ⟨_, rfl⟩
  choose F hF using hall
  obtain ⟨F', E', h1, h2, h3⟩ := mapped_energies permutation (.inr (.inr rfl) : Spec.KnownType "random_particle")
    ibpParts sampleParts hk.ne' ions charges eiSoft eeSoft (logPsi := model (Q t₀))
    (fun y => (hone y).imp fun Z h => ⟨h.1, h.2.1⟩)
  obtain rfl : F' = F (Q t₀) := Except.ok.inj (h1.symm.trans (hF _))
  have hf : ∀ y, (v (splitPositions y)).2.isFin → (v (splitPositions y)).2 = .fin (f y) := by
    intro y hy
    obtain ⟨Z, h1, -, h3⟩ := hone y
    simp only [f, model, h1, scalarOf, h3]
    cases h : (v (splitPositions y)).2 with
    | fin r => rfl
    | nan => rw [h] at hy; cases hy
    | ninf => rw [h] at hy; cases hy
    | pinf => rw [h] at hy; cases hy
  have hreg : ∀ w, Regular eiSoft eeSoft ions (x w) := by
    intro w
    have hsp : ∀ i, x w i = splitPositions (n := n) (x w) (finSigmaFinEquiv.symm i) := fun i => by
      simp [splitPositions]
    refine ⟨.inr fun i I h => ?_, .inr fun i j hij h => ?_, hR⟩
    · rw [hsp] at h
      exact (hs w).apart.ions _ I h
    · rw [hsp, hsp j] at h
      exact (hs w).apart.electrons _ _ (finSigmaFinEquiv.symm.injective.ne hij) h
  let G : Fin W → Equiv.Perm (Fin (∑ s, n s)) → ℝ := fun w σ =>
    (if "kinetic" ∈ sampleParts then sampledKinetic k σ f (x w) else kineticLaplacian f (x w)) +
    (if "ei" ∈ sampleParts then sampledEI k σ eiSoft ions charges (x w) else coulombEI 1 eiSoft ions charges (x w)) +
    (if "ee" ∈ sampleParts then sampledEE k σ eeSoft (x w) else coulombEE 1 eeSoft (x w)) + coulombII ions charges
  have hG : ∀ w key, E' (x w) key = .fin (G w (permutation key _)) := by
    intro w key
    obtain ⟨E₁, h4, h5⟩ := random_particle_energy_terms (fun k => permutation k (∑ s, n s)) ibpParts sampleParts k hk hkn
      ions charges eiSoft eeSoft f (x w) key (hreg w)
    obtain rfl : E₁ = E' := Option.some.inj (h4.symm.trans h2)
    exact h5
  have hmean : ∀ w, permMean (G w) = E w := by
    intro w
    obtain ⟨E₁, E₀, h7, h8, h9⟩ := random_particle_unbiased_partial ibpParts sampleParts k hk hkn ions charges eiSoft
      eeSoft f (x w) (hreg w)
    obtain ⟨E₂, h10, h11⟩ := configured_local_energy c ions charges dtype m hm (Q t₀) v hv (nonzero t₀) (ψ t₀) (hψ t₀)
      f hf (x w) (h0 w) (hs w) (κ := Equiv.Perm (Fin (∑ s, n s))) id ibpParts sampleParts k eiSoft eeSoft hR 1
    obtain rfl : E₀ = E₂ := Option.some.inj (h8.symm.trans h10)
    have h12 : ∀ σ, E₁ (x w) σ = .fin (G w σ) := by
      intro σ
      obtain ⟨E₃, h4, h5⟩ := random_particle_energy_terms (K := Equiv.Perm (Fin (∑ s, n s))) id ibpParts sampleParts k hk
        hkn ions charges eiSoft eeSoft f (x w) σ (hreg w)
      obtain rfl : E₃ = E₁ := Option.some.inj (h4.symm.trans h7)
      exact h5
    rw [h11] at h9
    simp only [h12] at h9
    rw [XR.mean_fin] at h9
    rw [hE]
    exact XR.fin.inj h9
  refine ⟨F, hF, fun σ => (∑ w, G w (σ w)) / W, fun σ => 2 * W / ((W : ℝ) - 1) *
          ((∑ w, (G w (σ w) - (∑ u, G u (σ u)) / W) * (r' w / ψ t₀ (splitPositions (x w)))) / W), ?_, ?_, ?_⟩
  · intro σ keys hσ
    obtain ⟨Y, h4, h5, h6⟩ := h3 W X keys hW0 hX
    obtain ⟨aux, forward, h7, h8⟩ := estimates_of_energies c ions charges dtype m hm hu hdet hn hc Q nonzero ψ hψ hW hX
      x hx t₀ h0 F keys h4 h5 (fun w => G w (σ w)) (fun w => by rw [h6 w w.2, ← hx, hG, hσ]) nanSafe
    exact ⟨aux, forward, h7, h8 r' hr⟩
  · simp only [div_eq_inv_mul]
    rw [independent_mul, independent_sum]
    simp only [independent_one, hmean]
  · have hb : ∀ w, Spec.independentMean (fun σ : Fin W → Equiv.Perm (Fin (∑ s, n s)) =>
        (G w (σ w) - (∑ u, G u (σ u)) / W) * (r' w / ψ t₀ (splitPositions (x w)))) =
        (E w - (∑ u, E u) / W) * (r' w / ψ t₀ (splitPositions (x w))) := by
      intro w
      have : (fun σ : Fin W → Equiv.Perm (Fin (∑ s, n s)) =>
          (G w (σ w) - (∑ u, G u (σ u)) / W) * (r' w / ψ t₀ (splitPositions (x w)))) =
          fun σ => (r' w / ψ t₀ (splitPositions (x w))) * (G w (σ w) + (-(W : ℝ)⁻¹) * ∑ u, G u (σ u)) := by
        funext σ
        ring
      rw [this, independent_mul, independent_add, independent_mul, independent_sum]
      simp only [independent_one, hmean]
      ring
    have : (fun σ : Fin W → Equiv.Perm (Fin (∑ s, n s)) => 2 * W / ((W : ℝ) - 1) *
          ((∑ w, (G w (σ w) - (∑ u, G u (σ u)) / W) * (r' w / ψ t₀ (splitPositions (x w)))) / W)) =
        fun σ => (2 * W / ((W : ℝ) - 1) / W) *
          ∑ w, (G w (σ w) - (∑ u, G u (σ u)) / W) * (r' w / ψ t₀ (splitPositions (x w))) := by
      funext σ
      ring
    rw [this, independent_mul, independent_sum]
    simp only [hb]
    ring

/-! ### Examples -/

/-- Two electrons at distances 1 and 2 from a nucleus of charge 2, a constant wave function, and one sampled electron
for the attraction to the nucleus.  Two walkers at the same place but with different keys get different energies:
`2 (-2/1) + 1` and `2 (-2/2) + 1`. -/
example (X : Arr ℝ) (hX : X.shape = [3, 2, 2])
    (hx : ∀ t < 2, (Spec.positionsOf X [t] : Pos 2 3) = fun i k => if k = 0 then (i.val : ℝ) + 1 else 0) :
    ∃ F Y, molEnergyA (fun (swap : Bool) n => if h : swap ∧ n = 2 then
        Equiv.swap ⟨0, by omega⟩ ⟨1, by omega⟩ else 1) "random_particle" [] 1 ["ei"]
        (A2 fun (_ : Fin 1) (_ : Fin 3) => (0 : ℝ)) (A1 fun (_ : Fin 1) => (2 : ℝ)) 0 0
        (fun _ => .ok (A0 (.fin 0))) = .ok F ∧
      vmapKeysA F X (fun t => t == 1) = .ok Y ∧ Y.get [0] = .fin (-3) ∧ Y.get [1] = .fin (-1) := by
  obtain ⟨F, E, h1, h2, h3⟩ := mapped_energies (N := 2) (fun (swap : Bool) n => if h : swap ∧ n = 2 then
        Equiv.swap ⟨0, by omega⟩ ⟨1, by omega⟩ else 1) (.inr (.inr rfl) : Spec.KnownType "random_particle") [] ["ei"]
        one_ne_zero (fun (_ : Fin 1) (_ : Fin 3) => (0 : ℝ)) (fun _ => 2) 0 0
        (logPsi := fun _ => .ok (A0 (.fin 0))) (fun _ => ⟨_, rfl, rfl⟩)
  obtain ⟨Y, h4, h5, h6⟩ := h3 2 X (fun t => t == 1) (by norm_num) hX
  have hreg : Regular 0 0 (fun (_ : Fin 1) (_ : Fin 3) => (0 : ℝ))
      (fun (i : Fin 2) (k : Fin 3) => if k = 0 then (i.val + 1 : ℝ) else 0) := by
    refine ⟨.inr fun i I h => ?_, .inr fun i j hij h => ?_, fun i j hij => absurd (Subsingleton.elim i j) hij⟩
    · have := congrFun h 0
      simp only [if_true] at this
      have h0 : (0 : ℝ) ≤ i.val := Nat.cast_nonneg _
      linarith
    · have := congrFun h 0
      simp only [if_true, add_left_inj, Nat.cast_inj] at this
      exact hij (Fin.ext this)
  have hE : ∀ key, E (fun (i : Fin 2) (k : Fin 3) => if k = 0 then (i.val + 1 : ℝ) else 0) key =
      .fin (if key then -1 else -3) := by
    intro key
    obtain ⟨E', h7, h8⟩ := random_particle_energy_terms (fun (swap : Bool) => if h : swap ∧ 2 = 2 then
        Equiv.swap (⟨0, by omega⟩ : Fin 2) ⟨1, by omega⟩ else 1) [] ["ei"] 1 one_pos (by norm_num)
        (fun (_ : Fin 1) (_ : Fin 3) => (0 : ℝ)) (fun _ => 2) 0 0 (fun _ => 0) _ key hreg
    have hE' : E = E' := by
      refine Option.some.inj (h2.symm.trans (Eq.trans ?_ h7))
      congr 1
    rw [hE', h8]
    have hee : Real.sqrt ((1 - 2 : ℝ) ^ 2) = 1 := by
      rw [Real.sqrt_eq_one]; norm_num
    have hfirst : firstLabels 2 1 = {0} := by decide
    have hpairs : pairs 2 = {(0, 1)} := by decide
    have hpairs1 : pairs 1 = ∅ := by decide
    cases key <;>
    simp [kineticLaplacian, coordLaplacian, partial1, partial2, sampledEI, coulombEE, coulombII, hfirst, hpairs,
      hpairs1, softDist, Fin.sum_univ_succ, Equiv.swap_apply_left]
    all_goals norm_num [Real.sqrt_sq]
  refine ⟨F, Y, h1, h4, ?_, ?_⟩
  · rw [h6 0 (by norm_num), hx 0 (by norm_num), hE]
    rfl
  · rw [h6 1 (by norm_num), hx 1 (by norm_num), hE]
    rfl

/-- The default FermiNet for helium, with one sampled electron for the kinetic energy and the attraction: the entry
of each walker has a finite mean over the two permutations, in every batch in which no walker has electrons or nucleus
at the same place. -/
example (P : Params 2 1 3) {W : ℕ} (hW : 0 < W) (X : Arr ℝ) (hX : X.shape = [3, 2, W])
    (hx : ∀ t < W, Distinct (Spec.positionsOf X [t] : Pos 2 3))
    (hx' : ∀ t < W, Apart (Spec.positionsOf X [t] : Pos 2 3) fun (_ : Fin 1) _ => 0) :
    ∃ m : Model 1, getModelFromConfig {} (counts fun _ : Fin 2 => 1)
        (fun (_ : Fin 1) (_ : Fin 3) => (0 : ℝ)) (fun _ => 2) 32 = .ok m ∧
      ∃ F, molEnergyA (fun (key : ∀ n, Equiv.Perm (Fin n)) => key) "random_particle" [] 1 ["kinetic", "ei"]
          (A2 fun (_ : Fin 1) (_ : Fin 3) => (0 : ℝ)) (A1 fun (_ : Fin 1) => (2 : ℝ)) 0 0
          (logPsiA (m.onBatch (fun _ : Fin 2 => 1) (scaledHelium P 2) fun _ _ => 0)) = .ok F ∧
        ∃ Y : (ℕ → ∀ n, Equiv.Perm (Fin n)) → Arr XR, (∀ keys, vmapKeysA F X keys = .ok (Y keys)) ∧
          ∀ t < W, ∀ keys, ∃ E : ℝ, XR.mean (fun σ : Equiv.Perm (Fin 2) =>
            (Y (Function.update keys t fun n => if h : n = 2 then h ▸ σ else 1)).get [t]) = .fin E := by
  let n : Fin 2 → ℕ := fun _ => 1
  obtain ⟨m, hm⟩ := (model_config_accepted_iff {} (counts n)
    (fun (_ : Fin 1) (_ : Fin 3) => (0 : ℝ)) (fun _ => 2) 32).mpr
    (by rw [counts_length]; exact default_acceptable "ferminet" (by simp))
  have hu : Spec.UsesNorms ({} : ModelCfg) := ⟨rfl, fun _ => rfl⟩
  have hn : ∀ s, 0 < n s := fun _ => Nat.one_pos
  have hc : Spec.Callable ({} : ModelCfg) 2 := by
    left
    refine ⟨rfl, .inr (by simp), ?_⟩
    simp [Spec.PairsWithoutTwo]
  have hex : ∀ q : Stream1 n 3, ∃ (nz : Prop) (r : ℝ),
      Spec.ModelValue {} (scaledHelium P 2) (fun (_ : Fin 1) _ => 0) (fun _ => 2) q nz r := by
    intro q
    obtain ⟨v, hv⟩ := (configured_model_callable_iff {} (fun (_ : Fin 1) (_ : Fin 3) => (0 : ℝ)) (fun _ => 2) 32 m hm
      hu hn (scaledHelium P 2) q).mpr hc
    obtain ⟨nz, r, h, -⟩ := configured_model_value {} _ _ _ m hm (scaledHelium P 2) q v hv
    exact ⟨nz, r, h⟩
  choose nz ψ hψ using hex
  obtain ⟨F, h1, h2⟩ := mapped_random_particle_mean {} (fun (_ : Fin 1) (_ : Fin 3) => (0 : ℝ)) (fun _ => 2) 32 m hm
    hu (by simp) hn (scaledHelium P 2) hc nz ψ hψ 0 0 (fun i j hij => absurd (Fin.ext (by omega)) hij)
    (fun (key : ∀ n, Equiv.Perm (Fin n)) => key) (fun (σ : Equiv.Perm (Fin 2)) n => if h : n = 2 then h ▸ σ else 1)
    (fun σ => rfl) [] ["kinetic", "ei"] one_pos (by decide)
  obtain ⟨Y, h3, h4⟩ := h2 W X hW hX
  refine ⟨m, hm, F, h1, Y, fun keys => (h3 keys).1, fun t ht keys => ⟨_, h4 t ht _ rfl ?_ ?_ keys⟩⟩
  · rw [scaled_helium_value (hψ _)]
    positivity
  · exact ⟨⟨fun e e' he => hx t ht _ _ (finSigmaFinEquiv.injective.ne he), fun e j => hx' t ht _ j⟩,
      fun h => by simp at h, fun _ _ _ _ _ => .inr (.inl rfl), fun h => by simp at h, fun h => by simp at h⟩

/-- The default FermiNet for helium with one sampled electron: multiplying one orbital by a factor does not change
the energy, and although each choice of permutations may give another gradient along this path of parameters, their
mean is 0. -/
example (P : Params 2 1 3) {W : ℕ} (hW : 2 ≤ W) (X : Arr ℝ) (hX : X.shape = [3, 2, W])
    (hx : ∀ t < W, Distinct (Spec.positionsOf X [t] : Pos 2 3))
    (hx' : ∀ t < W, Apart (Spec.positionsOf X [t] : Pos 2 3) fun (_ : Fin 1) _ => 0) :
    ∃ m : Model 1, getModelFromConfig {} (counts fun _ : Fin 2 => 1)
        (fun (_ : Fin 1) (_ : Fin 3) => (0 : ℝ)) (fun _ => 2) 32 = .ok m ∧
      let model := fun Q X => logPsiA (m.onBatch (fun _ : Fin 2 => 1) Q fun _ _ => 0) X
      ∃ F, (∀ Q, molEnergyA (fun (key : ∀ n, Equiv.Perm (Fin n)) => key) "random_particle" [] 1 ["kinetic", "ei"]
          (A2 fun (_ : Fin 1) (_ : Fin 3) => (0 : ℝ)) (A1 fun (_ : Fin 1) => (2 : ℝ)) 0 0 (model Q) = .ok (F Q)) ∧
        ∃ e g : (Fin W → Equiv.Perm (Fin 2)) → ℝ,
          (∀ (σ : Fin W → Equiv.Perm (Fin 2)) (keys : ℕ → ∀ n, Equiv.Perm (Fin n)), (∀ w : Fin W, keys w.val 2 = σ w) →
            ∃ aux forward, randomValueAndForwardA F model W none false (scaledHelium P 2) keys X =
              .ok (.fin (e σ), aux, forward) ∧
            HasDerivAt (fun t => numberOf (forward (scaledHelium P t))) (g σ) 2) ∧
          Spec.independentMean g = 0 := by
  let n : Fin 2 → ℕ := fun _ => 1
  obtain ⟨m, hm⟩ := (model_config_accepted_iff {} (counts n)
    (fun (_ : Fin 1) (_ : Fin 3) => (0 : ℝ)) (fun _ => 2) 32).mpr
    (by rw [counts_length]; exact default_acceptable "ferminet" (by simp))
  have hu : Spec.UsesNorms ({} : ModelCfg) := ⟨rfl, fun _ => rfl⟩
  have hn : ∀ s, 0 < n s := fun _ => Nat.one_pos
  have hc : Spec.Callable ({} : ModelCfg) 2 := by
    left
    refine ⟨rfl, .inr (by simp), ?_⟩
    simp [Spec.PairsWithoutTwo]
  have hex : ∀ (t : ℝ) (q : Stream1 n 3), ∃ (nz : Prop) (r : ℝ),
      Spec.ModelValue {} (scaledHelium P t) (fun (_ : Fin 1) _ => 0) (fun _ => 2) q nz r := by
    intro t q
    obtain ⟨v, hv⟩ := (configured_model_callable_iff {} (fun (_ : Fin 1) (_ : Fin 3) => (0 : ℝ)) (fun _ => 2) 32 m hm
      hu hn (scaledHelium P t) q).mpr hc
    obtain ⟨nz, r, h, -⟩ := configured_model_value {} _ _ _ m hm (scaledHelium P t) q v hv
    exact ⟨nz, r, h⟩
  choose nz ψ hψ using hex
  let x : Fin W → Pos 2 3 := fun w => Spec.positionsOf X [w.val]
  have h0 : ∀ w, ψ 2 (splitPositions (n := n) (x w)) ≠ 0 := fun w => by
    rw [scaled_helium_value (hψ 2 _)]
    positivity
  have hder : ∀ w, HasDerivAt (fun t => ψ t (splitPositions (n := n) (x w)))
      (3 * Real.exp (-∑ e, Real.sqrt (∑ b, splitPositions (n := n) (x w) e b ^ 2))) 2 := by
    intro w
    have : (fun t => ψ t (splitPositions (n := n) (x w))) = fun t =>
        t * (3 * Real.exp (-∑ e, Real.sqrt (∑ b, splitPositions (n := n) (x w) e b ^ 2))) := by
      funext t
      rw [scaled_helium_value (hψ t _), mul_assoc]
    rw [this]
    simpa using (hasDerivAt_id (2 : ℝ)).mul_const
      (3 * Real.exp (-∑ e, Real.sqrt (∑ b, splitPositions (n := n) (x w) e b ^ 2)))
  obtain ⟨F, h1, e, g, h2, -, h3⟩ := random_training_unbiased {} (fun (_ : Fin 1) (_ : Fin 3) => (0 : ℝ)) (fun _ => 2)
    32 m hm hu (by simp) hn hc (scaledHelium P) nz ψ hψ 0 0 (fun i j hij => absurd (Fin.ext (by omega)) hij)
    (fun (key : ∀ n, Equiv.Perm (Fin n)) => key) [] ["kinetic", "ei"] one_pos (by decide) hW (X := X) hX x
    (fun _ => rfl) 2 h0
    (fun w => ⟨⟨fun e e' he => hx w w.2 _ _ (finSigmaFinEquiv.injective.ne he), fun e j => hx' w w.2 _ j⟩,
      fun h => by simp at h, fun _ _ _ _ _ => .inr (.inl rfl), fun h => by simp at h, fun h => by simp at h⟩)
    false _ (fun _ => rfl) _ hder
  refine ⟨m, hm, F, h1, e, g, h2, h3.trans ?_⟩
  have h4 : ∀ w, 3 * Real.exp (-∑ e, Real.sqrt (∑ b, splitPositions (n := n) (x w) e b ^ 2)) /
      ψ 2 (splitPositions (n := n) (x w)) = 1 / 2 := by
    intro w
    rw [scaled_helium_value (hψ 2 _)]
    have := (Real.exp_pos (-∑ e, Real.sqrt (∑ b, splitPositions (n := n) (x w) e b ^ 2))).ne'
    field_simp
    rfl
  simp only [h4]
  rw [← Finset.sum_mul, Finset.sum_sub_distrib, Finset.sum_const, Finset.card_univ, Fintype.card_fin, nsmul_eq_mul,
    mul_div_cancel₀ _ (by positivity : (W : ℝ) ≠ 0)]
  simp

end Verif.Props
