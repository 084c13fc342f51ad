import Verif.Model.BatchedEnergy
import Verif.Props.BatchedModel
import Verif.Props.BatchedPotential
import Verif.Props.Smooth

/-!
The local energies which training and evaluations compute for a batch of walkers with the array code of a model
built from a configuration.
-/

namespace Verif.Props
open Verif.Arrays Verif.Slog Verif.Construct Verif.Net Verif.Phys Verif.Spec

variable {K M d : ℕ} {n : Fin (K + 1) → ℕ}

theorem walker_split (X : Arr ℝ) (b : List ℕ) :
    (Spec.walkerOf X b : Stream1 n d) = splitPositions (Spec.positionsOf X b) := by
  funext e k
  unfold Spec.walkerOf splitPositions Spec.positionsOf
  rw [finSigmaFinEquiv_apply]

theorem positions_A2 {N : ℕ} (x : Pos N d) : Spec.positionsOf (A2 x) [] = x := by
  funext i k
  exact A2_get x i.2 k.2

theorem mapM_range {β : Type} {f : ℕ → Except String β} {g : ℕ → β} (W : ℕ) (h : ∀ t < W, f t = .ok (g t)) :
    (List.range W).mapM f = .ok ((List.range W).map g) := by
  have : ∀ l : List ℕ, (∀ t ∈ l, f t = .ok (g t)) → l.mapM f = .ok (l.map g) := by
    intro l hl
    induction l with
    | nil => rfl
    | cons a l ih =>
      rw [List.mapM_cons, hl a (by simp), ih fun t ht => hl t (by simp [ht])]
      rfl
  exact this _ fun t ht => h t (List.mem_range.mp ht)

/-- Mapping a function which returns a number for each walker. -/
theorem vmap_numbers {f : Arr ℝ → Except String (Arr XR)} {X : Arr ℝ} {s : List ℕ} {W : ℕ}
    (hX : X.shape = s ++ [W]) (hW : 0 < W) {g : ℕ → Arr XR} (hs : ∀ t < W, (g t).shape = [])
    (h : ∀ t < W, f (X.part [t]) = .ok (g t)) :
    ∃ Y, vmapA f X = .ok Y ∧ Y.shape = [W] ∧ ∀ t < W, Y.get [t] = (g t).get [] := by
  obtain ⟨V, rfl⟩ : ∃ V, W = V + 1 := ⟨W - 1, by omega⟩
  have hl : X.shape.getLastD 0 = V + 1 := by rw [hX]; simp
  unfold vmapA
  rw [hl, mapM_range _ h, ok_bind, List.range_succ_eq_map, List.map_cons]
  refine ⟨_, rfl, ?_, fun t ht => ?_⟩
  · show (g 0).shape ++ [_] = _
    rw [hs 0 hW]
    simp
  · rw [of_get (by
      rw [hs 0 hW]
      exact .cons (by simpa using ht) .nil)]
    rw [← List.map_cons, ← List.range_succ_eq_map]
    simp [List.getD_eq_getElem?_getD, ht]

section configured

variable (c : ModelCfg) (ions : Fin (M + 1) → Fin d → ℝ) (charges : Fin (M + 1) → ℝ) (dtype : ℕ)
  (m : Model (M + 1)) (hm : getModelFromConfig c (counts n) ions charges dtype = .ok m)
  (hu : Spec.UsesNorms c) (hdet : c.ndeterminants ≠ 0) (hn : ∀ s, 0 < n s)
  (P : Params (K + 1) (M + 1) d)

include hm hu hdet hn

/-- C114: the amplitude of a walker in a batch is the logarithm which its local energy differentiates. -/
theorem amplitudes_match_energies {B : List ℕ} {X : Arr ℝ} (hX : X.shape = d :: (∑ s, n s) :: B)
    {Y : Arr XR} (hY : logPsiA (m.onBatch n P ions) X = .ok Y) {b : List ℕ} (hb : Ix b B) :
    ∃ y, logPsiA (m.onBatch n P ions) (X.part b) = .ok y ∧ y.shape = [] ∧ Y.get b = y.get [] := by
  unfold logPsiA at hY
  cases hZ : m.onBatch n P ions X with
  | error e => rw [hZ] at hY; cases hY
  | ok Z =>
    rw [hZ] at hY
    cases hY
    have h := configured_model_agrees c ions charges dtype m hm hu hdet hn P
    obtain ⟨h1, h2⟩ := (h B X hX b hb).1 Z hZ
    have hp := part_positions (n := ∑ s, n s) hX hb
    have hw : (Spec.walkerOf (X.part b) [] : Stream1 n d) = Spec.walkerOf X b := by
      rw [walker_split, walker_split, hp, positions_A2]
    have h0 := h [] (X.part b) (by rw [hp]; rfl) [] .nil
    rw [hw] at h0
    obtain ⟨z, hz⟩ := h0.2 _ h2
    obtain ⟨h3, h4⟩ := h0.1 z hz
    rw [h2] at h4
    refine ⟨z.map Prod.snd, by unfold logPsiA; rw [hz]; rfl, h3, ?_⟩
    show (Arr.of _ _).get b = (Arr.of _ _).get []
    rw [of_get (by exact h1 ▸ hb), of_get (by rw [h3]; exact .nil), Except.ok.inj h4]

/-- C114: mapping the local energy over a batch of walkers gives, for every walker at which the wave function does
not vanish and has no kink, the Hamiltonian applied to the wave function of the configuration, divided by it. -/
theorem vmapped_local_energies (hc : Spec.Callable c (K + 1)) (nonzero : Stream1 n d → Prop)
    (ψ : Stream1 n d → ℝ) (hψ : ∀ q, Spec.ModelValue c P ions charges q (nonzero q) (ψ q))
    (eiSoft eeSoft : ℝ) (hR : Distinct ions) {W : ℕ} (hW : 0 < W) {X : Arr ℝ}
    (hX : X.shape = [d, ∑ s, n s, W]) :
    ∃ Y, vmapA (localEnergyA (logPsiA (m.onBatch n P ions)) (A2 ions) (A1 charges) eiSoft eeSoft) X = .ok Y ∧
      Y.shape = [W] ∧ ∀ t < W, ∀ x : Pos (∑ s, n s) d, x = Spec.positionsOf X [t] →
        ψ (splitPositions x) ≠ 0 → SmoothPlace c P ions (splitPositions x) →
        Y.get [t] = .fin ((-(1 / 2) * (∑ i, ∑ l, partial2 (fun y => ψ (splitPositions y)) i l x) +
          (coulombEI 1 eiSoft ions charges x + coulombEE 1 eeSoft x + coulombII ions charges) *
            ψ (splitPositions x)) / ψ (splitPositions x)) := by
  have hcall : ∀ q : Stream1 n d, ∃ v, m.apply P ions q = .ok v := fun q =>
    (configured_model_callable_iff c ions charges dtype m hm hu hn P q).mpr hc
  choose v hv using hcall
  have hag := configured_model_agrees c ions charges dtype m hm hu hdet hn P
  have hone : ∀ y : Pos (∑ s, n s) d, ∃ Z, logPsiA (m.onBatch n P ions) (A2 y) = .ok Z ∧ Z.shape = [] ∧
      Z.get [] = (v (splitPositions y)).2 := by
    intro y
    have h := hag [] (A2 y) rfl [] .nil
    rw [walker_split, positions_A2] at h
    obtain ⟨z, hz⟩ := h.2 _ (hv _)
    obtain ⟨h3, h4⟩ := h.1 z hz
    rw [hv] at h4
    refine ⟨z.map Prod.snd, by unfold logPsiA; rw [hz]; rfl, h3, ?_⟩
    show (Arr.of _ _).get [] = _
    rw [of_get (by rw [h3]; exact .nil), Except.ok.inj h4]
  let f : Pos (∑ s, n s) d → ℝ := fun y => scalarOf (logPsiA (m.onBatch n P ions) (A2 y))
  have hf : ∀ y, (v (splitPositions y)).2.isFin → (v (splitPositions y)).2 = .fin (f y) := by
    intro y hy
    obtain ⟨Z, h1, -, h3⟩ := hone y
    simp only [f, h1, scalarOf, h3]
    cases h : (v (splitPositions y)).2 with
    | fin r => rfl
    | nan => rw [h] at hy; cases hy
    | ninf => rw [h] at hy; cases hy
    | pinf => rw [h] at hy; cases hy
  -- the local energy of one walker
  have henergy : ∀ x : Pos (∑ s, n s) d, ∃ Z,
      localEnergyA (logPsiA (m.onBatch n P ions)) (A2 ions) (A1 charges) eiSoft eeSoft (A2 x) = .ok Z ∧
      Z.shape = [] ∧ Z.get [] = combineTerms (laplacianKinetic f)
        [electronIonPotential ions charges 1 eiSoft none, electronElectronPotential 1 eeSoft none,
          fun _ => ionIonPotential ions charges] x () := by
    intro x
    have hk : kineticA (logPsiA (m.onBatch n P ions)) (A2 x) = .ok (A0 (laplacianKinetic f x)) := by
      obtain ⟨Z, h1, h2, -⟩ := hone x
      unfold kineticA
      rw [h1, ok_bind]
      show (match Z.shape, [d, ∑ s, n s] with
        | [], [d, n] => _
        | _, _ => _) = _
      rw [h2]
      show Except.ok (Arr.of [] _) = _
      unfold A0
      rw [show (fun (i : Fin (∑ s, n s)) (k : Fin d) => (A2 x).get [k.val, i.val]) = x from positions_A2 x]
    obtain ⟨Z, h1, h2, h3⟩ := add_terms_on_batches (B := []) (b := []) (n := ∑ s, n s) (d := d) .nil
      (X := A2 x) rfl
      [(electronIonA (A2 ions) (A1 charges) 1 eiSoft none, electronIonPotential ions charges 1 eiSoft none),
        (electronElectronA 1 eeSoft none, electronElectronPotential 1 eeSoft none),
        (ionIonA (A2 ions) (A1 charges), fun _ => ionIonPotential ions charges)]
      (by
        intro t ht
        simp only [List.mem_cons, List.not_mem_nil, or_false] at ht
        rcases ht with rfl | rfl | rfl
        · exact .inl (electron_ion_on_batches ions charges 1 eiSoft none (by simp))
        · exact .inl (electron_electron_on_batches 1 eeSoft none (by simp))
        · exact .inr ⟨_, ion_ion_one_number ions charges, fun _ => rfl⟩)
      (V := A0 (laplacianKinetic f x)) rfl
    refine ⟨Z, ?_, h2, ?_⟩
    · unfold localEnergyA combineTermsA
      simp only []
      rw [hk, ok_bind]
      exact h1
    · rw [h3, positions_A2]
      rfl
  choose g hg1 hg2 hg3 using henergy
  have hpart : ∀ t < W, X.part [t] = A2 (Spec.positionsOf X [t] : Pos (∑ s, n s) d) := fun t ht =>
    part_positions (B := [W]) hX (.cons ht .nil)
  obtain ⟨Y, h1, h2, h3⟩ := vmap_numbers (s := [d, ∑ s, n s]) hX hW
    (g := fun t => g (Spec.positionsOf X [t])) (fun t _ => hg2 _)
    (f := localEnergyA (logPsiA (m.onBatch n P ions)) (A2 ions) (A1 charges) eiSoft eeSoft)
    (fun t ht => by rw [hpart t ht, hg1])
  refine ⟨Y, h1, h2, fun t ht x hx h0 hs => ?_⟩
  obtain ⟨E, h4, h5⟩ := configured_local_energy c ions charges dtype m hm P v hv nonzero ψ hψ f hf x h0 hs
    (κ := Unit) (fun _ => 1) [] [] 0 eiSoft eeSoft hR ()
  have h6 : combineTerms (laplacianKinetic f)
        [electronIonPotential ions charges 1 eiSoft none, electronElectronPotential 1 eeSoft none,
          fun _ => ionIonPotential ions charges] = E := by
    unfold assembleMolLocalEnergy at h4
    rw [if_pos rfl] at h4
    exact Option.some.inj h4
  rw [h3 t ht, hg3, ← hx, h6, h5]

end configured

/-- Batches are not accepted by the local energy itself: `jax.grad` needs one number. -/
theorem kinetic_batch_raises {f : Arr ℝ → Except String (Arr XR)} {x : Arr ℝ} {y : Arr XR} (h : f x = .ok y)
    (hy : y.shape ≠ []) : kineticA f x = .error "Gradient only defined for scalar-output functions" := by
  unfold kineticA
  rw [h, ok_bind]
  split
  · next h1 _ => exact absurd h1 hy
  · rfl

/-! ### Examples -/

/-- Helium with the default FermiNet, orbitals with kernels 0 and biases 2 and 3 and decay 1: the wave function is
`6 exp (-|r₁| - |r₂|)`, and every batch of walkers, none of which has electrons or nucleus at the same place, gets
the local energies of this function. -/
example (P : Params 2 1 3) {W : ℕ} (hW : 0 < W) (X : Arr ℝ) (hX : X.shape = [3, 2, W])
    (hx : ∀ t < W, Distinct (Spec.positionsOf X [t] : Pos 2 3))
    (hx' : ∀ t < W, Apart (Spec.positionsOf X [t] : Pos 2 3) fun (_ : Fin 1) _ => 0) :
    ∃ m : Model 1, getModelFromConfig {} (counts fun _ : Fin 2 => 1)
        (fun (_ : Fin 1) (_ : Fin 3) => (0 : ℝ)) (fun _ => 2) 32 = .ok m ∧
      ∃ Y, vmapA (localEnergyA (logPsiA (m.onBatch (fun _ : Fin 2 => 1) { P with orbitals := fun _ _ =>
          ⟨fun _ _ _ => 0, fun s _ => s.val + 2, fun _ _ => 1, fun _ _ _ _ _ => 0, fun _ _ _ => 1,
            0, true, true⟩ } (fun _ _ => 0))) (A2 fun (_ : Fin 1) (_ : Fin 3) => (0 : ℝ))
          (A1 fun (_ : Fin 1) => (2 : ℝ)) 0 0) X = .ok Y ∧ Y.shape = [W] ∧
        ∀ t < W, ∀ x : Pos 2 3, x = Spec.positionsOf X [t] → Y.get [t] = .fin
          ((-(1 / 2) * (∑ i, ∑ l, partial2 (fun y : Pos 2 3 =>
            6 * Real.exp (-∑ e, Real.sqrt (∑ a, y e a ^ 2))) i l x) +
          (coulombEI 1 0 (fun (_ : Fin 1) (_ : Fin 3) => (0 : ℝ)) (fun _ => 2) x + coulombEE 1 0 x +
            coulombII (fun (_ : Fin 1) (_ : Fin 3) => (0 : ℝ)) (fun _ => 2)) *
            (6 * Real.exp (-∑ e, Real.sqrt (∑ a, x e a ^ 2)))) /
              (6 * Real.exp (-∑ e, Real.sqrt (∑ a, x e a ^ 2)))) := by
  let n : Fin 2 → ℕ := fun _ => 1
  obtain ⟨m, hm⟩ := (model_config_accepted_iff {} (counts n)
    (fun (_ : Fin 1) (_ : Fin 3) => (0 : ℝ)) (fun _ => 2) 32).mpr
    (by rw [counts_length]; exact default_acceptable "ferminet" (by simp))
  let P' : Params 2 1 3 := { P with orbitals := fun _ _ =>
          ⟨fun _ _ _ => 0, fun s _ => s.val + 2, fun _ _ => 1, fun _ _ _ _ _ => 0, fun _ _ _ => 1,
            0, true, true⟩ }
  have hu : Spec.UsesNorms ({} : ModelCfg) := ⟨rfl, fun _ => rfl⟩
  have hn : ∀ s, 0 < n s := fun _ => Nat.one_pos
  have hc : Spec.Callable ({} : ModelCfg) 2 := by
    left
    refine ⟨rfl, .inr (by simp), ?_⟩
    simp [Spec.PairsWithoutTwo]
  have hcall : ∀ pos : Stream1 n 3, ∃ v, m.apply P' (fun _ _ => 0) pos = .ok v := fun pos =>
    (configured_model_callable_iff {} _ _ _ m hm hu hn P' pos).mpr hc
  choose v hv using hcall
  choose nz ψ hψ hrep using fun pos => configured_model_value {} _ _ _ m hm P' pos (v pos) (hv pos)
  have hval : ∀ pos, ψ pos = 6 * Real.exp (-∑ e, Real.sqrt (∑ a, pos e a ^ 2)) := by
    intro pos
    rcases model_value_inv (hψ pos) with ⟨-, N, D, hD, hr⟩ | ⟨h, -⟩ | ⟨h, -⟩ | ⟨h, -⟩ | ⟨h, -⟩
    · rcases fermi_dets_inv hD with ⟨-, _, z, -, hD⟩ | ⟨h, -⟩
      · obtain rfl : N = 1 := congrArg Sigma.fst hD
        obtain rfl := eq_of_heq (Sigma.mk.inj hD).2
        rcases combined_inv hr with ⟨-, h⟩ | ⟨h, -⟩ | ⟨h, -⟩ | ⟨h, -⟩
        · rw [h]
          rw [Fintype.sum_sigma]
          simp [orbitalValue, envelopeValue, P', Fin.prod_univ_succ, Fin.sum_univ_succ, n]
          rw [Real.exp_add]
          ring
        all_goals cases h
      · cases h
    all_goals simp at h
  have hs : ∀ y : Pos 2 3, ψ (splitPositions (n := n) y) =
      6 * Real.exp (-∑ e, Real.sqrt (∑ a, y e a ^ 2)) := by
    intro y
    rw [hval]
    congr 3
  obtain ⟨Y, h1, h2, h3⟩ := vmapped_local_energies {} (fun (_ : Fin 1) (_ : Fin 3) => (0 : ℝ)) (fun _ => 2) 32 m
    hm hu (by simp) hn P' hc nz ψ hψ 0 0 (fun i j hij => absurd (Fin.ext (by omega)) hij) hW (X := X) hX
  refine ⟨m, hm, Y, h1, h2, fun t ht x hxt => ?_⟩
  have h4 := h3 t ht x hxt ?_ ?_
  · have hfun : (fun y : Pos (∑ s, n s) 3 => ψ (splitPositions (n := n) y)) = fun y : Pos 2 3 =>
        6 * Real.exp (-∑ e, Real.sqrt (∑ a, y e a ^ 2)) := funext hs
    rw [hfun, hs] at h4
    exact h4
  · rw [hs]
    positivity
  · subst hxt
    refine ⟨⟨fun e e' he => hx t ht _ _ (finSigmaFinEquiv.injective.ne he), fun e j => hx' t ht _ j⟩,
      fun h => by simp at h, fun _ _ _ _ _ => .inr (.inl rfl), fun h => by simp at h,
      fun h => by simp at h⟩

end Verif.Props
