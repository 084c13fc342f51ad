import Verif.Lemmas.BatchedPotential
import Verif.Lemmas.Physics

/-!
What the potential energies return for a batch of walkers.
-/

namespace Verif.Spec
open Verif.Arrays Verif.Phys

/-- The walker with index `b` of an array of shape `(batch_dims, n, d)`. -/
noncomputable def positionsOf {n d : ℕ} (X : Arr ℝ) (b : List ℕ) : Pos n d :=
  fun i k => X.get (k.val :: i.val :: b)

/-- Calling `F` on positions of shape `(batch_dims, n, d)` returns an array of shape `batch_dims`, whose entry for
each walker is the value of `g`. -/
def EnergyPerWalker {n d : ℕ} (F : Arr ℝ → Except String (Arr XR)) (g : Pos n d → XR) : Prop :=
  ∀ (B : List ℕ) (X : Arr ℝ), X.shape = d :: n :: B → ∀ b, Ix b B →
    ∃ Y, F X = .ok Y ∧ Y.shape = B ∧ Y.get b = g (positionsOf X b)

/-- Calling `F` on positions returns one number, whatever the batch is. -/
def OneNumber (F : Arr ℝ → Except String (Arr XR)) (v : XR) : Prop :=
  ∀ X, ∃ Y, F X = .ok Y ∧ Y.shape = [] ∧ Y.get [] = v

end Verif.Spec

namespace Verif.Props
open Verif.Arrays Verif.Phys

variable {n m d : ℕ}

theorem part_positions {X : Arr ℝ} {B b : List ℕ} (hX : X.shape = d :: n :: B) (hb : Ix b B) :
    X.part b = A2 (Spec.positionsOf X b : Pos n d) := by
  have hl := hb.length_eq
  have hsh : (X.part b).shape = [d, n] := by
    show X.shape.take (X.shape.length - b.length) = _
    rw [hX, show (d :: n :: B).length - b.length = 2 by simp [hl]; omega]
    rfl
  refine eq_A2 hsh fun i j => ?_
  have hx : Ix [j.val, i.val] (X.shape.take (X.shape.length - b.length)) := by
    have : X.shape.take (X.shape.length - b.length) = [d, n] := hsh
    rw [this]
    exact ix2
  unfold Arr.part
  rw [of_get hx]
  rfl

theorem energy_of_on {F : Arr ℝ → Except String (Arr XR)} {g : Pos n d → XR}
    (h : ∀ B b X x, On B b 2 X x → ERel (On B b 0) (F X) (F x)) (h1 : ∀ pos, F (A2 pos) = .ok (A0 (g pos))) :
    Spec.EnergyPerWalker F g := by
  intro B X hX b hb
  have h2 := h _ _ _ _ (on_part (s := [d, n]) hb hX : On B b 2 X (X.part b))
  rw [part_positions (n := n) hX hb, h1] at h2
  cases hF : F X with
  | error e => rw [hF] at h2; cases h2
  | ok Y =>
    rw [hF] at h2
    cases h2 with
    | ok h3 =>
      refine ⟨Y, rfl, h3.shape.trans (List.nil_append _), ?_⟩
      rw [show Y.get b = (A0 (g (Spec.positionsOf X b))).get [] from h3.get [] rfl]
      rfl

/-- C113: the attraction of the electrons to the ions. -/
theorem electron_ion_on_batches (ions : Pos m d) (charges : Fin m → ℝ) (strength softening : ℝ)
    (nparticles : Option ℕ) (hk : nparticles ≠ some 0) :
    Spec.EnergyPerWalker (n := n) (electronIonA (A2 ions) (A1 charges) strength softening nparticles)
      (electronIonPotential ions charges strength softening nparticles) :=
  energy_of_on (fun _ _ _ _ h => on_electronIon' (ions := A2 ions) (charges := A1 charges) rfl rfl _ _ _ h)
    (electronIon_one ions charges strength softening nparticles hk)

/-- C113: the repulsion between electrons. -/
theorem electron_electron_on_batches (strength softening : ℝ) (nparticles : Option ℕ)
    (hk : nparticles ≠ some 0) :
    Spec.EnergyPerWalker (n := n) (d := d) (electronElectronA strength softening nparticles)
      (electronElectronPotential strength softening nparticles) :=
  energy_of_on (fun _ _ _ _ h => on_electronElectron' _ _ _ h)
    (electronElectron_one strength softening nparticles hk)

/-- C113: the repulsion between ions is one number also for batches, and not an array of the documented shape. -/
theorem ion_ion_one_number (ions : Pos m d) (charges : Fin m → ℝ) :
    Spec.OneNumber (ionIonA (A2 ions) (A1 charges)) (ionIonPotential ions charges) :=
  fun X => ⟨_, ionIon_eq ions charges X, rfl, A0_get _⟩

/-- Hence the documented shape fails for every batch with an axis. -/
theorem ion_ion_not_documented (ions : Pos m d) (charges : Fin m → ℝ) {B : List ℕ} (hB : B ≠ []) (X : Arr ℝ)
    {Y : Arr XR} (hY : ionIonA (A2 ions) (A1 charges) X = .ok Y) : Y.shape ≠ B := by
  rw [ionIon_eq] at hY
  cases hY
  exact fun h => hB h.symm

/-! ### Adding terms -/

theorem zip_batch {B b : List ℕ} (hb : Ix b B) {V W : Arr XR} (hV : V.shape = B)
    (hW : W.shape = B ∨ W.shape = []) :
    ∃ Y, V.zip (· + ·) W = .ok Y ∧ Y.shape = B ∧
      Y.get b = V.get b + W.get (if W.shape = [] then [] else b) := by
  have hs : bshape V.shape W.shape = some B := by
    rcases hW with h | h
    · rw [hV, h, bshape_self]
    · rw [hV, h, bshape_nil]
  refine ⟨_, zip_of_eq _ hs, rfl, ?_⟩
  rw [of_get hb, hV, proj_id hb]
  congr 2
  split_ifs with h
  · rw [h]
    simp [proj]
  · rcases hW with h' | h'
    · rw [h', proj_id hb]
    · exact absurd h' h

theorem add_terms_on_batches {B b : List ℕ} (hb : Ix b B) {X : Arr ℝ} (hX : X.shape = d :: n :: B)
    (ts : List ((Arr ℝ → Except String (Arr XR)) × (Pos n d → XR)))
    (h : ∀ t ∈ ts, Spec.EnergyPerWalker t.1 t.2 ∨ ∃ v, Spec.OneNumber t.1 v ∧ ∀ x, t.2 x = v)
    {V : Arr XR} (hV : V.shape = B) :
    ∃ Y, addTerms X (ts.map (·.1)) V = .ok Y ∧ Y.shape = B ∧
      Y.get b = (ts.map (·.2)).foldl (fun acc f => acc + f (Spec.positionsOf X b)) (V.get b) := by
  induction ts generalizing V with
  | nil => exact ⟨V, rfl, hV, rfl⟩
  | cons t ts ih =>
    have key : ∃ W, t.1 X = .ok W ∧ (W.shape = B ∨ W.shape = []) ∧
        W.get (if W.shape = [] then [] else b) = t.2 (Spec.positionsOf X b) := by
      rcases h t (by simp) with h1 | ⟨v, h1, h2⟩
      · obtain ⟨W, h3, h4, h5⟩ := h1 B X hX b hb
        refine ⟨W, h3, .inl h4, ?_⟩
        split_ifs with h6
        · have : b = [] := by
            have := hb.length_eq
            rw [← h4, h6] at this
            exact List.eq_nil_of_length_eq_zero this
          rw [← h5, this]
        · exact h5
      · obtain ⟨W, h3, h4, h5⟩ := h1 X
        exact ⟨W, h3, .inr h4, by rw [if_pos h4, h5, h2]⟩
    obtain ⟨W, h1, h2, h3⟩ := key
    obtain ⟨V', h4, h5, h6⟩ := zip_batch hb hV h2
    obtain ⟨Y, h7, h8, h9⟩ := ih (fun t ht => h t (by simp [ht])) h5
    refine ⟨Y, ?_, h8, ?_⟩
    · simp only [List.map_cons, addTerms, h1, ok_bind, h4, h7]
    · rw [h9, h6, h3]
      rfl

/-- C113: adding terms, of which the first has one entry for each walker and the others have one entry for each
walker or are one number, adds the terms of each walker. -/
theorem combined_on_batches (F : Arr ℝ → Except String (Arr XR)) (f : Pos n d → XR)
    (hF : Spec.EnergyPerWalker F f) (ts : List ((Arr ℝ → Except String (Arr XR)) × (Pos n d → XR)))
    (h : ∀ t ∈ ts, Spec.EnergyPerWalker t.1 t.2 ∨ ∃ v, Spec.OneNumber t.1 v ∧ ∀ x, t.2 x = v) {K : Type}
    (key : K) :
    Spec.EnergyPerWalker (combineTermsA (F :: ts.map (·.1)))
      fun x => combineTerms f (ts.map (·.2)) x key := by
  intro B X hX b hb
  obtain ⟨V, h1, h2, h3⟩ := hF B X hX b hb
  obtain ⟨Y, h4, h5, h6⟩ := add_terms_on_batches hb hX ts h h2
  refine ⟨Y, ?_, h5, ?_⟩
  · simp only [combineTermsA, h1, ok_bind, h4]
  · rw [h6, h3]
    rfl

/-- C113: the potential energy of a molecule. -/
theorem molecular_potential_on_batches (ions : Pos m d) (charges : Fin m → ℝ) (eiSoft eeSoft : ℝ) :
    Spec.EnergyPerWalker (n := n)
      (combineTermsA [electronIonA (A2 ions) (A1 charges) 1 eiSoft none, electronElectronA 1 eeSoft none,
        ionIonA (A2 ions) (A1 charges)])
      fun x => electronIonPotential ions charges 1 eiSoft none x + electronElectronPotential 1 eeSoft none x +
        ionIonPotential ions charges :=
  combined_on_batches _ _ (electron_ion_on_batches ions charges 1 eiSoft none (by simp))
    [(electronElectronA 1 eeSoft none, electronElectronPotential 1 eeSoft none),
      (ionIonA (A2 ions) (A1 charges), fun _ => ionIonPotential ions charges)]
    (by
      intro t ht
      simp only [List.mem_cons, List.not_mem_nil, or_false] at ht
      rcases ht with rfl | rfl
      · exact .inl (electron_electron_on_batches 1 eeSoft none (by simp))
      · exact .inr ⟨_, ion_ion_one_number ions charges, fun _ => rfl⟩) ()

/-- With no sampled particles the multiplier is a division by zero. -/
theorem sampled_none_raises (ions : Pos m d) (charges : Fin m → ℝ) (strength softening : ℝ) (x : Pos n d) :
    electronIonA (A2 ions) (A1 charges) strength softening (some 0) (A2 x) = .error "ZeroDivisionError" ∧
      electronElectronA strength softening (some 0) (A2 x) = .error "ZeroDivisionError" := by
  refine ⟨rfl, ?_⟩
  unfold electronElectronA
  rw [displacements_A2, ok_bind]
  rfl

/-! ### Examples -/

/-- Three electrons around two nuclei, four times five walkers: twenty energies. -/
example (ions : Pos 2 3) (charges : Fin 2 → ℝ) (X : Arr ℝ) (hX : X.shape = [3, 3, 5, 4]) :
    ∃ Y, combineTermsA [electronIonA (A2 ions) (A1 charges) 1 0 none, electronElectronA 1 0 none,
        ionIonA (A2 ions) (A1 charges)] X = .ok Y ∧ Y.shape = [5, 4] ∧
      Y.get [2, 1] = electronIonPotential ions charges 1 0 none (Spec.positionsOf X [2, 1] : Pos 3 3) +
        electronElectronPotential 1 0 none (Spec.positionsOf X [2, 1] : Pos 3 3) + ionIonPotential ions charges :=
  molecular_potential_on_batches (n := 3) ions charges 0 0 [5, 4] X hX [2, 1]
    (.cons (by decide) (.cons (by decide) .nil))

/-- Two walkers of one electron on a line, at distances 1 and 2 from a proton: the energies are -1 and -1/2. -/
example : ∃ Y, electronIonA (A2 fun (_ : Fin 1) (_ : Fin 1) => 0) (A1 fun (_ : Fin 1) => 1) 1 0 none
      (Arr.of [1, 1, 2] fun i => ((i.getD 2 0 : ℕ) : ℝ) + 1) = .ok Y ∧ Y.shape = [2] ∧
    Y.get [0] = .fin (-1) ∧ Y.get [1] = .fin (-1 / 2) := by
  have h := electron_ion_on_batches (n := 1) (fun (_ : Fin 1) (_ : Fin 1) => 0) (fun _ => 1) 1 0 none (by simp)
    [2] (Arr.of [1, 1, 2] fun i => ((i.getD 2 0 : ℕ) : ℝ) + 1) rfl
  have hv : ∀ t < 2, electronIonPotential (fun (_ : Fin 1) (_ : Fin 1) => 0) (fun _ => 1) 1 0 none
      (Spec.positionsOf (Arr.of [1, 1, 2] fun i => ((i.getD 2 0 : ℕ) : ℝ) + 1) [t] : Pos 1 1) =
        .fin (-1 / ((t : ℝ) + 1)) := by
    intro t ht
    have h0 : (0 : ℝ) < (t : ℝ) + 1 := by positivity
    have hp : (Spec.positionsOf (Arr.of [1, 1, 2] fun i => ((i.getD 2 0 : ℕ) : ℝ) + 1) [t] : Pos 1 1) =
        fun _ _ => (t : ℝ) + 1 := by
      funext i k
      unfold Spec.positionsOf
      rw [of_get (.cons k.2 (.cons i.2 (.cons ht .nil)))]
      rfl
    rw [hp]
    unfold electronIonPotential
    simp only [Finset.univ_unique, Finset.sum_singleton, sub_zero, computeSoftNorm]
    rw [show Real.sqrt (((t : ℝ) + 1) ^ 2 + 0 ^ 2) = (t : ℝ) + 1 by
      rw [zero_pow two_ne_zero, add_zero, Real.sqrt_sq h0.le]]
    rw [XR.fin_div h0.ne']
    simp only [XR.fin_mul]
    congr 1
    ring
  obtain ⟨Y, h1, h2, h3⟩ := h [0] (.cons (by decide) .nil)
  obtain ⟨Z, h4, _, h5⟩ := h [1] (.cons (by decide) .nil)
  rw [h1] at h4
  cases h4
  refine ⟨Y, h1, h2, ?_, ?_⟩
  · rw [h3, hv 0 (by decide)]; norm_num
  · rw [h5, hv 1 (by decide)]; norm_num

end Verif.Props
