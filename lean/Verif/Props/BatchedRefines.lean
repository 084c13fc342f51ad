import Verif.Lemmas.ArrayViewsNet
import Verif.Props.Batched
import Verif.Props.ConstructValue

/-!
What the array code returns for a batch of walkers.  The models of the properties on wave functions are
functions of one walker; this file shows that the code on arrays, with its axes, splits, concatenations and
broadcasts, returns their values entry by entry.
-/

namespace Verif.Spec
open Verif.Arrays Verif.Slog Verif.Net

/-- The walker with index `b` of an array of shape `(batch_dims, nelec, d)` whose electrons are ordered by
species: coordinate `k` of electron `i` of species `s`. -/
noncomputable def walkerOf {S d : ℕ} {n : Fin S → ℕ} (X : Arr ℝ) (b : List ℕ) : Stream1 n d :=
  fun e k => X.get (k.val :: (∑ t : Fin e.1.val, n (t.castLE e.1.2.le) + e.2.val) :: b)

/-- Calling `F` on an array of walkers computes `g` for each of them: for every walker of every batch, both
raise the same exception, or the result has the shape of the batch and its entry is the value of `g`. -/
def ComputesPerWalker {S d : ℕ} {n : Fin S → ℕ} (F : Arr ℝ → Except String (Arr SL))
    (g : Stream1 n d → Except String SL) : Prop :=
  ∀ (B : List ℕ) (X : Arr ℝ), X.shape = d :: (∑ s, n s) :: B → ∀ b, Ix b B →
    (∃ e, F X = .error e ∧ g (walkerOf X b) = .error e) ∨
    ∃ Y, F X = .ok Y ∧ Y.shape = B ∧ g (walkerOf X b) = .ok (Y.get b)

end Verif.Spec

namespace Verif.Props
open Verif.Arrays Verif.Slog Verif.Construct Verif.Net Equiv

variable {K M d : ℕ} {n : Fin (K + 1) → ℕ}

theorem part_walker {X : Arr ℝ} {B b : List ℕ} (hX : X.shape = d :: (∑ s, n s) :: B) (hb : Ix b B) :
    X.part b = S1 (Spec.walkerOf (n := n) X b : Stream1 n d) := by
  have hl := hb.length_eq
  have hsh : (X.part b).shape = [d, ∑ s, n s] := by
    show X.shape.take (X.shape.length - b.length) = _
    rw [hX, show (d :: (∑ s, n s) :: B).length - b.length = 2 by simp [hl]; omega]
    rfl
  refine eq_A2 hsh fun i j => ?_
  have hx : Ix [j.val, i.val] (X.shape.take (X.shape.length - b.length)) := by
    have : X.shape.take (X.shape.length - b.length) = [d, ∑ s, n s] := hsh
    rw [this]
    exact ix2
  unfold Arr.part
  rw [of_get hx]
  show X.get (j.val :: i.val :: b) = _
  unfold Spec.walkerOf
  have : (∑ t : Fin (finSigmaFinEquiv.symm i).1.val, n (t.castLE (finSigmaFinEquiv.symm i).1.2.le) +
      (finSigmaFinEquiv.symm i).2.val) = i.val := by
    rw [← finSigmaFinEquiv_apply, Equiv.apply_symm_apply]
  rw [this]

/-- C108: the array code of the FermiNet computes the function of the per-walker model for every walker of
every batch. -/
theorem ferminet_computes_per_walker (f : FermiDesc) (P : Params (K + 1) (M + 1) d)
    (hs : f.spinSplit = Split.getSpinSplit (counts n)) (hb : BlocksMatch (counts n) f.backflow)
    (hei : f.streams.includeEiNorm = true) (hdet : f.ndeterminants ≠ 0) (hN : ∑ s, n s ≠ 0)
    (ions : Fin (M + 1) → Fin d → ℝ) :
    Spec.ComputesPerWalker (n := n) (fermiNetA f (fermiA f P n) (A2 ions)) (f.apply P ions) := by
  intro B X hX b hb'
  have h1 := ferminet_acts_per_walker f hei (fermiA f P n) (A2 ions) rfl d (∑ s, n s) B X hX b hb'
  rw [part_walker hX hb', fermiNet_one f P hs hb hei hdet hN] at h1
  cases hv : f.apply P ions (Spec.walkerOf X b) with
  | error e =>
    rw [hv] at h1
    obtain ⟨e', h2, h3⟩ | ⟨Y, y, h2, h3, _⟩ := h1
    · cases h3
      exact .inl ⟨e, h2, rfl⟩
    · cases h3
  | ok v =>
    rw [hv] at h1
    obtain ⟨e', h2, h3⟩ | ⟨Y, y, h2, h3, h4, h5, h6⟩ := h1
    · cases h3
    · cases h3
      refine .inr ⟨Y, h2, h4, ?_⟩
      rw [h6]
      rfl

/-- Permuting the electrons of each walker within the species, each walker in its own way, multiplies the
entry of each walker by the sign of its permutation. -/
theorem ferminet_batches_antisymmetric (f : FermiDesc) (P : Params (K + 1) (M + 1) d)
    (hs : f.spinSplit = Split.getSpinSplit (counts n)) (hb : BlocksMatch (counts n) f.backflow)
    (hei : f.streams.includeEiNorm = true) (hdet : f.ndeterminants ≠ 0) (hN : ∑ s, n s ≠ 0)
    (ions : Fin (M + 1) → Fin d → ℝ) {B : List ℕ} {X X' : Arr ℝ}
    (hX : X.shape = d :: (∑ s, n s) :: B) (hX' : X'.shape = d :: (∑ s, n s) :: B)
    (π : List ℕ → ∀ s, Perm (Fin (n s)))
    (hp : ∀ b, Ix b B → (Spec.walkerOf X' b : Stream1 n d) = permute1 (π b) (Spec.walkerOf X b))
    {Y : Arr SL} (hY : fermiNetA f (fermiA f P n) (A2 ions) X = .ok Y) (hB : 0 ∉ B) :
    ∃ Y', fermiNetA f (fermiA f P n) (A2 ions) X' = .ok Y' ∧ Y'.shape = B ∧
      ∀ b, Ix b B → Y'.get b = signTimes (totalParity (π b)) (Y.get b) := by
  have key : ∀ b, Ix b B → ∃ Y', fermiNetA f (fermiA f P n) (A2 ions) X' = .ok Y' ∧ Y'.shape = B ∧
      Y'.get b = signTimes (totalParity (π b)) (Y.get b) := by
    intro b hb'
    have h1 := ferminet_computes_per_walker f P hs hb hei hdet hN ions B X hX b hb'
    have h2 := ferminet_computes_per_walker f P hs hb hei hdet hN ions B X' hX' b hb'
    rw [hp b hb', fermi_desc_antisymmetric] at h2
    obtain ⟨e, h3, _⟩ | ⟨Z, h3, _, h4⟩ := h1
    · rw [hY] at h3; cases h3
    · rw [hY] at h3
      cases h3
      rw [h4] at h2
      obtain ⟨e, _, h5⟩ | ⟨Y', h5, h6, h7⟩ := h2
      · cases h5
      · refine ⟨Y', h5, h6, ?_⟩
        exact (Except.ok.inj h7).symm
  have h0 : Ix (B.map fun _ => 0) B := by
    clear hX hX' hp key
    induction B with
    | nil => exact .nil
    | cons a B ih =>
      simp only [List.mem_cons, not_or] at hB
      exact .cons (Nat.pos_of_ne_zero (Ne.symm hB.1)) (ih hB.2)
  obtain ⟨Y', h1, h2, _⟩ := key _ h0
  refine ⟨Y', h1, h2, fun b hb' => ?_⟩
  obtain ⟨Y'', h3, _, h4⟩ := key b hb'
  rw [h1] at h3
  cases h3
  exact h4

/-- A FermiNet built from a configuration returns, for every walker of a batch, a representation of the
value which the configuration stands for (unless all terms of the sum of determinants vanish). -/
theorem configured_ferminet_on_batches (c : ModelCfg) (ions : Fin (M + 1) → Fin d → ℝ)
    (charges : Fin (M + 1) → ℝ) (dtype : ℕ) (f : FermiDesc)
    (hm : getModelFromConfig c (counts n) ions charges dtype = .ok (.fermiNet f))
    (hei : c.inputStreams.includeEiNorm = true) (hdet : c.ndeterminants ≠ 0) (hN : ∑ s, n s ≠ 0)
    (P : Params (K + 1) (M + 1) d) {B : List ℕ} {X : Arr ℝ} (hX : X.shape = d :: (∑ s, n s) :: B)
    {Y : Arr SL} (hY : fermiNetA f (fermiA f P n) (A2 ions) X = .ok Y) {b : List ℕ} (hb : Ix b B) :
    Y.shape = B ∧ ∃ (nonzero : Prop) (r : ℝ),
      Spec.ModelValue c P ions charges (Spec.walkerOf X b : Stream1 n d) nonzero r ∧
        (nonzero → Spec.Represents (Y.get b) r) := by
  have hmatch := configured_model_splits_match c _ ions charges dtype _ hm
  have hmeans := configured_model_means_partial c _ ions charges dtype _ hm
  cases hmeans with
  | fermiNet f ht h =>
    have he : f.streams.includeEiNorm = true := by rw [h.streams.ei, hei]
    have hd : f.ndeterminants ≠ 0 := by rw [h.determinants]; exact hdet
    obtain ⟨e, h3, _⟩ | ⟨Z, h3, h4, h5⟩ :=
      ferminet_computes_per_walker f P hmatch.1 hmatch.2 he hd hN ions B X hX b hb
    · rw [hY] at h3; cases h3
    · rw [hY] at h3
      cases h3
      refine ⟨h4, configured_model_value c ions charges dtype _ hm P _ _ ?_⟩
      unfold Model.apply
      rw [if_neg (by simpa using hmatch), if_neg (by simpa [Model.EiNorms] using he)]
      exact h5

/-! ### Examples -/

/-- The default FermiNet for three electrons around one nucleus, called on four times five walkers: it returns
twenty numbers, each of which is the value of the configuration for its walker. -/
example (P : Params 2 1 3) (X : Arr ℝ) (hX : X.shape = [3, 3, 5, 4]) :
    ∃ f, getModelFromConfig {} (counts (![2, 1] : Fin 2 → ℕ))
        (fun (_ : Fin 1) (_ : Fin 3) => (0 : ℝ)) (fun _ => 3) 32 = .ok (.fermiNet f) ∧
      ∃ Y, fermiNetA f (fermiA f P ![2, 1]) (A2 fun (_ : Fin 1) (_ : Fin 3) => 0) X = .ok Y ∧ Y.shape = [5, 4] ∧
        ∀ b, Ix b [5, 4] → ∃ (nonzero : Prop) (r : ℝ), Spec.ModelValue {} P (fun _ _ => 0) (fun _ => 3)
          (Spec.walkerOf X b : Stream1 (![2, 1] : Fin 2 → ℕ) 3) nonzero r ∧
            (nonzero → Spec.Represents (Y.get b) r) := by
  obtain ⟨m, hm⟩ := (model_config_accepted_iff {} (counts (![2, 1] : Fin 2 → ℕ))
    (fun (_ : Fin 1) (_ : Fin 3) => (0 : ℝ)) (fun _ => 3) 32).mpr
    (by rw [counts_length]; exact default_acceptable "ferminet" (by simp))
  have hX' : X.shape = 3 :: (∑ s, (![2, 1] : Fin 2 → ℕ) s) :: [5, 4] := hX
  obtain ⟨p, hp⟩ := (configured_model_callable_iff {} _ _ _ m hm ⟨rfl, fun _ => rfl⟩
    (by intro s; fin_cases s <;> simp) P (Spec.walkerOf X [0, 0])).mpr (by
      left
      refine ⟨rfl, .inr (by simp), ?_⟩
      simp [Spec.PairsWithoutTwo])
  have hmatch := configured_model_splits_match _ _ _ _ _ _ hm
  cases configured_model_means_partial _ _ _ _ _ _ hm with
  | embedded _ _ _ _ _ _ ht => exact absurd ht (by decide)
  | extended _ _ _ _ ht => exact absurd ht (by decide)
  | antiequivariance _ _ _ _ _ _ ht => simp at ht
  | explicit _ _ _ _ _ ht => exact absurd ht (by decide)
  | fermiNet f ht h =>
    have he : f.streams.includeEiNorm = true := by rw [h.streams.ei]
    have hd : f.ndeterminants ≠ 0 := by rw [h.determinants]; simp
    have h0 : Ix [0, 0] [5, 4] := .cons (by decide) (.cons (by decide) .nil)
    unfold Model.apply at hp
    rw [if_neg (by simpa using hmatch), if_neg (by simpa [Model.EiNorms] using he)] at hp
    obtain ⟨e, _, h2⟩ | ⟨Y, h1, h2, _⟩ := ferminet_computes_per_walker f P hmatch.1 hmatch.2 he hd
      (by decide) (fun _ _ => 0) [5, 4] X hX' [0, 0] h0
    · rw [show f.apply P (fun _ _ => 0) (Spec.walkerOf X [0, 0]) = .ok p from hp] at h2
      cases h2
    · exact ⟨f, hm, Y, h1, h2, fun b hb =>
        (configured_ferminet_on_batches {} _ _ 32 f hm rfl (by simp) (by decide) P hX' h1 hb).2⟩

/-- Exchanging the two electrons of the second of two walkers. -/
example (i : Initializer) (P : Params 1 1 1) (ions : Fin 1 → Fin 1 → ℝ) (X : Arr ℝ)
    (hX : X.shape = [1, 2, 2]) (Y : Arr SL)
    (hY : fermiNetA { twoElectrons true 1 i with spinSplit := [] }
      (fermiA { twoElectrons true 1 i with spinSplit := [] } P fun _ => 2) (A2 ions) X = .ok Y) :
    ∃ Y', fermiNetA { twoElectrons true 1 i with spinSplit := [] }
      (fermiA { twoElectrons true 1 i with spinSplit := [] } P fun _ => 2) (A2 ions)
        (.of [1, 2, 2] fun j => X.get (if j.getD 2 0 = 1 then [j.getD 0 0, 1 - j.getD 1 0, 1] else j)) =
      .ok Y' ∧ Y'.get [0] = signTimes 1 (Y.get [0]) ∧ Y'.get [1] = signTimes (-1) (Y.get [1]) := by
  obtain ⟨Y', h1, _, h2⟩ := ferminet_batches_antisymmetric (n := fun _ : Fin 1 => 2) _ P
    rfl (by intro b hb; cases hb) rfl (by decide : (1 : ℕ) ≠ 0) (by decide) ions (B := [2]) hX
    (X' := .of [1, 2, 2] fun j => X.get
      (if j.getD 2 0 = 1 then [j.getD 0 0, 1 - j.getD 1 0, 1] else j)) rfl
    (fun b _ => if b = [1] then swap 0 1 else 1) (fun b hb => by
      funext e k
      obtain ⟨s, a⟩ := e
      have hs : s = 0 := Fin.ext (by omega)
      subst hs
      have hk : k = 0 := Subsingleton.elim _ _
      subst hk
      obtain rfl | rfl : b = [0] ∨ b = [1] := by
        cases hb with
        | cons h t =>
          cases t
          rename_i x
          have : x = 0 ∨ x = 1 := by omega
          simpa using this
      · unfold Spec.walkerOf permute1
        fin_cases a <;> simp [Arr.of, Ix, permE] <;> rfl
      · unfold Spec.walkerOf permute1
        fin_cases a <;> simp [Arr.of, Ix, permE] <;> rfl) hY (by decide)
  refine ⟨Y', h1, ?_, ?_⟩
  · rw [h2 [0] (.cons (by decide) .nil)]
    congr 1
    simp [totalParity, parity]
  · rw [h2 [1] (.cons (by decide) .nil)]
    congr 1
    simp [totalParity, parity]

end Verif.Props
