import Verif.Lemmas.Batched

/-!
Batch axes.  The docstrings of the models say that `...` stands for any batch axes, and that inputs of
shape `(batch_dims, nelec, d)` give outputs of shape `(batch_dims,)`.
-/

namespace Verif.Spec
open Verif.Arrays Verif.Slog

/-- Calling `F` on an array of walkers with `n` electrons in `d` dimensions is calling it on every walker
alone: for every walker of every batch, both calls raise the same exception, or both return; then the
first result has the shape of the batch, the second is a number, and it is the entry of the first. -/
def ActsPerWalker (F : Arr ℝ → Except String (Arr SL)) (d n : ℕ) : Prop :=
  ∀ (B : List ℕ) (X : Arr ℝ), X.shape = d :: n :: B → ∀ b, Ix b B →
    (∃ e, F X = .error e ∧ F (X.part b) = .error e) ∨
    ∃ Y y, F X = .ok Y ∧ F (X.part b) = .ok y ∧ Y.shape = B ∧ y.shape = [] ∧ Y.get b = y.get []

end Verif.Spec

namespace Verif.Props
open Verif.Arrays Verif.Slog Verif.Construct Verif.Net

/-- The FermiNet acts on every walker of a batch as on the walker alone, for every description with
electron-ion distances: any backflow (with attention or without, cyclic spins or not, with or without
two-electron stream), any envelopes, all determinant functions, full or split determinants. -/
theorem ferminet_acts_per_walker (f : FermiDesc) (hf : f.streams.includeEiNorm = true) (P : FermiA)
    (ions : Arr ℝ) (hi : ions.shape.length = 2) (d n : ℕ) :
    Spec.ActsPerWalker (fermiNetA f P ions) d n := by
  intro B X hX b hb
  have h : On B b 2 X (X.part b) := on_part (s := [d, n]) hb hX
  have h1 := on_fermiNet hi f hf P h
  cases h2 : fermiNetA f P ions X with
  | error e =>
    cases h3 : fermiNetA f P ions (X.part b) with
    | ok y => rw [h2, h3] at h1; cases h1
    | error e' => rw [h2, h3] at h1; cases h1; exact .inl ⟨e, rfl, rfl⟩
  | ok Y =>
    cases h3 : fermiNetA f P ions (X.part b) with
    | error e => rw [h2, h3] at h1; cases h1
    | ok y =>
      rw [h2, h3] at h1
      cases h1 with
      | ok h1 =>
        have hy : y.shape = [] := List.length_eq_zero_iff.1 h1.rank
        refine .inr ⟨Y, y, rfl, rfl, ?_, hy, ?_⟩
        · rw [h1.shape, hy, List.nil_append]
        · exact h1.get [] rfl

/-- The value for a walker does not depend on the other walkers, nor on how many there are and how they
are arranged. -/
theorem walkers_do_not_interact (f : FermiDesc) (hf : f.streams.includeEiNorm = true) (P : FermiA)
    (ions : Arr ℝ) (hi : ions.shape.length = 2) (d n : ℕ) {B B' : List ℕ} {X X' : Arr ℝ}
    (hX : X.shape = d :: n :: B) (hX' : X'.shape = d :: n :: B') {b b' : List ℕ} (hb : Ix b B)
    (hb' : Ix b' B') (h : X.part b = X'.part b') {Y : Arr SL} (hY : fermiNetA f P ions X = .ok Y) :
    ∃ Y', fermiNetA f P ions X' = .ok Y' ∧ Y'.get b' = Y.get b := by
  obtain ⟨e, h1, _⟩ | ⟨Z, z, h1, h2, _, _, h5⟩ :=
    ferminet_acts_per_walker f hf P ions hi d n B X hX b hb
  · rw [hY] at h1; cases h1
  · obtain ⟨e, _, h2'⟩ | ⟨Z', z', h1', h2', _, _, h5'⟩ :=
      ferminet_acts_per_walker f hf P ions hi d n B' X' hX' b' hb'
    · rw [← h, h2] at h2'; cases h2'
    · rw [← h, h2] at h2'
      cases h2'
      rw [hY] at h1
      cases h1
      exact ⟨Z', h1', by rw [h5', h5]⟩

/-! ### Without electron-ion distances -/

/-- Without the distances the ion axis is not merged with the coordinates: the one-electron input has the
shape `(..., nelec, nion, d)`, one axis more than the documented `(..., nelec, nion * d)`. -/
theorem electron_ion_without_norms_shape (ions pos : Arr ℝ) (ε : ℝ) {d n nion : ℕ} {B : List ℕ}
    (hi : ions.shape = [d, nion]) (hp : pos.shape = d :: n :: B) :
    ∃ input rei, electronIon ions false ε pos = .ok (input, rei) ∧
      input.shape = d :: nion :: n :: B ∧ rei.shape = d :: nion :: n :: B ∧ input.shape ≠ (nion * d) :: n :: B := by
  have h1 : bshape (d :: 1 :: n :: B) [d, nion, 1] = some (d :: nion :: n :: B) := by
    by_cases h : nion = 1 <;> simp [bshape, h, bshape_nil, eq_comm]
  have e1 : (pos.expand 1).shape = d :: 1 :: n :: B := by simp [Arr.expand, Arr.of, hp]
  have e2 : (ions.expand 2).shape = [d, nion, 1] := by simp [Arr.expand, Arr.of, hi]
  have e3 : ∃ rei, displacementsA pos ions = .ok rei ∧ rei.shape = d :: nion :: n :: B := by
    unfold displacementsA Arr.zip
    rw [e1, e2, h1]
    exact ⟨_, rfl, rfl⟩
  obtain ⟨rei, h2, h3⟩ := e3
  refine ⟨rei, rei, ?_, h3, h3, ?_⟩
  · unfold electronIon
    rw [h2]
    rfl
  · intro h
    have := congrArg List.length (h3.symm.trans h)
    simp at this

/-- A FermiNet for two electrons of different spin without backflow, with distances or without. -/
noncomputable def twoElectrons (includeEiNorm : Bool) (ndet : ℕ) (i : Initializer) : FermiDesc where
  spinSplit := [1]
  streams := ⟨false, includeEiNorm, 0, true, 0⟩
  backflow := []
  ndeterminants := ndet
  orbitals := ⟨i, i, i, i, true, true⟩
  envelopeSoftening := 0
  detFn := none
  mode := .signCovariance
  fullDet := false

theorem except_ok_bind {α β : Type} (a : α) (f : α → Except String β) : (Except.ok a >>= f) = f a := rfl

theorem split_two {p : ℕ} {x : Arr ℝ} (h : x.shape.getD p 0 = 2) :
    split p [1] x = .ok [x.slice p 0 1, x.slice p 1 2] := by
  unfold split
  simp only [h]
  rw [if_pos (by decide)]
  simp only [splitFrom, h]

theorem zip_shape {f : ℝ → ℝ → ℝ} {a c : Arr ℝ} {s : List ℕ} (h : bshape a.shape c.shape = some s) :
    ∃ Y, a.zip f c = .ok Y ∧ Y.shape = s := by
  unfold Arr.zip
  rw [h]
  exact ⟨_, rfl, rfl⟩

theorem isotropy_shape {kernel : ℕ → ℝ} {R : Arr ℝ} {d nion : ℕ} {B : List ℕ}
    (h : R.shape = d :: nion :: 1 :: B) :
    ∃ Y, isotropyA kernel 1 R = .ok Y ∧ Y.shape = d :: nion :: 1 :: 1 :: B := by
  unfold isotropyA
  obtain ⟨Y, h1, h2⟩ := zip_shape (f := (· * ·)) (s := 1 :: nion :: d :: 1 :: B)
    (a := .of (((R.swap 0 1).expand 0).shape.set 0 1) fun i => ((R.swap 0 1).expand 0).get (i.set 0 0))
    (c := .of [1, 1] fun i => kernel (i.headD 0))
    (by simp [Arr.swap, swapList, Arr.expand, Arr.of, h, bshape])
  refine ⟨Y.swap 0 2, ?_, by simp [Arr.swap, swapList, Arr.of, h2]⟩
  simp only [h1]
  rfl

theorem envelope_shape {i : Initializer} {P : OrbitalsA} {s : ℕ} {R : Arr ℝ} {d : ℕ} {B : List ℕ}
    (h : R.shape = d :: 2 :: 1 :: B) :
    ∃ Y, envelopeA ⟨i, i, i, i, true, true⟩ 0 P s R 1 = .ok Y ∧ Y.shape = 1 :: 1 :: B := by
  unfold envelopeA scaledDisplacements
  simp only [if_true]
  obtain ⟨Y, h1, h2⟩ := isotropy_shape (kernel := P.iso s) h
  rw [h1, except_ok_bind]
  have h3 : ((Y.reduce norm 0 false).map fun r => Real.exp (-softened r 0)).shape = 2 :: 1 :: 1 :: B := by
    simp [Arr.map, Arr.reduce, Arr.of, h2]
  generalize (Y.reduce norm 0 false).map (fun r => Real.exp (-softened r 0)) = D at h3 ⊢
  obtain ⟨Z, h4, h5⟩ := zip_shape (f := (· * ·)) (s := 2 :: 1 :: 1 :: B) (a := D)
    (c := .of [D.shape.getD 0 0, D.shape.getD 1 0, 1] fun i => P.ion s (i.getD 1 0) (i.headD 0))
    (by simp [Arr.of, h3, bshape, bshape_nil])
  rw [h4]
  exact ⟨Z.reduce List.sum 0 false, rfl, by simp [Arr.reduce, Arr.of, h5]⟩

theorem reshape_shape {x : Arr ℝ} {t : List ℕ} (h : x.shape = 1 :: 1 :: t) :
    ∃ Y, reshapeRawA 1 x = .ok Y ∧ Y.shape = 1 :: 1 :: (t ++ [1]) := by
  unfold reshapeRawA unflatten
  rw [if_neg (by decide), h]
  simp only
  rw [if_pos (by simp)]
  exact ⟨_, rfl, by simp [Arr.toFront, Arr.of]⟩

theorem slogdet_shape {x : Arr ℝ} {t : List ℕ} (h : x.shape = 1 :: 1 :: t) :
    ∃ Y, onSquares (fun _ M => Antisym.slogdet M) x = .ok Y ∧ Y.shape = t := by
  unfold onSquares
  rw [h]
  exact ⟨_, rfl, rfl⟩

theorem two_electrons_shape (P : FermiA) (i : Initializer) (b : Bool) {input rei : Arr ℝ} {w d : ℕ}
    {t B : List ℕ} (h : input.shape = w :: 2 :: t) (hr : rei.shape = d :: 2 :: 2 :: B)
    (hb : bshape t B = some t) :
    ∃ Y, (do
      let raw ← orbitalLayer (twoElectrons b 1 i).orbitals (twoElectrons b 1 i).envelopeSoftening
        P.orbitals (twoElectrons b 1 i).spinSplit
        ([1, 1].map (· * (twoElectrons b 1 i).ndeterminants)) input rei
      let orbs ← raw.mapM (reshapeRawA (twoElectrons b 1 i).ndeterminants)
      combineA (twoElectrons b 1 i) P orbs) = .ok Y ∧ Y.shape = t := by
  have hE : ∀ lo, ∃ Y, envelopeA ⟨i, i, i, i, true, true⟩ 0 P.orbitals lo
      (rei.slice 2 lo (lo + 1)) 1 = .ok Y ∧ Y.shape = 1 :: 1 :: B := fun lo =>
    envelope_shape (d := d) (by simp [Arr.slice, Arr.of, hr])
  obtain ⟨E0, h1, h2⟩ := hE 0
  obtain ⟨E1, h3, h4⟩ := hE 1
  have hD : ∀ lo, (Arrays.dense true (P.orbitals.linear lo) 1 (input.slice 1 lo (lo + 1))).shape =
      1 :: 1 :: t := fun lo => by simp [Arrays.dense, Arr.slice, Arr.of, h]
  have hz : ∀ lo (E : Arr ℝ), E.shape = 1 :: 1 :: B → ∃ Y,
      (Arrays.dense true (P.orbitals.linear lo) 1 (input.slice 1 lo (lo + 1))).zip (· * ·) E = .ok Y ∧
      Y.shape = 1 :: 1 :: t := fun lo E hE => zip_shape (by rw [hD, hE]; simp [bshape, hb])
  obtain ⟨O0, h5, h6⟩ := hz 0 E0 h2
  obtain ⟨O1, h7, h8⟩ := hz 1 E1 h4
  obtain ⟨R0, h9, h10⟩ := reshape_shape h6
  obtain ⟨R1, h11, h12⟩ := reshape_shape h8
  obtain ⟨S0, h13, h14⟩ := slogdet_shape h10
  obtain ⟨S1, h15, h16⟩ := slogdet_shape h12
  have hl : orbitalLayer ⟨i, i, i, i, true, true⟩ 0 P.orbitals [1] [1, 1] input rei = .ok [O0, O1] := by
    have e1 : splitDense true P.orbitals.linear [1] [1, 1] input =
        .ok [Arrays.dense true (P.orbitals.linear 0) 1 (input.slice 1 0 1),
          Arrays.dense true (P.orbitals.linear 1) 1 (input.slice 1 1 2)] := by
      unfold splitDense
      rw [if_neg (by decide), show places [1] = [1] from rfl, split_two (by rw [h]; rfl)]
      rfl
    have e2 : envelopes ⟨i, i, i, i, true, true⟩ 0 P.orbitals 0 [rei.slice 2 0 1, rei.slice 2 1 2]
        [1, 1] = .ok [E0, E1] := by
      unfold envelopes
      rw [h1, except_ok_bind]
      unfold envelopes
      rw [h3]
      rfl
    unfold orbitalLayer
    rw [e1, except_ok_bind, show places [1] = [1] from rfl, split_two (by rw [hr]; rfl),
      except_ok_bind, e2, except_ok_bind]
    unfold treeMap2
    rw [h5, except_ok_bind]
    unfold treeMap2
    rw [h7]
    rfl
  obtain ⟨Z, hZ, hZ'⟩ : ∃ Z, S0.zip slogMultiply S1 = .ok Z ∧ Z.shape = t ++ [1] := by
    unfold Arr.zip
    rw [h14, h16, bshape_self]
    exact ⟨_, rfl, rfl⟩
  refine ⟨slogSumFront Z, ?_, by simp [slogSumFront, Arr.reduceFront, Arr.of, hZ']⟩
  have hm : [O0, O1].mapM (reshapeRawA 1) = .ok [R0, R1] := by
    rw [List.mapM_cons, h9, except_ok_bind, List.mapM_cons, h11]
    rfl
  have hs : slogdetProductA [R0, R1] = .ok Z := by
    unfold slogdetProductA
    rw [List.mapM_cons, h13, except_ok_bind, List.mapM_cons, h15]
    show ([S1].foldlM (fun a c => a.zip slogMultiply c) S0) = _
    rw [List.foldlM_cons, hZ]
    rfl
  show (orbitalLayer ⟨i, i, i, i, true, true⟩ 0 P.orbitals [1] [1, 1] input rei >>= fun raw =>
    raw.mapM (reshapeRawA 1) >>= fun orbs => combineA (twoElectrons b 1 i) P orbs) = _
  rw [hl, except_ok_bind, hm, except_ok_bind]
  show (slogSumFront <$> slogdetProductA [R0, R1]) = _
  rw [hs]
  rfl

/-- Without distances, a single walker with two electrons near two nuclei gets two numbers instead of
one: the axis of the electrons is left over, because the axis of the nuclei is in its place. -/
theorem one_walker_without_norms (P : FermiA) (i : Initializer) (ions pos : Arr ℝ) (d : ℕ)
    (hi : ions.shape = [d, 2]) (hp : pos.shape = [d, 2]) :
    ∃ Y, fermiNetA (twoElectrons false 1 i) P ions pos = .ok Y ∧ Y.shape = [2] := by
  obtain ⟨input, rei, h1, h2, h3, _⟩ :=
    electron_ion_without_norms_shape (n := 2) (B := []) ions pos 0 hi hp
  have h4 : inputStreams (twoElectrons false 1 i).streams ions pos = .ok (input, none, rei, none) := by
    simp only [inputStreams, twoElectrons]
    rw [h1]
    rfl
  have h5 : norbitals (twoElectrons false 1 i) pos = .ok [1, 1] := by
    unfold norbitals
    rw [hp]
    rfl
  unfold fermiNetA
  rw [h4, except_ok_bind, h5]
  exact two_electrons_shape P i false h2 h3 rfl

/-- So without distances the FermiNet does not act per walker. -/
theorem without_norms_not_per_walker (P : FermiA) (i : Initializer) (ions : Arr ℝ) (d : ℕ)
    (hi : ions.shape = [d, 2]) :
    ¬ Spec.ActsPerWalker (fermiNetA (twoElectrons false 1 i) P ions) d 2 := by
  intro h
  have hp : (Arr.of [d, 2] fun _ => (0 : ℝ)).shape = [d, 2] := rfl
  obtain ⟨Y, h1, h2⟩ := one_walker_without_norms P i ions _ d hi hp
  obtain ⟨e, h3, _⟩ | ⟨Z, z, h3, _, h5, _⟩ := h [] _ hp [] .nil
  · rw [h1] at h3; cases h3
  · rw [h1] at h3
    cases h3
    rw [h2] at h5
    cases h5

/-- With distances and any number of walkers, there is a number for each of them. -/
example (P : FermiA) (i : Initializer) (ions pos : Arr ℝ) (m : ℕ) (hm : m ≠ 0) (hi : ions.shape = [3, 2])
    (hp : pos.shape = [3, 2, m]) :
    ∃ Y, fermiNetA (twoElectrons true 1 i) P ions pos = .ok Y ∧ Y.shape = [m] := by
  obtain ⟨rei, rei', h1, h2, _, _⟩ :=
    electron_ion_without_norms_shape (n := 2) (B := [m]) ions pos 0 hi hp
  have h0 : displacementsA pos ions = .ok rei := by
    unfold electronIon at h1
    cases h : displacementsA pos ions with
    | error e => rw [h] at h1; cases h1
    | ok r => rw [h] at h1; cases h1; rfl
  have h4 : ∃ input, inputStreams (twoElectrons true 1 i).streams ions pos =
      .ok (input, none, rei, none) ∧ input.shape = [8, 2, m] := by
    have hc : ∃ C, concat 0 [rei, (rei.reduce norm 0 true).map fun r => softened r 0] = .ok C ∧
        C.shape = [4, 2, 2, m] := by
      simp only [concat]
      rw [if_pos (by simp [Arr.map, Arr.reduce, Arr.of, h2])]
      exact ⟨_, rfl, by simp [Arr.map, Arr.reduce, Arr.of, h2]⟩
    obtain ⟨C, hc, hc'⟩ := hc
    have hf : ∃ F, flatten true C = .ok F ∧ F.shape = [8, 2, m] := by
      unfold flatten
      rw [hc']
      simp only
      rw [if_neg (by simpa using Ne.symm hm)]
      exact ⟨_, rfl, rfl⟩
    obtain ⟨F, hf, hf'⟩ := hf
    refine ⟨F, ?_, hf'⟩
    have he : electronIon ions true 0 pos = .ok (F, rei) := by
      unfold electronIon
      rw [h0, except_ok_bind]
      simp only [if_true]
      rw [hc, except_ok_bind, hf]
      rfl
    simp only [inputStreams, twoElectrons]
    rw [he]
    rfl
  obtain ⟨input, h4, h6⟩ := h4
  have h5 : norbitals (twoElectrons true 1 i) pos = .ok [1, 1] := by
    unfold norbitals
    rw [hp]
    rfl
  unfold fermiNetA
  rw [h4, except_ok_bind, h5]
  exact two_electrons_shape P i true h6 h2 (bshape_self _)

/-- The hypotheses are met by a network with attention, a two-electron stream, a determinant function and
a batch of four times five walkers. -/
example (P : FermiA) (i : Initializer) (ions : Arr ℝ) (hi : ions.shape = [3, 2]) :
    Spec.ActsPerWalker (fermiNetA
      { twoElectrons true 3 i with
        streams := ⟨true, true, 1, true, 1⟩
        backflow := [⟨⟨[1], 16, i, i, i, i, i, i, .tanh, true, true, 1, true, true, 4⟩,
          some ⟨8, i, i, .gelu, true, true, 1⟩⟩]
        detFn := some ⟨4, 2, .gelu, i, i, true⟩
        mode := .pairwiseEven } P ions) 3 2 :=
  ferminet_acts_per_walker _ rfl P ions (by rw [hi]; rfl) 3 2

end Verif.Props
