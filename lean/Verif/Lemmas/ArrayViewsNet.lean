import Verif.Lemmas.ArrayViewsDets
import Verif.Props.ConstructEval

namespace Verif.Arrays
open Verif.Slog Verif.Construct Verif.Net

variable {K M d : ℕ} {n : Fin (K + 1) → ℕ}

theorem eeNorm_flat (softening : ℝ) (r : Elec n → Elec n → Fin d → ℝ) (i j : Fin (∑ s, n s)) :
    eeNormSafeDiag softening (fun i j => r (finSigmaFinEquiv.symm i) (finSigmaFinEquiv.symm j)) i j =
      eeNormSafeDiag softening r (finSigmaFinEquiv.symm i) (finSigmaFinEquiv.symm j) := by
  unfold eeNormSafeDiag
  simp only [EmbeddingLike.apply_eq_iff_eq]

theorem inputStreams_S1 (s : StreamsDesc) (hs : s.includeEiNorm = true) (hN : ∑ s, n s ≠ 0)
    (ions : Fin M → Fin d → ℝ) (pos : Stream1 n d) :
    ∃ ree, inputStreams s (A2 ions) (S1 pos) =
      .ok (S1 (ionStreams ions s.include2e s.eiSoftening s.includeEeNorm s.eeSoftening pos).1.1,
        (ionStreams ions s.include2e s.eiSoftening s.includeEeNorm s.eeSoftening pos).1.2.map S2,
        A3 (fun i => displacements pos ions (finSigmaFinEquiv.symm i)), ree) := by
  unfold inputStreams
  rw [hs, electronIon_A2 hN, ok_bind]
  cases h2 : s.include2e
  · exact ⟨none, rfl⟩
  · cases he : s.includeEeNorm
    · rw [electronElectron_A2_plain]
      exact ⟨_, rfl⟩
    · rw [electronElectron_A2]
      refine ⟨_, congrArg Except.ok (Prod.ext rfl (Prod.ext ?_ rfl))⟩
      refine congrArg some (congrArg A3 ?_)
      funext i j
      show Fin.snoc (α := fun _ => ℝ) _ (eeNormSafeDiag _ (fun i j => displacements pos pos
        (finSigmaFinEquiv.symm i) (finSigmaFinEquiv.symm j)) i j) = _
      rw [eeNorm_flat]
      rfl

/-- The parameters of a FermiNet as the array code reads them. -/
noncomputable def fermiA {nion : ℕ} (f : FermiDesc) (P : Params (K + 1) nion d) (n : Fin (K + 1) → ℕ) :
    FermiA where
  backflow := blocksA P.backflow 0 f.backflow (inWidths nion d f.streams.includeEeNorm)
  orbitals :=
    if f.fullDet then orbitalsA (P.orbitals
      (outWidths f.backflow (inWidths nion d f.streams.includeEeNorm)).1
      fun _ => f.ndeterminants * ∑ s, n s)
    else orbitalsA (P.orbitals
      (outWidths f.backflow (inWidths nion d f.streams.includeEeNorm)).1
      fun s => f.ndeterminants * n s)
  detFn := detFnParams f P.detFn (if f.fullDet then 0 else K)

theorem norbitals_full (f : FermiDesc) (hf : f.fullDet = true)
    (hs : f.spinSplit = Split.getSpinSplit (counts n)) (pos : Stream1 n d) :
    norbitals f (S1 pos) = .ok (List.ofFn fun _ : Fin (K + 1) => ∑ s, n s) := by
  unfold norbitals
  simp only [hf, if_true]
  have hl : f.spinSplit.length = K := by
    have := congrArg List.length (places_counts n)
    rw [← hs] at this
    simpa [places, ends] using this
  rw [Split.getNsplits, hl, ofFn_const]
  rfl

theorem counts_sum (n : Fin (K + 1) → ℕ) : (counts n).sum = ((∑ s, n s : ℕ) : ℤ) := by
  unfold counts
  rw [List.sum_ofFn]
  push_cast
  rfl

theorem norbitals_split (f : FermiDesc) (hf : f.fullDet = false)
    (hs : f.spinSplit = Split.getSpinSplit (counts n)) (pos : Stream1 n d) :
    norbitals f (S1 pos) = (nelecPerSplit f.spinSplit (counts n).sum).map fun _ => List.ofFn n := by
  unfold norbitals
  simp only [hf, Bool.false_eq_true, if_false]
  have : (S1 pos).shape.getD 1 0 = ∑ s, n s := rfl
  rw [this, ← counts_sum, hs, Props.nelecPerSplit_counts]
  split_ifs with hK
  · rfl
  · show Except.ok _ = Except.ok _
    congr 1
    unfold places counts
    rw [List.map_ofFn]
    rfl

theorem raw_counts (f : FermiDesc) (m : Fin (K + 1) → ℕ) :
    (List.ofFn m).map (· * f.ndeterminants) = List.ofFn fun s => f.ndeterminants * m s := by
  rw [List.map_ofFn]
  congr 1
  funext s
  exact Nat.mul_comm _ _

theorem tail_split (f : FermiDesc) (hf : f.fullDet = false) (hdet : f.ndeterminants ≠ 0)
    (hpl : places f.spinSplit = ends n) (P : ResNetParams) (PA : FermiA)
    (hd : PA.detFn = detFnParams f P K) {d1 : ℕ}
    (L : OrbitalLayer (K + 1) d1 (M + 1) d fun s => f.ndeterminants * n s)
    (ho : PA.orbitals = orbitalsA L)
    (x : Stream1 n d1) (rei : Elec n → Fin (M + 1) → Fin d → ℝ) :
    (do
      let raw ← orbitalLayer f.orbitals f.envelopeSoftening PA.orbitals f.spinSplit
        ((List.ofFn n).map (· * f.ndeterminants)) (S1 x)
        (A3 fun i => rei (finSigmaFinEquiv.symm i))
      let orbs ← raw.mapM (reshapeRawA f.ndeterminants)
      combineA f PA orbs) =
      A0 <$> fermiNetSplitDet (f.orbitalLayer L) (detFnOf P f.mode f.detFn) x (some rei) := by
  rw [raw_counts, ho, orbitalLayer_S1 f hpl, ok_bind,
    mapM_ofFn (C := fun s => A3 fun i a o =>
      reshapeRaw ((f.orbitalLayer L).apply x (some rei) s a) i o)
    fun s => reshapeRaw_A2 hdet _, ok_bind]
  unfold combineA matricesA fermiNetSplitDet
  rw [hf, if_neg (by simp), ok_bind]
  exact dets_A3 f P PA hd fun i s => Matrix.of fun a o =>
    reshapeRaw ((f.orbitalLayer L).apply x (some rei) s a) i o

theorem tail_full (f : FermiDesc) (hf : f.fullDet = true) (hdet : f.ndeterminants ≠ 0)
    (hpl : places f.spinSplit = ends n) (P : ResNetParams) (PA : FermiA)
    (hd : PA.detFn = detFnParams f P 0) {d1 : ℕ}
    (L : OrbitalLayer (K + 1) d1 (M + 1) d fun _ => f.ndeterminants * ∑ s, n s)
    (ho : PA.orbitals = orbitalsA L)
    (x : Stream1 n d1) (rei : Elec n → Fin (M + 1) → Fin d → ℝ) :
    (do
      let raw ← orbitalLayer f.orbitals f.envelopeSoftening PA.orbitals f.spinSplit
        ((List.ofFn fun _ : Fin (K + 1) => ∑ s, n s).map (· * f.ndeterminants)) (S1 x)
        (A3 fun i => rei (finSigmaFinEquiv.symm i))
      let orbs ← raw.mapM (reshapeRawA f.ndeterminants)
      combineA f PA orbs) =
      A0 <$> fermiNetFullDet (f.orbitalLayer L) (detFnOf P f.mode f.detFn) x (some rei) := by
  rw [raw_counts, ho, orbitalLayer_S1 f hpl, ok_bind,
    mapM_ofFn (C := fun s => A3 fun i a o =>
      reshapeRaw ((f.orbitalLayer L).apply x (some rei) s a) i o)
    fun s => reshapeRaw_A2 hdet _, ok_bind]
  unfold combineA matricesA fermiNetFullDet
  rw [hf, if_pos rfl, concat_mid3]
  have hl : ∀ X : Arr ℝ, (((fun a => [a]) <$> Except.ok X : Except String (List (Arr ℝ))) >>=
      fun orbs => detsA f PA orbs) = detsA f PA (List.ofFn fun _ : Fin (0 + 1) => X) := fun X => by
    rw [show (List.ofFn fun _ : Fin (0 + 1) => X) = [X] by simp]
    rfl
  rw [hl]
  exact dets_A3 (K := 0) (m := fun _ => ∑ s, n s) f P PA hd fun i _ =>
    concatRows fun s a => reshapeRaw ((f.orbitalLayer L).apply x (some rei) s a) i

/-- The array code on one walker. -/
theorem fermiNet_one (f : FermiDesc) (P : Params (K + 1) (M + 1) d)
    (hs : f.spinSplit = Split.getSpinSplit (counts n)) (hb : BlocksMatch (counts n) f.backflow)
    (hei : f.streams.includeEiNorm = true) (hdet : f.ndeterminants ≠ 0) (hN : ∑ s, n s ≠ 0)
    (ions : Fin (M + 1) → Fin d → ℝ) (pos : Stream1 n d) :
    fermiNetA f (fermiA f P n) (A2 ions) (S1 pos) = A0 <$> f.apply P ions pos := by
  obtain ⟨ree, hin⟩ := inputStreams_S1 f.streams hei hN ions pos
  have hpl : places f.spinSplit = ends n := by rw [hs, places_counts]
  unfold fermiNetA
  rw [hin, ok_bind]
  simp only
  rw [backflow_S P.backflow (fermiA f P n).backflow 0 f.backflow
    (inWidths (M + 1) d f.streams.includeEeNorm) (fun _ _ => rfl)
    (fun b hb' => by rw [hb b hb', places_counts]), ok_bind]
  unfold FermiDesc.apply
  cases hf : f.fullDet
  · rw [norbitals_split f hf hs]
    simp only [Bool.false_eq_true, if_false]
    cases hn : nelecPerSplit f.spinSplit (counts n).sum with
    | error e => rfl
    | ok l =>
      simp only [Except.map, ok_bind]
      exact tail_split f hf hdet hpl P.detFn (fermiA f P n) (by unfold fermiA; simp [hf])
        (P.orbitals (outWidths f.backflow (inWidths (M + 1) d f.streams.includeEeNorm)).1
          fun s => f.ndeterminants * n s) (by unfold fermiA; simp [hf]) _ _
  · rw [norbitals_full f hf hs]
    simp only [if_true, ok_bind]
    exact tail_full f hf hdet hpl P.detFn (fermiA f P n) (by unfold fermiA; simp [hf])
      (P.orbitals (outWidths f.backflow (inWidths (M + 1) d f.streams.includeEeNorm)).1
        fun _ => f.ndeterminants * ∑ s, n s) (by unfold fermiA; simp [hf]) _ _

end Verif.Arrays
