import Verif.Lemmas.ArrayViewsGeneric

/-!
The explicitly antisymmetrized networks on one walker.
-/

namespace Verif.Arrays
open Verif.Slog Verif.Construct Verif.Net

variable {K M d : ℕ} {n : Fin (K + 1) → ℕ}

/-- A function of the species as a function of their numbers. -/
def ofSpecies (n : Fin (K + 1) → ℕ) (s : ℕ) : ℕ := if h : s < K + 1 then n ⟨s, h⟩ else 0

/-- The width of the inputs of the ResNets: the features of one species or of all. -/
def resnetWidth (a : AntisymDesc) (n : Fin (K + 1) → ℕ) (d1 s : ℕ) : ℕ :=
  match a with
  | .factorized _ => ofSpecies n s * d1
  | .generic => ∑ s, n s * d1

/-- The parameters of an explicitly antisymmetrized network as the array code reads them. -/
noncomputable def explicitParams {nion : ℕ} (s : StreamsDesc) (bs : List BlockDesc) (a : AntisymDesc)
    (r : ResNetDesc) (P : Params (K + 1) nion d) (n : Fin (K + 1) → ℕ) : ExplicitA where
  backflow := blocksA P.backflow 0 bs (inWidths nion d s.includeEeNorm)
  jastrowBackflow bs := blocksA P.jastrowBackflow 0 bs (inWidths nion d s.includeEeNorm)
  oneBody o := if h : o < 1 then P.oneBodyKernel ⟨o, h⟩ else 0
  ei j := if h : j < nion then oneByOne (P.eiStrength ⟨j, h⟩) else zeroDense
  ee := oneByOne P.eeStrength
  resnets t i := resA r (P.resnets t i)
    (resnetWidth a n (outWidths bs (inWidths nion d s.includeEeNorm)).1 t) 1

theorem explicit_jastrowParams {nion : ℕ} (s : StreamsDesc) (bs : List BlockDesc) (a : AntisymDesc)
    (r : ResNetDesc) (P : Params (K + 1) nion d) (n : Fin (K + 1) → ℕ) :
    JastrowParams (explicitParams s bs a r P n) P (inWidths nion d s.includeEeNorm) where
  oneBody o := by simp only [explicitParams, o.2, dif_pos]
  ei j := by simp only [explicitParams, j.2, dif_pos]
  ee := rfl
  backflow _ := rfl

theorem resnetWidth_factorized (rank d1 : ℕ) (s : Fin (K + 1)) :
    resnetWidth (.factorized rank) n d1 s = n s * d1 := by
  simp only [resnetWidth, ofSpecies, s.2, dif_pos]

/-- The array code on one walker. -/
theorem explicit_one (ss : List ℤ) (s : StreamsDesc) (bs : List BlockDesc) (j : JastrowDesc (M + 1))
    (a : AntisymDesc) (r : ResNetDesc) (P : Params (K + 1) (M + 1) d)
    (hs : ss = Split.getSpinSplit (counts n)) (hb : BlocksMatch (counts n) bs)
    (hj : j.Matches (counts n)) (hei : s.includeEiNorm = true) (hn : ∀ s, n s ≠ 0)
    (ions : Fin (M + 1) → Fin d → ℝ) (pos : Stream1 n d) :
    explicitA ss s bs j a r (explicitParams s bs a r P n) (A2 ions) (S1 pos) =
      A0 <$> applyExplicit s bs j a r P ions pos := by
  have hN : ∑ s, n s ≠ 0 := fun h => hn 0 (Finset.sum_eq_zero_iff.1 h 0 (Finset.mem_univ _))
  have hpl : places ss = ends n := by rw [hs, places_counts]
  unfold explicitA
  rw [inputStreams_ree s hei hN, ok_bind]
  simp only
  rw [backflow_S P.backflow (explicitParams s bs a r P n).backflow 0 bs
    (inWidths (M + 1) d s.includeEeNorm) (fun _ _ => rfl)
    (fun b hb' => by rw [hb b hb', places_counts]), ok_bind, hpl, split_rows2, ok_bind]
  have hJ := jastrow_one (explicitParams s bs a r P n) P (inWidths (M + 1) d s.includeEeNorm)
    (explicit_jastrowParams s bs a r P n)
    (ionStreams ions s.include2e s.eiSoftening s.includeEeNorm s.eeSoftening pos).1
    ((blocks P.backflow 0 bs (inWidths (M + 1) d s.includeEeNorm)).backflow
      (ionStreams ions s.include2e s.eiSoftening s.includeEeNorm s.eeSoftening pos).1)
    (displacements pos ions) (eeDisplacements s.include2e pos) j hj
  have last : ∀ psi : SL, (do
      let jastrow ← jastrowA (explicitParams s bs a r P n)
        (S1 (ionStreams ions s.include2e s.eiSoftening s.includeEeNorm s.eeSoftening pos).1.1)
        ((ionStreams ions s.include2e s.eiSoftening s.includeEeNorm s.eeSoftening pos).1.2.map S2)
        (S1 ((blocks P.backflow 0 bs (inWidths (M + 1) d s.includeEeNorm)).backflow
          (ionStreams ions s.include2e s.eiSoftening s.includeEeNorm s.eeSoftening pos).1))
        (A3 fun i => displacements pos ions (finSigmaFinEquiv.symm i))
        ((eeDisplacements s.include2e pos).map S2) j
      (A0 psi).zip (fun p j => (p.1, p.2 + XR.fin j)) jastrow) =
      A0 <$> ((j.build P (inWidths (M + 1) d s.includeEeNorm)).apply
        (ionStreams ions s.include2e s.eiSoftening s.includeEeNorm s.eeSoftening pos).1
        ((blocks P.backflow 0 bs (inWidths (M + 1) d s.includeEeNorm)).backflow
          (ionStreams ions s.include2e s.eiSoftening s.includeEeNorm s.eeSoftening pos).1)
        (some (displacements pos ions)) (eeDisplacements s.include2e pos)).map fun j =>
          (psi.1, psi.2 + XR.fin j) := by
    intro psi
    rw [hJ]
    cases (j.build P (inWidths (M + 1) d s.includeEeNorm)).apply
        (ionStreams ions s.include2e s.eiSoftening s.includeEeNorm s.eeSoftening pos).1
        ((blocks P.backflow 0 bs (inWidths (M + 1) d s.includeEeNorm)).backflow
          (ionStreams ions s.include2e s.eiSoftening s.includeEeNorm s.eeSoftening pos).1)
        (some (displacements pos ions)) (eeDisplacements s.include2e pos) with
    | error e => rfl
    | ok x => exact zip_A0 (α := SL) (β := ℝ) (γ := SL) (fun p j => (p.1, p.2 + XR.fin j)) psi x
  unfold applyExplicit
  cases a with
  | factorized rank =>
    cases rank with
    | zero =>
      rw [factorized_zero hn]
      rfl
    | succ rank =>
      rw [factorized_one hn r _ P.resnets rank fun s' i => by
        simp only [explicitParams, resnetWidth_factorized], ok_bind]
      exact last _
  | generic =>
    rw [generic_one hn r _ (P.resnets 0 0) rfl, ok_bind]
    exact last _

end Verif.Arrays
