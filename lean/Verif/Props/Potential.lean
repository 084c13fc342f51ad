import Verif.Lemmas.Physics

/-! C34: the Coulomb terms. -/

namespace Verif.Props
open Verif.Phys Verif.Spec

variable {n m d : ℕ}

/-- C34: the electron-electron term is the sum over unordered pairs of strength / distance. -/
theorem electron_electron_is_pair_sum (strength s : ℝ) (x : Pos n d)
    (hx : s ≠ 0 ∨ Distinct x) :
    electronElectronPotential strength s none x = .fin (coulombEE strength s x) := by
  unfold electronElectronPotential coulombEE
  have h : ∀ i j : Fin n, i < j →
      pairRepulsion strength s x i j = .fin (strength / softDist s (x i) (x j)) := by
    intro i j hij
    unfold pairRepulsion
    rw [softNorm_disp, XR.fin_div]
    exact (softDist_pos (hx.imp_right fun h => h i j hij.ne)).ne'
  simp only [triu1_fin _ _ h, sum_sum_fin]
  rw [sum_pairs (fun i j => strength / softDist s (x i) (x j))]

/-- C34: the electron-ion term is minus the sum over all electron-ion pairs of
charge / distance (times the strength). -/
theorem electron_ion_is_pair_sum (strength s : ℝ) (R : Pos m d) (Z : Fin m → ℝ) (x : Pos n d)
    (hx : s ≠ 0 ∨ Apart x R) :
    electronIonPotential R Z strength s none x = .fin (coulombEI strength s R Z x) := by
  unfold electronIonPotential coulombEI
  have h : ∀ (i : Fin n) (I : Fin m),
      (XR.fin (Z I) / XR.fin (computeSoftNorm (fun k => x i k - R I k) s))
        = .fin (Z I / softDist s (x i) (R I)) := by
    intro i I
    rw [softNorm_eq, XR.fin_div]
    exact (softDist_pos (hx.imp_right fun h => h i I)).ne'
  simp only [h, sum_sum_fin, XR.fin_mul]
  rw [← Finset.mul_sum, ← Fintype.sum_prod_type']
  congr 1; ring

/-- C34: the ion-ion term is the sum over unordered ion pairs. -/
theorem ion_ion_is_pair_sum (R : Pos m d) (Z : Fin m → ℝ) (hR : Distinct R) :
    ionIonPotential R Z = .fin (coulombII R Z) := by
  unfold ionIonPotential coulombII
  have h : ∀ I J : Fin m, I < J → (.fin (Z I * Z J) /
      .fin (computeSoftNorm (computeDisplacements R R I J) 0) : XR)
        = .fin (Z I * Z J / softDist 0 (R I) (R J)) := by
    intro I J hIJ
    rw [softNorm_disp, XR.fin_div]
    exact (softDist_pos (Or.inr (hR I J hIJ.ne))).ne'
  simp only [triu1_fin _ _ h, sum_sum_fin]
  rw [sum_pairs (fun I J => Z I * Z J / softDist 0 (R I) (R J))]

/-- C34: relabelling the electrons changes neither electronic term. -/
theorem coulomb_relabelling_invariant (σ : Equiv.Perm (Fin n)) (strength s : ℝ) (R : Pos m d)
    (Z : Fin m → ℝ) (x : Pos n d) (hx : s ≠ 0 ∨ (Distinct x ∧ Apart x R)) :
    electronElectronPotential strength s none (fun i => x (σ i)) =
        electronElectronPotential strength s none x ∧
      electronIonPotential R Z strength s none (fun i => x (σ i)) =
        electronIonPotential R Z strength s none x := by
  have hd : s ≠ 0 ∨ Distinct x := hx.imp_right And.left
  have ha : s ≠ 0 ∨ Apart x R := hx.imp_right And.right
  constructor
  · rw [electron_electron_is_pair_sum _ _ _ hd,
      electron_electron_is_pair_sum _ _ (fun i => x (σ i))
        (hd.imp_right fun h i j hij => h _ _ (fun hc => hij (σ.injective hc)))]
    unfold coulombEE
    rw [pairs_perm (fun i j => strength / softDist s (x i) (x j))
      (fun i j => by rw [softDist_symm])]
  · rw [electron_ion_is_pair_sum _ _ _ _ _ ha,
      electron_ion_is_pair_sum _ _ _ _ (fun i => x (σ i)) (ha.imp_right fun h i I => h _ _)]
    unfold coulombEI
    simp only [Fintype.sum_prod_type]
    rw [Equiv.sum_comp σ (fun i => ∑ I, strength * (Z I / softDist s (x i) (R I)))]

/-- C34: moving electrons and ions together by a rigid motion changes no term. -/
theorem coulomb_rigid_invariant (T : (Fin d → ℝ) → Fin d → ℝ) (hT : Rigid T) (strength s : ℝ)
    (R : Pos m d) (Z : Fin m → ℝ) (x : Pos n d) :
    electronElectronPotential strength s none (fun i => T (x i)) =
        electronElectronPotential strength s none x ∧
      electronIonPotential (fun I => T (R I)) Z strength s none (fun i => T (x i)) =
        electronIonPotential R Z strength s none x ∧
      ionIonPotential (fun I => T (R I)) Z = ionIonPotential R Z := by
  refine ⟨?_, ?_, ?_⟩
  · unfold electronElectronPotential pairRepulsion
    simp only [softNorm_disp, softDist_rigid s hT]
  · unfold electronIonPotential
    simp only [softNorm_eq, softDist_rigid s hT]
  · unfold ionIonPotential
    simp only [softNorm_disp, softDist_rigid 0 hT]

/-- C34: in particular a common translation changes no term. -/
theorem coulomb_translation_invariant (v : Fin d → ℝ) (strength s : ℝ)
    (R : Pos m d) (Z : Fin m → ℝ) (x : Pos n d) :
    electronElectronPotential strength s none (fun i => x i + v) =
        electronElectronPotential strength s none x ∧
      electronIonPotential (fun I => R I + v) Z strength s none (fun i => x i + v) =
        electronIonPotential R Z strength s none x ∧
      ionIonPotential (fun I => R I + v) Z = ionIonPotential R Z :=
  coulomb_rigid_invariant (fun a => a + v) (fun a b => by simp) strength s R Z x

/-- Relabelling the ions (with their charges) changes nothing either. -/
theorem ion_relabelling_invariant (σ : Equiv.Perm (Fin m)) (strength s : ℝ) (R : Pos m d)
    (Z : Fin m → ℝ) (x : Pos n d) (hR : Distinct R) :
    electronIonPotential (fun I => R (σ I)) (fun I => Z (σ I)) strength s none x =
        electronIonPotential R Z strength s none x ∧
      ionIonPotential (fun I => R (σ I)) (fun I => Z (σ I)) = ionIonPotential R Z := by
  constructor
  · unfold electronIonPotential
    simp only
    congr 2
    refine Finset.sum_congr rfl fun i _ => ?_
    exact Equiv.sum_comp σ (fun I => (XR.fin (Z I) /
      XR.fin (computeSoftNorm (fun k => x i k - R I k) s) : XR))
  · rw [ion_ion_is_pair_sum _ _ hR,
      ion_ion_is_pair_sum _ _ (fun i j hij => hR _ _ (fun hc => hij (σ.injective hc)))]
    unfold coulombII
    rw [pairs_perm (fun I J => Z I * Z J / softDist 0 (R I) (R J))
      (fun i j => by rw [softDist_symm, mul_comm])]

/-- Two electrons at the same place with no softening: the term is +infinity, not nan. -/
theorem electron_coincidence_is_infinite (strength : ℝ) (hs : 0 < strength) (x : Pos n d)
    (i j : Fin n) (hij : i < j) (hx : x i = x j) :
    electronElectronPotential strength 0 none x = .pinf := by
  have hval : ∀ i j : Fin n, (pairRepulsion strength 0 x i j = .pinf) ∨
      ∃ r, pairRepulsion strength 0 x i j = .fin r := by
    intro i j
    unfold pairRepulsion
    rw [softNorm_disp]
    by_cases h : softDist 0 (x i) (x j) = 0
    · left; rw [h]
      show XR.div (.fin strength) (.fin 0) = _
      simp [XR.div, XR.infMul, hs, hs.ne']
    · right; exact ⟨_, XR.fin_div h⟩
  have hsum : ∀ {ι : Type} (s : Finset ι) (f : ι → XR), (∀ i, f i = .pinf ∨ ∃ r, f i = .fin r) →
      (∑ i ∈ s, f i = .pinf ∨ ∃ r, ∑ i ∈ s, f i = .fin r) ∧
        ((∃ i ∈ s, f i = .pinf) → ∑ i ∈ s, f i = .pinf) := by
    classical
    intro ι s f hf
    induction s using Finset.induction_on with
    | empty => exact ⟨Or.inr ⟨0, rfl⟩, by simp⟩
    | insert a s ha ih =>
      rw [Finset.sum_insert ha]
      rcases hf a with h | ⟨r, h⟩ <;> rcases ih.1 with h' | ⟨r', h'⟩
      · rw [h, h']; exact ⟨Or.inl rfl, fun _ => rfl⟩
      · rw [h, h']; exact ⟨Or.inl rfl, fun _ => rfl⟩
      · rw [h, h']; exact ⟨Or.inl rfl, fun _ => rfl⟩
      · rw [h, h']
        refine ⟨Or.inr ⟨_, rfl⟩, ?_⟩
        rintro ⟨b, hb, hb'⟩
        rcases Finset.mem_insert.mp hb with rfl | hb
        · rw [h] at hb'; cases hb'
        · have := ih.2 ⟨b, hb, hb'⟩
          rw [h'] at this; cases this
  have htri : ∀ i j : Fin n, triu1 (pairRepulsion strength 0 x) i j = .pinf ∨
      ∃ r, triu1 (pairRepulsion strength 0 x) i j = .fin r := by
    intro i j
    unfold triu1
    split_ifs
    · exact hval i j
    · exact Or.inr ⟨0, rfl⟩
  have hrow : ∀ i : Fin n, (∑ j, triu1 (pairRepulsion strength 0 x) i j = .pinf) ∨
      ∃ r, ∑ j, triu1 (pairRepulsion strength 0 x) i j = .fin r :=
    fun i => (hsum _ _ (htri i)).1
  unfold electronElectronPotential
  refine (hsum Finset.univ _ hrow).2 ⟨i, Finset.mem_univ _, ?_⟩
  refine (hsum Finset.univ _ (htri i)).2 ⟨j, Finset.mem_univ _, ?_⟩
  unfold triu1
  rw [if_pos (Nat.succ_le_of_lt (Fin.lt_def.mp hij))]
  unfold pairRepulsion
  rw [softNorm_disp, hx, softDist_self]
  show XR.div (.fin strength) (.fin 0) = _
  simp [XR.div, XR.infMul, hs, hs.ne']

/-- Three electrons on a line at 0, 1, 3: repulsion 1/1 + 1/3 + 1/2. -/
example : electronElectronPotential (n := 3) (d := 1) 1 0 none (fun i _ => ![0, 1, 3] i)
    = .fin (11 / 6) := by
  have hd : Distinct (n := 3) (d := 1) (fun i _ => ![(0 : ℝ), 1, 3] i) := by
    intro i j hij h
    have := congrFun h 0
    fin_cases i <;> fin_cases j <;> simp_all
  rw [electron_electron_is_pair_sum _ _ _ (Or.inr hd)]
  have hp : pairs 3 = {(0, 1), (0, 2), (1, 2)} := by decide
  unfold coulombEE
  rw [hp]
  simp [softDist, Real.sqrt_sq_eq_abs]
  norm_num [abs_of_nonneg]

/-- Distinct electrons off the ions exist, so the hypotheses of the invariance theorems are
met: two electrons at 1 and 2, ions at 0 and 5. -/
example : Distinct (n := 2) (d := 3) (fun i _ => (i : ℝ) + 1) ∧
    Apart (n := 2) (m := 2) (d := 3) (fun i _ => (i : ℝ) + 1) (fun I _ => 5 * (I : ℝ)) := by
  constructor
  · intro i j hij h
    have := congrFun h 0
    fin_cases i <;> fin_cases j <;> simp_all
  · intro i I h
    have := congrFun h 0
    fin_cases i <;> fin_cases I <;> (simp_all; try linarith)

/-- A rotation by a quarter turn in the plane is a rigid motion in the sense used above. -/
example : Rigid (d := 2) (fun a => ![-a 1, a 0]) := by
  intro a b; simp [Fin.sum_univ_two]; ring

/-- Two electrons at the same place meet the hypotheses of the infinity theorem. -/
example : electronElectronPotential (n := 3) (d := 2) 1 0 none (fun i _ => ![7, 1, 1] i) = .pinf :=
  electron_coincidence_is_infinite 1 one_pos _ 1 2 (by decide) rfl

end Verif.Props
