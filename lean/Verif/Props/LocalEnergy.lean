import Verif.Lemmas.LocalEnergy
import Verif.Props.Potential

/-!
C36 (each configuration of the local energy contains every Hamiltonian term once) and
C35 (the random-particle local energy is unbiased).
-/

namespace Verif.Props
open Verif.Phys Verif.Spec

variable {n m d : ℕ}

/-- The laplacian kinetic term is `-½ ∇²ψ/ψ` in the coordinates. -/
theorem laplacian_kinetic_eq (f : Pos n d → ℝ) (x : Pos n d) :
    laplacianKinetic f x = .fin (kineticLaplacian f x) := by
  unfold laplacianKinetic kineticLaplacian
  rw [laplacian_none]
  norm_num

/-- The gradient-squared kinetic term is `½ |∇ψ/ψ|²`. -/
theorem gradient_kinetic_eq (f : Pos n d → ℝ) (x : Pos n d) :
    gradSquaredKinetic f x = .fin (kineticGradient f x) := by
  unfold gradSquaredKinetic kineticGradient
  simp only [gradPos_eq]
  norm_num

/-- Hypothesis shared by the local-energy theorems: nothing coincides unless the corresponding
interaction is softened, and the ions are at different places. -/
def Regular (eiSoft eeSoft : ℝ) (R : Pos m d) (x : Pos n d) : Prop :=
  (eiSoft ≠ 0 ∨ Apart x R) ∧ (eeSoft ≠ 0 ∨ Distinct x) ∧ Distinct R

/-- C36, type "standard": kinetic, electron-ion, electron-electron and ion-ion terms, once
each. -/
theorem standard_energy_terms {K : Type} (permutation : K → Equiv.Perm (Fin n))
    (ibpParts sampleParts : List String) (k : ℕ) (R : Pos m d) (Z : Fin m → ℝ)
    (eiSoft eeSoft : ℝ) (f : Pos n d → ℝ) (x : Pos n d) (key : K)
    (hx : Regular eiSoft eeSoft R x) :
    ∃ E, assembleMolLocalEnergy permutation "standard" ibpParts k sampleParts R Z eiSoft eeSoft f
        = some E ∧
      E x key = .fin (kineticLaplacian f x + coulombEI 1 eiSoft R Z x + coulombEE 1 eeSoft x
        + coulombII R Z) := by
  refine ⟨_, by unfold assembleMolLocalEnergy; rw [if_pos rfl], ?_⟩
  unfold combineTerms
  simp only [List.foldl_cons, List.foldl_nil]
  rw [laplacian_kinetic_eq, electron_ion_is_pair_sum _ _ _ _ _ hx.1,
    electron_electron_is_pair_sum _ _ _ hx.2.1, ion_ion_is_pair_sum _ _ hx.2.2]
  simp

/-- The integrated-by-parts term contains exactly the requested parts. -/
theorem ibp_term_eq (f : Pos n d → ℝ) (R : Pos m d) (Z : Fin m → ℝ) (kin ei ee : Bool)
    (eiSoft eeSoft : ℝ) (x : Pos n d) (hei : eiSoft ≠ 0 ∨ Apart x R)
    (hee : eeSoft ≠ 0 ∨ Distinct x) :
    ibpEnergyTerm f R Z kin ei eiSoft ee eeSoft x =
      .fin ((if kin then kineticGradient f x else 0) +
        (if ei then ibpForm f (coneEI eiSoft R Z) x else 0) +
        (if ee then ibpForm f (coneEE eeSoft) x else 0)) := by
  unfold ibpEnergyTerm ibpForm kineticGradient
  simp only [gradPos_eq, gradUei_eq eiSoft R Z x hei, gradUee_eq eeSoft x hee]
  congr 1
  cases kin <;> cases ei <;> cases ee <;>
    simp only [if_true, if_false, Bool.false_eq_true, mul_add, mul_zero, add_zero, zero_add,
      Finset.sum_const_zero, Finset.sum_add_distrib] <;> ring

/-- C36, type "ibp": for every list of parts, each part is present once: the listed ones in
integrated-by-parts form, the others in standard form. -/
theorem ibp_energy_terms {K : Type} (permutation : K → Equiv.Perm (Fin n))
    (ibpParts sampleParts : List String) (k : ℕ) (R : Pos m d) (Z : Fin m → ℝ)
    (eiSoft eeSoft : ℝ) (f : Pos n d → ℝ) (x : Pos n d) (key : K)
    (hx : Regular eiSoft eeSoft R x) :
    ∃ E, assembleMolLocalEnergy permutation "ibp" ibpParts k sampleParts R Z eiSoft eeSoft f
        = some E ∧
      E x key = .fin (
        (if "kinetic" ∈ ibpParts then kineticGradient f x else kineticLaplacian f x) +
        (if "ei" ∈ ibpParts then ibpForm f (coneEI eiSoft R Z) x else coulombEI 1 eiSoft R Z x) +
        (if "ee" ∈ ibpParts then ibpForm f (coneEE eeSoft) x else coulombEE 1 eeSoft x) +
        coulombII R Z) := by
  refine ⟨_, by unfold assembleMolLocalEnergy; rw [if_neg (by decide), if_pos rfl], ?_⟩
  unfold ibpLocalEnergy combineTerms
  rw [ibp_term_eq f R Z _ _ _ _ _ x hx.1 hx.2.1]
  by_cases h1 : "kinetic" ∈ ibpParts <;> by_cases h2 : "ei" ∈ ibpParts <;>
    by_cases h3 : "ee" ∈ ibpParts <;>
    simp only [h1, h2, h3, if_true, if_false, List.contains_eq_mem, decide_true,
      decide_false, Bool.false_eq_true,
      List.append_nil, List.cons_append, List.nil_append, List.foldl_cons, List.foldl_nil,
      laplacian_kinetic_eq, electron_ion_is_pair_sum _ _ _ _ _ hx.1,
      electron_electron_is_pair_sum _ _ _ hx.2.1, ion_ion_is_pair_sum _ _ hx.2.2, XR.fin_add,
      Bool.not_true, Bool.not_false] <;>
    congr 1 <;> ring

/-- C36: unknown types are rejected. -/
theorem unknown_energy_type_rejected {K : Type} (permutation : K → Equiv.Perm (Fin n))
    (energyType : String) (ibpParts sampleParts : List String) (k : ℕ) (R : Pos m d)
    (Z : Fin m → ℝ) (eiSoft eeSoft : ℝ) (f : Pos n d → ℝ) :
    assembleMolLocalEnergy permutation energyType ibpParts k sampleParts R Z eiSoft eeSoft f = none
      ↔ energyType ∉ ["standard", "ibp", "random_particle"] := by
  unfold assembleMolLocalEnergy
  simp only [List.mem_cons, List.not_mem_nil, or_false, not_or]
  split_ifs <;> simp_all

theorem random_particle_kinetic_three (f : Pos n 3 → ℝ) (x : Pos n 3) (k : ℕ)
    (hk : 0 < k) (hkn : k ≤ n) (σ : Equiv.Perm (Fin n)) :
    randomParticleKinetic f k x σ = .fin (sampledKinetic k σ f x) := by
  have hN : 0 < n * 3 := by omega
  unfold randomParticleKinetic sampledKinetic
  rw [laplacian_some f x k σ hN]
  have hsum : ∑ j ∈ Finset.range (3 * k), coordLaplacian f x
        (σ (clampIndex (n * 3) hN j).divNat) (clampIndex (n * 3) hN j).modNat
      = ∑ i ∈ firstLabels n k, ∑ c, coordLaplacian f x (σ i) c := by
    rw [← sum_firstRows k (fun i => i) (fun i => ∑ c, coordLaplacian f x (σ i) c)]
    rw [← Fintype.sum_prod_type' (f := fun (i : Fin (min k n)) (c : Fin 3) =>
      coordLaplacian f x (σ (firstRows k (fun i => i) i)) c)]
    rw [← Equiv.sum_comp finProdFinEquiv.symm]
    have hmin : min k n * 3 = 3 * k := by rw [min_eq_left hkn]; omega
    rw [← hmin, ← Fin.sum_univ_eq_sum_range (fun j => coordLaplacian f x
        (σ (clampIndex (n * 3) hN j).divNat) (clampIndex (n * 3) hN j).modNat)]
    refine Finset.sum_congr rfl fun a _ => ?_
    have ha : a.val < n * 3 := lt_of_lt_of_le a.2 (by rw [min_eq_left hkn]; omega)
    have hc : (clampIndex (n * 3) hN a.val).val = a.val := by
      show min a.val (n * 3 - 1) = a.val
      omega
    have e1 : (clampIndex (n * 3) hN a.val).divNat
        = firstRows k (fun i => i) (finProdFinEquiv.symm a).1 := by
      apply Fin.ext
      show (clampIndex (n * 3) hN a.val).val / 3 = a.val / 3
      rw [hc]
    have e2 : (clampIndex (n * 3) hN a.val).modNat = (finProdFinEquiv.symm a).2 := by
      apply Fin.ext
      show (clampIndex (n * 3) hN a.val).val % 3 = a.val % 3
      rw [hc]
    rw [e1, e2]
  rw [hsum]
  congr 1
  have hk' : (k : ℝ) ≠ 0 := by exact_mod_cast hk.ne'
  push_cast
  field_simp
  norm_num
  ring

theorem sampled_ei_eq (k : ℕ) (σ : Equiv.Perm (Fin n)) (s : ℝ) (R : Pos m d) (Z : Fin m → ℝ)
    (x : Pos n d) (hx : s ≠ 0 ∨ Apart x R) :
    electronIonPotential R Z 1 s (some k) (fun i => x (σ i)) = .fin (sampledEI k σ s R Z x) := by
  unfold electronIonPotential sampledEI
  simp only
  rw [sum_firstRows k (fun i => x (σ i)) (fun y => ∑ I, (XR.fin (Z I) /
    XR.fin (computeSoftNorm (fun k => y k - R I k) s) : XR))]
  have h : ∀ (i : Fin n) (I : Fin m),
      (XR.fin (Z I) / XR.fin (computeSoftNorm (fun k => x i k - R I k) s))
        = .fin (Z I / softDist s (x i) (R I)) := by
    intro i I
    rw [softNorm_eq, XR.fin_div]
    exact (softDist_pos (hx.imp_right fun h => h i I)).ne'
  simp only [h, XR.sum_fin, XR.fin_mul]
  congr 1; ring

theorem sampled_ee_eq (k : ℕ) (σ : Equiv.Perm (Fin n)) (s : ℝ) (x : Pos n d)
    (hx : s ≠ 0 ∨ Distinct x) :
    electronElectronPotential 1 s (some k) (fun i => x (σ i)) = .fin (sampledEE k σ s x) := by
  unfold electronElectronPotential sampledEE
  simp only
  have h : ∀ i j : Fin n, i ≠ j → pairRepulsion 1 s (fun i => x (σ i)) i j
      = .fin (1 / softDist s (x (σ i)) (x (σ j))) := by
    intro i j hij
    unfold pairRepulsion
    rw [softNorm_disp, XR.fin_div]
    exact (softDist_pos (hx.imp_right fun h => h _ _ fun hc => hij (σ.injective hc))).ne'
  have hd : ∀ i j : Fin n, triu1 (pairRepulsion 1 s (fun i => x (σ i))) i j +
      tril1 (pairRepulsion 1 s (fun i => x (σ i))) i j
        = .fin (if σ j ≠ σ i then 1 / softDist s (x (σ i)) (x (σ j)) else 0) := by
    intro i j
    rw [triu1_fin _ (fun i j => 1 / softDist s (x (σ i)) (x (σ j))) (fun i j hij => h i j hij.ne),
      tril1_fin _ (fun i j => 1 / softDist s (x (σ i)) (x (σ j))) (fun i j hij => h i j hij.ne'),
      XR.fin_add]
    congr 1
    have hinj : σ j ≠ σ i ↔ j ≠ i := by simp
    rcases lt_trichotomy i j with h | h | h
    · simp [h, h.ne', not_lt.mpr h.le]
    · subst h; simp
    · simp [h, h.ne, not_lt.mpr h.le]
  have hrow : ∀ i : Fin n, (∑ j, (triu1 (pairRepulsion 1 s (fun i => x (σ i))) i j +
      tril1 (pairRepulsion 1 s (fun i => x (σ i))) i j))
        = .fin (∑ j, if j ≠ σ i then 1 / softDist s (x (σ i)) (x j) else 0) := by
    intro i
    simp only [hd, XR.sum_fin]
    rw [Equiv.sum_comp σ (fun j => if j ≠ σ i then 1 / softDist s (x (σ i)) (x j) else 0)]
  rw [sum_firstRows k (fun i j => triu1 (pairRepulsion 1 s (fun i => x (σ i))) i j +
      tril1 (pairRepulsion 1 s (fun i => x (σ i))) i j) (fun r => ∑ j, r j)]
  simp only [hrow, XR.sum_fin, XR.fin_mul, XR.fin_div two_ne_zero]
  congr 1; ring

/-- C36, type "random_particle" in three dimensions: for every list of sampled parts, each part
is present once: the listed ones evaluated on the sampled electrons and rescaled, the others in
full. -/
theorem random_particle_energy_terms {K : Type} (permutation : K → Equiv.Perm (Fin n))
    (ibpParts sampleParts : List String) (k : ℕ) (hk : 0 < k) (hkn : k ≤ n) (R : Pos m 3)
    (Z : Fin m → ℝ) (eiSoft eeSoft : ℝ) (f : Pos n 3 → ℝ) (x : Pos n 3) (key : K)
    (hx : Regular eiSoft eeSoft R x) :
    ∃ E, assembleMolLocalEnergy permutation "random_particle" ibpParts k sampleParts R Z eiSoft
        eeSoft f = some E ∧
      E x key = .fin (
        (if "kinetic" ∈ sampleParts then sampledKinetic k (permutation key) f x
          else kineticLaplacian f x) +
        (if "ei" ∈ sampleParts then sampledEI k (permutation key) eiSoft R Z x
          else coulombEI 1 eiSoft R Z x) +
        (if "ee" ∈ sampleParts then sampledEE k (permutation key) eeSoft x
          else coulombEE 1 eeSoft x) + coulombII R Z) := by
  refine ⟨_, by unfold assembleMolLocalEnergy; rw [if_neg (by decide), if_neg (by decide),
    if_pos rfl], ?_⟩
  unfold randomParticleLocalEnergy assembleRandomParticle
  generalize permutation key = σ
  have hp : ∀ s (h : s ≠ 0 ∨ Apart x R), electronIonPotential R Z 1 s none (fun i => x (σ i))
      = .fin (coulombEI 1 s R Z x) := by
    intro s h
    rw [electron_ion_is_pair_sum _ _ _ _ (fun i => x (σ i)) (h.imp_right fun h i I => h _ _)]
    unfold coulombEI
    simp only [Fintype.sum_prod_type]
    rw [Equiv.sum_comp σ (fun i => ∑ I, 1 * (Z I / softDist s (x i) (R I)))]
  have hq : ∀ s (h : s ≠ 0 ∨ Distinct x), electronElectronPotential 1 s none (fun i => x (σ i))
      = .fin (coulombEE 1 s x) := by
    intro s h
    rw [electron_electron_is_pair_sum _ _ (fun i => x (σ i))
        (h.imp_right fun h i j hij => h _ _ (fun hc => hij (σ.injective hc)))]
    unfold coulombEE
    rw [pairs_perm (fun i j => 1 / softDist s (x i) (x j)) (fun i j => by rw [softDist_symm])]
  by_cases h1 : "kinetic" ∈ sampleParts <;> by_cases h2 : "ei" ∈ sampleParts <;>
    by_cases h3 : "ee" ∈ sampleParts <;>
    simp only [h1, h2, h3, if_true, if_false, List.contains_eq_mem, decide_true, decide_false,
      Bool.false_eq_true, List.foldl_cons, List.foldl_nil, laplacian_kinetic_eq,
      random_particle_kinetic_three f x k hk hkn, sampled_ei_eq k σ eiSoft R Z x hx.1,
      sampled_ee_eq k σ eeSoft x hx.2.1, hp eiSoft hx.1, hq eeSoft hx.2.1,
      ion_ion_is_pair_sum _ _ hx.2.2, XR.fin_add] <;>
    congr 1 <;> ring

/-! ### C35 -/

/-- Average over all permutations. -/
noncomputable def permMean (F : Equiv.Perm (Fin n) → ℝ) : ℝ :=
  (∑ σ, F σ) / (Fintype.card (Equiv.Perm (Fin n)) : ℝ)

theorem permMean_const (c : ℝ) : permMean (fun _ : Equiv.Perm (Fin n) => c) = c := by
  unfold permMean
  rw [Finset.sum_const, Finset.card_univ, nsmul_eq_mul, mul_div_assoc, mul_comm,
    div_mul_cancel₀]
  exact_mod_cast Fintype.card_ne_zero

theorem permMean_add (F G : Equiv.Perm (Fin n) → ℝ) :
    permMean (fun σ => F σ + G σ) = permMean F + permMean G := by
  unfold permMean; rw [Finset.sum_add_distrib, add_div]

theorem permMean_first (g : Fin n → ℝ) (k : ℕ) (hk : 0 < k) (hkn : k ≤ n) :
    permMean (fun σ => (n : ℝ) / k * ∑ i ∈ firstLabels n k, g (σ i)) = ∑ q, g q := by
  unfold permMean
  rw [Fintype.card_perm, Fintype.card_fin]
  exact mean_perm_first g k hk hkn

theorem sampledKinetic_mean (k : ℕ) (hk : 0 < k) (hkn : k ≤ n) (f : Pos n d → ℝ) (x : Pos n d) :
    permMean (fun σ => sampledKinetic k σ f x) = kineticLaplacian f x := by
  have h := permMean_first (fun q => -(1 / 2) * ∑ c, coordLaplacian f x q c) k hk hkn
  unfold sampledKinetic kineticLaplacian
  rw [Finset.mul_sum]
  rw [← h]
  simp only [Finset.mul_sum]

theorem sampledEI_mean (k : ℕ) (hk : 0 < k) (hkn : k ≤ n) (s : ℝ) (R : Pos m d) (Z : Fin m → ℝ)
    (x : Pos n d) : permMean (fun σ => sampledEI k σ s R Z x) = coulombEI 1 s R Z x := by
  have h := permMean_first (fun q => -∑ I, Z I / softDist s (x q) (R I)) k hk hkn
  unfold sampledEI coulombEI
  simp only [Fintype.sum_prod_type, one_mul]
  rw [← Finset.sum_neg_distrib, ← h]
  simp only [Finset.sum_neg_distrib]

theorem sampledEE_mean (k : ℕ) (hk : 0 < k) (hkn : k ≤ n) (s : ℝ) (x : Pos n d) :
    permMean (fun σ => sampledEE k σ s x) = coulombEE 1 s x := by
  have h := permMean_first
    (fun q => (∑ j, if j ≠ q then 1 / softDist s (x q) (x j) else 0) / 2) k hk hkn
  unfold sampledEE coulombEE
  have h2 := pairs_double (fun i j => 1 / softDist s (x i) (x j))
    (fun i j => by rw [softDist_symm])
  have h3 : ∀ i j : Fin n, (if i ≠ j then 1 / softDist s (x i) (x j) else 0)
      = if j ≠ i then 1 / softDist s (x i) (x j) else 0 := by
    intro i j
    by_cases h : i = j
    · subst h; simp
    · simp [h, Ne.symm h]
  simp only [← Finset.sum_div] at h
  rw [h]
  have h4 := (Finset.sum_congr rfl fun i _ => Finset.sum_congr rfl fun j _ => h3 i j :
    (∑ i, ∑ j, if i ≠ j then 1 / softDist s (x i) (x j) else 0) = _)
  rw [← h4, ← h2]; ring

/-- C35 in three dimensions: for every list of sampled parts and every number `1 ≤ k ≤ n` of
sampled particles, the random-particle local energy averaged over all permutations is the
standard local energy.  Missing for the full claim: other dimensions, where the kinetic part
is biased in general (`random_particle_unbiased_fails`). -/
theorem random_particle_unbiased_partial (ibpParts sampleParts : List String) (k : ℕ)
    (hk : 0 < k) (hkn : k ≤ n) (R : Pos m 3) (Z : Fin m → ℝ) (eiSoft eeSoft : ℝ)
    (f : Pos n 3 → ℝ) (x : Pos n 3) (hx : Regular eiSoft eeSoft R x) :
    ∃ E E₀ : LocalEnergy n 3 (Equiv.Perm (Fin n)),
      assembleMolLocalEnergy id "random_particle" ibpParts k sampleParts R Z eiSoft eeSoft f
        = some E ∧
      assembleMolLocalEnergy id "standard" ibpParts k sampleParts R Z eiSoft eeSoft f = some E₀ ∧
      XR.mean (fun σ => E x σ) = E₀ x 1 := by
  obtain ⟨E₀, hE₀, h₀⟩ := standard_energy_terms (K := Equiv.Perm (Fin n)) id ibpParts sampleParts k
    R Z eiSoft eeSoft f x 1 hx
  let G : Equiv.Perm (Fin n) → ℝ := fun σ =>
    (if "kinetic" ∈ sampleParts then sampledKinetic k σ f x else kineticLaplacian f x) +
    (if "ei" ∈ sampleParts then sampledEI k σ eiSoft R Z x else coulombEI 1 eiSoft R Z x) +
    (if "ee" ∈ sampleParts then sampledEE k σ eeSoft x else coulombEE 1 eeSoft x) + coulombII R Z
  have hall : ∀ σ : Equiv.Perm (Fin n), ∃ E, assembleMolLocalEnergy (K := Equiv.Perm (Fin n)) id
      "random_particle" ibpParts k sampleParts R Z eiSoft eeSoft f = some E ∧
        E x σ = .fin (G σ) :=
    fun σ => random_particle_energy_terms (K := Equiv.Perm (Fin n)) id ibpParts sampleParts k hk
      hkn R Z eiSoft eeSoft f x σ hx
  obtain ⟨E, hE, _⟩ := hall 1
  have hval : ∀ σ, E x σ = .fin (G σ) := fun σ => by
    obtain ⟨E', hE', h'⟩ := hall σ
    rw [hE] at hE'
    obtain rfl := Option.some.inj hE'
    exact h'
  refine ⟨E, E₀, hE, hE₀, ?_⟩
  rw [h₀]
  simp only [hval]
  rw [XR.mean_fin]
  congr 1
  have hpm : ∀ F : Equiv.Perm (Fin n) → ℝ,
      (∑ σ, F σ) / (Fintype.card (Equiv.Perm (Fin n)) : ℝ) = permMean F := fun _ => rfl
  rw [hpm]
  simp only [G, permMean_add, permMean_const]
  congr 1
  congr 1
  congr 1
  · split_ifs
    · exact sampledKinetic_mean k hk hkn f x
    · exact permMean_const _
  · split_ifs
    · exact sampledEI_mean k hk hkn eiSoft R Z x
    · exact permMean_const _
  · split_ifs
    · exact sampledEE_mean k hk hkn eeSoft x
    · exact permMean_const _

/-- C35 in any dimension, potential part: the sampled electron-ion and electron-electron terms
average to the full ones. -/
theorem sampled_potential_unbiased (k : ℕ) (hk : 0 < k) (hkn : k ≤ n) (s : ℝ) (R : Pos m d)
    (Z : Fin m → ℝ) (x : Pos n d) (hx : s ≠ 0 ∨ (Apart x R ∧ Distinct x)) :
    XR.mean (fun σ : Equiv.Perm (Fin n) =>
        electronIonPotential R Z 1 s (some k) (fun i => x (σ i)))
      = electronIonPotential R Z 1 s none x ∧
    XR.mean (fun σ : Equiv.Perm (Fin n) =>
        electronElectronPotential 1 s (some k) (fun i => x (σ i)))
      = electronElectronPotential 1 s none x := by
  constructor
  · simp only [sampled_ei_eq k _ s R Z x (hx.imp_right And.left),
      electron_ion_is_pair_sum _ _ _ _ _ (hx.imp_right And.left), XR.mean_fin]
    congr 1
    exact sampledEI_mean k hk hkn s R Z x
  · simp only [sampled_ee_eq k _ s x (hx.imp_right And.right),
      electron_electron_is_pair_sum _ _ _ (hx.imp_right And.right), XR.mean_fin]
    congr 1
    exact sampledEE_mean k hk hkn s x

/-- C35, what the sampled kinetic term averages to in any dimension `d`: the hard-coded factor 3
makes `3k` flat coordinates count, whatever `d` is, and each counts with the spatial component it
happens to have. -/
theorem random_particle_kinetic_average (k : ℕ) (hk : 0 < k) (f : Pos n d → ℝ)
    (x : Pos n d) (hN : 0 < n * d) :
    permMean (fun σ => -0.5 * laplacianPsiOverPsi (gradPos f) x (some (k, σ))) =
      (d : ℝ) / (3 * k) * ∑ j ∈ Finset.range (3 * k),
        (-(1 / 2) * ∑ q, coordLaplacian f x q (clampIndex (n * d) hN j).modNat) := by
  have hn : 0 < n := Nat.pos_of_mul_pos_right hN
  have hn' : (n : ℝ) ≠ 0 := by exact_mod_cast hn.ne'
  have hk' : (k : ℝ) ≠ 0 := by exact_mod_cast hk.ne'
  unfold permMean
  rw [Fintype.card_perm, Fintype.card_fin]
  simp only [laplacian_some f x k _ hN]
  rw [← Finset.mul_sum, ← Finset.sum_mul, Finset.sum_comm, ← Finset.mul_sum]
  have h : ∀ j, (∑ σ : Equiv.Perm (Fin n), coordLaplacian f x
      (σ (clampIndex (n * d) hN j).divNat) (clampIndex (n * d) hN j).modNat)
        = (n.factorial : ℝ) * ((∑ q, coordLaplacian f x q (clampIndex (n * d) hN j).modNat) / n) := by
    intro j
    have := sum_perm_apply (fun q => coordLaplacian f x q (clampIndex (n * d) hN j).modNat)
      (clampIndex (n * d) hN j).divNat
    field_simp
    linarith
  simp only [h, ← Finset.mul_sum, ← Finset.sum_div]
  have hf : (n.factorial : ℝ) ≠ 0 := by exact_mod_cast n.factorial_ne_zero
  push_cast
  field_simp
  norm_num
  ring

/-- C35 in one dimension: the kinetic part is unbiased too (although three times as many
particles are used as asked for), even where the index is clamped. -/
theorem random_particle_kinetic_one_dim (k : ℕ) (hk : 0 < k) (hn : 0 < n) (f : Pos n 1 → ℝ)
    (x : Pos n 1) :
    XR.mean (fun σ => randomParticleKinetic f k x σ) = laplacianKinetic f x := by
  have h := random_particle_kinetic_average k hk f x (by omega)
  unfold randomParticleKinetic
  rw [XR.mean_fin, laplacian_kinetic_eq]
  congr 1
  unfold permMean at h
  rw [h]
  have hm : ∀ a : Fin (n * 1), a.modNat = 0 := fun a => Subsingleton.elim _ _
  have hk' : (k : ℝ) ≠ 0 := by exact_mod_cast hk.ne'
  simp only [hm, Finset.sum_const, Finset.card_range, nsmul_eq_mul, kineticLaplacian,
    Finset.univ_unique, Finset.sum_singleton, Fin.default_eq_zero]
  push_cast
  field_simp

/-- the statement of C35 for the kinetic part in dimension `d` -/
def KineticUnbiased (d : ℕ) : Prop :=
  ∀ (n k : ℕ), 0 < k → k ≤ n → ∀ (f : Pos n d → ℝ) (x : Pos n d),
    XR.mean (fun σ => randomParticleKinetic f k x σ) = laplacianKinetic f x

/-- C35 for the kinetic part holds in three dimensions. -/
theorem kinetic_unbiased_three : KineticUnbiased 3 := by
  intro n k hk hkn f x
  simp only [random_particle_kinetic_three f x k hk hkn, laplacian_kinetic_eq, XR.mean_fin]
  congr 1
  exact sampledKinetic_mean k hk hkn f x

/-- Log-amplitude that grows linearly with the second coordinate of the first electron. -/
def slopeLogPsi : Pos 2 2 → ℝ := fun x => x 0 1

theorem slope_coordLaplacian (x : Pos 2 2) (i k : Fin 2) :
    coordLaplacian slopeLogPsi x i k = if i = 0 ∧ k = 1 then 1 else 0 := by
  unfold coordLaplacian partial1 partial2 slopeLogPsi
  have h : ∀ t : ℝ, shift x i k t 0 1 = x 0 1 + t * (if i = 0 ∧ k = 1 then 1 else 0) := by
    intro t
    rw [← add_unitStep]
    fin_cases i <;> fin_cases k <;> simp [unitStep]
  simp only [h]
  have hd : ∀ c : ℝ, deriv (fun t : ℝ => x 0 1 + t * c) = fun _ => c := by
    intro c
    funext t
    simp
  rw [hd]
  split_ifs <;> simp

/-- C35 (negation): in two dimensions the sampled kinetic energy is biased; one sampled particle
of two gives 2/3 of the true value for a log-amplitude that depends on the second component. -/
theorem random_particle_unbiased_fails : ¬ KineticUnbiased 2 := by
  intro h
  have h1 := h 2 1 (by norm_num) (by norm_num) slopeLogPsi 0
  rw [laplacian_kinetic_eq] at h1
  unfold randomParticleKinetic at h1
  rw [XR.mean_fin] at h1
  have h2 := random_particle_kinetic_average (n := 2) (d := 2) 1 one_pos slopeLogPsi 0 (by norm_num)
  unfold permMean at h2
  rw [XR.fin_inj, h2] at h1
  have e0 : (clampIndex (2 * 2) (by norm_num) 0).modNat = (0 : Fin 2) := by decide
  have e1 : (clampIndex (2 * 2) (by norm_num) 1).modNat = (1 : Fin 2) := by decide
  have e2 : (clampIndex (2 * 2) (by norm_num) 2).modNat = (0 : Fin 2) := by decide
  simp only [kineticLaplacian, slope_coordLaplacian, Fin.sum_univ_two, Finset.sum_range_succ,
    Finset.sum_range_zero, mul_one, e0, e1, e2] at h1
  norm_num at h1

/-- Positions, ions and softening meeting the hypotheses: three electrons, two ions. -/
example : Regular (n := 3) (m := 2) (d := 3) 0 0 (fun I _ => 10 * (I : ℝ) + 5)
    (fun i _ => (i : ℝ)) := by
  refine ⟨Or.inr ?_, Or.inr ?_, ?_⟩
  · intro i I h
    have := congrFun h 0
    fin_cases i <;> fin_cases I <;> norm_num at this
  · intro i j hij h
    have := congrFun h 0
    fin_cases i <;> fin_cases j <;> simp_all
  · intro i j hij h
    have := congrFun h 0
    fin_cases i <;> fin_cases j <;> simp_all

end Verif.Props
