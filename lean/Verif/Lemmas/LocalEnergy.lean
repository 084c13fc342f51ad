import Verif.Lemmas.Physics
import Mathlib.Analysis.SpecialFunctions.Sqrt
import Mathlib.Analysis.Calculus.Deriv.Pow
import Mathlib.Analysis.Calculus.Deriv.Add
import Mathlib.Analysis.Calculus.Deriv.Mul
import Mathlib.Analysis.Calculus.Deriv.Shift

/-! Lemmas on the laplacian scan, averages over permutations and the gradient of the cones. -/

namespace Verif.Phys
open Verif.Spec

variable {n m d : ℕ}

theorem add_unitStep (x : Pos n d) (i : Fin n) (k : Fin d) (t : ℝ) :
    x + t • unitStep i k = shift x i k t := by
  funext i' k'
  simp only [Pi.add_apply, Pi.smul_apply, smul_eq_mul, unitStep, shift]
  by_cases hi : i' = i
  · subst hi
    by_cases hk : k' = k
    · subst hk; simp
    · simp [hk]
  · simp [hi]

theorem shift_shift (x : Pos n d) (i : Fin n) (k : Fin d) (t s : ℝ) :
    shift (shift x i k t) i k s = shift x i k (t + s) := by
  unfold shift
  simp [add_assoc]

theorem gradPos_eq (f : Pos n d → ℝ) (x : Pos n d) (i : Fin n) (k : Fin d) :
    gradPos f x i k = partial1 f i k x := by
  unfold gradPos partial1
  simp only [add_unitStep]

theorem unflatten_flatten (x : Pos n d) : unflatten (flatten x) = x := by
  funext i k
  unfold unflatten flatten
  have h := finProdFinEquiv.symm_apply_apply (i, k)
  have h1 : (finProdFinEquiv (i, k)).divNat = i := congrArg Prod.fst h
  have h2 : (finProdFinEquiv (i, k)).modNat = k := congrArg Prod.snd h
  rw [h1, h2]

theorem finProd_symm (a : Fin (n * d)) : finProdFinEquiv (a.divNat, a.modNat) = a :=
  finProdFinEquiv.apply_symm_apply a

theorem unflatten_step (x : Pos n d) (a : Fin (n * d)) (t : ℝ) :
    unflatten (flatten x + t • (Pi.single a (1 : ℝ) : Fin (n * d) → ℝ))
      = shift x a.divNat a.modNat t := by
  rw [← add_unitStep]
  funext i k
  have h0 := congrFun (congrFun (unflatten_flatten x) i) k
  unfold unflatten at h0 ⊢
  simp only [Pi.add_apply, Pi.smul_apply, smul_eq_mul, h0, unitStep]
  congr 2
  by_cases h : finProdFinEquiv (i, k) = a
  · subst h
    have h := finProdFinEquiv.symm_apply_apply (i, k)
    have h1 : (finProdFinEquiv (i, k)).divNat = i := congrArg Prod.fst h
    have h2 : (finProdFinEquiv (i, k)).modNat = k := congrArg Prod.snd h
    simp [h1, h2]
  · rw [Pi.single_eq_of_ne h, if_neg]
    rintro ⟨rfl, rfl⟩
    exact h (finProd_symm a)

theorem deriv_shift_const (h : ℝ → ℝ) (t : ℝ) :
    deriv (fun s => h (t + s)) 0 = deriv h t := by
  rw [deriv_comp_const_add]; simp

theorem laplacianStep_eq (f : Pos n d → ℝ) (x : Pos n d) (a : Fin (n * d)) :
    laplacianStep (gradPos f) x a = coordLaplacian f x a.divNat a.modNat := by
  unfold laplacianStep coordLaplacian
  simp only [Pi.single_apply, mul_ite, mul_one, mul_zero, Finset.sum_ite_eq', Finset.mem_univ,
    if_true]
  congr 1
  · unfold flatten
    rw [gradPos_eq]
    congr 2
    exact unflatten_flatten x
  · unfold jvpTangent partial2
    have h : ∀ t : ℝ, flatten (gradPos f (unflatten (flatten x +
        t • (Pi.single a (1 : ℝ) : Fin (n * d) → ℝ)))) a
          = deriv (fun u => f (shift x a.divNat a.modNat u)) t := by
      intro t
      rw [unflatten_step]
      unfold flatten
      rw [gradPos_eq]
      unfold partial1
      simp only [shift_shift]
      exact deriv_shift_const (fun u => f (shift x a.divNat a.modNat u)) t
    simp only [h]

theorem foldl_add_range (f : ℕ → ℝ) (N : ℕ) :
    (List.range N).foldl (fun acc i => acc + f i) 0 = ∑ i ∈ Finset.range N, f i := by
  induction N with
  | zero => rfl
  | succ N ih => rw [List.range_succ, List.foldl_append, ih, Finset.sum_range_succ]; rfl

theorem laplacian_none (f : Pos n d → ℝ) (x : Pos n d) :
    laplacianPsiOverPsi (gradPos f) x none = ∑ i, ∑ k, coordLaplacian f x i k := by
  unfold laplacianPsiOverPsi
  simp only [mul_one, id]
  rw [foldl_add_range (fun i => if h : 0 < n * d then
    laplacianStep (gradPos f) x (clampIndex (n * d) h i) else 0)]
  by_cases hN : 0 < n * d
  · simp only [hN, dif_pos]
    rw [← Fin.sum_univ_eq_sum_range (fun i => laplacianStep (gradPos f) x
      (clampIndex (n * d) hN i)) (n * d)]
    have hc : ∀ a : Fin (n * d), clampIndex (n * d) hN a.val = a := by
      intro a
      apply Fin.ext
      show min a.val (n * d - 1) = a.val
      have := a.2
      omega
    simp only [hc, laplacianStep_eq]
    rw [← Fintype.sum_prod_type' (f := fun i k => coordLaplacian f x i k)]
    exact (Equiv.sum_comp finProdFinEquiv.symm (fun p : Fin n × Fin d =>
      coordLaplacian f x p.1 p.2))
  · have h0 : n * d = 0 := by omega
    simp only [hN, dif_neg, not_false_eq_true, Finset.sum_const_zero]
    rcases Nat.mul_eq_zero.mp h0 with h | h
    · subst h; simp
    · subst h; simp

theorem laplacian_some (f : Pos n d → ℝ) (x : Pos n d) (k : ℕ) (σ : Equiv.Perm (Fin n))
    (hN : 0 < n * d) :
    laplacianPsiOverPsi (gradPos f) x (some (k, σ)) =
      (∑ j ∈ Finset.range (3 * k), coordLaplacian f x
        (σ (clampIndex (n * d) hN j).divNat) (clampIndex (n * d) hN j).modNat) *
          (((n * d : ℕ) : ℝ) / (3 * k : ℕ)) := by
  unfold laplacianPsiOverPsi
  simp only [hN, dif_pos]
  rw [foldl_add_range (fun i =>
    laplacianStep (gradPos f) x (triplePerm σ (clampIndex (n * d) hN i)))]
  congr 1
  refine Finset.sum_congr rfl fun j _ => ?_
  rw [laplacianStep_eq]
  unfold triplePerm
  have h := finProdFinEquiv.symm_apply_apply
    (σ (clampIndex (n * d) hN j).divNat, (clampIndex (n * d) hN j).modNat)
  have h1 := congrArg Prod.fst h
  have h2 := congrArg Prod.snd h
  simp only [finProdFinEquiv] at h1 h2 ⊢
  simp only [Equiv.coe_fn_symm_mk, Equiv.coe_fn_mk] at h1 h2 ⊢
  rw [h1, h2]

/-! ### slices -/

theorem sum_firstRows {α M : Type*} [AddCommMonoid M] (k : ℕ) (x : Fin n → α) (f : α → M) :
    ∑ i, f (firstRows k x i) = ∑ i ∈ firstLabels n k, f (x i) := by
  unfold firstLabels
  refine Finset.sum_bij (fun (i : Fin (min k n)) _ => (⟨i.val, lt_of_lt_of_le i.2 (min_le_right _ _)⟩ : Fin n))
    ?_ ?_ ?_ ?_
  · intro i _
    simp only [Finset.mem_filter, Finset.mem_univ, true_and]
    exact lt_of_lt_of_le i.2 (min_le_left _ _)
  · intro i _ j _ h
    apply Fin.ext
    simpa using h
  · intro i hi
    simp only [Finset.mem_filter, Finset.mem_univ, true_and] at hi
    exact ⟨⟨i.val, lt_min hi i.2⟩, Finset.mem_univ _, rfl⟩
  · intro i _; rfl

theorem card_firstLabels (k : ℕ) (h : k ≤ n) : (firstLabels n k).card = k := by
  have := sum_firstRows (n := n) k (fun i => i) (fun _ => (1 : ℕ))
  simp only [Finset.sum_const, smul_eq_mul, mul_one, Finset.card_univ, Fintype.card_fin] at this
  omega

/-! ### averages over permutations -/

/-- the sum of `g (σ p)` over all permutations does not depend on `p` -/
theorem sum_perm_apply (g : Fin n → ℝ) (p : Fin n) :
    (n : ℝ) * ∑ σ : Equiv.Perm (Fin n), g (σ p) = (n.factorial : ℝ) * ∑ q, g q := by
  have hind : ∀ q : Fin n, ∑ σ : Equiv.Perm (Fin n), g (σ q) = ∑ σ : Equiv.Perm (Fin n), g (σ p) := by
    intro q
    rw [← Equiv.sum_comp (Equiv.mulRight (Equiv.swap p q)) (fun σ : Equiv.Perm (Fin n) => g (σ q))]
    refine Finset.sum_congr rfl fun σ _ => ?_
    simp
  have htot : ∑ q, ∑ σ : Equiv.Perm (Fin n), g (σ q) = (n.factorial : ℝ) * ∑ q, g q := by
    rw [Finset.sum_comm]
    have : ∀ σ : Equiv.Perm (Fin n), ∑ q, g (σ q) = ∑ q, g q := fun σ => Equiv.sum_comp σ g
    simp only [this, Finset.sum_const, Finset.card_univ, Fintype.card_perm, Fintype.card_fin,
      nsmul_eq_mul]
  simp only [hind, Finset.sum_const, Finset.card_univ, Fintype.card_fin, nsmul_eq_mul] at htot
  exact htot

theorem mean_perm_apply (g : Fin n → ℝ) (p : Fin n) :
    (∑ σ : Equiv.Perm (Fin n), g (σ p)) / (n.factorial : ℝ) = (∑ q, g q) / n := by
  have hn : (n : ℝ) ≠ 0 := by
    have : 0 < n := Fin.pos p
    exact_mod_cast this.ne'
  have hf : (n.factorial : ℝ) ≠ 0 := by exact_mod_cast n.factorial_ne_zero
  rw [div_eq_div_iff hf hn]
  have := sum_perm_apply g p
  linarith

/-- the rescaled sum over the first `k` labels averages to the full sum -/
theorem mean_perm_first (g : Fin n → ℝ) (k : ℕ) (hk : 0 < k) (hkn : k ≤ n) :
    (∑ σ : Equiv.Perm (Fin n), (n : ℝ) / k * ∑ i ∈ firstLabels n k, g (σ i)) / (n.factorial : ℝ)
      = ∑ q, g q := by
  have hn : (n : ℝ) ≠ 0 := by exact_mod_cast (lt_of_lt_of_le hk hkn).ne'
  have hk' : (k : ℝ) ≠ 0 := by exact_mod_cast hk.ne'
  rw [← Finset.mul_sum, Finset.sum_comm, mul_div_assoc, Finset.sum_div]
  simp only [mean_perm_apply, Finset.sum_const, card_firstLabels k hkn, nsmul_eq_mul]
  field_simp

/-! ### gradient of the cones -/

theorem softDist_sq_arg_pos {s : ℝ} {a b : Fin d → ℝ} (h : s ≠ 0 ∨ a ≠ b) :
    0 < (∑ k, (a k - b k) ^ 2) + s ^ 2 := by
  have := softDist_pos h
  unfold softDist at this
  exact Real.sqrt_pos.mp this

theorem hasDerivAt_softDist (s : ℝ) (a b v : Fin d → ℝ) (h : s ≠ 0 ∨ a ≠ b) :
    HasDerivAt (fun t : ℝ => softDist s (fun k => a k + t * v k) b)
      ((∑ k, (a k - b k) * v k) / softDist s a b) 0 := by
  have hp := softDist_sq_arg_pos h
  have h1 : HasDerivAt (fun t : ℝ => (∑ k, (a k + t * v k - b k) ^ 2) + s ^ 2)
      (∑ k, 2 * (a k - b k) * v k) 0 := by
    have hk : ∀ k, HasDerivAt (fun t : ℝ => (a k + t * v k - b k) ^ 2)
        (2 * (a k - b k) * v k) 0 := by
      intro k
      have h2 : HasDerivAt (fun t : ℝ => a k + t * v k - b k) (v k) 0 := by
        have := ((hasDerivAt_id (0 : ℝ)).mul_const (v k)).const_add (a k) |>.sub_const (b k)
        simpa using this
      have := h2.fun_pow 2
      simpa using this
    have := (HasDerivAt.fun_sum (u := Finset.univ) fun k _ => hk k).add_const (s ^ 2)
    simpa using this
  have h0 : (∑ k, (a k + 0 * v k - b k) ^ 2) + s ^ 2 = (∑ k, (a k - b k) ^ 2) + s ^ 2 := by simp
  have h3 := h1.sqrt (by rw [h0]; exact hp.ne')
  unfold softDist
  convert h3 using 1
  rw [h0]
  have h4 : ∑ k, 2 * (a k - b k) * v k = 2 * ∑ k, (a k - b k) * v k := by
    rw [Finset.mul_sum]; exact Finset.sum_congr rfl fun k _ => by ring
  rw [h4, mul_div_mul_left _ _ two_ne_zero]

theorem shift_apply (x : Pos n d) (i : Fin n) (k : Fin d) (t : ℝ) (j : Fin n) :
    shift x i k t j = fun k' => x j k' + t * unitStep (n := n) i k j k' := by
  rw [← add_unitStep]; rfl

theorem sum_unitStep (i : Fin n) (k : Fin d) (j : Fin n) (f : Fin d → ℝ) :
    ∑ k', f k' * unitStep (n := n) i k j k' = f k * if j = i then 1 else 0 := by
  unfold unitStep
  by_cases h : j = i
  · simp [h]
  · simp [h]

theorem softNormBwd_eq {s : ℝ} {a b : Fin d → ℝ} (h : s ≠ 0 ∨ a ≠ b) (k : Fin d) :
    softNormBwd (fun k => a k - b k) s k = (a k - b k) / softDist s a b := by
  unfold softNormBwd
  rw [softNorm_eq, if_neg (softDist_pos h).ne']

/-- the reverse pass of the electron-ion cone is its gradient -/
theorem gradUei_eq (s : ℝ) (R : Pos m d) (Z : Fin m → ℝ) (x : Pos n d)
    (hx : s ≠ 0 ∨ Apart x R) (i : Fin n) (k : Fin d) :
    gradUei R Z s x i k = partial1 (coneEI s R Z) i k x := by
  have hd : HasDerivAt (fun t : ℝ => coneEI s R Z (shift x i k t))
      (-∑ p : Fin n × Fin m, Z p.2 / 2 *
        ((∑ k', (x p.1 k' - R p.2 k') * unitStep (n := n) i k p.1 k') /
          softDist s (x p.1) (R p.2))) 0 := by
    unfold coneEI
    refine HasDerivAt.neg (HasDerivAt.fun_sum fun p _ => ?_)
    simp only [shift_apply]
    exact (hasDerivAt_softDist s (x p.1) (R p.2) _ (hx.imp_right fun h => h _ _)).const_mul _
  unfold partial1
  rw [hd.deriv]
  simp only [sum_unitStep, Fintype.sum_prod_type]
  rw [Finset.sum_eq_single i]
  · unfold gradUei
    rw [← Finset.sum_neg_distrib]
    refine Finset.sum_congr rfl fun I _ => ?_
    have : computeDisplacements x R i I = fun k => x i k - R I k := rfl
    rw [this, softNormBwd_eq (hx.imp_right fun h => h i I)]
    simp
  · intro j _ hj
    simp [hj]
  · simp

/-- the reverse pass of the electron-electron cone is its gradient -/
theorem gradUee_eq (s : ℝ) (x : Pos n d) (hx : s ≠ 0 ∨ Distinct x) (a : Fin n) (k : Fin d) :
    gradUee s x a k = partial1 (coneEE s) a k x := by
  have hd : HasDerivAt (fun t : ℝ => coneEE s (shift x a k t))
      (∑ p ∈ pairs n, (∑ k', (x p.1 k' - x p.2 k') *
        (unitStep (n := n) a k p.1 k' - unitStep (n := n) a k p.2 k')) /
          softDist s (x p.1) (x p.2) / 4) 0 := by
    unfold coneEE
    refine HasDerivAt.fun_sum fun p hp => ?_
    have hne : p.1 ≠ p.2 := by
      unfold pairs at hp
      simp only [Finset.mem_filter, Finset.mem_univ, true_and] at hp
      exact hp.ne
    have hrw : ∀ t : ℝ, softDist s (shift x a k t p.1) (shift x a k t p.2)
        = softDist s (fun k' => x p.1 k' +
          t * (unitStep (n := n) a k p.1 k' - unitStep (n := n) a k p.2 k')) (x p.2) := by
      intro t
      simp only [shift_apply]
      unfold softDist
      congr 2
      exact Finset.sum_congr rfl fun k' _ => by ring
    simp only [hrw]
    exact (hasDerivAt_softDist s (x p.1) (x p.2) _
      (hx.imp_right fun h => h _ _ hne)).div_const 4
  unfold partial1
  rw [hd.deriv, ← sum_pairs (fun i j => (∑ k', (x i k' - x j k') *
        (unitStep (n := n) a k i k' - unitStep (n := n) a k j k')) /
          softDist s (x i) (x j) / 4)]
  unfold gradUee
  refine Finset.sum_congr rfl fun i _ => Finset.sum_congr rfl fun j _ => ?_
  unfold triu1
  by_cases hij : i < j
  · rw [if_pos hij, if_pos (Nat.succ_le_of_lt (Fin.lt_def.mp hij))]
    have h1 : computeDisplacements x x i j = fun k => x i k - x j k := rfl
    rw [h1, softNormBwd_eq (hx.imp_right fun h => h i j hij.ne)]
    have h2 : ∑ k', (x i k' - x j k') *
        (unitStep (n := n) a k i k' - unitStep (n := n) a k j k')
          = (x i k - x j k) * ((if i = a then 1 else 0) - if j = a then 1 else 0) := by
      have := sum_unitStep (n := n) a k i (fun k' => x i k' - x j k')
      have h3 := sum_unitStep (n := n) a k j (fun k' => x i k' - x j k')
      simp only [mul_sub, Finset.sum_sub_distrib, this, h3]
    rw [h2]; ring
  · rw [if_neg hij, if_neg (fun hc => hij (Fin.lt_def.mpr (Nat.lt_of_succ_le hc)))]
    ring

end Verif.Phys
