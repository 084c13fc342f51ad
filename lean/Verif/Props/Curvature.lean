import Verif.Model.Curvature
import Verif.Spec.Curvature
import Mathlib.Analysis.Matrix.Order
import Mathlib.LinearAlgebra.Matrix.PosDef
import Mathlib.Analysis.Calculus.FDeriv.Pi
import Mathlib.Topology.Algebra.Module.FiniteDimension
import Mathlib.Analysis.Calculus.FDeriv.Pow
import Mathlib.Analysis.Calculus.Deriv.Mul
import Mathlib.Analysis.Calculus.Deriv.Add
import Mathlib.Analysis.Calculus.Deriv.Comp
import Mathlib.Tactic

/-!
# C101: curvature blocks
-/

namespace Verif.Props
open Verif.Kfac Verif.Spec Matrix

section ema
variable {α : Type} [AddCommGroup α] [Module ℝ α]

theorem ema_fold (L : α →ₗ[ℝ] ℝ) (h : List (α × ℝ × ℝ)) (e : Ema α) :
    (h.foldl (fun e u => e.update u.1 u.2.1 u.2.2) e).weight =
        e.weight * ((h.map Prod.snd).map Prod.fst).prod + (emaWeights (h.map Prod.snd)).sum ∧
      L (h.foldl (fun e u => e.update u.1 u.2.1 u.2.2) e).raw =
        ((h.map Prod.snd).map Prod.fst).prod * L e.raw +
          (List.zipWith (· * ·) (emaWeights (h.map Prod.snd)) (h.map fun u => L u.1)).sum := by
  induction h generalizing e with
  | nil => simp [emaWeights]
  | cons u t ih =>
    obtain ⟨h1, h2⟩ := ih (e.update u.1 u.2.1 u.2.2)
    rw [List.foldl_cons, h1, h2]
    simp only [Ema.update, List.map_cons, List.prod_cons, emaWeights, List.sum_cons,
      List.zipWith_cons_cons, map_add, map_smul, smul_eq_mul]
    exact ⟨by ring, by ring⟩

/-- The value of a moving average, seen through a linear function, is the weighted mean. -/
theorem ema_value (L : α →ₗ[ℝ] ℝ) (h : List (α × ℝ × ℝ)) :
    L (h.foldl (fun e u => e.update u.1 u.2.1 u.2.2) Ema.zero).value =
      (List.zipWith (· * ·) (emaWeights (h.map Prod.snd)) (h.map fun u => L u.1)).sum /
        (emaWeights (h.map Prod.snd)).sum := by
  obtain ⟨h1, h2⟩ := ema_fold L h Ema.zero
  rw [Ema.value, map_smul, h1, h2]
  simp [Ema.zero, div_eq_inv_mul]

end ema

theorem emaWeights_nonneg (h : List (ℝ × ℝ)) (h0 : ∀ u ∈ h, 0 ≤ u.1 ∧ 0 ≤ u.2) :
    ∀ c ∈ emaWeights h, 0 ≤ c := by
  induction h with
  | nil => simp [emaWeights]
  | cons u t ih =>
    intro c hc
    rcases List.mem_cons.mp hc with rfl | hc
    · refine mul_nonneg (h0 u (by simp)).2 (List.prod_nonneg ?_)
      intro a ha
      obtain ⟨v, hv, rfl⟩ := List.mem_map.mp ha
      exact (h0 v (by simp [hv])).1
    · exact ih (fun v hv => h0 v (by simp [hv])) c hc

/-- One step of the estimate: inputs, derivatives, and the two weights. -/
structure Batch (J K M N : ℕ) where
  B : ℕ
  I : ℕ
  x : Inp B I J K
  dy : Out B I J M N
  old : ℝ
  new : ℝ

/-- The state after some batches. -/
noncomputable def trained {J K M N : ℕ} (s : Qmc J K M N) (h : List (Batch J K M N)) : Qmc J K M N :=
  h.foldl (fun s b => s.update b.x b.dy b.old b.new) s

theorem trained_inputs {J K M N : ℕ} (s : Qmc J K M N) (h : List (Batch J K M N)) :
    (trained s h).inputs = (h.map fun b => (cov b.x, b.old, b.new)).foldl
      (fun e u => e.update u.1 u.2.1 u.2.2) s.inputs := by
  induction h generalizing s with
  | nil => rfl
  | cons b t ih => exact ih (s.update b.x b.dy b.old b.new)

theorem trained_outputs {J K M N : ℕ} (s : Qmc J K M N) (h : List (Batch J K M N)) :
    (trained s h).outputs = (h.map fun b => (cov (flatOut b.dy), b.old, b.new)).foldl
      (fun e u => e.update u.1 u.2.1 u.2.2) s.outputs := by
  induction h generalizing s with
  | nil => rfl
  | cons b t ih => exact ih (s.update b.x b.dy b.old b.new)

/-- Averages with the weights of the moving average, of the second moments of inputs and of derivatives. -/
noncomputable def factorIn {J K M N : ℕ} (h : List (Batch J K M N)) (j : Fin J) (k l : Fin K) : ℝ :=
  (List.zipWith (· * ·) (emaWeights (h.map fun b => (b.old, b.new)))
    (h.map fun b => meanProd (fun o : Fin b.B × Fin b.I => b.x o.1 o.2 j k) fun o => b.x o.1 o.2 j l)).sum /
    (emaWeights (h.map fun b => (b.old, b.new))).sum

noncomputable def factorOut {J K M N : ℕ} (h : List (Batch J K M N)) (j : Fin J) (p q : Fin M × Fin N) : ℝ :=
  (List.zipWith (· * ·) (emaWeights (h.map fun b => (b.old, b.new)))
    (h.map fun b => meanProd (fun o : Fin b.B × Fin b.I => b.dy o.1 o.2 j p.1 p.2)
      fun o => b.dy o.1 o.2 j q.1 q.2)).sum /
    (emaWeights (h.map fun b => (b.old, b.new))).sum

theorem cov_eq {B I J K : ℕ} (x : Inp B I J K) (j : Fin J) (k l : Fin K) :
    cov x j k l = meanProd (fun o : Fin B × Fin I => x o.1 o.2 j k) fun o => x o.1 o.2 j l := by
  simp [cov, meanProd, Fintype.sum_prod_type]

/-- The entry of a family of matrices, as a linear function. -/
def entry {J K : ℕ} (j : Fin J) (k l : Fin K) : (Fin J → Matrix (Fin K) (Fin K) ℝ) →ₗ[ℝ] ℝ where
  toFun A := A j k l
  map_add' _ _ := rfl
  map_smul' _ _ := rfl

theorem entry_apply {J K : ℕ} (j : Fin J) (k l : Fin K) (A : Fin J → Matrix (Fin K) (Fin K) ℝ) :
    entry j k l A = A j k l := rfl

theorem trained_in {J K M N : ℕ} (cache) (h : List (Batch J K M N)) (j : Fin J) (k l : Fin K) :
    (trained ⟨.zero, .zero, cache⟩ h).inputs.value j k l = factorIn h j k l := by
  rw [trained_inputs]
  refine (ema_value (entry j k l) _).trans ?_
  simp only [List.map_map, Function.comp_def, factorIn, ← cov_eq]
  rfl

theorem trained_out {J K M N : ℕ} (cache) (h : List (Batch J K M N)) (j : Fin J) (p q : Fin M × Fin N) :
    (trained ⟨.zero, .zero, cache⟩ h).outputs.value j (finProdFinEquiv p) (finProdFinEquiv q) =
      factorOut h j p q := by
  rw [trained_outputs]
  refine (ema_value (entry j (finProdFinEquiv p) (finProdFinEquiv q)) _).trans ?_
  simp only [List.map_map, Function.comp_def, factorOut, entry_apply, cov_eq, flatOut,
    Equiv.symm_apply_apply]

/-- The list of weights as an array. -/
def asVec {K M J N : ℕ} (w : Wgt K M J N) : WIdx K M J N → ℝ := fun a => w a.1 a.2.1 a.2.2.1 a.2.2.2

theorem meanProd_comm {Ω : Type} [Fintype Ω] (f g : Ω → ℝ) : meanProd f g = meanProd g f := by
  simp [meanProd, mul_comm]

theorem factorOut_comm {J K M N : ℕ} (h : List (Batch J K M N)) (j : Fin J) (p q : Fin M × Fin N) :
    factorOut h j p q = factorOut h j q p := by
  simp only [factorOut, meanProd_comm (fun o : Fin _ × Fin _ => Batch.dy _ o.1 o.2 j p.1 p.2)]

theorem factorIn_comm {J K M N : ℕ} (h : List (Batch J K M N)) (j : Fin J) (p q : Fin K) :
    factorIn h j p q = factorIn h j q p := by
  simp only [factorIn, meanProd_comm (fun o : Fin _ × Fin _ => Batch.x _ o.1 o.2 j p)]

theorem sandwich_apply {K M J N : ℕ} (A : Fin J → Matrix (Fin K) (Fin K) ℝ)
    (G : Fin J → Matrix (Fin (M * N)) (Fin (M * N)) ℝ) (v : Wgt K M J N) (k m j n) :
    sandwich A G v k m j n = ∑ k', ∑ p : Fin M × Fin N,
      A j k k' * G j (finProdFinEquiv p) (finProdFinEquiv (m, n)) * v k' p.1 j p.2 := by
  simp only [sandwich, ofBlocks, Matrix.mul_apply, toBlocks, Matrix.of_apply]
  rw [← finProdFinEquiv.sum_comp]
  simp only [Equiv.symm_apply_apply, Finset.sum_mul]
  rw [Finset.sum_comm]
  exact Finset.sum_congr rfl fun _ _ => Finset.sum_congr rfl fun _ _ => by ring

theorem blockKron_mulVec {K M J N : ℕ} (A : Fin J → Fin K → Fin K → ℝ)
    (G : Fin J → Fin M × Fin N → Fin M × Fin N → ℝ) (v : Wgt K M J N) (k m j n) :
    (blockKron A G *ᵥ asVec v) (k, m, j, n) = ∑ k', ∑ p : Fin M × Fin N,
      A j k k' * G j (m, n) p * v k' p.1 j p.2 := by
  simp only [Matrix.mulVec, dotProduct, Fintype.sum_prod_type, blockKron, Matrix.of_apply, asVec, ite_mul, zero_mul]
  refine Finset.sum_congr rfl fun k' _ => Finset.sum_congr rfl fun m' _ => ?_
  rw [Finset.sum_comm]
  exact Finset.sum_congr rfl fun n' _ => by simp

/-- A block can be made exactly if no exact powers and no approximate ones but -1 are asked for. -/
theorem qmc_init {J K M N : ℕ} (exactPowers approxPowers : List ℤ) :
    (∃ s : Qmc J K M N, Qmc.init exactPowers approxPowers = .ok s) ↔
      exactPowers = [] ∧ ∀ p ∈ approxPowers, p = -1 := by
  unfold Qmc.init
  by_cases h1 : exactPowers = []
  · by_cases h2 : ∃ p ∈ approxPowers, p ≠ -1
    · simp only [h1, ne_eq, not_true_eq_false, if_false, if_pos h2, reduceCtorEq, exists_false, true_and, false_iff]
      obtain ⟨p, hp, hne⟩ := h2
      exact fun h => hne (h p hp)
    · simp only [h1, ne_eq, not_true_eq_false, if_false, if_neg h2, true_and]
      push Not at h2
      exact ⟨fun _ => h2, fun _ => ⟨_, rfl⟩⟩
  · simp [h1]

theorem init_zero {J K M N : ℕ} {exactPowers approxPowers : List ℤ} {s : Qmc J K M N}
    (hs : Qmc.init exactPowers approxPowers = .ok s) : ∃ cache, s = ⟨.zero, .zero, cache⟩ := by
  unfold Qmc.init at hs
  split_ifs at hs <;> exact ⟨_, (Except.ok.inj hs).symm⟩

/-- **C101 (multiplication)**: after any batches, multiplication by power 1 is the product with the block-diagonal
matrix of Kronecker products of the weighted second moments, plus the damping. -/
theorem qmc_multiply {J K M N : ℕ} {exactPowers approxPowers : List ℤ} {s : Qmc J K M N}
    (hs : Qmc.init exactPowers approxPowers = .ok s) (h : List (Batch J K M N)) (w : Wgt K M J N) (damping : ℝ)
    (exactPower useCached : Bool) :
    ∃ v, (trained s h).multiply w damping 1 exactPower useCached = .ok v ∧
      asVec v = (blockKron (factorIn h) (factorOut h) + damping • 1) *ᵥ asVec w := by
  obtain ⟨cache, rfl⟩ := init_zero hs
  refine ⟨_, by simp [Qmc.multiply]; rfl, ?_⟩
  funext ⟨k, m, j, n⟩
  rw [Matrix.add_mulVec, Matrix.smul_mulVec, Matrix.one_mulVec, Pi.add_apply, blockKron_mulVec]
  simp only [asVec, Pi.add_apply, Pi.smul_apply, sandwich_apply, trained_in, trained_out]
  congr 1
  exact Finset.sum_congr rfl fun _ _ => Finset.sum_congr rfl fun _ _ => by rw [factorOut_comm]

/-- A quadratic form, as a linear function of the matrix. -/
def quad {J K : ℕ} (j : Fin J) (u : Fin K → ℝ) : (Fin J → Matrix (Fin K) (Fin K) ℝ) →ₗ[ℝ] ℝ where
  toFun A := u ⬝ᵥ (A j *ᵥ u)
  map_add' A B := by rw [Pi.add_apply, Matrix.add_mulVec, dotProduct_add]
  map_smul' c A := by simp [Matrix.smul_mulVec, dotProduct_smul]

theorem quad_apply {J K : ℕ} (j : Fin J) (u : Fin K → ℝ) (A : Fin J → Matrix (Fin K) (Fin K) ℝ) :
    quad j u A = u ⬝ᵥ (A j *ᵥ u) := rfl

theorem cov_psd {B I J K : ℕ} (x : Inp B I J K) (j : Fin J) : (cov x j).PosSemidef := by
  have h : cov x j = ((B : ℝ) * I)⁻¹ • ∑ b, ∑ i, vecMulVec (x b i j) (star (x b i j)) := by
    ext k l
    simp [cov, Matrix.sum_apply, vecMulVec_apply, div_eq_inv_mul]
  rw [h]
  refine PosSemidef.smul (posSemidef_sum _ fun b _ => posSemidef_sum _ fun i _ => posSemidef_vecMulVec_self_star _) ?_
  positivity

theorem zip_nonneg {c l : List ℝ} (hc : ∀ a ∈ c, 0 ≤ a) (hl : ∀ a ∈ l, 0 ≤ a) :
    0 ≤ (List.zipWith (· * ·) c l).sum := by
  refine List.sum_nonneg fun a ha => ?_
  obtain ⟨p, hp, rfl⟩ := List.mem_map.mp (by rwa [← List.map_uncurry_zip_eq_zipWith] at ha)
  exact mul_nonneg (hc _ (List.of_mem_zip hp).1) (hl _ (List.of_mem_zip hp).2)

theorem ema_quad {J K : ℕ} (h : List ((Fin J → Matrix (Fin K) (Fin K) ℝ) × ℝ × ℝ))
    (h0 : ∀ u ∈ h, 0 ≤ u.2.1 ∧ 0 ≤ u.2.2) (hA : ∀ u ∈ h, ∀ j, (u.1 j).PosSemidef) (j : Fin J) :
    ((h.foldl (fun e u => e.update u.1 u.2.1 u.2.2) Ema.zero).value j).PosSemidef := by
  have hc := emaWeights_nonneg (h.map Prod.snd) (by
    intro u hu
    obtain ⟨v, hv, rfl⟩ := List.mem_map.mp hu
    exact h0 v hv)
  refine .of_dotProduct_mulVec_nonneg ?_ fun u => ?_
  · ext k l
    have e1 := ema_value (entry j k l) h
    have e2 := ema_value (entry j l k) h
    simp only [entry_apply] at e1 e2
    simp only [conjTranspose_apply, star_trivial, e1, e2]
    congr 3
    refine List.map_congr_left fun v hv => ?_
    simpa using (hA v hv j).isHermitian.apply k l
  · refine le_of_le_of_eq ?_ (ema_value (quad j u) h).symm
    refine div_nonneg (zip_nonneg hc ?_) (List.sum_nonneg hc)
    intro a ha
    obtain ⟨v, hv, rfl⟩ := List.mem_map.mp ha
    simpa [quad_apply] using (hA v hv j).dotProduct_mulVec_nonneg u

/-- **C101 (positivity)**: with weights which are not negative, the matrix is symmetric and positive semidefinite, so
that with damping it is definite. -/
theorem qmc_psd {J K M N : ℕ} (h : List (Batch J K M N)) (h0 : ∀ b ∈ h, 0 ≤ b.old ∧ 0 ≤ b.new) :
    (blockKron (factorIn h) (factorOut h)).PosSemidef := by
  have hin : ∀ j, (Matrix.of (factorIn h j)).PosSemidef := fun j => by
    have := ema_quad (h.map fun b => (cov b.x, b.old, b.new))
      (fun u hu => by obtain ⟨b, hb, rfl⟩ := List.mem_map.mp hu; exact h0 b hb)
      (fun u hu => by obtain ⟨b, hb, rfl⟩ := List.mem_map.mp hu; exact cov_psd b.x) j
    have e : Matrix.of (factorIn h j) = (trained ⟨.zero, .zero, none⟩ h).inputs.value j := by
      ext k l
      exact (trained_in none h j k l).symm
    rw [e, trained_inputs]
    exact this
  have hout : ∀ j, (Matrix.of (factorOut h j)).PosSemidef := fun j => by
    have := ema_quad (h.map fun b => (cov (flatOut b.dy), b.old, b.new))
      (fun u hu => by obtain ⟨b, hb, rfl⟩ := List.mem_map.mp hu; exact h0 b hb)
      (fun u hu => by obtain ⟨b, hb, rfl⟩ := List.mem_map.mp hu; exact cov_psd (flatOut b.dy)) j
    have e : Matrix.of (factorOut h j) =
        ((trained ⟨.zero, .zero, none⟩ h).outputs.value j).submatrix finProdFinEquiv finProdFinEquiv := by
      ext p q
      exact (trained_out none h j p q).symm
    rw [e, trained_outputs]
    exact this.submatrix _
  refine .of_dotProduct_mulVec_nonneg ?_ fun u => ?_
  · ext a b
    simp only [conjTranspose_apply, blockKron, Matrix.of_apply, star_trivial]
    by_cases hab : a.2.2.1 = b.2.2.1
    · rw [if_pos hab, if_pos hab.symm, hab, factorIn_comm, factorOut_comm]
    · rw [if_neg hab, if_neg (Ne.symm hab)]
  · have e : star u ⬝ᵥ (blockKron (factorIn h) (factorOut h) *ᵥ u) = ∑ j,
        star (fun a : Fin K × Fin M × Fin N => u (a.1, a.2.1, j, a.2.2)) ⬝ᵥ
          (Matrix.kroneckerMap (· * ·) (Matrix.of (factorIn h j)) (Matrix.of (factorOut h j)) *ᵥ
            fun a : Fin K × Fin M × Fin N => u (a.1, a.2.1, j, a.2.2)) := by
      have := blockKron_mulVec (factorIn h) (factorOut h) fun k m j n => u (k, m, j, n)
      have hu : asVec (fun k m j n => u (k, m, j, n)) = u := rfl
      rw [hu] at this
      simp only [dotProduct, Fintype.sum_prod_type, this, star_trivial, Pi.star_apply]
      have c : ∀ f : Fin K → Fin M → Fin J → Fin N → ℝ,
          ∑ k, ∑ m, ∑ j, ∑ n, f k m j n = ∑ j, ∑ k, ∑ m, ∑ n, f k m j n := fun f => by
        rw [Finset.sum_comm (s := (Finset.univ : Finset (Fin J)))]
        exact Finset.sum_congr rfl fun k _ => Finset.sum_comm
      rw [c]
      simp only [Matrix.mulVec, dotProduct, Fintype.sum_prod_type, Matrix.kroneckerMap_apply, Matrix.of_apply]
    rw [e]
    exact Finset.sum_nonneg fun j _ => ((hin j).kronecker (hout j)).dotProduct_mulVec_nonneg _


/-- With damping the product is with a positive definite matrix. -/
theorem qmc_posDef {J K M N : ℕ} (h : List (Batch J K M N)) (h0 : ∀ b ∈ h, 0 ≤ b.old ∧ 0 ≤ b.new) {damping : ℝ}
    (hd : 0 < damping) : (blockKron (factorIn h) (factorOut h) + damping • 1).PosDef :=
  PosDef.posSemidef_add (qmc_psd h h0) (PosDef.one.smul hd)

/-- Two batches, of two samples with one electron and of one sample with two. -/
def twoBatches : List (Batch 2 3 3 4) :=
  [⟨2, 1, fun b _ _ k => b.val + k.val, fun b _ _ m _ => b.val - m.val, 0.95, 0.05⟩,
    ⟨1, 2, fun _ i j k => i.val * j.val + k.val, fun _ i j m n => i.val + j.val - m.val * n.val, 0.95, 0.05⟩]

/-- `qmc_multiply` for these batches, from the state for the power -1. -/
example (w : Wgt 3 3 2 4) : ∃ s : Qmc 2 3 3 4, Qmc.init [] [-1] = .ok s ∧
    ∃ v, (trained s twoBatches).multiply w 0.001 1 false true = .ok v ∧
      asVec v = (blockKron (factorIn twoBatches) (factorOut twoBatches) + (0.001 : ℝ) • 1) *ᵥ asVec w := by
  obtain ⟨s, hs⟩ := (qmc_init (J := 2) (K := 3) (M := 3) (N := 4) [] [-1]).mpr (by simp)
  exact ⟨s, hs, qmc_multiply hs _ w _ _ _⟩

example : (blockKron (factorIn twoBatches) (factorOut twoBatches) + (0.001 : ℝ) • 1).PosDef :=
  qmc_posDef _ (by simp [twoBatches]; norm_num) (by norm_num)

/-- If inputs and derivatives factor, the Fisher matrix is the Kronecker product times the number of places. -/
theorem layerFisher_factors {B R : ℕ} {α β : Type} {x : Fin B → Fin R → α → ℝ} {dy : Fin B → Fin R → β → ℝ}
    (h : Factors x dy) (k : α) (p : β) (l : α) (q : β) :
    layerFisher x dy k p l q = R *
      (meanProd (fun o : Fin B × Fin R => x o.1 o.2 k) (fun o => x o.1 o.2 l) *
      meanProd (fun o : Fin B × Fin R => dy o.1 o.2 p) fun o => dy o.1 o.2 q) := by
  obtain ⟨h1, h2⟩ := h k l p q
  rw [← h2, layerFisher, meanProd]
  have e : ∀ b, (∑ i, x b i k * dy b i p) * (∑ i, x b i l * dy b i q) =
      (∑ i, x b i k * x b i l * (dy b i p * dy b i q)) +
        ∑ i, ∑ i' ∈ Finset.univ.erase i, x b i k * dy b i p * (x b i' l * dy b i' q) := by
    intro b
    rw [Finset.sum_mul_sum, ← Finset.sum_add_distrib]
    refine Finset.sum_congr rfl fun i _ => ?_
    rw [← Finset.add_sum_erase _ _ (Finset.mem_univ i)]
    ring
  simp only [e, Finset.sum_add_distrib, h1, add_zero, meanProd, Fintype.sum_prod_type, Fintype.card_prod,
    Fintype.card_fin, Nat.cast_mul]
  rcases Nat.eq_zero_or_pos R with rfl | hR
  · simp
  · have : (R : ℝ) ≠ 0 := by positivity
    rw [← mul_div_assoc, mul_comm (B : ℝ) R, mul_div_mul_left _ _ this]

/-! ### The layer of `QmcBlockedDense` -/

/-- The computation of the layer for one sample, `ijk,kmjn -> ijmn` (comment in curvature_tags_and_blocks.py:103-104;
its second `b` is not an axis of the weights, line 121). -/
def layer {I J K M N : ℕ} (x : Fin I → Fin J → Fin K → ℝ) (w : Wgt K M J N) :
    Fin I → Fin J → Fin M → Fin N → ℝ :=
  fun i j m n => ∑ k, x i j k * w k m j n

/-- The gradient of a loss with respect to the weights is the sum over places of inputs times derivatives. -/
theorem layer_gradient {I J K M N : ℕ} (x : Fin I → Fin J → Fin K → ℝ) (w : Wgt K M J N)
    (ℓ : (Fin I → Fin J → Fin M → Fin N → ℝ) → ℝ) (L : (Fin I → Fin J → Fin M → Fin N → ℝ) →L[ℝ] ℝ)
    (hℓ : HasFDerivAt ℓ L (layer x w)) (dy : Fin I → Fin J → Fin M → Fin N → ℝ)
    (hdy : ∀ u, L u = ∑ i, ∑ j, ∑ m, ∑ n, dy i j m n * u i j m n) (u : Wgt K M J N) :
    HasDerivAt (fun t : ℝ => ℓ (layer x (w + t • u)))
      (∑ k, ∑ m, ∑ j, ∑ n, (∑ i, x i j k * dy i j m n) * u k m j n) 0 := by
  have e : ∀ t : ℝ, layer x (w + t • u) = layer x w + t • layer x u := by
    intro t
    funext i j m n
    simp only [layer, Pi.add_apply, Pi.smul_apply, smul_eq_mul, mul_add, Finset.sum_add_distrib, Finset.mul_sum]
    congr 1
    exact Finset.sum_congr rfl fun _ _ => by ring
  have hline : HasDerivAt (fun t : ℝ => layer x w + t • layer x u) (layer x u) 0 := by
    simpa using ((hasDerivAt_id (0 : ℝ)).smul_const (layer x u)).const_add (layer x w)
  have h := (HasFDerivAt.comp_hasDerivAt (f := fun t : ℝ => layer x w + t • layer x u) 0
    (by simpa using hℓ) hline)
  have hv : L (layer x u) = ∑ k, ∑ m, ∑ j, ∑ n, (∑ i, x i j k * dy i j m n) * u k m j n := by
    rw [hdy]
    simp only [layer, Finset.mul_sum, Finset.sum_mul]
    calc _ = ∑ j, ∑ i, ∑ m, ∑ n, ∑ k, dy i j m n * (x i j k * u k m j n) := Finset.sum_comm
      _ = ∑ j, ∑ m, ∑ i, ∑ n, ∑ k, dy i j m n * (x i j k * u k m j n) :=
        Finset.sum_congr rfl fun _ _ => Finset.sum_comm
      _ = ∑ j, ∑ m, ∑ n, ∑ i, ∑ k, dy i j m n * (x i j k * u k m j n) :=
        Finset.sum_congr rfl fun _ _ => Finset.sum_congr rfl fun _ _ => Finset.sum_comm
      _ = ∑ j, ∑ m, ∑ n, ∑ k, ∑ i, dy i j m n * (x i j k * u k m j n) :=
        Finset.sum_congr rfl fun _ _ => Finset.sum_congr rfl fun _ _ =>
          Finset.sum_congr rfl fun _ _ => Finset.sum_comm
      _ = ∑ j, ∑ m, ∑ k, ∑ n, ∑ i, dy i j m n * (x i j k * u k m j n) :=
        Finset.sum_congr rfl fun _ _ => Finset.sum_congr rfl fun _ _ => Finset.sum_comm
      _ = ∑ j, ∑ k, ∑ m, ∑ n, ∑ i, dy i j m n * (x i j k * u k m j n) :=
        Finset.sum_congr rfl fun _ _ => Finset.sum_comm
      _ = ∑ k, ∑ j, ∑ m, ∑ n, ∑ i, dy i j m n * (x i j k * u k m j n) := Finset.sum_comm
      _ = ∑ k, ∑ m, ∑ j, ∑ n, ∑ i, dy i j m n * (x i j k * u k m j n) :=
        Finset.sum_congr rfl fun _ _ => Finset.sum_comm
      _ = _ := Finset.sum_congr rfl fun _ _ => Finset.sum_congr rfl fun _ _ =>
        Finset.sum_congr rfl fun _ _ => Finset.sum_congr rfl fun _ _ => Finset.sum_congr rfl fun _ _ => by ring
  rw [hv] at h
  simp only [e]
  exact h

/-- The square of the first output of the second electron. -/
example (x : Fin 2 → Fin 1 → Fin 3 → ℝ) (w u : Wgt 3 1 1 1) :
    HasDerivAt (fun t : ℝ => (layer x (w + t • u) 1 0 0 0) ^ 2)
      (∑ k, ∑ m, ∑ j, ∑ n, (∑ i, x i j k * (if i = 1 then 2 * layer x w 1 0 0 0 else 0)) * u k m j n) 0 := by
  set p : (Fin 2 → Fin 1 → Fin 1 → Fin 1 → ℝ) →L[ℝ] ℝ := LinearMap.toContinuousLinearMap
    { toFun := fun y => y 1 0 0 0, map_add' := fun _ _ => rfl, map_smul' := fun _ _ => rfl } with hpdef
  have hp : HasFDerivAt (fun y : Fin 2 → Fin 1 → Fin 1 → Fin 1 → ℝ => y 1 0 0 0) p (layer x w) := p.hasFDerivAt
  refine layer_gradient x w (fun y => (y 1 0 0 0) ^ 2) _ (hp.pow 2) (fun i _ _ _ => if i = 1 then
    2 * layer x w 1 0 0 0 else 0) (fun v => ?_) u
  simp [hpdef]

/-! ### The factor of the blocks -/

/-- C101 for `QmcBlockedDense`: where inputs and derivatives factor, the block of the Fisher matrix for one `j` is the
Kronecker product of the moments of the batch, times the factor `fixed_scale`. -/
def QmcScale : Prop :=
  ∀ (B I J K M N : ℕ) (x : Inp B I J K) (dy : Out B I J M N) (old : ℝ) (j : Fin J),
    Factors (fun b i => x b i j) (fun b i (p : Fin M × Fin N) => dy b i j p.1 p.2) →
    ∀ k m n k' m' n', layerFisher (fun b i => x b i j) (fun b i (p : Fin M × Fin N) => dy b i j p.1 p.2)
        k (m, n) k' (m', n') =
      Qmc.fixedScale K M J N * blockKron (factorIn [⟨B, I, x, dy, old, 1⟩]) (factorOut [⟨B, I, x, dy, old, 1⟩])
        (k, m, j, n) (k', m', j, n')

theorem qmc_scale_places {B I J K M N : ℕ} (x : Inp B I J K) (dy : Out B I J M N) (old : ℝ) (j : Fin J)
    (h : Factors (fun b i => x b i j) (fun b i (p : Fin M × Fin N) => dy b i j p.1 p.2)) (k m n k' m' n') :
    layerFisher (fun b i => x b i j) (fun b i (p : Fin M × Fin N) => dy b i j p.1 p.2) k (m, n) k' (m', n') =
      I * blockKron (factorIn [⟨B, I, x, dy, old, 1⟩]) (factorOut [⟨B, I, x, dy, old, 1⟩])
        (k, m, j, n) (k', m', j, n') := by
  rw [layerFisher_factors h]
  simp [blockKron, factorIn, factorOut, emaWeights]

/-- C101, what holds for `QmcBlockedDense`: the factor is right if the layer is applied at as many places as the second
axis of the weights has entries.  Missing: other numbers of places (`qmc_scale_fails`). -/
theorem qmc_scale_partial {B J K M N : ℕ} (x : Inp B M J K) (dy : Out B M J M N) (old : ℝ) (j : Fin J)
    (h : Factors (fun b i => x b i j) (fun b i (p : Fin M × Fin N) => dy b i j p.1 p.2)) (k m n k' m' n') :
    layerFisher (fun b i => x b i j) (fun b i (p : Fin M × Fin N) => dy b i j p.1 p.2) k (m, n) k' (m', n') =
      Qmc.fixedScale K M J N * blockKron (factorIn [⟨B, M, x, dy, old, 1⟩]) (factorOut [⟨B, M, x, dy, old, 1⟩])
        (k, m, j, n) (k', m', j, n') :=
  qmc_scale_places x dy old j h k m n k' m' n'

/-- One sample and one place: no assumption is needed. -/
theorem factors_single {α β : Type} (x : Fin 1 → Fin 1 → α → ℝ) (dy : Fin 1 → Fin 1 → β → ℝ) : Factors x dy := by
  intro k l p q
  refine ⟨?_, ?_⟩
  · simp
  · simp [meanProd, Fintype.sum_prod_type]

/-- C101 is false for `QmcBlockedDense`: with one electron and three dimensions the factor is 3 instead of 1. -/
theorem qmc_scale_fails : ¬QmcScale := by
  intro h
  have h1 := (qmc_scale_places (B := 1) (I := 1) (J := 1) (K := 1) (M := 3) (N := 1) (fun _ _ _ _ => 1)
    (fun _ _ _ _ _ => 1) 0 0 (factors_single _ _) 0 0 0 0 0 0).symm.trans
    (h 1 1 1 1 3 1 (fun _ _ _ _ => 1) (fun _ _ _ _ _ => 1) 0 0 (factors_single _ _) 0 0 0 0 0 0)
  simp [blockKron, factorIn, factorOut, emaWeights, Qmc.fixedScale, meanProd] at h1

/-- Four samples and two places with all signs of the derivatives. -/
theorem factors_signs : Factors (fun (_ : Fin 4) (_ : Fin 2) (_ : Fin 1) => (1 : ℝ))
    (fun b i (_ : Fin 1 × Fin 1) => (![![1, 1], ![1, -1], ![-1, 1], ![-1, -1]] : Fin 4 → Fin 2 → ℝ) b i) := by
  intro k l p q
  refine ⟨?_, ?_⟩
  · simp [Fin.sum_univ_succ]
    norm_num
  · simp [meanProd, Fintype.sum_prod_type, Fin.sum_univ_succ]

/-- `qmc_scale_places` for these: the factor would have to be 2, the code's is 1. -/
example : layerFisher (fun (_ : Fin 4) (_ : Fin 2) (_ : Fin 1) => (1 : ℝ))
    (fun b i (_ : Fin 1 × Fin 1) => (![![1, 1], ![1, -1], ![-1, 1], ![-1, -1]] : Fin 4 → Fin 2 → ℝ) b i)
      0 (0, 0) 0 (0, 0) = 2 ∧ Qmc.fixedScale 1 1 1 1 = 1 := by
  refine ⟨?_, by simp [Qmc.fixedScale]⟩
  rw [layerFisher_factors factors_signs]
  simp [meanProd, Fintype.sum_prod_type, Fin.sum_univ_succ]
  norm_num

/-! ### `RepeatedDenseBlock` -/

/-- `fixed_scale` of a repeated layer is the number of places, for any axes between the first and the last. -/
theorem repeatedScale_eq (B K : ℕ) (mid : List ℕ) (hB : 0 < B) (hK : 0 < K) :
    repeatedScale (B :: mid ++ [K]) = (mid.prod : ℝ) := by
  unfold repeatedScale
  have : (B :: mid ++ [K]).prod / ((B :: mid ++ [K]).headD 0 * (B :: mid ++ [K]).getLastD 0) = mid.prod := by
    have e : (B :: mid ++ [K]).getLastD 0 = K := by
      rw [List.getLastD_eq_getLast?, List.getLast?_concat]
      rfl
    rw [e]
    simp only [List.cons_append, List.prod_cons, List.prod_append, List.prod_nil, mul_one, List.headD_cons]
    rw [show B * (mid.prod * K) = mid.prod * (B * K) by ring]
    exact Nat.mul_div_cancel _ (by positivity)
  rw [this]

theorem denseCov_rows {B R K : ℕ} (x : Fin B → Fin R → Fin K → ℝ) (k l : Fin K) :
    denseCov (flatRows x) k l = meanProd (fun o : Fin B × Fin R => x o.1 o.2 k) fun o => x o.1 o.2 l := by
  simp only [denseCov, Matrix.of_apply, meanProd, Fintype.card_prod, Fintype.card_fin]
  rw [← finProdFinEquiv.sum_comp]
  simp [flatRows]

theorem homog_rows {B R K : ℕ} (x : Fin B → Fin R → Fin K → ℝ) :
    homog (flatRows x) = flatRows fun b r => (Fin.snoc (x b r) 1 : Fin (K + 1) → ℝ) := rfl

/-- **C101 (repeated dense layers)**: where inputs and derivatives factor, the Fisher matrix of a dense layer without
bias is the Kronecker product of the two covariances of the block, times the factor `fixed_scale`. -/
theorem repeated_scale {B K M : ℕ} (mid : List ℕ) (hB : 0 < B) (hK : 0 < K)
    (x : Fin B → Fin mid.prod → Fin K → ℝ) (dy : Fin B → Fin mid.prod → Fin M → ℝ) (h : Factors x dy)
    (k l : Fin K) (p q : Fin M) :
    layerFisher x dy k p l q = repeatedScale (B :: mid ++ [K]) *
      (denseCov (flatRows x) k l * denseCov (flatRows dy) p q) := by
  rw [layerFisher_factors h, repeatedScale_eq B K mid hB hK, denseCov_rows, denseCov_rows]

/-- The same with bias, whose gradients are those of weights for an input equal to one. -/
theorem repeated_scale_bias {B K M : ℕ} (mid : List ℕ) (hB : 0 < B) (hK : 0 < K)
    (x : Fin B → Fin mid.prod → Fin K → ℝ) (dy : Fin B → Fin mid.prod → Fin M → ℝ)
    (h : Factors (fun b r => (Fin.snoc (x b r) 1 : Fin (K + 1) → ℝ)) dy) (k l : Fin (K + 1)) (p q : Fin M) :
    layerFisher (fun b r => (Fin.snoc (x b r) 1 : Fin (K + 1) → ℝ)) dy k p l q =
      repeatedScale (B :: mid ++ [K]) *
        (denseCov (homog (flatRows x)) k l * denseCov (flatRows dy) p q) := by
  rw [layerFisher_factors h, repeatedScale_eq B K mid hB hK, homog_rows, denseCov_rows, denseCov_rows]

theorem factors_signs' : Factors (fun (_ : Fin 4) (_ : Fin ([1, 2] : List ℕ).prod) (_ : Fin 1) => (1 : ℝ))
    (fun b i (_ : Fin 1) => (![![1, 1], ![1, -1], ![-1, 1], ![-1, -1]] : Fin 4 → Fin 2 → ℝ) b i) :=
  fun k l _ _ => factors_signs k l (0, 0) (0, 0)

/-- `repeated_scale` for these signs, with the places as axes of 1 and 2 entries. -/
example : layerFisher (fun (_ : Fin 4) (_ : Fin ([1, 2] : List ℕ).prod) (_ : Fin 1) => (1 : ℝ))
    (fun b i (_ : Fin 1) => (![![1, 1], ![1, -1], ![-1, 1], ![-1, -1]] : Fin 4 → Fin 2 → ℝ) b i) 0 0 0 0 = 2 := by
  rw [repeated_scale [1, 2] (by norm_num) (by norm_num) _ _ factors_signs', repeatedScale_eq 4 1 [1, 2] (by norm_num)
    (by norm_num), denseCov_rows, denseCov_rows]
  have e : ([1, 2] : List ℕ).prod = 2 := rfl
  have h1 : meanProd (fun o : Fin 4 × Fin 2 => (1 : ℝ)) (fun _ => 1) = 1 := by simp [meanProd]
  have h2 : meanProd (fun o : Fin 4 × Fin 2 => (![![1, 1], ![1, -1], ![-1, 1], ![-1, -1]] : Fin 4 → Fin 2 → ℝ) o.1 o.2)
      (fun o => (![![1, 1], ![1, -1], ![-1, 1], ![-1, -1]] : Fin 4 → Fin 2 → ℝ) o.1 o.2) = 1 := by
    simp [meanProd, Fintype.sum_prod_type, Fin.sum_univ_succ]
    norm_num
  show ((([1, 2] : List ℕ).prod : ℕ) : ℝ) * (meanProd (fun o : Fin 4 × Fin 2 => (1 : ℝ)) (fun _ => 1) *
    meanProd (fun o : Fin 4 × Fin 2 => (![![1, 1], ![1, -1], ![-1, 1], ![-1, -1]] : Fin 4 → Fin 2 → ℝ) o.1 o.2)
      (fun o => (![![1, 1], ![1, -1], ![-1, 1], ![-1, -1]] : Fin 4 → Fin 2 → ℝ) o.1 o.2)) = 2
  rw [h1, h2, e]
  norm_num

/-! ### The power -1 -/

/-- **C101 (inverse)**: if the cached pair are inverses of some factors, multiplication by the power -1 undoes
multiplication by their Kronecker product. -/
theorem qmc_inverse {J K M N : ℕ} (s : Qmc J K M N) (A : Fin J → Matrix (Fin K) (Fin K) ℝ)
    (G : Fin J → Matrix (Fin (M * N)) (Fin (M * N)) ℝ) (hA : ∀ j, IsUnit (A j).det) (hG : ∀ j, IsUnit (G j).det)
    (hc : s.cache = some (fun j => (A j)⁻¹, fun j => (G j)⁻¹)) (w : Wgt K M J N) (damping : ℝ) :
    s.multiply (sandwich A G w) damping (-1) false true = .ok w := by
  simp only [Qmc.multiply, hc]
  rw [if_neg (by norm_num), if_neg (by simp), if_neg (by simp), if_pos trivial]
  congr 1
  funext k m j n
  have e : toBlocks (sandwich A G w) j = A j * toBlocks w j * G j := by
    ext a q
    simp only [toBlocks, sandwich, ofBlocks, Matrix.of_apply, Prod.mk.eta, Equiv.apply_symm_apply]
  show ((A j)⁻¹ * toBlocks (sandwich A G w) j * (G j)⁻¹) k (finProdFinEquiv (m, n)) = _
  rw [e, Matrix.mul_assoc (A j), ← Matrix.mul_assoc (A j)⁻¹, Matrix.nonsing_inv_mul _ (hA j), Matrix.one_mul,
    Matrix.mul_assoc, Matrix.mul_nonsing_inv _ (hG j), Matrix.mul_one]
  simp only [toBlocks, Matrix.of_apply, Equiv.symm_apply_apply]

/-- The hypotheses for factors 2 and 4 times the identity. -/
example (w : Wgt 3 3 2 4) (damping : ℝ) :
    (⟨.zero, .zero, some (fun _ => ((2 : ℝ) • 1)⁻¹, fun _ => ((4 : ℝ) • 1)⁻¹)⟩ : Qmc 2 3 3 4).multiply
      (sandwich (fun _ => (2 : ℝ) • 1) (fun _ => (4 : ℝ) • 1) w) damping (-1) false true = .ok w :=
  qmc_inverse _ _ _ (fun _ => by rw [Matrix.det_smul, Matrix.det_one]; simp)
    (fun _ => by rw [Matrix.det_smul, Matrix.det_one]; simp) rfl w damping

/-- Every other power is refused, and so is -1 without cache. -/
theorem qmc_powers {J K M N : ℕ} (s : Qmc J K M N) (w : Wgt K M J N) (damping : ℝ) (power : ℤ)
    (exactPower useCached : Bool) :
    (∃ v, s.multiply w damping power exactPower useCached = .ok v) ↔
      power = 1 ∨ (power = -1 ∧ exactPower = false ∧ useCached = true ∧ s.cache ≠ none) := by
  unfold Qmc.multiply
  by_cases h1 : power = 1
  · simp [h1]
  · rcases hc : s.cache with _ | ⟨A, G⟩ <;> cases exactPower <;> cases useCached <;>
      by_cases h2 : power = -1 <;> simp [h1, h2]

end Verif.Props
