import Verif.Model.Antiequivariance
import Verif.Props.FermiNet
import Mathlib.Analysis.Complex.ExponentialBounds
import Mathlib.Tactic

/-! C47: antiequivariant layers.  C50: options reaching the orbital layers. -/

namespace Verif.Props
open Verif.Net Verif.Slog Verif.Antieq Verif.Antisym Equiv

theorem alternating_getD (n : ℕ) (i : Fin n) : (getAlternatingSigns n).getD i 0 = (-1) ^ (i : ℕ) := by
  unfold getAlternatingSigns
  rw [List.getD_eq_getElem?_getD, List.getElem?_map, List.getElem?_range i.2]
  simp only [Option.map_some, Option.getD_some]
  rcases Nat.even_or_odd (i : ℕ) with h | h
  · rw [if_neg (by have := Nat.even_iff.mp h; omega), h.neg_one_pow]
  · rw [if_pos (Nat.odd_iff.mp h), h.neg_one_pow]

theorem getSubmatrices_succ {k m : ℕ} (x : Fin (k + 1) → Fin m → ℝ) :
    getSubmatrices x = if h : k + 1 = m then
      .ok fun i => Matrix.of fun a b => (delete 0 ((delete i x) a ∘ Fin.cast h)) b
    else .error "Calculating cofactors requires shape (..., n, n)" := rfl

theorem cofactor_ok {k : ℕ} (x : Fin (k + 1) → Fin (k + 1) → ℝ) :
    cofactorAntieq x = .ok fun i => (-1) ^ (i : ℕ) * x i 0 *
      ((Matrix.of x).submatrix i.succAbove Fin.succ).det := by
  unfold cofactorAntieq
  rw [getSubmatrices_succ, dif_pos rfl]
  simp only [Except.map]
  congr 1
  funext i
  rw [alternating_getD]
  have h : firstCol x i = x i 0 := by
    unfold firstCol
    rw [dif_pos (Nat.succ_pos k)]
    rfl
  rw [h]
  have h2 (h : k + 1 = k + 1) : (Matrix.of fun a b => delete 0 (delete i x a ∘ Fin.cast h) b) =
      (Matrix.of x).submatrix i.succAbove Fin.succ := by
    ext a b
    simp [delete]
  rw [mul_left_comm, ← mul_assoc]
  exact congrArg (fun M => (-1) ^ (i : ℕ) * x i 0 * Matrix.det M) (h2 rfl)

/-- a cofactor term as the determinant with all other entries of the first column removed -/
theorem cofactor_term {k : ℕ} (M : Matrix (Fin (k + 1)) (Fin (k + 1)) ℝ) (i : Fin (k + 1)) :
    (-1) ^ (i : ℕ) * M i 0 * (M.submatrix i.succAbove Fin.succ).det =
      (M.updateCol 0 (Pi.single i (M i 0))).det := by
  rw [Matrix.det_succ_column_zero, Finset.sum_eq_single i]
  · have : (M.updateCol 0 (Pi.single i (M i 0))).submatrix i.succAbove Fin.succ =
        M.submatrix i.succAbove Fin.succ := by
      ext a b
      simp [Fin.succ_ne_zero]
    rw [this]
    simp
  · intro j _ hj
    simp [hj]
  · simp

/-- C47: a non-square (or empty) orbital matrix is rejected, a square one is accepted. -/
theorem cofactor_rejects_non_square {n m : ℕ} (x : Fin n → Fin m → ℝ) :
    (∃ e, cofactorAntieq x = .error e) ↔ (n ≠ m ∨ n = 0) := by
  unfold cofactorAntieq
  match n, m, x with
  | 0, 0, x => simp [getSubmatrices, Except.map]
  | 0, _ + 1, x => simp [getSubmatrices, Except.map]
  | k + 1, m, x =>
    rw [getSubmatrices_succ]
    by_cases h : k + 1 = m
    · rw [dif_pos h]; simp [Except.map, ← h]
    · rw [dif_neg h]; simp [Except.map, h]

/-- C47: permuting the electrons permutes the cofactor outputs and multiplies them by the
parity.  Errors stay errors. -/
theorem cofactor_antiequivariant {n m : ℕ} (x : Fin n → Fin m → ℝ) (σ : Perm (Fin n)) :
    cofactorAntieq (fun i => x (σ i)) =
      (cofactorAntieq x).map fun c i => parity σ * c (σ i) := by
  match n, m, x, σ with
  | 0, 0, x, σ => rfl
  | 0, _ + 1, x, σ => rfl
  | k + 1, m, x, σ =>
    by_cases h : k + 1 = m
    · subst h
      rw [cofactor_ok, cofactor_ok]
      simp only [Except.map]
      congr 1
      funext i
      have h1 := cofactor_term (Matrix.of fun i => x (σ i)) i
      have h2 := cofactor_term (Matrix.of x) (σ i)
      simp only [Matrix.of_apply] at h1 h2
      rw [h1, h2, show parity σ = ((Perm.sign σ : ℤ) : ℝ) from rfl, ← Matrix.det_permute]
      congr 1
      ext a b
      simp only [Matrix.submatrix_apply, id, Matrix.updateCol_apply, Matrix.of_apply]
      by_cases hb : b = 0
      · simp only [hb, if_true, Pi.single_apply, σ.apply_eq_iff_eq]
      · simp [hb]
    · unfold cofactorAntieq
      rw [getSubmatrices_succ, getSubmatrices_succ, dif_neg h, dif_neg h]
      rfl

/-- C47: the cofactor outputs sum to the determinant. -/
theorem cofactor_sum_is_det {k : ℕ} (x : Fin (k + 1) → Fin (k + 1) → ℝ) :
    ∃ c, cofactorAntieq x = .ok c ∧ ∑ i, c i = Matrix.det (Matrix.of x) :=
  ⟨_, cofactor_ok x, by rw [Matrix.det_succ_column_zero]; rfl⟩

/-- C47: the log-domain cofactor layer represents the linear one, zeros included, and rejects
the same inputs. -/
theorem slog_cofactor_represents {n m : ℕ} (x : Fin n → Fin m → ℝ) :
    slogCofactorAntieq x = (cofactorAntieq x).map fun c i => arrayToSlog (.fin (c i)) := by
  unfold slogCofactorAntieq cofactorAntieq
  cases getSubmatrices x with
  | error e => rfl
  | ok submats =>
    simp only [Except.map]
    congr 1
    funext i
    have hs : (getAlternatingSigns n).getD i 0 = 1 ∨ (getAlternatingSigns n).getD i 0 = -1 := by
      rw [alternating_getD]
      exact neg_one_pow_eq_or ℝ _
    have h := slog_multiply_represents (slog_of_array (firstCol x i))
      (slog_of_array (submats i).det)
    rw [represents_iff] at h
    have h3 := arrayToSlog_sign _ hs (firstCol x i * (submats i).det)
    rw [show firstCol x i * ((getAlternatingSigns n).getD i 0 * (submats i).det) =
      (getAlternatingSigns n).getD i 0 * (firstCol x i * (submats i).det) by ring, h3]
    have h4 : arrayToSlog (.fin (firstCol x i * (submats i).det)) =
        slogMultiply (arrayToSlog (.fin (firstCol x i))) (arrayToSlog (.fin (submats i).det)) :=
      h.symm
    rw [h4]
    unfold signTimes slogMultiply slogdet
    ext1
    · simp only
      rw [mul_comm']
    · rfl

variable {S : ℕ} {n : Fin S → ℕ}

/-- C47: the cofactor layer is antiequivariant for each species: permuting electrons within
species permutes each species' outputs and multiplies them by that species' parity. -/
theorem cofactor_layer_antiequivariant {d1 nion d : ℕ} (P : OrbitalLayer S d1 nion d n)
    (useBias iso : Bool) (π : ∀ s, Perm (Fin (n s))) (x : Stream1 n d1)
    (rei : Option (Elec n → Fin nion → Fin d → ℝ)) (s : Fin S) :
    cofactorLayer P useBias iso (permute1 π x) (rei.map (permute1 π)) s =
      (cofactorLayer P useBias iso x rei s).map fun c i a => parity (π s) * c (π s i) a := by
  unfold cofactorLayer
  have h : (cofactorOrbitalLayer P useBias iso).apply (permute1 π x) (rei.map (permute1 π)) s =
      fun i => (cofactorOrbitalLayer P useBias iso).apply x rei s (π s i) := by
    funext i
    exact orbitals_perm _ π x rei s i
  rw [h, cofactor_antiequivariant]
  cases cofactorAntieq ((cofactorOrbitalLayer P useBias iso).apply x rei s) <;> rfl

/-- C47: the per-particle-determinant layer is antiequivariant for each species. -/
theorem per_particle_det_antiequivariant {d1 nion d : ℕ} (P : DoublyLayer S d1 nion d n)
    (useBias iso : Bool) (π : ∀ s, Perm (Fin (n s))) (x : Stream1 n d1)
    (rei : Option (Elec n → Fin nion → Fin d → ℝ)) (s : Fin S) (p : Fin (n s)) (a : Fin 1) :
    perParticleDetLayer P useBias iso (permute1 π x) (rei.map (permute1 π)) s p a =
      parity (π s) * perParticleDetLayer P useBias iso x rei s (π s p) a := by
  unfold perParticleDetLayer
  rw [show parity (π s) = ((Perm.sign (π s) : ℤ) : ℝ) from rfl, ← Matrix.det_permute]
  congr 1
  cases rei <;> rfl

/-- C47: the log-domain per-particle layer represents the linear one. -/
theorem slog_per_particle_det_represents {d1 nion d : ℕ} (P : DoublyLayer S d1 nion d n)
    (useBias iso : Bool) (x : Stream1 n d1)
    (rei : Option (Elec n → Fin nion → Fin d → ℝ)) (s : Fin S) (p : Fin (n s)) (a : Fin 1) :
    Spec.Represents (slogPerParticleDetLayer P useBias iso x rei s p a)
      (perParticleDetLayer P useBias iso x rei s p a) := slog_of_array _

/-- C47: products with equivariant features stay antiequivariant. -/
theorem multiplied_features_antiequivariant {d : ℕ} (antieq antieq' : ∀ s, Fin (n s) → Fin 1 → ℝ)
    (π : ∀ s, Perm (Fin (n s))) (h : ∀ s i a, antieq' s i a = parity (π s) * antieq s (π s i) a)
    (eq : Stream1 n d) (s : Fin S) (i : Fin (n s)) (k : Fin d) :
    multiplyByEqFeatures antieq' (permute1 π eq) s i k =
      parity (π s) * multiplyByEqFeatures antieq eq s (π s i) k := by
  unfold multiplyByEqFeatures
  rw [h]
  show eq ⟨s, π s i⟩ k * _ = _
  ring

/-- A 2×2 matrix: cofactor terms 1·4 and −3·2, exchanged and negated by swapping the rows. -/
example : cofactorAntieq (n := 2) (m := 2) ![![1, 2], ![3, 4]] = .ok ![4, -6] ∧
    cofactorAntieq (n := 2) (m := 2) ![![3, 4], ![1, 2]] = .ok ![6, -4] := by
  constructor
  · rw [cofactor_ok]
    congr 1
    funext i
    fin_cases i <;> simp [Matrix.submatrix, Fin.succAbove]
    norm_num
  · rw [cofactor_ok]
    congr 1
    funext i
    fin_cases i <;> simp [Matrix.submatrix, Fin.succAbove]
    norm_num

/-! ### C50 -/

/-- What the documentation promises for the orbitals: a linear part with bias exactly if asked
for, times a combination over the ions of unsoftened exponentials of scaled distances, the
scaling being one number per orbital if isotropic decay is asked for and a matrix per ion and
orbital otherwise. -/
noncomputable def documentedOrbital {ι : Type*} [Fintype ι] {nion d : ℕ} (useBias iso : Bool)
    (kernel : ι → ℝ) (bias : ℝ) (isoK : ℝ) (anisoK : Fin nion → Fin d → Fin d → ℝ)
    (ionK : Fin nion → ℝ) (feat : ι → ℝ) (r : Option (Fin nion → Fin d → ℝ)) : ℝ :=
  ((∑ k, feat k * kernel k) + (if useBias then bias else 0)) *
    match r with
    | none => 1
    | some r => ∑ j, ionK j * Real.exp (-Real.sqrt (∑ k,
        (if iso then isoK * r j k else ∑ l, r j l * anisoK j l k) ^ 2))

theorem softened_zero (v : ℝ) (h : 0 ≤ v) : softened v 0 = v := by
  unfold softened
  rw [show v ^ 2 + (0 : ℝ) ^ 2 = v ^ 2 by ring, Real.sqrt_sq h, sub_zero]

theorem envelope_unsoftened {d1 nion d : ℕ} {norb : Fin S → ℕ} (L : OrbitalLayer S d1 nion d norb)
    (hL : L.envelopeSoftening = 0) (s : Fin S) (r : Fin nion → Fin d → ℝ) (o : Fin (norb s)) :
    envelope L s r o = ∑ j, L.ionKernel s o j * Real.exp (-Real.sqrt (∑ k,
        (if L.isotropicDecay then L.isoKernel s o * r j k
          else ∑ l, r j l * L.anisoKernel s j l k o) ^ 2)) := by
  unfold envelope
  simp only [hL]
  refine Finset.sum_congr rfl fun j _ => ?_
  rw [softened_zero _ (by unfold norm2; exact Real.sqrt_nonneg _), mul_comm]
  unfold norm2
  congr 4
  refine Finset.sum_congr rfl fun k _ => ?_
  cases L.isotropicDecay
  · simp [anisotropyOnLeaf]
  · simp [isotropyOnLeaf, mul_comm]

/-- C50 for the per-particle-determinant layer: all option values have the documented effect. -/
theorem per_particle_options_documented {d1 nion d : ℕ} (P : DoublyLayer S d1 nion d n)
    (useBias iso : Bool) (x : Stream1 n d1) (rei : Option (Elec n → Fin nion → Fin d → ℝ))
    (s : Fin S) (p : Fin (n s)) (a : Fin 1) :
    perParticleDetLayer P useBias iso x rei s p a = Matrix.det (Matrix.of fun i o =>
      documentedOrbital useBias iso (fun k => P.kernel s k o) (P.bias s o)
        (P.envelopes.isoKernel s o) (fun j l k => P.envelopes.anisoKernel s j l k o)
        (P.envelopes.ionKernel s o) (Sum.elim (x ⟨s, p⟩) (x ⟨s, i⟩))
        (rei.map fun r => r ⟨s, i⟩)) := by
  unfold perParticleDetLayer
  congr 2
  funext i o
  unfold DoublyLayer.apply documentedOrbital dense
  cases rei with
  | none => simp
  | some r =>
    simp only [Option.map_some]
    rw [envelope_unsoftened _ rfl]

/-- C50 for the cofactor layer, the part that holds: with bias off and isotropic decay off the
orbitals are the documented ones.  Missing: all other option values, for which it is false
(`cofactor_bias_has_no_effect`, `cofactor_softens`, `cofactor_isotropic_means_bias`). -/
theorem cofactor_options_partial {d1 nion d : ℕ} (P : OrbitalLayer S d1 nion d n)
    (x : Stream1 n d1) (rei : Option (Elec n → Fin nion → Fin d → ℝ)) (s : Fin S) :
    cofactorLayer P false false x rei s = (cofactorAntieq fun i o =>
      documentedOrbital false false (fun k => P.kernel s k o) (P.bias s o)
        (P.isoKernel s o) (fun j l k => P.anisoKernel s j l k o)
        (P.ionKernel s o) (x ⟨s, i⟩) (rei.map fun r => r ⟨s, i⟩)).map fun c i _ => c i := by
  unfold cofactorLayer
  congr 2
  funext i o
  unfold OrbitalLayer.apply documentedOrbital dense cofactorOrbitalLayer
  cases rei with
  | none => simp
  | some r =>
    simp only [Option.map_some]
    rw [envelope_unsoftened _ (by simp)]

/-- C50 fails: with the bias option on (and isotropic decay off, both defaults) the bias
parameters have no effect at all. -/
theorem cofactor_bias_has_no_effect {d1 nion d : ℕ} (P : OrbitalLayer S d1 nion d n)
    (useBias : Bool) (bias' : ∀ s, Fin (n s) → ℝ) (x : Stream1 n d1)
    (rei : Option (Elec n → Fin nion → Fin d → ℝ)) (s : Fin S) :
    cofactorLayer { P with bias := bias' } useBias false x rei s =
      cofactorLayer P useBias false x rei s := by
  unfold cofactorLayer
  cases rei <;> rfl

/-- C50 fails: the isotropic-decay option switches the bias on and leaves the decay
anisotropic: the isotropic kernel has no effect. -/
theorem cofactor_isotropic_means_bias {d1 nion d : ℕ} (P : OrbitalLayer S d1 nion d n)
    (useBias : Bool) (iso' : ∀ s, Fin (n s) → ℝ) (x : Stream1 n d1) :
    (∀ rei s, cofactorLayer { P with isoKernel := iso' } useBias true x rei s =
      cofactorLayer P useBias true x rei s) ∧
    ∀ s, cofactorLayer P useBias true x none s = (cofactorAntieq fun i o =>
      (∑ k, x ⟨s, i⟩ k * P.kernel s k o) + P.bias s o).map fun c i _ => c i := by
  constructor
  · intro rei s
    unfold cofactorLayer
    cases rei <;> rfl
  · intro s
    unfold cofactorLayer
    congr 2

/-- Parameters for one electron and one ion on a line, all kernels 1. -/
def unitOrbitals : OrbitalLayer 1 1 1 1 fun _ => 1 where
  kernel := fun _ _ _ => 1
  bias := fun _ _ => 1
  isoKernel := fun _ _ => 1
  anisoKernel := fun _ _ _ _ _ => 1
  ionKernel := fun _ _ _ => 1
  envelopeSoftening := 0
  useBias := true
  isotropicDecay := false

/-- C50 fails: with the default options the envelopes are softened by 1: one electron with feature
1 at displacement 1 from the only ion gives `1 * exp(-(sqrt 2 - 1))`, where the documentation
promises `(1 + 1) * exp(-1)`. -/
theorem cofactor_softens :
    cofactorLayer unitOrbitals true false (fun _ _ => 1) (some fun _ _ _ => 1) 0 =
      .ok (fun _ _ => Real.exp (-(Real.sqrt 2 - 1))) ∧
    documentedOrbital (ι := Fin 1) (nion := 1) (d := 1) true false (fun _ => 1) 1 1
      (fun _ _ _ => 1) (fun _ => 1) (fun _ => 1) (some fun _ _ => 1) = 2 * Real.exp (-1) ∧
    Real.exp (-(Real.sqrt 2 - 1)) ≠ 2 * Real.exp (-1) := by
  refine ⟨?_, ?_, ?_⟩
  · unfold cofactorLayer
    rw [cofactor_ok]
    simp only [Except.map]
    congr 1
    funext i a
    have hi : i = 0 := Subsingleton.elim i 0
    subst hi
    simp [OrbitalLayer.apply, dense, cofactorOrbitalLayer, unitOrbitals, envelope, softened,
      anisotropyOnLeaf, norm2]
    norm_num
  · simp [documentedOrbital]
    norm_num
  · intro h
    have h2 : (2 : ℝ) * Real.exp (-1) = Real.exp (Real.log 2 - 1) := by
      rw [sub_eq_add_neg, Real.exp_add, Real.exp_log (by norm_num)]
    rw [h2] at h
    have h3 := Real.exp_injective h
    have h4 : Real.log 2 = 2 - Real.sqrt 2 := by linarith
    have h5 : Real.log 2 > 0.6931471803 := Real.log_two_gt_d9
    have h6 : (1.41 : ℝ) < Real.sqrt 2 := Real.lt_sqrt_of_sq_lt (by norm_num)
    linarith

end Verif.Props
