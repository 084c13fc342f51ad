import Verif.Model.Updates
import Mathlib.LinearAlgebra.Dimension.Constructions
import Mathlib.LinearAlgebra.Dimension.Finite
import Mathlib.Tactic

/-! Conjugate gradients for a symmetric positive definite matrix. -/

namespace Verif.Updates

variable {K : Type*} [Fintype K] {D : ℕ}

theorem treeInner_comm (a b : K → ℝ) : treeInner a b = treeInner b a :=
  Finset.sum_congr rfl fun _ _ => mul_comm _ _

theorem treeInner_add_left (a b c : K → ℝ) (t : ℝ) :
    treeInner (fun k => a k + t * b k) c = treeInner a c + t * treeInner b c := by
  unfold treeInner
  rw [Finset.mul_sum, ← Finset.sum_add_distrib]
  exact Finset.sum_congr rfl fun _ _ => by ring

theorem treeInner_sub_left (a b c : K → ℝ) (t : ℝ) :
    treeInner (fun k => a k - t * b k) c = treeInner a c - t * treeInner b c := by
  unfold treeInner
  rw [Finset.mul_sum, ← Finset.sum_sub_distrib]
  exact Finset.sum_congr rfl fun _ _ => by ring

theorem treeInner_add_right (a b c : K → ℝ) (t : ℝ) :
    treeInner c (fun k => a k + t * b k) = treeInner c a + t * treeInner c b := by
  rw [treeInner_comm, treeInner_add_left, treeInner_comm a, treeInner_comm b]

theorem treeInner_sub_right (a b c : K → ℝ) (t : ℝ) :
    treeInner c (fun k => a k - t * b k) = treeInner c a - t * treeInner c b := by
  rw [treeInner_comm, treeInner_sub_left, treeInner_comm a, treeInner_comm b]

theorem treeInner_self_nonneg (a : K → ℝ) : 0 ≤ treeInner a a :=
  Finset.sum_nonneg fun k _ => mul_self_nonneg (a k)

theorem treeInner_self_eq_zero {a : K → ℝ} : treeInner a a = 0 ↔ a = 0 := by
  unfold treeInner
  rw [Finset.sum_eq_zero_iff_of_nonneg fun k _ => mul_self_nonneg (a k)]
  constructor
  · intro h
    funext k
    exact mul_self_eq_zero.1 (h k (Finset.mem_univ k))
  · rintro rfl k _
    simp

/-- A linear, symmetric, positive definite operator. -/
structure SPD (M : (K → ℝ) → K → ℝ) : Prop where
  lin : ∀ a b t, M (fun k => a k + t * b k) = fun k => M a k + t * M b k
  symm : ∀ a b, treeInner a (M b) = treeInner (M a) b
  pos : ∀ a, a ≠ 0 → 0 < treeInner a (M a)

/-- The iterates without a stopping test. -/
noncomputable def cgSeq (M : (K → ℝ) → K → ℝ) (s : CG K) : ℕ → CG K
  | 0 => s
  | j + 1 => cgBody (M (cgSeq M s j).p) (cgSeq M s j)

/-- What the loop returns on devices which all start from the same state. -/
theorem cgLoop_eq_seq (M : (K → ℝ) → K → ℝ) (A : (Fin D → K → ℝ) → Fin D → K → ℝ)
    (hA : ∀ x, A (fun _ => x) = fun _ => M x) (tol : ℝ) (hD : 0 < D) (m : ℕ) (s : CG K) :
    ∃ j ≤ m, cgLoop A (fun _ => tol) m (fun _ => s) = (fun _ => cgSeq M s j) ∧
      (∀ i < j, (cgSeq M s i).gamma > tol) ∧ (j = m ∨ (cgSeq M s j).gamma ≤ tol) := by
  induction m generalizing s with
  | zero => exact ⟨0, le_rfl, rfl, fun i hi => absurd hi (Nat.not_lt_zero i), Or.inl rfl⟩
  | succ m ih =>
    by_cases h : s.gamma > tol
    · have hstep : cgStep A (fun _ => s) = fun _ => cgBody (M s.p) s := by
        unfold cgStep
        rw [hA]
      obtain ⟨j, hj, h1, h2, h3⟩ := ih (cgBody (M s.p) s)
      have hseq : ∀ i, cgSeq M (cgBody (M s.p) s) i = cgSeq M s (i + 1) := by
        intro i
        induction i with
        | zero => rfl
        | succ i ihi =>
          show cgBody (M (cgSeq M (cgBody (M s.p) s) i).p) (cgSeq M (cgBody (M s.p) s) i) = _
          rw [ihi]
          rfl
      refine ⟨j + 1, Nat.succ_le_succ hj, ?_, ?_, ?_⟩
      · unfold cgLoop
        rw [if_pos fun _ => h, hstep, h1, hseq]
      · intro i hi
        cases i with
        | zero => exact h
        | succ i =>
          rw [← hseq]
          exact h2 i (Nat.lt_of_succ_lt_succ hi)
      · rcases h3 with h3 | h3
        · left; rw [h3]
        · right; rw [← hseq]; exact h3
    · refine ⟨0, Nat.zero_le _, ?_, fun i hi => absurd hi (Nat.not_lt_zero i), Or.inr (not_lt.1 h)⟩
      unfold cgLoop
      rw [if_neg fun hall => h (hall ⟨0, hD⟩)]
      rfl

variable {M : (K → ℝ) → K → ℝ}

/-- A state with consistent fields, as `cgInit` returns. -/
structure Start (M : (K → ℝ) → K → ℝ) (b : K → ℝ) (s : CG K) : Prop where
  res : s.r = fun k => b k - M s.x k
  gam : s.gamma = treeInner s.r s.r
  dir : s.p = s.r

theorem cgSeq_gamma {b : K → ℝ} {s : CG K} (h : Start M b s) (j : ℕ) :
    (cgSeq M s j).gamma = treeInner (cgSeq M s j).r (cgSeq M s j).r := by
  cases j with
  | zero => exact h.gam
  | succ j => rfl

/-- The field `r` is the residual. -/
theorem cgSeq_residual (hM : SPD M) {b : K → ℝ} {s : CG K} (h : Start M b s) (j : ℕ) :
    (cgSeq M s j).r = fun k => b k - M (cgSeq M s j).x k := by
  induction j with
  | zero => exact h.res
  | succ j ih =>
    funext k
    show (cgSeq M s j).r k - _ * M (cgSeq M s j).p k =
      b k - M (fun k => (cgSeq M s j).x k + _ * (cgSeq M s j).p k) k
    rw [hM.lin, ih]
    ring

/-- orthogonality of residuals, conjugacy of directions -/
structure Inv (M : (K → ℝ) → K → ℝ) (s : CG K) (j : ℕ) : Prop where
  rr : ∀ i < j, treeInner (cgSeq M s j).r (cgSeq M s i).r = 0
  rp : ∀ i < j, treeInner (cgSeq M s j).r (cgSeq M s i).p = 0
  pAp : ∀ i < j, treeInner (cgSeq M s j).p (M (cgSeq M s i).p) = 0
  rpj : treeInner (cgSeq M s j).r (cgSeq M s j).p = (cgSeq M s j).gamma

theorem Inv.pos (hM : SPD M) {s : CG K} {j : ℕ} (h : Inv M s j)
    (hg : 0 < (cgSeq M s j).gamma) :
    0 < treeInner (cgSeq M s j).p (M (cgSeq M s j).p) := by
  apply hM.pos
  intro h0
  have := h.rpj
  rw [h0] at this
  unfold treeInner at this
  simp at this
  exact hg.ne this

/-- The invariant holds as long as the residuals are not zero. -/
theorem cgSeq_inv (hM : SPD M) {b : K → ℝ} {s : CG K} (hs : Start M b s) (j : ℕ)
    (hg : ∀ i < j, 0 < (cgSeq M s i).gamma) : ∀ i ≤ j, Inv M s i := by
  induction j with
  | zero =>
    intro i hi
    obtain rfl : i = 0 := Nat.le_zero.1 hi
    refine ⟨fun i hi => absurd hi (Nat.not_lt_zero i), fun i hi => absurd hi (Nat.not_lt_zero i),
      fun i hi => absurd hi (Nat.not_lt_zero i), ?_⟩
    show treeInner s.r s.p = s.gamma
    rw [hs.dir, hs.gam]
  | succ j ih =>
    have ih := ih fun i hi => hg i (Nat.lt_succ_of_lt hi)
    intro i hi
    rcases Nat.lt_or_ge i (j + 1) with hlt | hge
    · exact ih i (Nat.lt_succ_iff.1 hlt)
    obtain rfl : i = j + 1 := le_antisymm hi hge
    have hj := ih j le_rfl
    have hgj : 0 < (cgSeq M s j).gamma := hg j (Nat.lt_succ_self j)
    have hpos := hj.pos hM hgj
    set a := (cgSeq M s j).gamma / treeInner (cgSeq M s j).p (M (cgSeq M s j).p) with ha
    have haq : a * treeInner (cgSeq M s j).p (M (cgSeq M s j).p) = (cgSeq M s j).gamma :=
      div_mul_cancel₀ _ hpos.ne'
    have hapos : 0 < a := div_pos hgj hpos
    have hr : (cgSeq M s (j + 1)).r = fun k => (cgSeq M s j).r k - a * M (cgSeq M s j).p k := rfl
    -- directions are conjugate to earlier residuals
    have hAr : ∀ i < j, treeInner (M (cgSeq M s j).p) (cgSeq M s i).r = 0 := by
      intro i hi
      cases i with
      | zero =>
        have h0 : (cgSeq M s 0).r = (cgSeq M s 0).p := hs.dir.symm
        rw [h0, ← hM.symm]
        exact hj.pAp 0 hi
      | succ i =>
        have hp : (cgSeq M s (i + 1)).r = fun k => (cgSeq M s (i + 1)).p k -
            ((cgSeq M s (i + 1)).gamma / (cgSeq M s i).gamma) * (cgSeq M s i).p k := by
          funext k
          show _ = ((cgSeq M s (i + 1)).r k + _ * (cgSeq M s i).p k) - _
          exact (add_sub_cancel_right _ _).symm
        rw [hp, treeInner_sub_right, ← hM.symm, ← hM.symm, hj.pAp _ hi,
          hj.pAp i (Nat.lt_of_succ_lt hi)]
        ring
    have hArj : treeInner (M (cgSeq M s j).p) (cgSeq M s j).r =
        treeInner (cgSeq M s j).p (M (cgSeq M s j).p) := by
      cases j with
      | zero =>
        have h0 : (cgSeq M s 0).r = (cgSeq M s 0).p := hs.dir.symm
        rw [h0, ← hM.symm]
      | succ i =>
        have hp : (cgSeq M s (i + 1)).r = fun k => (cgSeq M s (i + 1)).p k -
            ((cgSeq M s (i + 1)).gamma / (cgSeq M s i).gamma) * (cgSeq M s i).p k := by
          funext k
          show _ = ((cgSeq M s (i + 1)).r k + _ * (cgSeq M s i).p k) - _
          exact (add_sub_cancel_right _ _).symm
        rw [hp, treeInner_sub_right, ← hM.symm, ← hM.symm, hj.pAp i (Nat.lt_succ_self i)]
        ring
    have hrr : ∀ i < j + 1, treeInner (cgSeq M s (j + 1)).r (cgSeq M s i).r = 0 := by
      intro i hi
      rw [hr, treeInner_sub_left]
      rcases Nat.lt_succ_iff_lt_or_eq.1 hi with h | rfl
      · rw [hj.rr i h, hAr i h]
        ring
      · rw [hArj, haq, ← cgSeq_gamma hs]
        ring
    have hrp : ∀ i < j + 1, treeInner (cgSeq M s (j + 1)).r (cgSeq M s i).p = 0 := by
      intro i hi
      rw [hr, treeInner_sub_left, ← hM.symm]
      rcases Nat.lt_succ_iff_lt_or_eq.1 hi with h | rfl
      · rw [hj.rp i h, hj.pAp i h]
        ring
      · rw [hj.rpj, haq]
        ring
    have hp : (cgSeq M s (j + 1)).p = fun k => (cgSeq M s (j + 1)).r k +
        ((cgSeq M s (j + 1)).gamma / (cgSeq M s j).gamma) * (cgSeq M s j).p k := rfl
    refine ⟨hrr, hrp, ?_, ?_⟩
    · intro i hi
      rw [hp, treeInner_add_left]
      -- M p_i is a multiple of r_i - r_{i+1}
      have hAp : ∀ i ≤ j, ∀ v, treeInner v (M (cgSeq M s i).p) =
          (treeInner v (cgSeq M s i).r - treeInner v (cgSeq M s (i + 1)).r) /
            ((cgSeq M s i).gamma / treeInner (cgSeq M s i).p (M (cgSeq M s i).p)) := by
        intro i hi v
        have hgi := hg i (Nat.lt_succ_of_le hi)
        have hpi := (ih i hi).pos hM hgi
        have hai : 0 < (cgSeq M s i).gamma / treeInner (cgSeq M s i).p (M (cgSeq M s i).p) :=
          div_pos hgi hpi
        have hri : (cgSeq M s (i + 1)).r = fun k => (cgSeq M s i).r k -
          ((cgSeq M s i).gamma / treeInner (cgSeq M s i).p (M (cgSeq M s i).p)) *
            M (cgSeq M s i).p k := rfl
        rw [hri, treeInner_sub_right, eq_div_iff hai.ne']
        ring
      rcases Nat.lt_succ_iff_lt_or_eq.1 hi with h | rfl
      · rw [hj.pAp i h, hAp i h.le, hrr i hi, hrr (i + 1) (Nat.succ_lt_succ h)]
        ring
      · rw [hAp i le_rfl, hrr i hi, ← cgSeq_gamma hs]
        rw [← ha]
        have : treeInner (cgSeq M s i).p (M (cgSeq M s i).p) = (cgSeq M s i).gamma / a := by
          rw [eq_div_iff hapos.ne', mul_comm, haq]
        rw [this]
        field_simp
        ring
    · rw [hp, treeInner_add_right, hrp j (Nat.lt_succ_self j), ← cgSeq_gamma hs]
      ring

/-- Nonzero residuals are linearly independent. -/
theorem cgSeq_linearIndependent (hM : SPD M) {b : K → ℝ} {s : CG K} (hs : Start M b s) (m : ℕ)
    (hg : ∀ i < m, 0 < (cgSeq M s i).gamma) :
    LinearIndependent ℝ fun i : Fin m => (cgSeq M s i).r := by
  have hinv := cgSeq_inv hM hs m hg
  rw [Fintype.linearIndependent_iff]
  intro g hsum i
  have h1 : treeInner (∑ j, g j • (cgSeq M s (j : ℕ)).r) (cgSeq M s i).r = 0 := by
    rw [hsum]
    simp [treeInner]
  have h2 : treeInner (∑ j, g j • (cgSeq M s (j : ℕ)).r) (cgSeq M s i).r =
      ∑ j, g j * treeInner (cgSeq M s (j : ℕ)).r (cgSeq M s i).r := by
    unfold treeInner
    simp only [Finset.sum_apply, Pi.smul_apply, smul_eq_mul, Finset.mul_sum, Finset.sum_mul]
    rw [Finset.sum_comm]
    exact Finset.sum_congr rfl fun _ _ => Finset.sum_congr rfl fun _ _ => by ring
  rw [h2, Finset.sum_eq_single i] at h1
  · rw [← cgSeq_gamma hs] at h1
    exact (mul_eq_zero.1 h1).resolve_right (hg i i.2).ne'
  · intro j _ hji
    rcases lt_or_gt_of_ne (fun h => hji (Fin.ext h) : (j : ℕ) ≠ i) with h | h
    · rw [treeInner_comm, (hinv i i.2.le).rr j h, mul_zero]
    · rw [(hinv j j.2.le).rr i h, mul_zero]
  · intro h
    exact absurd (Finset.mem_univ i) h

/-- After as many steps as there are unknowns the residual has vanished at some step. -/
theorem cgSeq_terminates (hM : SPD M) {b : K → ℝ} {s : CG K} (hs : Start M b s) (m : ℕ)
    (hm : Fintype.card K ≤ m) : ∃ i ≤ m, (cgSeq M s i).gamma ≤ 0 := by
  by_contra hcon
  have hg : ∀ i < m + 1, 0 < (cgSeq M s i).gamma := fun i hi => by
    by_contra h
    exact hcon ⟨i, Nat.lt_succ_iff.1 hi, not_lt.1 h⟩
  have hc := (cgSeq_linearIndependent hM hs (m + 1) hg).fintype_card_le_finrank
  rw [Fintype.card_fin, Module.finrank_fintype_fun_eq_card] at hc
  omega

/-- The quadratic model decreases at every step. -/
theorem cgSeq_decreases (hM : SPD M) {b : K → ℝ} {s : CG K} (hs : Start M b s) (j : ℕ)
    (hg : ∀ i < j, 0 < (cgSeq M s i).gamma) :
    treeInner (cgSeq M s j).x (M (cgSeq M s j).x) / 2 - treeInner b (cgSeq M s j).x ≤
      treeInner s.x (M s.x) / 2 - treeInner b s.x := by
  induction j with
  | zero => exact le_rfl
  | succ j ih =>
    refine le_trans ?_ (ih fun i hi => hg i (Nat.lt_succ_of_lt hi))
    have hgj := hg j (Nat.lt_succ_self j)
    have hinv := cgSeq_inv hM hs j (fun i hi => hg i (Nat.lt_succ_of_lt hi)) j le_rfl
    have hpos := hinv.pos hM hgj
    have hrp := hinv.rpj
    rw [cgSeq_residual hM hs j] at hrp
    have hsub : treeInner (fun k => b k - M (cgSeq M s j).x k) (cgSeq M s j).p =
        treeInner b (cgSeq M s j).p - treeInner (M (cgSeq M s j).x) (cgSeq M s j).p := by
      have := treeInner_sub_left b (M (cgSeq M s j).x) (cgSeq M s j).p 1
      simpa using this
    rw [hsub] at hrp
    show treeInner (fun k => (cgSeq M s j).x k + _ * (cgSeq M s j).p k)
      (M (fun k => (cgSeq M s j).x k + _ * (cgSeq M s j).p k)) / 2 -
      treeInner b (fun k => (cgSeq M s j).x k + _ * (cgSeq M s j).p k) ≤ _
    set a := (cgSeq M s j).gamma / treeInner (cgSeq M s j).p (M (cgSeq M s j).p) with ha
    have haq : a * treeInner (cgSeq M s j).p (M (cgSeq M s j).p) = (cgSeq M s j).gamma :=
      div_mul_cancel₀ _ hpos.ne'
    have hapos : 0 < a := div_pos hgj hpos
    rw [hM.lin, treeInner_add_left, treeInner_add_right, treeInner_add_right, treeInner_add_right]
    have h1 : treeInner (cgSeq M s j).x (M (cgSeq M s j).p) =
        treeInner (M (cgSeq M s j).x) (cgSeq M s j).p := hM.symm _ _
    have h2 : treeInner (cgSeq M s j).p (M (cgSeq M s j).x) =
        treeInner (M (cgSeq M s j).x) (cgSeq M s j).p := treeInner_comm _ _
    rw [h1, h2]
    nlinarith [mul_pos hapos hgj]

end Verif.Updates
