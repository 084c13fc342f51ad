import Verif.Lemmas.CG
import Mathlib.Algebra.Order.BigOperators.Ring.Finset
import Mathlib.LinearAlgebra.FiniteDimensional.Lemmas

/-!
Conjugate gradients started at the right-hand side: every iterate has a positive inner product with
the right-hand side, although the first residual may point the other way.

The iterate is compared with the iterates of conjugate gradients started at zero.
-/

namespace Verif.Updates

variable {K : Type*} [Fintype K]

/-- The scalar inequality behind the theorem. -/
theorem oscillation (k : ℕ) (b γ t e : ℕ → ℝ) (hb : ∀ j ≤ k, 0 < b j) (hγ : ∀ j ≤ k, 0 < γ j)
    (ht0 : t 0 = 1) (he0 : e 0 = 1 / γ 0)
    (ht : ∀ j, t (j + 1) = t j - b j * e j) (he : ∀ j, e (j + 1) = e j + t (j + 1) / γ (j + 1)) :
    0 < (∑ j ∈ Finset.range (k + 1), b j) * (∑ j ∈ Finset.range (k + 1), b j * e j ^ 2) +
      (∑ j ∈ Finset.range (k + 1), b j * e j) - (∑ j ∈ Finset.range (k + 1), b j * e j) ^ 2 := by
  set S := ∑ j ∈ Finset.range (k + 1), b j * e j with hS
  set U := ∑ j ∈ Finset.range (k + 1), b j * |e j| with hU
  set B := ∑ j ∈ Finset.range (k + 1), b j with hB
  set V := ∑ j ∈ Finset.range (k + 1), b j * e j ^ 2 with hV
  have hb' : ∀ j ∈ Finset.range (k + 1), 0 < b j := fun j hj =>
    hb j (Nat.lt_succ_iff.1 (Finset.mem_range.1 hj))
  have hCS : U ^ 2 ≤ B * V := by
    refine Finset.sum_sq_le_sum_mul_sum_of_sq_le_mul _ (fun j hj => (hb' j hj).le)
      (fun j hj => mul_nonneg (hb' j hj).le (sq_nonneg _)) fun j _ => ?_
    rw [mul_pow, sq_abs]
    exact le_of_eq (by ring)
  have he0pos : 0 < e 0 := by
    rw [he0]
    exact one_div_pos.2 (hγ 0 (Nat.zero_le k))
  have hUpos : 0 < U := by
    refine Finset.sum_pos' (fun j hj => mul_nonneg (hb' j hj).le (abs_nonneg _)) ⟨0, ?_, ?_⟩
    · exact Finset.mem_range.2 (Nat.succ_pos k)
    · exact mul_pos (hb 0 (Nat.zero_le k)) (abs_pos.2 he0pos.ne')
  have hSU : |S| ≤ U := by
    refine (Finset.abs_sum_le_sum_abs _ _).trans (le_of_eq ?_)
    refine Finset.sum_congr rfl fun j hj => ?_
    rw [abs_mul, abs_of_pos (hb' j hj)]
  have hS2 : S ^ 2 ≤ U ^ 2 := by
    rw [← sq_abs S]
    exact pow_le_pow_left₀ (abs_nonneg S) hSU 2
  rcases lt_trichotomy S 0 with hneg | hzero | hpos
  · -- some `e` is negative; before the first one the partial sums exceed 1
    have hex : ∃ j, j ≤ k ∧ e j < 0 := by
      by_contra hcon
      have : 0 ≤ S := Finset.sum_nonneg fun j hj => by
        refine mul_nonneg (hb' j hj).le ?_
        by_contra h
        exact hcon ⟨j, Nat.lt_succ_iff.1 (Finset.mem_range.1 hj), not_le.1 h⟩
      linarith
    classical
    have hj := Nat.find_spec hex
    have hmin : ∀ i < Nat.find hex, 0 ≤ e i := fun i hi => by
      by_contra h
      exact Nat.find_min hex hi ⟨hi.le.trans hj.1, not_le.1 h⟩
    generalize Nat.find hex = j at hj hmin
    cases j with
    | zero => linarith [hj.2]
    | succ j =>
      have htneg : t (j + 1) < 0 := by
        have h1 := hmin j (Nat.lt_succ_self j)
        have h2 := he j
        have h3 : t (j + 1) / γ (j + 1) < 0 := by linarith [hj.2]
        by_contra h
        have := div_nonneg (not_lt.1 h) (hγ (j + 1) hj.1).le
        linarith
      have htsum : ∀ i, t i = 1 - ∑ l ∈ Finset.range i, b l * e l := by
        intro i
        induction i with
        | zero => simp [ht0]
        | succ i ih => rw [ht, ih, Finset.sum_range_succ]; ring
      rw [htsum] at htneg
      have hle : 2 * ∑ l ∈ Finset.range (j + 1), b l * e l ≤ U + S := by
        rw [hU, hS, ← Finset.sum_add_distrib, Finset.mul_sum]
        have hsub : Finset.range (j + 1) ⊆ Finset.range (k + 1) := by
          intro i hi
          rw [Finset.mem_range] at hi ⊢
          omega
        refine le_trans (Finset.sum_le_sum fun l hl => ?_)
          (Finset.sum_le_sum_of_subset_of_nonneg hsub fun l hl _ => ?_)
        · rw [abs_of_nonneg (hmin l (Finset.mem_range.1 hl))]
          linarith
        · have := neg_abs_le (e l)
          nlinarith [(hb' l hl)]
      nlinarith [abs_of_neg hneg]
  · rw [hzero] at hS2 ⊢
    have : 0 < U ^ 2 := by positivity
    nlinarith
  · nlinarith

/-- `treeInner · w` as a linear functional. -/
def ti (w : K → ℝ) : (K → ℝ) →ₗ[ℝ] ℝ where
  toFun v := treeInner v w
  map_add' a b := by
    have := treeInner_add_left a b w 1
    simp only [one_mul] at this
    exact this
  map_smul' c a := by
    have := treeInner_add_left 0 a w c
    have h0 : treeInner (0 : K → ℝ) w = 0 := by simp [treeInner]
    rw [h0, zero_add] at this
    simp only [Pi.zero_apply, zero_add] at this
    exact this

theorem ti_apply (w v : K → ℝ) : ti w v = treeInner v w := rfl

variable (L : (K → ℝ) →ₗ[ℝ] (K → ℝ))

/-- The span of the first `n` directions of conjugate gradients. -/
def dirSpan (s : CG K) (n : ℕ) : Submodule ℝ (K → ℝ) :=
  Submodule.span ℝ (Set.range fun i : Fin n => (cgSeq L s i).p)

/-- Its image under `1 - L`. -/
def imgSpan (s : CG K) (n : ℕ) : Submodule ℝ (K → ℝ) :=
  (dirSpan L s n).map (LinearMap.id - L)

variable {L}

theorem dir_mem {s : CG K} {n i : ℕ} (h : i < n) : (cgSeq L s i).p ∈ dirSpan L s n :=
  Submodule.subset_span ⟨⟨i, h⟩, rfl⟩

theorem dirSpan_mono (s : CG K) {m n : ℕ} (h : m ≤ n) : dirSpan L s m ≤ dirSpan L s n := by
  refine Submodule.span_le.2 ?_
  rintro _ ⟨i, rfl⟩
  exact dir_mem (i.2.trans_le h)

theorem imgSpan_mono (s : CG K) {m n : ℕ} (h : m ≤ n) : imgSpan L s m ≤ imgSpan L s n :=
  Submodule.map_mono (dirSpan_mono s h)

theorem finrank_imgSpan (s : CG K) (n : ℕ) : Module.finrank ℝ (imgSpan L s n) ≤ n := by
  refine (Submodule.finrank_map_le _ _).trans ?_
  refine (finrank_range_le_card (R := ℝ) fun i : Fin n => (cgSeq L s i).p).trans ?_
  rw [Fintype.card_fin]

/-- residuals in terms of directions -/
theorem res_mem {b : K → ℝ} {s : CG K} (hs : Start L b s) {n i : ℕ} (h : i < n) :
    (cgSeq L s i).r ∈ dirSpan L s n := by
  cases i with
  | zero =>
    have : (cgSeq L s 0).r = (cgSeq L s 0).p := hs.dir.symm
    rw [this]
    exact dir_mem h
  | succ i =>
    have : (cgSeq L s (i + 1)).r = (cgSeq L s (i + 1)).p -
        ((cgSeq L s (i + 1)).gamma / (cgSeq L s i).gamma) • (cgSeq L s i).p := by
      funext k
      show _ = ((cgSeq L s (i + 1)).r k + _ * (cgSeq L s i).p k) - _
      exact (add_sub_cancel_right _ _).symm
    rw [this]
    exact Submodule.sub_mem _ (dir_mem h)
      (Submodule.smul_mem _ _ (dir_mem (Nat.lt_of_succ_lt h)))

/-- The step length. -/
noncomputable def stepLen (L : (K → ℝ) →ₗ[ℝ] (K → ℝ)) (s : CG K) (i : ℕ) : ℝ :=
  (cgSeq L s i).gamma / treeInner (cgSeq L s i).p (L (cgSeq L s i).p)

theorem res_succ (s : CG K) (i : ℕ) :
    (cgSeq L s (i + 1)).r = (cgSeq L s i).r - stepLen L s i • L (cgSeq L s i).p := rfl

theorem x_succ (s : CG K) (i : ℕ) :
    (cgSeq L s (i + 1)).x = (cgSeq L s i).x + stepLen L s i • (cgSeq L s i).p := rfl

theorem p_succ (s : CG K) (i : ℕ) :
    (cgSeq L s (i + 1)).p = (cgSeq L s (i + 1)).r +
      ((cgSeq L s (i + 1)).gamma / (cgSeq L s i).gamma) • (cgSeq L s i).p := rfl

theorem apply_dir {s : CG K} {i : ℕ} (ha : stepLen L s i ≠ 0) :
    L (cgSeq L s i).p = (stepLen L s i)⁻¹ • ((cgSeq L s i).r - (cgSeq L s (i + 1)).r) := by
  rw [res_succ, sub_sub_cancel, smul_smul, inv_mul_cancel₀ ha, one_smul]

/-- `L` maps the span of `n` directions into the span of `n + 1`. -/
theorem apply_dirSpan {b : K → ℝ} {s : CG K} (hs : Start L b s) {n : ℕ}
    (ha : ∀ i < n, stepLen L s i ≠ 0) : ∀ v ∈ dirSpan L s n, L v ∈ dirSpan L s (n + 1) := by
  intro v hv
  have : dirSpan L s n ≤ (dirSpan L s (n + 1)).comap L := by
    refine Submodule.span_le.2 ?_
    rintro _ ⟨i, rfl⟩
    show L (cgSeq L s i).p ∈ dirSpan L s (n + 1)
    rw [apply_dir (ha i i.2)]
    exact Submodule.smul_mem _ _ (Submodule.sub_mem _ (res_mem hs (Nat.lt_succ_of_lt i.2))
      (res_mem hs (Nat.succ_lt_succ i.2)))
  exact this hv

omit [Fintype K] in
theorem apply_imgSpan {V W : Submodule ℝ (K → ℝ)} (h : ∀ v ∈ V, L v ∈ W) :
    ∀ v ∈ V.map (LinearMap.id - L), L v ∈ W.map (LinearMap.id - L) := by
  rintro _ ⟨u, hu, rfl⟩
  refine ⟨L u, h u hu, ?_⟩
  simp [map_sub]

section

variable {g : K → ℝ} {s c : CG K}

/-- Residuals, directions and corrections of the run which starts at `g` lie in the images of the
directions of the run which starts at 0. -/
theorem run_mem (hs : Start L g s) (hs0 : s.r = g) (hc : Start L g c) (hcx : c.x = g) (m : ℕ)
    (ha : ∀ i < m, stepLen L s i ≠ 0) : ∀ i ≤ m,
    (cgSeq L c i).r ∈ imgSpan L s (i + 1) ∧ (cgSeq L c i).p ∈ imgSpan L s (i + 1) ∧
      (cgSeq L c i).x - g ∈ imgSpan L s i := by
  intro i
  induction i with
  | zero =>
    intro _
    have hr : (cgSeq L c 0).r ∈ imgSpan L s 1 := by
      refine ⟨(cgSeq L s 0).p, dir_mem Nat.one_pos, ?_⟩
      show s.p - L s.p = c.r
      rw [hs.dir, hs0, hc.res, hcx]
      rfl
    refine ⟨hr, ?_, ?_⟩
    · have : (cgSeq L c 0).p = (cgSeq L c 0).r := hc.dir
      rw [this]
      exact hr
    · show c.x - g ∈ _
      rw [hcx, sub_self]
      exact Submodule.zero_mem _
  | succ i ih =>
    intro hi
    obtain ⟨h1, h2, h3⟩ := ih (Nat.le_of_succ_le hi)
    have hLp : L (cgSeq L c i).p ∈ imgSpan L s (i + 2) :=
      apply_imgSpan (apply_dirSpan hs fun j hj => ha j (by omega)) _ h2
    have hr : (cgSeq L c (i + 1)).r ∈ imgSpan L s (i + 2) := by
      rw [res_succ]
      exact Submodule.sub_mem _ (imgSpan_mono s (Nat.le_succ _) h1) (Submodule.smul_mem _ _ hLp)
    refine ⟨hr, ?_, ?_⟩
    · rw [p_succ]
      exact Submodule.add_mem _ hr
        (Submodule.smul_mem _ _ (imgSpan_mono s (Nat.le_succ _) h2))
    · rw [x_succ, add_sub_right_comm]
      exact Submodule.add_mem _ (imgSpan_mono s (Nat.le_succ _) h3) (Submodule.smul_mem _ _ h2)

/-- If the run from 0 has ended after at most `k` steps, so has the run from `g`. -/
theorem run_ends (hM : SPD L) (hs : Start L g s) (hs0 : s.r = g) (hc : Start L g c)
    (hcx : c.x = g) {m k : ℕ} (hmk : m ≤ k) (hpos : ∀ i < m, 0 < (cgSeq L s i).gamma)
    (hend : (cgSeq L s m).gamma = 0) (hk : ∀ i < k, 0 < (cgSeq L c i).gamma) :
    (cgSeq L c k).gamma = 0 := by
  have ha : ∀ i < m, stepLen L s i ≠ 0 := fun i hi =>
    (div_pos (hpos i hi) ((cgSeq_inv hM hs m hpos i hi.le).pos hM (hpos i hi))).ne'
  have hinvar : ∀ v ∈ dirSpan L s m, L v ∈ dirSpan L s m := by
    intro v hv
    have : dirSpan L s m ≤ (dirSpan L s m).comap L := by
      refine Submodule.span_le.2 ?_
      rintro _ ⟨i, rfl⟩
      show L (cgSeq L s i).p ∈ dirSpan L s m
      rw [apply_dir (ha i i.2)]
      refine Submodule.smul_mem _ _ (Submodule.sub_mem _ (res_mem hs i.2) ?_)
      rcases Nat.lt_or_ge ((i : ℕ) + 1) m with h | h
      · exact res_mem hs h
      · have him : (i : ℕ) + 1 = m := le_antisymm i.2 h
        rw [him]
        rw [cgSeq_gamma hs, treeInner_self_eq_zero] at hend
        rw [hend]
        exact Submodule.zero_mem _
    exact this hv
  have himg := apply_imgSpan hinvar
  have hm : 0 < m ∨ g = 0 := by
    rcases Nat.eq_zero_or_pos m with h | h
    · right
      subst h
      have : treeInner s.r s.r = 0 := by
        rw [← hs.gam]
        exact hend
      rw [treeInner_self_eq_zero, hs0] at this
      exact this
    · exact Or.inl h
  have hmem : ∀ i, (cgSeq L c i).r ∈ imgSpan L s m ∧ (cgSeq L c i).p ∈ imgSpan L s m := by
    intro i
    induction i with
    | zero =>
      have hr : (cgSeq L c 0).r ∈ imgSpan L s m := by
        have hr0 : (cgSeq L c 0).r = g - L g := by
          show c.r = _
          rw [hc.res, hcx]
          rfl
        rcases hm with h | h
        · refine ⟨(cgSeq L s 0).p, dir_mem h, ?_⟩
          rw [hr0]
          show s.p - L s.p = _
          rw [hs.dir, hs0]
        · rw [hr0, h, map_zero, sub_zero]
          exact Submodule.zero_mem _
      refine ⟨hr, ?_⟩
      have : (cgSeq L c 0).p = (cgSeq L c 0).r := hc.dir
      rw [this]
      exact hr
    | succ i ih =>
      have hr : (cgSeq L c (i + 1)).r ∈ imgSpan L s m := by
        rw [res_succ]
        exact Submodule.sub_mem _ ih.1 (Submodule.smul_mem _ _ (himg _ ih.2))
      refine ⟨hr, ?_⟩
      rw [p_succ]
      exact Submodule.add_mem _ hr (Submodule.smul_mem _ _ ih.2)
  by_contra hne
  have hgk : ∀ i < k + 1, 0 < (cgSeq L c i).gamma := by
    intro i hi
    rcases Nat.lt_succ_iff_lt_or_eq.1 hi with h | rfl
    · exact hk i h
    · refine lt_of_le_of_ne ?_ (Ne.symm hne)
      rw [cgSeq_gamma hc]
      exact treeInner_self_nonneg _
  have hli := cgSeq_linearIndependent hM hc (k + 1) hgk
  have h1 := finrank_span_eq_card hli
  rw [Fintype.card_fin] at h1
  have h2 : Submodule.span ℝ (Set.range fun i : Fin (k + 1) => (cgSeq L c i).r) ≤
      imgSpan L s m := by
    refine Submodule.span_le.2 ?_
    rintro _ ⟨i, rfl⟩
    exact (hmem i).1
  have h3 := Submodule.finrank_mono h2
  have h4 := finrank_imgSpan (L := L) s m
  omega

/-- The inner product of `g` with the directions of the run from 0. -/
theorem inner_dir (hM : SPD L) (hs : Start L g s) (hs0 : s.r = g) {k : ℕ}
    (hpos : ∀ i ≤ k, 0 < (cgSeq L s i).gamma) (j : ℕ) (hj : j ≤ k) :
    treeInner (cgSeq L s j).p g = (cgSeq L s j).gamma := by
  induction j with
  | zero =>
    show treeInner s.p g = s.gamma
    rw [hs.dir, hs.gam, hs0]
  | succ j ih =>
    have hinv := cgSeq_inv hM hs (j + 1) (fun i hi => hpos i (by omega)) (j + 1) le_rfl
    have h0 : treeInner (cgSeq L s (j + 1)).r g = 0 := by
      have := hinv.rr 0 (Nat.succ_pos j)
      have hg : (cgSeq L s 0).r = g := hs0
      rw [hg] at this
      exact this
    rw [p_succ, ← ti_apply, map_add, map_smul, ti_apply, ti_apply, ih (Nat.le_of_succ_le hj), h0,
      zero_add, smul_eq_mul, div_mul_cancel₀ _ (hpos j (Nat.le_of_succ_le hj)).ne']

/-- The values at 1 of the residual polynomials (first) and, divided by the squared residuals, of
the direction polynomials (second) of the run from 0. -/
noncomputable def vals (L : (K → ℝ) →ₗ[ℝ] (K → ℝ)) (s : CG K) : ℕ → ℝ × ℝ
  | 0 => (1, 1 / (cgSeq L s 0).gamma)
  | j + 1 =>
    let t := (vals L s j).1 - stepLen L s j * (cgSeq L s j).gamma * (vals L s j).2
    (t, (vals L s j).2 + t / (cgSeq L s (j + 1)).gamma)

/-- The main case. -/
theorem run_positive (hM : SPD L) (hs : Start L g s) (hs0 : s.r = g) (hsx : s.x = 0)
    (hc : Start L g c) (hcx : c.x = g) {k : ℕ} (hpos : ∀ i ≤ k, 0 < (cgSeq L s i).gamma)
    (hk : ∀ i < k, 0 < (cgSeq L c i).gamma) : 0 < treeInner g (cgSeq L c k).x := by
  -- the run from 0
  have hinv := cgSeq_inv hM hs (k + 1) fun i hi => hpos i (Nat.lt_succ_iff.1 hi)
  set q := fun j => (cgSeq L s j).p with hq
  set ρ := fun j => (cgSeq L s j).r with hρ
  set γ := fun j => (cgSeq L s j).gamma with hγ
  set α := stepLen L s with hα
  set δ := fun j => treeInner (q j) (L (q j)) with hδ
  set t := fun j => (vals L s j).1 with ht
  set e := fun j => (vals L s j).2 with he
  have hδpos : ∀ j ≤ k, 0 < δ j := fun j hj => (hinv j (by omega)).pos hM (hpos j hj)
  have hαpos : ∀ j ≤ k, 0 < α j := fun j hj => div_pos (hpos j hj) (hδpos j hj)
  have hαδ : ∀ j ≤ k, α j * δ j = γ j := fun j hj => div_mul_cancel₀ _ (hδpos j hj).ne'
  have ht1 : ∀ j, t (j + 1) = t j - α j * γ j * e j := fun _ => rfl
  have he1 : ∀ j, e (j + 1) = e j + t (j + 1) / γ (j + 1) := fun _ => rfl
  have hosc := oscillation k (fun j => α j * γ j) γ t e
    (fun j hj => mul_pos (hαpos j hj) (hpos j hj)) hpos rfl rfl ht1 he1
  set B := ∑ j ∈ Finset.range (k + 1), α j * γ j with hB
  set V := ∑ j ∈ Finset.range (k + 1), α j * γ j * e j ^ 2 with hV
  set S := ∑ j ∈ Finset.range (k + 1), α j * γ j * e j with hS
  have hVpos : 0 < V := by
    refine Finset.sum_pos' (fun j hj => ?_) ⟨0, Finset.mem_range.2 (Nat.succ_pos k), ?_⟩
    · have hj := Nat.lt_succ_iff.1 (Finset.mem_range.1 hj)
      exact mul_nonneg (mul_pos (hαpos j hj) (hpos j hj)).le (sq_nonneg _)
    · have h0 := hpos 0 (Nat.zero_le k)
      refine mul_pos (mul_pos (hαpos 0 (Nat.zero_le k)) h0) (pow_pos ?_ 2)
      exact one_div_pos.2 h0
  -- conjugacy
  have hconj : ∀ i ≤ k, ∀ j ≤ k, i ≠ j → treeInner (q i) (L (q j)) = 0 := by
    intro i hi j hj hij
    rcases lt_or_gt_of_ne hij with h | h
    · rw [hM.symm, treeInner_comm]
      exact (hinv j (by omega)).pAp i h
    · exact (hinv i (by omega)).pAp j h
  -- the kernel vector
  set h := ∑ j ∈ Finset.range (k + 1), (γ j * e j / δ j) • q j with hh
  have hhq : ∀ i ≤ k, treeInner h (L (q i)) = γ i * e i := by
    intro i hi
    rw [hh, ← ti_apply, map_sum, Finset.sum_eq_single i]
    · rw [map_smul, ti_apply, smul_eq_mul, div_mul_cancel₀ _ (hδpos i hi).ne']
    · intro j hj hji
      rw [map_smul, ti_apply, hconj j (Nat.lt_succ_iff.1 (Finset.mem_range.1 hj)) i hi hji,
        smul_zero]
    · intro hni
      exact absurd (Finset.mem_range.2 (Nat.lt_succ_of_le hi)) hni
  have hρ0 : ρ 0 = g := hs0
  have hq0 : q 0 = g := hs.dir.trans hs0
  have hhρ : ∀ i ≤ k, treeInner h (L (ρ i)) = t i := by
    intro i hi
    cases i with
    | zero =>
      have : ρ 0 = q 0 := hs.dir.symm
      rw [this, hhq 0 hi]
      show γ 0 * (1 / γ 0) = 1
      exact mul_one_div_cancel (hpos 0 hi).ne'
    | succ i =>
      have hi' : i ≤ k := Nat.le_of_succ_le hi
      have hp : ρ (i + 1) = q (i + 1) - (γ (i + 1) / γ i) • q i := by
        have : q (i + 1) = ρ (i + 1) + (γ (i + 1) / γ i) • q i := rfl
        rw [this, add_sub_cancel_right]
      rw [hp, map_sub, map_smul, treeInner_comm, ← ti_apply, map_sub, map_smul, ti_apply, ti_apply,
        treeInner_comm, treeInner_comm (L (q i)), hhq _ hi, hhq _ hi', he1, smul_eq_mul]
      have h1 := (hpos (i + 1) hi).ne'
      have h2 := (hpos i hi').ne'
      change γ (i + 1) ≠ 0 at h1
      change γ i ≠ 0 at h2
      field_simp
      ring
  have hLq : ∀ i ≤ k, L (q i) = (α i)⁻¹ • (ρ i - ρ (i + 1)) := fun i hi =>
    apply_dir (hαpos i hi).ne'
  have hhLq : ∀ i < k, treeInner h (L (L (q i))) = γ i * e i := by
    intro i hi
    have ha := (hαpos i hi.le).ne'
    rw [hLq i hi.le, map_smul, map_sub, treeInner_comm, ← ti_apply, map_smul, map_sub, ti_apply,
      ti_apply, treeInner_comm, treeInner_comm (L (ρ (i + 1))), hhρ i hi.le, hhρ (i + 1) hi, ht1,
      smul_eq_mul]
    field_simp
    ring
  -- the image space is conjugate to the kernel vector
  have hWmem : ∀ i < k, q i - L (q i) ∈ imgSpan L s k := fun i hi => ⟨q i, dir_mem hi, rfl⟩
  have hWspan : ∀ f : (K → ℝ) →ₗ[ℝ] ℝ, (∀ i < k, f (q i - L (q i)) = 0) →
      ∀ w ∈ imgSpan L s k, f w = 0 := by
    intro f hf
    rintro _ ⟨u, hu, rfl⟩
    have : dirSpan L s k ≤ LinearMap.ker (f ∘ₗ (LinearMap.id - L)) := by
      refine Submodule.span_le.2 ?_
      rintro _ ⟨i, rfl⟩
      exact hf i i.2
    exact this hu
  have hhW : ∀ w ∈ imgSpan L s k, treeInner w (L h) = 0 := by
    refine hWspan (ti (L h)) fun i hi => ?_
    rw [map_sub, ti_apply, ti_apply, treeInner_comm, treeInner_comm (L (q i)), ← hM.symm,
      ← hM.symm, hhq i hi.le, hhLq i hi, sub_self]
  -- the candidate
  set y := ∑ j ∈ Finset.range (k + 1), α j • q j with hy
  set z := y + ((1 - S) / V) • h with hz
  have hyx : ∀ m, (cgSeq L s m).x = ∑ j ∈ Finset.range m, α j • q j := by
    intro m
    induction m with
    | zero => exact hsx
    | succ m ih => rw [x_succ, Finset.sum_range_succ, ih]
  have hres : g - L y = ρ (k + 1) := by
    rw [hy, ← hyx]
    exact (cgSeq_residual hM hs (k + 1)).symm
  have hρW : ∀ w ∈ imgSpan L s k, treeInner w (ρ (k + 1)) = 0 := by
    refine hWspan (ti (ρ (k + 1))) fun i hi => ?_
    have hI := hinv (k + 1) le_rfl
    rw [map_sub, hLq i hi.le, map_smul, map_sub]
    simp only [ti_apply]
    rw [treeInner_comm, treeInner_comm (ρ i), treeInner_comm (ρ (i + 1)), hI.rp i (by omega),
      hI.rr i (by omega), hI.rr (i + 1) (by omega)]
    simp
  have hzW : ∀ w ∈ imgSpan L s k, treeInner w (g - L z) = 0 := by
    intro w hw
    have : g - L z = ρ (k + 1) - ((1 - S) / V) • L h := by
      rw [hz, map_add, map_smul, ← hres]
      abel
    rw [this, treeInner_comm, ← ti_apply, map_sub, map_smul, ti_apply, ti_apply, treeInner_comm,
      hρW w hw, treeInner_comm, hhW w hw]
    simp
  -- `z - g` is in the image space
  have hqW : ∀ i ≤ k, (∃ a : ℝ, q i - a • g ∈ imgSpan L s k) ∧
      ∃ a : ℝ, ρ i - a • g ∈ imgSpan L s k := by
    intro i
    induction i with
    | zero =>
      intro _
      refine ⟨⟨1, ?_⟩, ⟨1, ?_⟩⟩
      · rw [hq0, one_smul, sub_self]; exact Submodule.zero_mem _
      · rw [hρ0, one_smul, sub_self]; exact Submodule.zero_mem _
    | succ i ih =>
      intro hi
      obtain ⟨⟨a, ha⟩, ⟨a', ha'⟩⟩ := ih (Nat.le_of_succ_le hi)
      have hr : ρ (i + 1) - (a' - α i * a) • g ∈ imgSpan L s k := by
        have : ρ (i + 1) - (a' - α i * a) • g =
            (ρ i - a' • g) - α i • (q i - a • g) + α i • (q i - L (q i)) := by
          have h1 : ρ (i + 1) = ρ i - α i • L (q i) := rfl
          rw [h1]
          module
        rw [this]
        exact Submodule.add_mem _ (Submodule.sub_mem _ ha' (Submodule.smul_mem _ _ ha))
          (Submodule.smul_mem _ _ (hWmem i hi))
      refine ⟨⟨(a' - α i * a) + (γ (i + 1) / γ i) * a, ?_⟩, ⟨_, hr⟩⟩
      have : q (i + 1) - ((a' - α i * a) + (γ (i + 1) / γ i) * a) • g =
          (ρ (i + 1) - (a' - α i * a) • g) + (γ (i + 1) / γ i) • (q i - a • g) := by
        have h1 : q (i + 1) = ρ (i + 1) + (γ (i + 1) / γ i) • q i := rfl
        rw [h1]
        module
      rw [this]
      exact Submodule.add_mem _ hr (Submodule.smul_mem _ _ ha)
  have hsumW : ∀ f : ℕ → ℝ, ∃ a : ℝ,
      (∑ j ∈ Finset.range (k + 1), f j • q j) - a • g ∈ imgSpan L s k := by
    intro f
    have : ∀ m ≤ k + 1, ∃ a : ℝ,
        (∑ j ∈ Finset.range m, f j • q j) - a • g ∈ imgSpan L s k := by
      intro m
      induction m with
      | zero => exact fun _ => ⟨0, by simp⟩
      | succ m ih =>
        intro hm
        obtain ⟨a, ha⟩ := ih (Nat.le_of_succ_le hm)
        obtain ⟨a', ha'⟩ := (hqW m (Nat.lt_succ_iff.1 hm)).1
        refine ⟨a + f m * a', ?_⟩
        have : (∑ j ∈ Finset.range (m + 1), f j • q j) - (a + f m * a') • g =
            ((∑ j ∈ Finset.range m, f j • q j) - a • g) + f m • (q m - a' • g) := by
          rw [Finset.sum_range_succ]
          module
        rw [this]
        exact Submodule.add_mem _ ha (Submodule.smul_mem _ _ ha')
    exact this (k + 1) le_rfl
  have hbq : ∀ f : ℕ → ℝ, treeInner (∑ j ∈ Finset.range (k + 1), f j • q j) (L h) =
      ∑ j ∈ Finset.range (k + 1), f j * (γ j * e j) := by
    intro f
    rw [← ti_apply, map_sum]
    refine Finset.sum_congr rfl fun j hj => ?_
    rw [map_smul, ti_apply, hM.symm, treeInner_comm,
      hhq j (Nat.lt_succ_iff.1 (Finset.mem_range.1 hj)), smul_eq_mul]
  have hyh : treeInner y (L h) = S := by
    rw [hy, hbq, hS]
    exact Finset.sum_congr rfl fun j _ => by ring
  have hhh : treeInner h (L h) = V := by
    have : treeInner h (L h) = ∑ j ∈ Finset.range (k + 1), (γ j * e j / δ j) * (γ j * e j) := by
      conv_lhs => rw [show treeInner h (L h) = treeInner
        (∑ j ∈ Finset.range (k + 1), (γ j * e j / δ j) • q j) (L h) from rfl]
      exact hbq _
    rw [this, hV]
    refine Finset.sum_congr rfl fun j hj => ?_
    have hj := Nat.lt_succ_iff.1 (Finset.mem_range.1 hj)
    have h1 := (hδpos j hj).ne'
    rw [← hαδ j hj]
    field_simp
  have hzh : treeInner z (L h) = 1 := by
    rw [hz, ← ti_apply, map_add, map_smul, ti_apply, ti_apply, hyh, hhh, smul_eq_mul,
      div_mul_cancel₀ _ hVpos.ne']
    ring
  have hgh : treeInner g (L h) = 1 := by
    rw [hM.symm, treeInner_comm, ← hρ0, hhρ 0 (Nat.zero_le k)]
    rfl
  have hzg : z - g ∈ imgSpan L s k := by
    obtain ⟨a, ha⟩ := hsumW α
    obtain ⟨a', ha'⟩ := hsumW fun j => γ j * e j / δ j
    have hw : z - (a + (1 - S) / V * a') • g ∈ imgSpan L s k := by
      have : z - (a + (1 - S) / V * a') • g = (y - a • g) + ((1 - S) / V) • (h - a' • g) := by
        rw [hz]
        module
      rw [this]
      exact Submodule.add_mem _ ha (Submodule.smul_mem _ _ ha')
    have h1 := hhW _ hw
    rw [← ti_apply, map_sub, map_smul, ti_apply, ti_apply, hzh, hgh, smul_eq_mul, mul_one,
      sub_eq_zero] at h1
    rw [← h1, one_smul] at hw
    exact hw
  -- the run from `g`
  have hrun := run_mem hs hs0 hc hcx k fun i hi => (hαpos i hi.le).ne'
  have hxg := (hrun k le_rfl).2.2
  have hWeq : Submodule.span ℝ (Set.range fun i : Fin k => (cgSeq L c i).r) = imgSpan L s k := by
    refine Submodule.eq_of_le_of_finrank_le ?_ ?_
    · refine Submodule.span_le.2 ?_
      rintro _ ⟨i, rfl⟩
      exact imgSpan_mono s i.2 (hrun i i.2.le).1
    · rw [finrank_span_eq_card (cgSeq_linearIndependent hM hc k hk), Fintype.card_fin]
      exact finrank_imgSpan s k
  have hcW : ∀ w ∈ imgSpan L s k, treeInner w (cgSeq L c k).r = 0 := by
    intro w hw
    rw [← hWeq] at hw
    have : Submodule.span ℝ (Set.range fun i : Fin k => (cgSeq L c i).r) ≤
        LinearMap.ker (ti (cgSeq L c k).r) := by
      refine Submodule.span_le.2 ?_
      rintro _ ⟨i, rfl⟩
      show treeInner (cgSeq L c i).r (cgSeq L c k).r = 0
      rw [treeInner_comm]
      exact (cgSeq_inv hM hc k hk k le_rfl).rr i i.2
    exact this hw
  -- they agree
  have hxz : (cgSeq L c k).x = z := by
    have hmem : (cgSeq L c k).x - z ∈ imgSpan L s k := by
      have : (cgSeq L c k).x - z = ((cgSeq L c k).x - g) - (z - g) := by abel
      rw [this]
      exact Submodule.sub_mem _ hxg hzg
    by_contra hne
    have h1 := hM.pos ((cgSeq L c k).x - z) (sub_ne_zero.2 hne)
    have h2 : L ((cgSeq L c k).x - z) = (g - L z) - (cgSeq L c k).r := by
      have : (cgSeq L c k).r = g - L (cgSeq L c k).x := cgSeq_residual hM hc k
      rw [this, map_sub]
      abel
    rw [h2, treeInner_comm, ← ti_apply, map_sub, ti_apply, ti_apply, treeInner_comm,
      hzW _ hmem, treeInner_comm, hcW _ hmem, sub_zero] at h1
    exact lt_irrefl _ h1
  have hgq : ∀ f : ℕ → ℝ, treeInner (∑ j ∈ Finset.range (k + 1), f j • q j) g =
      ∑ j ∈ Finset.range (k + 1), f j * γ j := by
    intro f
    rw [← ti_apply, map_sum]
    refine Finset.sum_congr rfl fun j hj => ?_
    rw [map_smul, ti_apply, smul_eq_mul]
    congr 1
    exact inner_dir hM hs hs0 hpos j (Nat.lt_succ_iff.1 (Finset.mem_range.1 hj))
  have hgy : treeInner y g = B := hgq α
  have hghh : treeInner h g = S := by
    rw [show treeInner h g = ∑ j ∈ Finset.range (k + 1), (γ j * e j / δ j) * γ j from hgq _, hS]
    refine Finset.sum_congr rfl fun j hj => ?_
    have hj := Nat.lt_succ_iff.1 (Finset.mem_range.1 hj)
    have h1 := (hδpos j hj).ne'
    rw [← hαδ j hj]
    field_simp
  have hfinal : treeInner g (cgSeq L c k).x = (B * V + S - S ^ 2) / V := by
    rw [hxz, treeInner_comm, hz, ← ti_apply, map_add, map_smul, ti_apply, ti_apply, hgy, hghh,
      smul_eq_mul]
    field_simp
    ring
  rw [hfinal]
  exact div_pos hosc hVpos

end

/-- Every iterate of conjugate gradients started at the right-hand side `g` has a positive inner
product with `g`. -/
theorem cgSeq_inner_pos {M : (K → ℝ) → K → ℝ} (hM : SPD M) {g : K → ℝ} (hg : g ≠ 0) {c : CG K}
    (hc : Start M g c) (hcx : c.x = g) {k : ℕ} (hk : ∀ i < k, 0 < (cgSeq M c i).gamma) :
    0 < treeInner g (cgSeq M c k).x := by
  have h0 : M 0 = 0 := by
    have := hM.lin 0 0 1
    simp only [Pi.zero_apply, mul_zero, add_zero, one_mul] at this
    funext k
    have h2 := congrFun this k
    have h3 : (fun _ => (0 : ℝ)) = (0 : K → ℝ) := rfl
    rw [h3] at h2
    simpa using h2
  obtain ⟨L, rfl⟩ : ∃ L : (K → ℝ) →ₗ[ℝ] (K → ℝ), ⇑L = M :=
    ⟨{ toFun := M
       map_add' := fun a b => by
         have := hM.lin a b 1
         simp only [one_mul] at this
         exact this
       map_smul' := fun t b => by
         have := hM.lin 0 b t
         rw [h0] at this
         simp only [Pi.zero_apply, zero_add] at this
         exact this }, rfl⟩
  let s : CG K := ⟨0, g, treeInner g g, g⟩
  have hs : Start L g s := by
    refine ⟨?_, rfl, rfl⟩
    funext j
    show g j = g j - L 0 j
    rw [map_zero]
    simp
  by_cases hpos : ∀ i ≤ k, 0 < (cgSeq L s i).gamma
  · exact run_positive hM hs rfl rfl hc hcx hpos hk
  · have hex : ∃ m, m ≤ k ∧ (cgSeq L s m).gamma = 0 := by
      by_contra hcon
      refine hpos fun i hi => lt_of_le_of_ne ?_ fun h => hcon ⟨i, hi, h.symm⟩
      rw [cgSeq_gamma hs]
      exact treeInner_self_nonneg _
    classical
    have hm := Nat.find_spec hex
    have hmin : ∀ i < Nat.find hex, 0 < (cgSeq L s i).gamma := fun i hi => by
      refine lt_of_le_of_ne ?_ fun h => Nat.find_min hex hi ⟨hi.le.trans hm.1, h.symm⟩
      rw [cgSeq_gamma hs]
      exact treeInner_self_nonneg _
    have hend := run_ends hM hs rfl hc hcx hm.1 hmin hm.2 hk
    rw [cgSeq_gamma hc, treeInner_self_eq_zero, cgSeq_residual hM hc] at hend
    have hx : L (cgSeq L c k).x = g := by
      funext j
      have := congrFun hend j
      simp only [Pi.zero_apply] at this
      linarith
    have hne : (cgSeq L c k).x ≠ 0 := by
      intro h
      rw [h, map_zero] at hx
      exact hg hx.symm
    have := hM.pos _ hne
    rw [hx, treeInner_comm] at this
    exact this

end Verif.Updates
