import Verif.Props.NaturalGradient
import Mathlib.Topology.Algebra.Order.Field
import Mathlib.Topology.Instances.Matrix
import Mathlib.Analysis.Real.Sqrt

/-! Conjugate gradients for matrices and right-hand sides which converge. -/

namespace Verif.Updates
open Filter Topology Verif.Spec Verif.Props

variable {K : Type*} [Fintype K]

theorem cgSeq_step_decreases {M : (K → ℝ) → K → ℝ} (hM : SPD M) {b : K → ℝ} {s : CG K}
    (hs : Start M b s) {i j : ℕ} (hij : i ≤ j) (hg : ∀ i < j, 0 < (cgSeq M s i).gamma) :
    treeInner (cgSeq M s j).x (M (cgSeq M s j).x) / 2 - treeInner b (cgSeq M s j).x ≤
      treeInner (cgSeq M s i).x (M (cgSeq M s i).x) / 2 - treeInner b (cgSeq M s i).x := by
  induction j, hij using Nat.le_induction with
  | base => exact le_rfl
  | succ j hij ih =>
    refine le_trans ?_ (ih fun i hi => hg i (Nat.lt_succ_of_lt hi))
    have hgj := hg j (Nat.lt_succ_self j)
    have hinv := cgSeq_inv hM hs j (fun i hi => hg i (Nat.lt_succ_of_lt hi)) j le_rfl
    have hpos := hinv.pos hM hgj
    have hrp := hinv.rpj
    rw [cgSeq_residual hM hs j] at hrp
    have hsub : treeInner (fun k => b k - M (cgSeq M s j).x k) (cgSeq M s j).p =
        treeInner b (cgSeq M s j).p - treeInner (M (cgSeq M s j).x) (cgSeq M s j).p := by
      have := treeInner_sub_left b (M (cgSeq M s j).x) (cgSeq M s j).p 1
      simpa using this
    rw [hsub] at hrp
    show treeInner (fun k => (cgSeq M s j).x k + _ * (cgSeq M s j).p k)
      (M (fun k => (cgSeq M s j).x k + _ * (cgSeq M s j).p k)) / 2 -
      treeInner b (fun k => (cgSeq M s j).x k + _ * (cgSeq M s j).p k) ≤ _
    set a := (cgSeq M s j).gamma / treeInner (cgSeq M s j).p (M (cgSeq M s j).p) with ha
    have haq : a * treeInner (cgSeq M s j).p (M (cgSeq M s j).p) = (cgSeq M s j).gamma :=
      div_mul_cancel₀ _ hpos.ne'
    have hapos : 0 < a := div_pos hgj hpos
    rw [hM.lin, treeInner_add_left, treeInner_add_right, treeInner_add_right, treeInner_add_right]
    have h1 : treeInner (cgSeq M s j).x (M (cgSeq M s j).p) =
        treeInner (M (cgSeq M s j).x) (cgSeq M s j).p := hM.symm _ _
    have h2 : treeInner (cgSeq M s j).p (M (cgSeq M s j).x) =
        treeInner (M (cgSeq M s j).x) (cgSeq M s j).p := treeInner_comm _ _
    rw [h1, h2]
    nlinarith [mul_pos hapos hgj]

/-- The distance between two iterates is bounded by the residual of the earlier one. -/
theorem cgSeq_dist {M : (K → ℝ) → K → ℝ} (hM : SPD M) {lam : ℝ} (hlam : 0 < lam)
    (hlow : ∀ a, lam * treeInner a a ≤ treeInner a (M a)) {b : K → ℝ} {s : CG K}
    (hs : Start M b s) {i j : ℕ} (hij : i ≤ j) (hg : ∀ i < j, 0 < (cgSeq M s i).gamma) :
    treeInner (fun k => (cgSeq M s j).x k - 1 * (cgSeq M s i).x k)
      (fun k => (cgSeq M s j).x k - 1 * (cgSeq M s i).x k) ≤
      4 / lam ^ 2 * (cgSeq M s i).gamma := by
  have h := cgSeq_step_decreases hM hs hij hg
  have hr := cgSeq_residual hM hs i
  have hgam := cgSeq_gamma hs i
  set x := (cgSeq M s i).x
  set y := (cgSeq M s j).x
  set r := (cgSeq M s i).r
  set e : K → ℝ := fun k => y k - 1 * x k with he
  have hy : y = fun k => x k + 1 * e k := by
    funext k
    simp [he]
  have hb : ∀ a : K → ℝ, treeInner b a = treeInner r a + treeInner (M x) a := fun a => by
    rw [hr]
    unfold treeInner
    rw [← Finset.sum_add_distrib]
    exact Finset.sum_congr rfl fun k _ => by ring
  rw [hy, hM.lin, treeInner_add_left, treeInner_add_right, treeInner_add_right,
    treeInner_add_right, hb e] at h
  have h1 : treeInner x (M e) = treeInner (M x) e := hM.symm _ _
  have h2 : treeInner e (M x) = treeInner (M x) e := treeInner_comm _ _
  rw [h1, h2] at h
  have h3 : treeInner e (M e) ≤ 2 * treeInner r e := by linarith
  have h4 := hlow e
  have h5 : treeInner r e * lam ≤ treeInner r r + lam ^ 2 / 4 * treeInner e e := by
    unfold treeInner
    rw [Finset.sum_mul, Finset.mul_sum, ← Finset.sum_add_distrib]
    refine Finset.sum_le_sum fun k _ => ?_
    nlinarith [sq_nonneg (r k - lam / 2 * e k)]
  rw [hgam, div_mul_eq_mul_div, le_div_iff₀ (by positivity)]
  nlinarith

section limit

variable {ι : Type*} {l : Filter ι} {A : ι → Matrix K K ℝ} {A₀ : Matrix K K ℝ} {g : ι → K → ℝ}
  {g₀ : K → ℝ}

theorem tendsto_treeInner {a b : ι → K → ℝ} {a₀ b₀ : K → ℝ} (ha : ∀ k, Tendsto (fun n => a n k) l (𝓝 (a₀ k)))
    (hb : ∀ k, Tendsto (fun n => b n k) l (𝓝 (b₀ k))) :
    Tendsto (fun n => treeInner (a n) (b n)) l (𝓝 (treeInner a₀ b₀)) :=
  tendsto_finsetSum _ fun k _ => (ha k).mul (hb k)

theorem tendsto_mulVec (hA : ∀ k k', Tendsto (fun n => A n k k') l (𝓝 (A₀ k k'))) {a : ι → K → ℝ}
    {a₀ : K → ℝ} (ha : ∀ k, Tendsto (fun n => a n k) l (𝓝 (a₀ k))) (k : K) :
    Tendsto (fun n => (A n).mulVec (a n) k) l (𝓝 (A₀.mulVec a₀ k)) :=
  tendsto_finsetSum _ fun k' _ => (hA k k').mul (ha k')

/-- States which converge. -/
structure Conv (l : Filter ι) (s : ι → CG K) (s₀ : CG K) : Prop where
  x : ∀ k, Tendsto (fun n => (s n).x k) l (𝓝 (s₀.x k))
  r : ∀ k, Tendsto (fun n => (s n).r k) l (𝓝 (s₀.r k))
  gamma : Tendsto (fun n => (s n).gamma) l (𝓝 s₀.gamma)
  p : ∀ k, Tendsto (fun n => (s n).p k) l (𝓝 (s₀.p k))

/-- As long as the limit has not been solved, the iterates converge. -/
theorem cgSeq_tendsto (hM : SPD A₀.mulVec)
    (hA : ∀ k k', Tendsto (fun n => A n k k') l (𝓝 (A₀ k k')))
    (hg : ∀ k, Tendsto (fun n => g n k) l (𝓝 (g₀ k))) (j : ℕ)
    (hj : ∀ i < j, 0 < (cgSeq A₀.mulVec (startAt A₀ g₀) i).gamma) :
    Conv l (fun n => cgSeq (A n).mulVec (startAt (A n) (g n)) j)
      (cgSeq A₀.mulVec (startAt A₀ g₀) j) := by
  induction j with
  | zero =>
    have hr : ∀ k, Tendsto (fun n => g n k - (A n).mulVec (g n) k) l
        (𝓝 (g₀ k - A₀.mulVec g₀ k)) := fun k => (hg k).sub (tendsto_mulVec hA hg k)
    exact ⟨hg, hr, tendsto_treeInner hr hr, hr⟩
  | succ j ih =>
    have c := ih fun i hi => hj i (Nat.lt_succ_of_lt hi)
    have hgj := hj j (Nat.lt_succ_self j)
    have hpos := (cgSeq_inv hM (startAt_start A₀ g₀) j (fun i hi => hj i (Nat.lt_succ_of_lt hi)) j
      le_rfl).pos hM hgj
    have hAp := fun k => tendsto_mulVec hA c.p k
    have ha := c.gamma.div (tendsto_treeInner c.p hAp) hpos.ne'
    have hr := fun k => (c.r k).sub (ha.mul (hAp k))
    have hgam := tendsto_treeInner hr hr
    exact ⟨fun k => (c.x k).add (ha.mul (c.p k)), hr, hgam,
      fun k => (hr k).add ((hgam.div c.gamma hgj.ne').mul (c.p k))⟩

/-- Near a limit every iterate of conjugate gradients, up to any number of steps, has a positive inner
product with the limit of the right-hand sides. -/
theorem cgSeq_limit_descent {lam : ℝ} (hlam : 0 < lam)
    (hsym : ∀ n k k', A n k k' = A n k' k)
    (hlow : ∀ n a, lam * treeInner a a ≤ treeInner a ((A n).mulVec a))
    (hA : ∀ k k', Tendsto (fun n => A n k k') l (𝓝 (A₀ k k')))
    (hg : ∀ k, Tendsto (fun n => g n k) l (𝓝 (g₀ k))) (h0 : g₀ ≠ 0) (m : ℕ) :
    ∀ᶠ n in l, ∀ j ≤ m, (∀ i < j, 0 < (cgSeq (A n).mulVec (startAt (A n) (g n)) i).gamma) →
      0 < treeInner g₀ (cgSeq (A n).mulVec (startAt (A n) (g n)) j).x := by
  rcases l.eq_or_neBot with rfl | hl
  · simp
  have hpos : ∀ {B : Matrix K K ℝ}, (∀ a, lam * treeInner a a ≤ treeInner a (B.mulVec a)) →
      ∀ a, a ≠ 0 → 0 < treeInner a (B.mulVec a) := fun h a ha =>
    (mul_pos hlam (lt_of_le_of_ne (treeInner_self_nonneg a) fun h =>
      ha (treeInner_self_eq_zero.1 h.symm))).trans_le (h a)
  have hMn : ∀ n, SPD (A n).mulVec := fun n => spd_of_matrix (hsym n) (hpos (hlow n))
  have hM : SPD A₀.mulVec := by
    refine spd_of_matrix (fun k k' => ?_) (hpos fun a => ?_)
    · refine tendsto_nhds_unique (hA k k') ?_
      simpa only [fun n => hsym n k k'] using hA k' k
    · exact ge_of_tendsto' (tendsto_treeInner (fun k => tendsto_const_nhds) fun k =>
        tendsto_mulVec hA (a := fun _ => a) (fun k => tendsto_const_nhds) k) fun n => hlow n a
  have key : ∀ j, ∀ᶠ n in l,
      (∀ i < j, 0 < (cgSeq (A n).mulVec (startAt (A n) (g n)) i).gamma) →
      0 < treeInner g₀ (cgSeq (A n).mulVec (startAt (A n) (g n)) j).x := by
    intro j
    by_cases hj : ∀ i < j, 0 < (cgSeq A₀.mulVec (startAt A₀ g₀) i).gamma
    · have c := cgSeq_tendsto hM hA hg j hj
      have := tendsto_treeInner (fun k => tendsto_const_nhds (x := g₀ k) (f := l)) c.x
      filter_upwards [this.eventually_const_lt
        (cgSeq_inner_pos hM h0 (startAt_start A₀ g₀) rfl hj)] with n hn _ using hn
    · push Not at hj
      classical
      let i := Nat.find hj
      obtain ⟨hij, hi0⟩ := Nat.find_spec hj
      have hlt : ∀ i' < i, 0 < (cgSeq A₀.mulVec (startAt A₀ g₀) i').gamma := fun i' hi' => by
        by_contra h
        exact Nat.find_min hj hi' ⟨hi'.trans hij, not_lt.mp h⟩
      have c := cgSeq_tendsto hM hA hg i hlt
      have hgam : (cgSeq A₀.mulVec (startAt A₀ g₀) i).gamma = 0 := le_antisymm hi0 (by
        rw [cgSeq_gamma (startAt_start A₀ g₀)]
        exact treeInner_self_nonneg _)
      have hin := cgSeq_inner_pos hM h0 (startAt_start A₀ g₀) rfl hlt
      set v := treeInner g₀ (cgSeq A₀.mulVec (startAt A₀ g₀) i).x with hv
      have t1 := tendsto_treeInner (fun k => tendsto_const_nhds (x := g₀ k) (f := l)) c.x
      have t2 := c.gamma
      rw [hgam] at t2
      have hgg : 0 ≤ treeInner g₀ g₀ := treeInner_self_nonneg _
      have t3 : Tendsto (fun n => 4 / lam ^ 2 *
          (cgSeq (A n).mulVec (startAt (A n) (g n)) i).gamma * treeInner g₀ g₀) l (𝓝 0) := by
        simpa using (t2.const_mul (4 / lam ^ 2)).mul_const (treeInner g₀ g₀)
      filter_upwards [t1.eventually_const_lt (half_lt_self hin),
        t3.eventually_lt_const (show 0 < (v / 2) ^ 2 by positivity)] with n h1 h2 hrun
      have hdist := cgSeq_dist (hMn n) hlam (hlow n) (startAt_start (A n) (g n)) hij.le hrun
      set x := (cgSeq (A n).mulVec (startAt (A n) (g n)) i).x
      set y := (cgSeq (A n).mulVec (startAt (A n) (g n)) j).x
      have hcs : treeInner g₀ (fun k => y k - 1 * x k) ^ 2 ≤ treeInner g₀ g₀ *
          treeInner (fun k => y k - 1 * x k) (fun k => y k - 1 * x k) := by
        have := Finset.sum_mul_sq_le_sq_mul_sq Finset.univ g₀ (fun k => y k - 1 * x k)
        simpa only [treeInner, sq] using this
      have h3 : treeInner g₀ (fun k => y k - 1 * x k) ^ 2 < (v / 2) ^ 2 := by
        refine (hcs.trans ?_).trans_lt h2
        rw [mul_comm (treeInner g₀ g₀)]
        exact mul_le_mul_of_nonneg_right hdist hgg
      have h4 := abs_lt_of_sq_lt_sq h3 (by positivity)
      rw [treeInner_sub_right, abs_lt] at h4
      linarith [h4.1]
  have hall : ∀ᶠ n in l, ∀ j : Fin (m + 1),
      (∀ i < j.val, 0 < (cgSeq (A n).mulVec (startAt (A n) (g n)) i).gamma) →
      0 < treeInner g₀ (cgSeq (A n).mulVec (startAt (A n) (g n)) j).x :=
    eventually_all.2 fun j => key j
  filter_upwards [hall] with n hn j hj using hn ⟨j, Nat.lt_succ_of_le hj⟩

end limit

/-- Solutions of equations which converge have a positive inner product with the limit of the
right-hand sides. -/
theorem solve_limit_descent {K ι : Type*} [Fintype K] {l : Filter ι} {A : ι → Matrix K K ℝ}
    {A₀ : Matrix K K ℝ} {b x : ι → K → ℝ} {b₀ : K → ℝ} {lam : ℝ} (hlam : 0 < lam)
    (hlow : ∀ n a, lam * treeInner a a ≤ treeInner a ((A n).mulVec a))
    (hA : ∀ k k', Tendsto (fun n => A n k k') l (𝓝 (A₀ k k')))
    (hb : ∀ k, Tendsto (fun n => b n k) l (𝓝 (b₀ k))) (h0 : b₀ ≠ 0)
    (hx : ∀ᶠ n in l, (A n).mulVec (x n) = b n) :
    ∀ᶠ n in l, 0 < treeInner b₀ (x n) := by
  have hb0 : 0 < treeInner b₀ b₀ :=
    lt_of_le_of_ne (treeInner_self_nonneg b₀) fun h => h0 (treeInner_self_eq_zero.1 h.symm)
  have hF : Tendsto (fun n => ∑ k, ∑ k', A n k k' ^ 2) l (𝓝 (∑ k, ∑ k', A₀ k k' ^ 2)) :=
    tendsto_finsetSum _ fun k _ => tendsto_finsetSum _ fun k' _ => (hA k k').pow 2
  set F := ∑ k, ∑ k', A₀ k k' ^ 2
  have hF0 : 0 ≤ F := Finset.sum_nonneg fun _ _ => Finset.sum_nonneg fun _ _ => sq_nonneg _
  have hbb := tendsto_treeInner hb hb
  have hdiff : Tendsto (fun n => treeInner (fun k => b₀ k - b n k) fun k => b₀ k - b n k) l
      (𝓝 (treeInner (fun k => b₀ k - b₀ k) fun k => b₀ k - b₀ k)) :=
    tendsto_treeInner (fun k => tendsto_const_nhds.sub (hb k)) fun k => tendsto_const_nhds.sub (hb k)
  have hz : treeInner (fun k => b₀ k - b₀ k) (fun k => b₀ k - b₀ k) = 0 := by simp [treeInner]
  rw [hz] at hdiff
  filter_upwards [hF.eventually_lt_const (lt_add_one F), hbb.eventually_const_lt (half_lt_self hb0),
    hdiff.eventually_lt_const (show 0 < lam ^ 2 * (treeInner b₀ b₀ / 2 / (F + 1)) by positivity), hx]
    with n h1 h2 h3 h4
  -- the solution is not small
  have h5 : treeInner (b n) (b n) ≤ (∑ k, ∑ k', A n k k' ^ 2) * treeInner (x n) (x n) := by
    rw [← h4]
    unfold treeInner
    rw [Finset.sum_mul]
    refine Finset.sum_le_sum fun k _ => ?_
    have := Finset.sum_mul_sq_le_sq_mul_sq Finset.univ (A n k) (x n)
    simpa only [sq, Matrix.mulVec, dotProduct] using this
  have hxx := treeInner_self_nonneg (x n)
  have h6 : treeInner b₀ b₀ / 2 / (F + 1) ≤ treeInner (x n) (x n) := by
    rw [div_le_iff₀ (by positivity)]
    nlinarith
  have h7 := hlow n (x n)
  rw [h4] at h7
  have h8 : -(1 / (2 * lam)) * treeInner (fun k => b₀ k - b n k) (fun k => b₀ k - b n k) -
      lam / 2 * treeInner (x n) (x n) ≤ treeInner (fun k => b₀ k - 1 * b n k) (x n) := by
    unfold treeInner
    rw [Finset.mul_sum, Finset.mul_sum, ← Finset.sum_sub_distrib]
    refine Finset.sum_le_sum fun k _ => ?_
    have := mul_nonneg (show 0 ≤ 1 / (2 * lam) by positivity)
      (sq_nonneg ((b₀ k - b n k) + lam * x n k))
    have e : 1 / (2 * lam) * ((b₀ k - b n k) + lam * x n k) ^ 2 = 1 / (2 * lam) *
        ((b₀ k - b n k) * (b₀ k - b n k)) + (b₀ k - b n k) * x n k + lam / 2 * (x n k * x n k) := by
      field_simp
      ring
    rw [e] at this
    linarith
  rw [treeInner_sub_left, treeInner_comm (b n)] at h8
  have h9 : 1 / (2 * lam) * treeInner (fun k => b₀ k - b n k) (fun k => b₀ k - b n k) <
      lam / 2 * treeInner (x n) (x n) := by
    have := mul_lt_mul_of_pos_left (h3.trans_le (mul_le_mul_of_nonneg_left h6 (sq_nonneg lam)))
      (show 0 < 1 / (2 * lam) by positivity)
    refine this.trans_eq ?_
    field_simp
  linarith

end Verif.Updates
