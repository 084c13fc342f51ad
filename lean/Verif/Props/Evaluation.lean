import Verif.Props.Converge
import Verif.Props.EvalStats
import Verif.Props.Normalisable
import Verif.Props.EvalKeys

/-!
C91: averages of local energies recorded by evaluations converge to the energy of the wave function;
C90 and C91 for Gaussian moves and configured wave functions.
-/

namespace Verif.Props
open MeasureTheory ProbabilityTheory MCMC Spec Reversible Ergodic Filter Topology Stat Setup

section evaluation

variable {W : Type} {X : Type} [AddCommGroup X] [Module ℝ X]

/-- The data after `n` epochs of an evaluation, each of `k` steps, with given draws: what
`walk_data` (mcmc/metropolis.py:70-114) leaves, called once in every epoch of `vmc_loop`
(train/vmc.py:67-126). -/
noncomputable def epochData (logabs : Bool) (σ : ℝ) (amp : X → XR) (k : ℕ) :
    (n : ℕ) → PAData W X Unit → (Fin n → Fin k → W → X × ℝ) → PAData W X Unit
  | 0, d, _ => d
  | n + 1, d, ys => walkDraws logabs σ amp k
      (epochData logabs σ amp k n d fun i => ys i.castSucc) (ys (Fin.last n))

/-- The positions in epoch `t` of an evaluation which first burns with the draws `b`. -/
noncomputable def epochPositions (logabs : Bool) (σ : ℝ) (amp : X → XR) (pos : W → X) {m k n : ℕ}
    (b : Fin m → W → X × ℝ) (ys : Fin n → Fin k → W → X × ℝ) (t : Fin n) : W → X :=
  (epochData logabs σ amp k (t + 1) (walkDraws logabs σ amp m (dataAt amp pos) b)
    fun i => ys (i.castLE t.2)).position

theorem iterSteps_add {P D K : Type} (step : P → D → K → XR × D × K) (p : P) (a b : ℕ) (s : D × K) :
    iterSteps step p (b + a) s = iterSteps step p a (iterSteps step p b s) := by
  induction a with
  | zero => rfl
  | succ a ih =>
    show ((step p (iterSteps step p (b + a) s).1 (iterSteps step p (b + a) s).2).2.1,
      (step p (iterSteps step p (b + a) s).1 (iterSteps step p (b + a) s).2).2.2) = _
    rw [ih]
    rfl

/-- The evaluation of the code with keys, after burning, records the local energies at the positions
`epochPositions` with the draws made from its keys. -/
theorem evaluation_uses_draws {K : Type} {nbatch : ℕ} (r : Rng K) (type : String)
    (htype : type ≠ "random_particle") (split : K → K × K) (uniform : K → Fin nbatch → ℝ)
    (normal : K → Fin nbatch → X) (meanFn : (Fin nbatch → XR) → XR) (logabs : Bool) (σ : ℝ)
    (amp E : X → XR) (pos : Fin nbatch → X) (m k n : ℕ) (key₀ : K) :
    let step := paStep (P := Unit) split uniform normal meanFn
      (fun _ _ => amp) (fun _ _ => σ) none logabs
    let burnt := burnData (burningStep step) m () (dataAt amp pos) key₀
    let key := fun i => (iterSteps step () i (dataAt amp pos, key₀)).2
    let draws := fun i w => (normal (split (split (key i)).1).2 w, uniform (split (key i)).2 w)
    runEvaluation r type k n step (fun _ (d : PAData (Fin nbatch) X Unit) c _ => E (d.position c)) ()
        burnt.1 burnt.2 =
      .ok (List.ofFn fun t c => E (epochPositions logabs σ amp pos (fun i : Fin m => draws i)
        (fun (i : Fin n) (j : Fin k) => draws (m + i * k + j)) t c)) := by
  intro step burnt key draws
  rw [deterministic_evaluation_records r type htype]
  have hb : ∀ m, burnData (burningStep step) m () (dataAt amp pos) key₀ =
      iterSteps step () m (dataAt amp pos, key₀) := by
    intro m
    induction m with
    | zero => rfl
    | succ m ih =>
      unfold burnData at ih ⊢
      rw [Function.iterate_succ_apply', ih]
      rfl
  have hb' : burnt = iterSteps step () m (dataAt amp pos, key₀) := hb m
  have hdata : ∀ t : ℕ, (iterSteps step () (m + t * k) (dataAt amp pos, key₀)).1 =
      epochData logabs σ amp k t (walkDraws logabs σ amp m (dataAt amp pos) fun i => draws i)
        fun (i : Fin t) (j : Fin k) => draws (m + i * k + j) := by
    intro t
    induction t with
    | zero =>
      rw [zero_mul]
      exact walk_uses_draws split uniform normal meanFn logabs σ amp (dataAt amp pos) key₀ m
    | succ t ih =>
      rw [Nat.succ_mul, ← add_assoc, iterSteps_add]
      have h := walk_uses_draws split uniform normal meanFn logabs σ amp
        (iterSteps step () (m + t * k) (dataAt amp pos, key₀)).1
        (iterSteps step () (m + t * k) (dataAt amp pos, key₀)).2 k
      simp only at h
      refine h.trans (congr (congrArg (walkDraws logabs σ amp k) ih)
        (funext fun i => funext fun w => ?_))
      have hk : (iterSteps step () i (iterSteps step () (m + t * k) (dataAt amp pos, key₀))).2 =
          key (m + t * k + i) := by
        rw [← iterSteps_add]
      show (normal (split (split (iterSteps step () i (iterSteps step () (m + t * k)
        (dataAt amp pos, key₀))).2).1).2 w, uniform (split (iterSteps step () i
          (iterSteps step () (m + t * k) (dataAt amp pos, key₀))).2).2 w) = draws (m + t * k + i) w
      rw [hk]
  congr 2
  funext t c
  have e : (iterSteps step () ((t + 1) * k) (burnt.1, burnt.2)) =
      iterSteps step () (m + (t + 1) * k) (dataAt amp pos, key₀) := by
    rw [iterSteps_add, ← hb']
  show E ((iterSteps step () ((t + 1) * k) (burnt.1, burnt.2)).1.position c) = _
  rw [e, hdata]
  rfl

end evaluation

theorem total_eq_sum {X Ω : Type*} (F : X × Ω → X) (f : X → ℝ) (n : ℕ) (x : X) (ys : Fin n → Ω) :
    total F f n x ys = ∑ t : Fin n, f (chain F (t + 1) x fun i => ys (i.castLE t.2)) := by
  induction n with
  | zero => simp [total]
  | succ n ih =>
    rw [total, ih, Fin.sum_univ_castSucc]
    rfl

section general

variable {X : Type} [NormedAddCommGroup X] [NormedSpace ℝ X] [FiniteDimensional ℝ X]
  [MeasurableSpace X] [BorelSpace X]

omit [FiniteDimensional ℝ X] [MeasurableSpace X] [BorelSpace X] in
/-- The epochs of the code are a chain of chains, as long as proposals avoid `N`. -/
theorem epoch_chain {W : Type} (logabs : Bool) (σ : ℝ) {amp : X → XR} {ψ : X → ℝ} {N : Set X}
    {S : Set X} (hN : ∀ x ∉ N, x ∈ S) (hS : ∀ x ∈ S, amp x = amplitudes logabs ψ x) {x : W → X}
    (hx : ∀ w, x w ∈ S) (k n : ℕ) {ys : Fin n → Fin k → W → X × ℝ}
    (hy : Along (fun z : (W → X) × (Fin k → W → X × ℝ) => chain (jointStep logabs σ ψ) k z.1 z.2)
      {z | Along (jointStep logabs σ ψ) (Avoids σ N) k z.1 z.2} n x ys) :
    epochData logabs σ amp k n (dataAt amp x) ys = dataAt amp (chain (fun z =>
        chain (jointStep logabs σ ψ) k z.1 z.2) n x ys) ∧
      ∀ w, chain (fun z => chain (jointStep logabs σ ψ) k z.1 z.2) n x ys w ∈ S := by
  induction n with
  | zero => exact ⟨rfl, hx⟩
  | succ n ih =>
    obtain ⟨h1, h2⟩ := ih hy.1
    rw [epochData, h1]
    exact walk_chain logabs σ hN hS h2 k hy.2

theorem along_prefix {X Ω : Type*} {F : X × Ω → X} {C : Set (X × Ω)} {n : ℕ} {x : X}
    {ys : Fin n → Ω} (h : Along F C n x ys) {m : ℕ} (hm : m ≤ n) :
    Along F C m x fun i => ys (i.castLE hm) := by
  induction n with
  | zero =>
    obtain rfl : m = 0 := by omega
    trivial
  | succ n ih =>
    rcases Nat.lt_or_ge m (n + 1) with h' | h'
    · exact ih h.1 (by omega)
    · obtain rfl : m = n + 1 := by omega
      exact h

variable {ndev nbatch : ℕ}

/-- The outcome of an evaluation: all local energies which it records are finite, it saves
statistics, and the average in them is within `ε` of `E₀`. -/
def Evaluates (E : X → XR) {n : ℕ} (x : Fin n → Fin ndev × Fin nbatch → X) (E₀ ε : ℝ) : Prop :=
  ∃ r : Fin ndev → Fin n → Fin nbatch → ℝ, (∀ g t b, E (x t (g, b)) = .fin (r g t b)) ∧
    ∃ s a, finishEvaluation true (energyRows n r) = .ok (some s) ∧ s.average = .fin a ∧
      |a - E₀| < ε

section walk

variable {W : Type} [Fintype W] (vol G : Measure X) [vol.IsAddHaarMeasure] (hG : Noise vol G)
  (logabs : Bool) {σ : ℝ} (hσ : σ ≠ 0)

/-- `k` steps of all walkers. -/
noncomputable def epochStep (W : Type) (logabs : Bool) (σ : ℝ) (ψ : X → ℝ) (k : ℕ)
    (z : (W → X) × (Fin k → W → X × ℝ)) : W → X := chain (jointStep logabs σ ψ) k z.1 z.2

include hG hσ

/-- Averages over epochs, after burning. -/
theorem epochs_large_numbers {ψ : X → ℝ} (hm : Measurable ψ) (h0 : ∀ᵐ x ∂vol, ψ x ≠ 0)
    (hn : Integrable (fun x => ψ x ^ 2) vol) {f : (W → X) → ℝ} (hfm : Measurable f)
    (hfi : Integrable f (Measure.pi fun _ => born vol ψ)) (pos : W → X) (m : ℕ) {k : ℕ}
    (hk : k ≠ 0) {ε : ℝ} (hε : 0 < ε) :
    Tendsto (fun n => ((Measure.pi fun _ : Fin m => noiseLaw G W).prod
      (Measure.pi fun _ : Fin n => Measure.pi fun _ : Fin k => noiseLaw G W)).real
        {z | ε ≤ |total (epochStep W logabs σ ψ k) f n (chain (jointStep logabs σ ψ) m pos z.1) z.2 / n
          - ∫ x, f x ∂(Measure.pi fun _ => born vol ψ)|}) atTop (𝓝 0) := by
  have hprob := born_probability vol h0 hn
  have hlaw := hG.law (W := W)
  set ν := noiseLaw G W with hν
  have hJ := measurable_jointStep (W := W) logabs σ hm
  have hJ' : Measurable (epochStep W logabs σ ψ k) := measurable_chain hJ k
  have hpres := joint_step_preserves (W := W) vol G hG logabs hσ hm h0 hn
  have hpres' : MeasurePreserving (epochStep W logabs σ ψ k)
    ((Measure.pi fun _ => born vol ψ).prod (Measure.pi fun _ : Fin k => ν))
    (Measure.pi fun _ => born vol ψ) := chain_preserves hpres k
  have hconv : ∀ x, ConvergesFrom (Measure.pi fun _ => born vol ψ)
      (Measure.pi fun _ : Fin k => ν) (epochStep W logabs σ ψ k) x := fun x =>
    (joint_converges vol G hG logabs hσ hm h0 hn x).every hJ hk
  have hlln := fun x => large_numbers hJ' hpres' hconv hfm hfi x hε
  generalize (∫ x, f x ∂(Measure.pi fun _ => born vol ψ)) = E₀ at hlln ⊢
  have hchain : Measurable (chain (jointStep logabs σ ψ) m pos) :=
    (measurable_chain hJ m).comp measurable_prodMk_left
  generalize chain (jointStep logabs σ ψ) m pos = c at hchain ⊢
  generalize epochStep W logabs σ ψ k = F' at hJ' hlln ⊢
  have hbadm : ∀ n : ℕ, MeasurableSet {z : (Fin m → W → X × ℝ) × (Fin n → Fin k → W → X × ℝ) |
      ε ≤ |total F' f n (c z.1) z.2 / n - E₀|} := fun n => by
    have h1 : Measurable fun z : (Fin m → W → X × ℝ) × (Fin n → Fin k → W → X × ℝ) =>
        total F' f n (c z.1) z.2 :=
      (measurable_total hJ' hfm n).comp ((hchain.comp measurable_fst).prodMk measurable_snd)
    exact measurableSet_le measurable_const ((h1.div_const _).sub measurable_const).abs
  have e1 : ∀ n : ℕ, ((Measure.pi fun _ : Fin m => ν).prod
      (Measure.pi fun _ : Fin n => Measure.pi fun _ : Fin k => ν)).real
        {z | ε ≤ |total F' f n (c z.1) z.2 / n - E₀|} =
      ∫ b, (Measure.pi fun _ : Fin n => Measure.pi fun _ : Fin k => ν).real
        {ys | ε ≤ |total F' f n (c b) ys / n - E₀|} ∂(Measure.pi fun _ : Fin m => ν) := fun n => by
    rw [measureReal_def, Measure.prod_apply (hbadm n)]
    simp only [measureReal_def]
    rw [integral_toReal]
    · rfl
    · exact (measurable_measure_prodMk_left (hbadm n)).aemeasurable
    · exact .of_forall fun b => measure_lt_top _ _
  simp_rw [e1]
  have h2 : Tendsto (fun n : ℕ => ∫ b, (Measure.pi fun _ : Fin n =>
        Measure.pi fun _ : Fin k => ν).real
        {ys | ε ≤ |total F' f n (c b) ys / n - E₀|} ∂(Measure.pi fun _ : Fin m => ν))
      atTop (𝓝 (∫ _, (0 : ℝ) ∂(Measure.pi fun _ : Fin m => ν))) := by
    refine tendsto_integral_of_dominated_convergence (fun _ => 1) (fun n => ?_)
      (integrable_const _) (fun n => .of_forall fun b => ?_) (.of_forall fun b => hlln _)
    · exact (measurable_measure_prodMk_left (hbadm n)).ennreal_toReal.aestronglyMeasurable
    · rw [Real.norm_eq_abs, abs_of_nonneg measureReal_nonneg]
      exact measureReal_le_one
  simpa using h2

/-- The positions in the epochs of the code are those of the chain, almost surely. -/
theorem ae_epochs {amp : X → XR} {ψ : X → ℝ} (hm : Measurable ψ) {N : Set X}
    (hNm : MeasurableSet N) (hN : vol N = 0) (pos : W → X)
    (hS : ∀ x ∈ Nᶜ ∪ Set.range pos, amp x = amplitudes logabs ψ x) (m k n : ℕ) :
    ∀ᵐ z ∂((Measure.pi fun _ : Fin m => noiseLaw G W).prod
      (Measure.pi fun _ : Fin n => Measure.pi fun _ : Fin k => noiseLaw G W)), ∀ t : Fin n,
      epochPositions logabs σ amp pos z.1 z.2 t = chain (epochStep W logabs σ ψ k) (t + 1)
        (chain (jointStep logabs σ ψ) m pos z.1) (fun i => z.2 (i.castLE t.2)) ∧
      ∀ w, epochPositions logabs σ amp pos z.1 z.2 t w ∈ Nᶜ ∪ Set.range pos := by
  have hlaw := hG.law (W := W)
  set ν := noiseLaw G W with hν
  have hJ := measurable_jointStep (W := W) logabs σ hm
  have hJ' : Measurable (epochStep W logabs σ ψ k) := measurable_chain hJ k
  have hCm : MeasurableSet (Avoids (W := W) σ N) := measurableSet_avoids σ hNm
  have haeC : ∀ x, ∀ᵐ y ∂ν, (x, y) ∈ Avoids (W := W) σ N := ae_avoids hG hσ hN
  have hchain : Measurable (chain (jointStep logabs σ ψ) m pos) :=
    (measurable_chain hJ m).comp measurable_prodMk_left
  have ha1 : ∀ᵐ b ∂(Measure.pi fun _ : Fin m => ν),
    Along (jointStep logabs σ ψ) (Avoids σ N) m pos b := ae_along hJ hCm haeC m pos
  have hkm := measurableSet_along hJ hCm k
  have hset : MeasurableSet {z : (Fin m → W → X × ℝ) × (Fin n → Fin k → W → X × ℝ) |
      Along (epochStep W logabs σ ψ k) {z | Along (jointStep logabs σ ψ) (Avoids σ N) k z.1 z.2} n
        (chain (jointStep logabs σ ψ) m pos z.1) z.2} :=
    ((hchain.comp measurable_fst).prodMk measurable_snd) (measurableSet_along hJ' hkm n)
  have ha2 : ∀ᵐ z ∂((Measure.pi fun _ : Fin m => ν).prod
      (Measure.pi fun _ : Fin n => Measure.pi fun _ : Fin k => ν)),
      z ∈ {z : (Fin m → W → X × ℝ) × (Fin n → Fin k → W → X × ℝ) |
      Along (epochStep W logabs σ ψ k) {z | Along (jointStep logabs σ ψ) (Avoids σ N) k z.1 z.2} n
        (chain (jointStep logabs σ ψ) m pos z.1) z.2} := by
    rw [Measure.ae_prod_mem_iff_ae_ae_mem hset]
    exact .of_forall fun b => ae_along hJ' hkm
      (fun x => ae_along hJ hCm haeC k x) n (chain (jointStep logabs σ ψ) m pos b)
  have ha1' := (Measure.quasiMeasurePreserving_fst (μ := Measure.pi fun _ : Fin m => ν)
    (ν := Measure.pi fun _ : Fin n => Measure.pi fun _ : Fin k => ν)).ae ha1
  filter_upwards [ha1', ha2] with z hz1 hz2 t
  obtain ⟨hb1, hb2⟩ := walk_chain logabs σ (fun x hx => .inl hx) hS (fun w => .inr ⟨w, rfl⟩) m hz1
  obtain ⟨h1, h2⟩ := epoch_chain logabs σ (fun x hx => .inl hx) hS hb2 k (t + 1)
    (along_prefix hz2 t.2)
  have h3 : epochPositions logabs σ amp pos z.1 z.2 t =
      chain (epochStep W logabs σ ψ k) (t + 1) (chain (jointStep logabs σ ψ) m pos z.1)
        (fun i => z.2 (i.castLE t.2)) := by
    unfold epochPositions
    rw [hb1, h1]
    rfl
  exact ⟨h3, fun w => by rw [h3]; exact h2 w⟩

end walk

omit [NormedAddCommGroup X] [NormedSpace ℝ X] [FiniteDimensional ℝ X] [BorelSpace X] in
/-- The mean over walkers. -/
theorem walkers_mean {W : Type} [Fintype W] [Nonempty W] {π : Measure X} [IsProbabilityMeasure π]
    {e : X → ℝ} (he : Measurable e) (hi : Integrable e π) :
    Measurable (fun x : W → X => (∑ w, e (x w)) / Fintype.card W) ∧
    Integrable (fun x : W → X => (∑ w, e (x w)) / Fintype.card W) (Measure.pi fun _ => π) ∧
    ∫ x : W → X, (∑ w, e (x w)) / Fintype.card W ∂(Measure.pi fun _ => π) = ∫ x, e x ∂π := by
  have hev : ∀ w : W, MeasurePreserving (fun x : W → X => x w) (Measure.pi fun _ => π) π := fun w =>
    measurePreserving_eval (fun _ : W => π) w
  have hfw : ∀ w : W, Integrable (fun x : W → X => e (x w)) (Measure.pi fun _ => π) := fun w =>
    (hev w).integrable_comp_of_integrable hi
  refine ⟨?_, (integrable_finsetSum _ fun w _ => hfw w).div_const _, ?_⟩
  · exact Measurable.div_const (Finset.measurable_sum _ fun w _ =>
      he.comp (measurable_pi_apply w)) _
  · rw [integral_div, integral_finsetSum _ fun w _ => hfw w]
    have : ∀ w : W, ∫ x : W → X, e (x w) ∂(Measure.pi fun _ => π) = ∫ x, e x ∂π := fun w => by
      conv_rhs => rw [← (hev w).map_eq]
      rw [integral_map (hev w).measurable.aemeasurable he.aestronglyMeasurable]
    rw [Finset.sum_congr rfl fun w _ => this w, Finset.sum_const, Finset.card_univ, nsmul_eq_mul]
    rw [mul_div_cancel_left₀]
    exact_mod_cast Fintype.card_ne_zero

/-- C91.  The average which an evaluation saves is, with a probability which tends to 1 as the number
of epochs grows, as close as one likes to the expectation of the local energy over `|ψ|²`: for all
initial positions, any number of burning steps, at least one step in an epoch and at least two
walkers. -/
theorem evaluation_converges (vol G : Measure X) [vol.IsAddHaarMeasure] (hG : Noise vol G)
    (logabs : Bool) {σ : ℝ} (hσ : σ ≠ 0) {amp E : X → XR} {ψ e : X → ℝ} (hm : AEMeasurable ψ vol)
    (h0 : ∀ᵐ x ∂vol, ψ x ≠ 0) (hn : Integrable (fun x => ψ x ^ 2) vol)
    (hamp : ∀ᵐ x ∂vol, amp x = amplitudes logabs ψ x) (hE : ∀ᵐ x ∂vol, E x = .fin (e x))
    (he : Integrable e (born vol ψ)) (pos : Fin ndev × Fin nbatch → X)
    (hpos : ∀ w, amp (pos w) = amplitudes logabs ψ (pos w))
    (hEpos : ∀ w, ∃ r, E (pos w) = .fin r) (hW : 2 ≤ ndev * nbatch) (m : ℕ) {k : ℕ}
    (hk : k ≠ 0) {ε : ℝ} (hε : 0 < ε) :
    Tendsto (fun n => ((Measure.pi fun _ : Fin m => noiseLaw G (Fin ndev × Fin nbatch)).prod
        (Measure.pi fun _ : Fin n => Measure.pi fun _ : Fin k =>
          noiseLaw G (Fin ndev × Fin nbatch))).real
      {z | ¬Evaluates E (epochPositions logabs σ amp pos z.1 z.2) (expectedEnergy vol ψ e) ε})
      atTop (𝓝 0) := by
  have hprob := born_probability vol h0 hn
  have hI := norm_pos vol h0 hn
  classical
  -- sets of measure zero
  have hac : vol ≪ born vol ψ := by
    refine withDensity_absolutelyContinuous' ?_ ?_
    · exact ((hm.pow_const 2).div_const _).ennreal_ofReal
    · filter_upwards [h0] with x hx
      rw [Ne, ENNReal.ofReal_eq_zero, not_le]
      positivity
  have hmk : ∀ᵐ x ∂vol, e x = he.1.mk e x := hac.ae_le he.1.ae_eq_mk
  obtain ⟨ψ₁, N, hψ₁, hae, hNm, hN, hq, hS⟩ := exists_version vol logabs hm hamp pos hpos
    (hE.and hmk)
  have h0' : ∀ᵐ x ∂vol, ψ₁ x ≠ 0 := by
    filter_upwards [h0, hae] with x h1 h2
    rwa [← h2]
  have hn' : Integrable (fun x => ψ₁ x ^ 2) vol :=
    hn.congr (by filter_upwards [hae] with x hx; simp only [hx])
  -- a measurable version of the local energy
  obtain ⟨e₁, he₁m, he₁N, hES⟩ : ∃ e₁ : X → ℝ, Measurable e₁ ∧ (∀ x ∉ N, e x = e₁ x) ∧
      ∀ x ∈ Nᶜ ∪ Set.range pos, E x = .fin (e₁ x) := by
    choose r hr using hEpos
    set e' : X → ℝ := fun x => if h : ∃ w, pos w = x then r h.choose else he.1.mk e x with he'
    have hpos' : ∀ w, E (pos w) = .fin (e' (pos w)) := fun w => by
      have h : ∃ w', pos w' = pos w := ⟨w, rfl⟩
      simp only [he', dif_pos h]
      rw [← hr, h.choose_spec]
    have hN₁ : ∀ x ∉ N, e x = e' x := fun x hx => by
      by_cases h : ∃ w, pos w = x
      · obtain ⟨w, rfl⟩ := h
        exact XR.fin_inj.mp ((hq _ hx).1.symm.trans (hpos' w))
      · simp only [he', dif_neg h]
        exact (hq x hx).2
    refine ⟨e', ?_, hN₁, ?_⟩
    · refine he.1.stronglyMeasurable_mk.measurable.measurable_of_countable_ne
        ((Set.finite_range pos).countable.mono fun x hx => ?_)
      by_contra hc
      exact hx (by simp only [he', dif_neg (show ¬∃ w, pos w = x from hc)])
    · rintro x (hx | ⟨w, rfl⟩)
      · rw [(hq x hx).1, hN₁ x hx]
      · exact hpos' w
  have hborn := born_congr vol hae
  have hNv : ∀ᵐ x ∂vol, x ∉ N := by
    rw [ae_iff]
    simpa using hN
  have hNb : ∀ᵐ x ∂(born vol ψ), x ∉ N := (withDensity_absolutelyContinuous vol _).ae_le hNv
  have heq : e =ᵐ[born vol ψ] e₁ := by
    filter_upwards [hNb] with x hx using he₁N x hx
  have hi₁ : Integrable e₁ (born vol ψ) := he.congr heq
  have hmean : expectedEnergy vol ψ e = ∫ x, e₁ x ∂(born vol ψ) := integral_congr_ae heq
  have hne : Nonempty (Fin ndev × Fin nbatch) := by
    rw [← Fintype.card_pos_iff]
    simp only [Fintype.card_prod, Fintype.card_fin]
    omega
  obtain ⟨hfm, hfi, hfmean⟩ := walkers_mean (W := Fin ndev × Fin nbatch) he₁m hi₁
  rw [← hmean] at hfmean
  rw [hborn] at hfi hfmean
  have hlim := epochs_large_numbers vol G hG logabs hσ hψ₁ h0' hn' hfm hfi pos m hk hε
  rw [hfmean] at hlim
  have hlaw := hG.law (W := Fin ndev × Fin nbatch)
  refine squeeze_zero' (.of_forall fun n => measureReal_nonneg) ?_ hlim
  filter_upwards [eventually_ge_atTop 2] with n hn2
  refine ENNReal.toReal_mono (measure_ne_top _ _) (measure_mono_ae ?_)
  filter_upwards [ae_epochs vol G hG logabs hσ hψ₁ hNm hN pos hS m k n] with z hz hz3
  by_contra hz4
  refine hz3 ?_
  set r : Fin ndev → Fin n → Fin nbatch → ℝ := fun g t b =>
    e₁ (epochPositions logabs σ amp pos z.1 z.2 t (g, b)) with hr
  obtain ⟨s, hs1, hs2, -⟩ := evaluation_statistics_partial r hn2 hW
  refine ⟨r, fun g t b => hES _ ((hz t).2 _), s, recordedMean r, hs1, hs2, ?_⟩
  have hz4' : ¬ε ≤ |total (epochStep (Fin ndev × Fin nbatch) logabs σ ψ₁ k)
      (fun x => (∑ w, e₁ (x w)) / Fintype.card (Fin ndev × Fin nbatch)) n
      (chain (jointStep logabs σ ψ₁) m pos z.1) z.2 / n - expectedEnergy vol ψ e| := hz4
  rw [total_eq_sum, not_le] at hz4'
  have : ∀ t : Fin n, (∑ w, e₁ (chain (epochStep (Fin ndev × Fin nbatch) logabs σ ψ₁ k) (t + 1)
        (chain (jointStep logabs σ ψ₁) m pos z.1) (fun i => z.2 (i.castLE t.2)) w)) =
      ∑ g, ∑ b, r g t b := fun t => by
    rw [← (hz t).1, Fintype.sum_prod_type]
  simp only [this, ← Finset.sum_div, div_div, Fintype.card_prod, Fintype.card_fin] at hz4'
  have hrm : recordedMean r = (∑ t, ∑ g, ∑ b, r g t b) / (((ndev * nbatch : ℕ) : ℝ) * n) := by
    rw [recordedMean]
    push_cast
    ring
  rw [hrm]
  exact hz4'

end general

end Verif.Props

namespace Verif.Props
open MeasureTheory ProbabilityTheory MCMC Spec Reversible Ergodic Filter Topology Stat
open Verif.Construct Verif.Net Verif.Slog Verif.Decay Verif.Phys Verif.Ibp

/-- Products of noises are noises. -/
theorem noise_pi {ι : Type} [Fintype ι] {X : Type} [NormedAddCommGroup X]
    [MeasureSpace X] [MeasurableNeg X] [SigmaFinite (volume : Measure X)] {G : Measure X}
    (hG : Noise volume G) : Noise volume (Measure.pi fun _ : ι => G) := by
  have := hG.probability
  refine ⟨inferInstance, ?_, ?_, ?_⟩
  · exact (measurePreserving_pi (fun _ : ι => G) (fun _ : ι => G)
      (f := fun _ x => -x) fun _ => ⟨measurable_neg, hG.symmetric⟩).map_eq
  · rw [volume_pi]
    exact pi_ac _ _ fun _ => hG.ac
  · rw [volume_pi]
    exact pi_ac _ _ fun _ => hG.reaches

theorem noise_normal (ι : Type) [Fintype ι] : Noise volume (stdNormal ι) := by
  refine noise_pi ⟨inferInstance, ?_, ?_, ?_⟩
  · rw [gaussianReal_map_neg, neg_zero]
  · exact gaussianReal_absolutelyContinuous 0 one_ne_zero
  · exact gaussianReal_absolutelyContinuous' 0 one_ne_zero

/-- Law of `jax.random.normal` for the positions of `N` particles in `d` dimensions. -/
noncomputable def positionNoise (N d : ℕ) : Measure (Fin N → Fin d → ℝ) :=
  Measure.pi fun _ => stdNormal (Fin d)

theorem noise_positions (N d : ℕ) : Noise volume (positionNoise N d) := noise_pi (noise_normal _)

/-- A walker in the harmonic oscillator ground state, started at 5: after enough steps of width 1/2
every region has the probability which the ground state gives it, up to 1/100. -/
example : ∀ᶠ n in atTop, ∀ A : Set (Unit → Fin 1 → ℝ), MeasurableSet A →
    |((Measure.pi fun _ : Fin n => noiseLaw (stdNormal (Fin 1)) Unit).map
      (walkPositions true (1 / 2) (fun x => .fin (-(x 0) ^ 2 / 2)) (fun _ _ => 5) n)).real A -
      (Measure.pi fun _ : Unit => born volume fun x : Fin 1 → ℝ =>
        Real.exp (-(x 0) ^ 2 / 2)).real A| ≤ 1 / 100 := by
  have hamp : ∀ x : Fin 1 → ℝ, (.fin (-(x 0) ^ 2 / 2) : XR) =
      amplitudes true (fun x : Fin 1 → ℝ => Real.exp (-(x 0) ^ 2 / 2)) x := fun x => by
    simp [amplitudes, amplitudeOf, abs_of_pos (Real.exp_pos _), XR.log_fin (Real.exp_pos _)]
  refine metropolis_converges (W := Unit) volume _ (noise_normal (Fin 1)) true (by norm_num)
    (ψ := fun x : Fin 1 → ℝ => Real.exp (-(x 0) ^ 2 / 2))
    (by have h : Measurable fun x : Fin 1 → ℝ => Real.exp (-(x 0) ^ 2 / 2) := by fun_prop
        exact h.aemeasurable)
    (.of_forall fun x => (Real.exp_pos _).ne') ?_ (.of_forall hamp) _ (fun w => hamp _) (by norm_num)
  have h1 : Integrable fun t : ℝ => Real.exp (-1 * t ^ 2) := integrable_exp_neg_mul_sq one_pos
  have h2 := (volume_preserving_funUnique (Fin 1) ℝ).integrable_comp_of_integrable h1
  refine h2.congr (.of_forall fun x => ?_)
  simp only [Function.comp]
  rw [← Real.exp_nat_mul]
  congr 1
  show -1 * (x 0) ^ 2 = _
  push_cast
  ring

section configured

variable {K nion d : ℕ} {n : Fin (K + 1) → ℕ} {R : Fin nion → Fin d → ℝ}

/-- The logarithm which a configured model returns, where the wave function is not zero. -/
theorem configured_amplitude {c : ModelCfg} {charges : Fin nion → ℝ} {dtype : ℕ} {m : Model nion}
    (hm : getModelFromConfig c (counts n) R charges dtype = .ok m) {P : Params (K + 1) nion d}
    {v : Stream1 n d → SL} (hv : ∀ q, m.apply P R q = .ok (v q)) {nonzero : Stream1 n d → Prop}
    {ψ : Stream1 n d → ℝ} (hψ : ∀ q, ModelValue c P R charges q (nonzero q) (ψ q))
    {y : Pos (∑ s, n s) d} (hy : ψ (splitPositions y) ≠ 0) :
    (v (splitPositions y)).2 = amplitudes true (fun y => ψ (splitPositions y)) y := by
  have hr := configured_model_computes_partial c R charges dtype m hm P _ _
    (hv (splitPositions y)) _ _ (hψ _) (model_value_nonzero (hψ _) hy)
  unfold amplitudes amplitudeOf
  rw [if_pos rfl, XR.log_fin (abs_pos.mpr hy)]
  rcases hr with ⟨h, h'⟩ | ⟨h, h'⟩ | ⟨h, -⟩
  · rw [h', abs_of_pos h]
  · rw [h', abs_of_neg h]
  · exact absurd h hy

/-- C90 for configured models which decay: walkers converge to `|ψ|²` from all positions at which
electrons are apart from each other and from ions and the wave function is not zero. -/
theorem configured_walk_converges (hd : 2 ≤ d) {c : ModelCfg} {charges : Fin nion → ℝ} {dtype : ℕ}
    {m : Model nion} (hm : getModelFromConfig c (counts n) R charges dtype = .ok m)
    {P : Params (K + 1) nion d} {v : Stream1 n d → SL} (hv : ∀ q, m.apply P R q = .ok (v q))
    {nonzero : Stream1 n d → Prop} {ψ : Stream1 n d → ℝ}
    (hψ : ∀ q, ModelValue c P R charges q (nonzero q) (ψ q)) (hc : Decays c P charges n) {W : Type}
    [Fintype W] [Nonempty W] {σ : ℝ} (hσ : σ ≠ 0) (pos : W → Pos (∑ s, n s) d)
    (hgood : ∀ w, Good R (pos w)) (h0 : ∀ w, ψ (splitPositions (pos w)) ≠ 0) {ε : ℝ} (hε : 0 < ε) :
    ∀ᶠ k in atTop, ∀ A : Set (W → Pos (∑ s, n s) d), MeasurableSet A →
      |((Measure.pi fun _ : Fin k => noiseLaw (positionNoise (∑ s, n s) d) W).map
          (walkPositions true σ (fun y => (v (splitPositions y)).2) pos k)).real A -
        (Measure.pi fun _ : W => born volume fun y => ψ (splitPositions y)).real A| ≤ ε := by
  obtain ⟨w⟩ := ‹Nonempty W›
  obtain ⟨hw, -, -⟩ := configured_wave_function hd hc hψ (hgood w) (h0 w)
  exact metropolis_converges volume _ (noise_positions _ _) true hσ hw.measurable.aemeasurable
    hw.ne_zero hw.normalisable (hw.ne_zero.mono fun y hy => configured_amplitude hm hv hψ hy) pos
    (fun w => configured_amplitude hm hv hψ (h0 w)) hε

section evaluation

variable (c : ModelCfg) (charges : Fin nion → ℝ) (dtype : ℕ)
  (m : Model nion) (hm : getModelFromConfig c (counts n) R charges dtype = .ok m)
  (P : Params (K + 1) nion d) (v : Stream1 n d → SL) (hv : ∀ q, m.apply P R q = .ok (v q))
  (nonzero : Stream1 n d → Prop) (ψ : Stream1 n d → ℝ)
  (hψ : ∀ q, ModelValue c P R charges q (nonzero q) (ψ q))
  (f : Pos (∑ s, n s) d → ℝ)
  (hf : ∀ y, (v (splitPositions y)).2.isFin → (v (splitPositions y)).2 = .fin (f y))
  (hc : Decays c P charges n) {ndev nbatch : ℕ} (hW : 2 ≤ ndev * nbatch)
  (pos : Fin ndev × Fin nbatch → Pos (∑ s, n s) d) (hgood : ∀ w, Good R (pos w))
  (h0 : ∀ w, ψ (splitPositions (pos w)) ≠ 0) (hR : Distinct R) {σ : ℝ} (hσ : σ ≠ 0)

include hm hv hψ hf hc hW hgood h0 hR hσ

/-- C91 for configured models which decay, with the standard local energy: the saved average tends in
probability to the energy `∫ (½|∇ψ|² + Vψ²) / ∫ ψ²` of the wave function. -/
theorem configured_evaluation_converges (hd : 2 ≤ d) {κ : Type}
    (permutation : κ → Equiv.Perm (Fin (∑ s, n s))) (ibpParts sampleParts : List String) (b : ℕ)
    (eiSoft eeSoft : ℝ) (key : κ) (nburn : ℕ) {nsteps : ℕ} (hk : nsteps ≠ 0) {ε : ℝ} (hε : 0 < ε) :
    ∃ E, assembleMolLocalEnergy permutation "standard" ibpParts b sampleParts R charges eiSoft eeSoft f
        = some E ∧
      Tendsto (fun nepochs => ((Measure.pi fun _ : Fin nburn =>
          noiseLaw (positionNoise (∑ s, n s) d) (Fin ndev × Fin nbatch)).prod
        (Measure.pi fun _ : Fin nepochs => Measure.pi fun _ : Fin nsteps =>
          noiseLaw (positionNoise (∑ s, n s) d) (Fin ndev × Fin nbatch))).real
        {z | ¬Evaluates (fun x => E x key)
          (epochPositions true σ (fun y => (v (splitPositions y)).2) pos z.1 z.2)
          (rayleigh (fun y => ψ (splitPositions y)) (coulomb eiSoft eeSoft R charges)) ε})
        atTop (𝓝 0) := by
  have w : Fin ndev × Fin nbatch := ⟨⟨0, Nat.pos_of_ne_zero (by rintro rfl; omega)⟩,
    ⟨0, Nat.pos_of_ne_zero (by rintro rfl; omega)⟩⟩
  obtain ⟨hw, -, -⟩ := configured_wave_function hd hc hψ (hgood w) (h0 w)
  obtain ⟨E, e, h1, h2, h3, h4⟩ := configured_energy_expectation c charges dtype m hm P v hv nonzero ψ
    hψ f hf hc (hgood w) (h0 w) hd hR permutation ibpParts sampleParts b eiSoft eeSoft
  refine ⟨E, h1, ?_⟩
  rw [← h4]
  refine evaluation_converges volume _ (noise_positions _ _) true hσ hw.measurable.aemeasurable
    hw.ne_zero hw.normalisable (hw.ne_zero.mono fun y hy => configured_amplitude hm hv hψ hy)
    (h2.mono fun x hx => hx key) h3 pos (fun w => configured_amplitude hm hv hψ (h0 w)) (fun w => ?_)
    hW nburn hk hε
  obtain ⟨E', hE', h⟩ := standard_energy_terms permutation ibpParts sampleParts b R charges eiSoft
    eeSoft f (pos w) key ⟨.inr (hgood w).2, .inr (hgood w).1, hR⟩
  rw [h1] at hE'
  obtain rfl := Option.some.inj hE'
  exact ⟨_, h⟩

end evaluation

/-- C91 for configured models which decay, with the local energy integrated by parts, without
softening in three dimensions. -/
theorem configured_ibp_evaluation_converges {R : Fin nion → Fin 3 → ℝ} (c : ModelCfg)
    (charges : Fin nion → ℝ) (dtype : ℕ) (m : Model nion)
    (hm : getModelFromConfig c (counts n) R charges dtype = .ok m)
    (P : Params (K + 1) nion 3) (v : Stream1 n 3 → SL) (hv : ∀ q, m.apply P R q = .ok (v q))
    (nonzero : Stream1 n 3 → Prop) (ψ : Stream1 n 3 → ℝ)
    (hψ : ∀ q, ModelValue c P R charges q (nonzero q) (ψ q)) (f : Pos (∑ s, n s) 3 → ℝ)
    (hf : ∀ y, (v (splitPositions y)).2.isFin → (v (splitPositions y)).2 = .fin (f y))
    (hc : Decays c P charges n) {ndev nbatch : ℕ} (hW : 2 ≤ ndev * nbatch)
    (pos : Fin ndev × Fin nbatch → Pos (∑ s, n s) 3) (hgood : ∀ w, Good R (pos w))
    (h0 : ∀ w, ψ (splitPositions (pos w)) ≠ 0) (hR : Distinct R) {σ : ℝ} (hσ : σ ≠ 0) {κ : Type}
    (permutation : κ → Equiv.Perm (Fin (∑ s, n s))) (parts sampleParts : List String) (b : ℕ)
    (key : κ) (nburn : ℕ) {nsteps : ℕ} (hk : nsteps ≠ 0) {ε : ℝ} (hε : 0 < ε) :
    ∃ E, assembleMolLocalEnergy permutation "ibp" parts b sampleParts R charges 0 0 f = some E ∧
      Tendsto (fun nepochs => ((Measure.pi fun _ : Fin nburn =>
          noiseLaw (positionNoise (∑ s, n s) 3) (Fin ndev × Fin nbatch)).prod
        (Measure.pi fun _ : Fin nepochs => Measure.pi fun _ : Fin nsteps =>
          noiseLaw (positionNoise (∑ s, n s) 3) (Fin ndev × Fin nbatch))).real
        {z | ¬Evaluates (fun x => E x key)
          (epochPositions true σ (fun y => (v (splitPositions y)).2) pos z.1 z.2)
          (rayleigh (fun y => ψ (splitPositions y)) (coulomb 0 0 R charges)) ε}) atTop (𝓝 0) := by
  have w : Fin ndev × Fin nbatch := ⟨⟨0, Nat.pos_of_ne_zero (by rintro rfl; omega)⟩,
    ⟨0, Nat.pos_of_ne_zero (by rintro rfl; omega)⟩⟩
  obtain ⟨hw, -, -⟩ := configured_wave_function (by norm_num) hc hψ (hgood w) (h0 w)
  obtain ⟨E, e, h1, h2, h3, h4⟩ := configured_ibp_expectation c charges dtype m hm P v hv nonzero ψ
    hψ f hf hc (hgood w) (h0 w) hR permutation parts sampleParts b
  refine ⟨E, h1, ?_⟩
  rw [← h4]
  refine evaluation_converges volume _ (noise_positions _ _) true hσ hw.measurable.aemeasurable
    hw.ne_zero hw.normalisable (hw.ne_zero.mono fun y hy => configured_amplitude hm hv hψ hy)
    (h2.mono fun x hx => hx key) h3 pos (fun w => configured_amplitude hm hv hψ (h0 w)) (fun w => ?_)
    hW nburn hk hε
  obtain ⟨E', hE', h⟩ := ibp_energy_terms permutation parts sampleParts b R charges 0 0 f (pos w) key
    ⟨.inr (hgood w).2, .inr (hgood w).1, hR⟩
  rw [h1] at hE'
  obtain rfl := Option.some.inj hE'
  exact ⟨_, h⟩

end configured

/-- Two walkers for helium, both started with the electrons at (1,1,1) and (2,2,2): whatever the
decay `a ≠ 0` of the orbitals, evaluations end with an average within 1/1000 of the energy of
`exp (-|a r₁| - |a r₂|)` with a probability which tends to 1. -/
example (P : Params 2 1 3) (a : ℝ) (ha : a ≠ 0)
    (permutation : Unit → Equiv.Perm (Fin (∑ _ : Fin 2, 1))) :
    ∃ m : Model 1, getModelFromConfig {} (counts fun _ : Fin 2 => 1)
        (fun (_ : Fin 1) (_ : Fin 3) => (0 : ℝ)) (fun _ => 2) 32 = .ok m ∧
      ∃ f : (Fin (∑ _ : Fin 2, 1) → Fin 3 → ℝ) → ℝ,
        (∀ y, m.apply (heliumParams P a) (fun _ _ => 0) (splitPositions (n := fun _ : Fin 2 => 1) y) =
          .ok (.fin 1, .fin (f y))) ∧
        ∃ E, assembleMolLocalEnergy permutation "standard" [] 1 [] (fun (_ : Fin 1) _ => 0)
            (fun _ => 2) 0 0 f = some E ∧
          Tendsto (fun nepochs => ((Measure.pi fun _ : Fin 5000 =>
              noiseLaw (positionNoise (∑ _ : Fin 2, 1) 3) (Fin 1 × Fin 2)).prod
            (Measure.pi fun _ : Fin nepochs => Measure.pi fun _ : Fin 10 =>
              noiseLaw (positionNoise (∑ _ : Fin 2, 1) 3) (Fin 1 × Fin 2))).real
            {z | ¬Evaluates (fun x => E x ())
              (epochPositions true (1 / 4) (fun y => .fin (f y)) (fun _ e _ => (e.val + 1 : ℝ)) z.1 z.2)
              (rayleigh (heliumWave a) (coulomb 0 0 (fun (_ : Fin 1) _ => 0) fun _ => 2)) (1 / 1000)})
            atTop (𝓝 0) := by
  obtain ⟨m, hm, nz, ψ, hψ, hval, hpos, hv⟩ := helium_model P a
  have hR : Distinct fun (_ : Fin 1) (_ : Fin 3) => (0 : ℝ) := fun i j h =>
    absurd (Subsingleton.elim i j) h
  refine ⟨m, hm, fun y => Real.log (ψ (splitPositions y)), fun y => hv _, ?_⟩
  obtain ⟨E, h1, h2⟩ := configured_evaluation_converges {} _ _ m hm _ _ hv nz ψ hψ
    (fun y => Real.log (ψ (splitPositions y))) (fun _ _ => rfl) (helium_decays P ha)
    (ndev := 1) (nbatch := 2) (by norm_num) (fun _ e _ => (e.val + 1 : ℝ)) (fun _ => helium_good)
    (fun _ => (hpos _).ne') hR (σ := 1 / 4) (by norm_num)
    (by norm_num) permutation [] [] 1 0 0 () 5000 (nsteps := 10) (by norm_num) (ε := 1 / 1000)
    (by norm_num)
  rw [show (fun y => ψ (splitPositions y)) = heliumWave a from funext hval] at h2
  exact ⟨E, h1, h2⟩

end Verif.Props
