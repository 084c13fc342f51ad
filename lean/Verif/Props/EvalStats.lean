import Verif.Model.EvalStats
import Verif.Props.Statistics
import Verif.Props.EvalKeys

/-!
Property theorems about the statistics file of an evaluation: C87.
-/

namespace Verif.Props
open Spec Stat Setup

section
variable {ndev nbatch n : ℕ}

/-! ### Statement -/

/-- Mean of all local energies recorded by an evaluation. -/
noncomputable def recordedMean (e : Fin ndev → Fin n → Fin nbatch → ℝ) : ℝ :=
  (∑ t, ∑ g, ∑ b, e g t b) / (n * (ndev * nbatch))

/-- Mean of the local energies of one walker. -/
noncomputable def walkerMean (e : Fin ndev → Fin n → Fin nbatch → ℝ) (g : Fin ndev)
    (b : Fin nbatch) : ℝ := (∑ t, e g t b) / n

/-- Population variance of all recorded local energies. -/
noncomputable def recordedVariance (e : Fin ndev → Fin n → Fin nbatch → ℝ) : ℝ :=
  (∑ t, ∑ g, ∑ b, (e g t b - recordedMean e) ^ 2) / (n * (ndev * nbatch))

/-- Sample variance of the means of the walkers. -/
noncomputable def walkerMeanVariance (e : Fin ndev → Fin n → Fin nbatch → ℝ) : ℝ :=
  (∑ g, ∑ b, (walkerMean e g b - recordedMean e) ^ 2) / ((ndev * nbatch : ℕ) - 1)

end

/-- C87 in full: every evaluation which records local energies ends with a statistics file with
their mean and a real standard error. -/
def EvaluationStatisticsSaved : Prop :=
  ∀ (ndev nbatch n : ℕ) (e : Fin ndev → Fin n → Fin nbatch → ℝ), 1 ≤ n → 1 ≤ ndev * nbatch →
    ∃ s r, finishEvaluation true (energyRows n e) = .ok (some s) ∧
      s.average = .fin (recordedMean e) ∧ s.stdErr = .fin r

section
variable {ndev nbatch n : ℕ}

/-! ### The file -/

theorem flatRow_eq (e : Fin ndev → Fin nbatch → ℝ) :
    flatRow e = List.ofFn fun q : Fin (ndev * nbatch) => e q.divNat q.modNat := by
  unfold flatRow
  rw [List.ofFn_mul]
  congr 2
  funext g
  congr 1
  funext b
  congr 1
  · ext
    simp only [Fin.divNat]
    rw [Nat.add_comm, Nat.add_mul_div_right _ _ (by have := b.2; omega),
      Nat.div_eq_of_lt b.2, zero_add]
  · ext
    simp only [Fin.modNat]
    rw [Nat.add_comm, Nat.add_mul_mod_self_right, Nat.mod_eq_of_lt b.2]

/-- The file has one row for each epoch. -/
theorem energyRows_eq (e : Fin ndev → Fin n → Fin nbatch → ℝ) :
    energyRows n e = List.ofFn fun t => flatRow fun g => e g t := by
  have h : ∀ (l : List (Fin n)) (file : List (List ℝ)),
      l.foldl (fun file t => Files.appendMetric file (flatRow fun g => e g t)) file =
        file ++ l.map fun t => flatRow fun g => e g t := by
    intro l
    induction l with
    | nil => simp
    | cons t l ih =>
      intro file
      rw [List.foldl_cons, ih]
      simp [Files.appendMetric]
  unfold energyRows
  rw [h, List.nil_append, List.ofFn_eq_map]

/-- The samples read back: column `c` is the walker `c % nbatch` of device `c / nbatch`. -/
noncomputable def readSamples (e : Fin ndev → Fin n → Fin nbatch → ℝ) (t c : ℕ) : ℝ :=
  ((energyRows n e).getD t []).getD c 0

theorem readSamples_fin (e : Fin ndev → Fin n → Fin nbatch → ℝ) (t : Fin n)
    (q : Fin (ndev * nbatch)) : readSamples e t q = e q.divNat t q.modNat := by
  unfold readSamples
  rw [energyRows_eq]
  have : (List.ofFn fun t => flatRow fun g => e g t).getD t [] = flatRow fun g => e g t := by
    simp [List.getD]
  rw [this, flatRow_eq]
  simp [List.getD]

theorem sum_walkers (f : Fin ndev → Fin nbatch → ℝ) :
    ∑ q : Fin (ndev * nbatch), f q.divNat q.modNat = ∑ g, ∑ b, f g b := by
  rw [← Fintype.sum_prod_type' f]
  exact Fintype.sum_equiv finProdFinEquiv.symm _ _ fun q => rfl

/-- With at least two epochs and two walkers the file is read as a matrix. -/
theorem finishEvaluation_matrix (e : Fin ndev → Fin n → Fin nbatch → ℝ) (hn : 2 ≤ n)
    (hM : 2 ≤ ndev * nbatch) : finishEvaluation true (energyRows n e) =
      .ok (some (getStatsSummary n (ndev * nbatch) (readSamples e))) := by
  have hlen : (energyRows n e).length = n := by rw [energyRows_eq]; simp
  have hrow : ∀ r ∈ energyRows n e, r.length = ndev * nbatch := by
    rw [energyRows_eq]
    intro r hr
    obtain ⟨t, rfl⟩ := (List.mem_ofFn' _ _).mp hr
    show (flatRow fun g => e g t).length = _
    rw [flatRow_eq, List.length_ofFn]
  have hs : ∀ t c, readSamples e t c = ((energyRows n e).getD t []).getD c 0 := fun _ _ => rfl
  have hf : readSamples e = fun t c => ((energyRows n e).getD t []).getD c 0 := by
    funext t c; exact hs t c
  rw [hf]
  generalize energyRows n e = rows at *
  match rows with
  | [] => simp at hlen; omega
  | [_] => simp at hlen; omega
  | r :: r' :: rest =>
    have h1 : ((r' :: rest).all fun s => s.length == r.length) = true := by
      rw [List.all_eq_true]
      intro s hs
      rw [beq_iff_eq, hrow s (List.mem_cons_of_mem _ hs), hrow r (List.mem_cons_self)]
    have hr := hrow r List.mem_cons_self
    have h2 : loadtxt (r :: r' :: rest) = .ok (.matrix (r :: r' :: rest)) := by
      unfold loadtxt
      simp only [h1, if_true]
      match r, hr with
      | [], hr => rfl
      | [_], hr => simp at hr; omega
      | _ :: _ :: _, hr => rfl
    simp only [finishEvaluation, List.isEmpty_cons, Bool.not_false, Bool.and_self, if_true,
      computeEnergyStatistics, h2, bind, Except.bind, summaryOfLoaded, Except.map, hlen,
      List.headD_cons, hr]

theorem grandMean_recorded (e : Fin ndev → Fin n → Fin nbatch → ℝ) :
    grandMean n (ndev * nbatch) (readSamples e) = recordedMean e := by
  unfold grandMean recordedMean
  rw [Finset.sum_range]
  push_cast
  congr 1
  refine Finset.sum_congr rfl fun t _ => ?_
  rw [Finset.sum_range, ← sum_walkers]
  exact Finset.sum_congr rfl fun q _ => readSamples_fin e t q

theorem popVar_recorded (e : Fin ndev → Fin n → Fin nbatch → ℝ) :
    popVar n (ndev * nbatch) (readSamples e) = recordedVariance e := by
  unfold popVar recordedVariance
  rw [grandMean_recorded, Finset.sum_range]
  push_cast
  congr 1
  refine Finset.sum_congr rfl fun t _ => ?_
  rw [Finset.sum_range, ← sum_walkers fun g b => (e g t b - recordedMean e) ^ 2]
  exact Finset.sum_congr rfl fun q _ => by rw [readSamples_fin]

theorem avg_recorded (e : Fin ndev → Fin n → Fin nbatch → ℝ) (q : Fin (ndev * nbatch)) :
    (avg n fun t => readSamples e t q) = walkerMean e q.divNat q.modNat := by
  unfold avg walkerMean
  rw [Finset.sum_range]
  congr 1
  exact Finset.sum_congr rfl fun t _ => readSamples_fin e t q

theorem betweenVar_recorded (e : Fin ndev → Fin n → Fin nbatch → ℝ) (hn : 1 ≤ n)
    (hM : 1 ≤ ndev * nbatch) :
    betweenVar n (ndev * nbatch) (readSamples e) = walkerMeanVariance e := by
  unfold betweenVar walkerMeanVariance
  rw [← grandMean_eq n _ _ (by omega) (by omega), grandMean_recorded, Finset.sum_range]
  congr 1
  rw [← sum_walkers fun g b => (walkerMean e g b - recordedMean e) ^ 2]
  exact Finset.sum_congr rfl fun q _ => by rw [avg_recorded]

/-! ### The statistics -/

/-- C87 for evaluations of at least two epochs with at least two walkers: the file is saved, its
average is the mean of all local energies of all walkers of all devices and epochs, and its
variance is their population variance plus the variance of the walkers' means divided by
the number of walkers.
Missing: one epoch or one walker (`one_epoch_no_statistics`, `one_walker_no_statistics`), and a
real standard error, see `stuck_walker_no_error_estimate` and C27 for when it is real. -/
theorem evaluation_statistics_partial (e : Fin ndev → Fin n → Fin nbatch → ℝ) (hn : 2 ≤ n)
    (hM : 2 ≤ ndev * nbatch) :
    ∃ s, finishEvaluation true (energyRows n e) = .ok (some s) ∧
      s.average = .fin (recordedMean e) ∧
      s.variance = .fin (recordedVariance e + walkerMeanVariance e / (ndev * nbatch : ℕ)) := by
  refine ⟨_, finishEvaluation_matrix e hn hM, ?_, ?_⟩
  · rw [summary_average _ _ _ (by omega) (by omega), grandMean_recorded]
  · show overallVar n (ndev * nbatch) (readSamples e) = _
    rw [variance_exact _ _ _ hn hM, popVar_recorded, betweenVar_recorded _ (by omega) (by omega)]

/-- An evaluation of one epoch ends with an exception, and no statistics are saved. -/
theorem one_epoch_no_statistics (e : Fin ndev → Fin 1 → Fin nbatch → ℝ) :
    ∃ msg, finishEvaluation true (energyRows 1 e) = .error msg := by
  refine ⟨"axis -1 is out of bounds for array of dimension 0", ?_⟩
  rw [energyRows_eq]
  simp only [List.ofFn_succ, List.ofFn_zero]
  generalize flatRow (fun g => e g 0) = r
  match r with
  | [] => rfl
  | [_] => rfl
  | _ :: _ :: _ => rfl

/-- An evaluation with a single walker ends with an exception, and no statistics are saved. -/
theorem one_walker_no_statistics (hn : 1 ≤ n) (e : Fin 1 → Fin n → Fin 1 → ℝ) :
    ∃ msg, finishEvaluation true (energyRows n e) = .error msg := by
  refine ⟨"axis -1 is out of bounds for array of dimension 0", ?_⟩
  have hlen : (energyRows n e).length = n := by rw [energyRows_eq]; simp
  have hrow : ∀ r ∈ energyRows n e, ∃ x, r = [x] := by
    rw [energyRows_eq]
    intro r hr
    obtain ⟨t, rfl⟩ := (List.mem_ofFn' _ _).mp hr
    exact ⟨e 0 t 0, by simp [flatRow]⟩
  generalize energyRows n e = rows at *
  match rows with
  | [] => simp at hlen; omega
  | r :: rest =>
    obtain ⟨x, rfl⟩ := hrow r List.mem_cons_self
    have h1 : (rest.all fun s => s.length == [x].length) = true := by
      rw [List.all_eq_true]
      intro s hs
      obtain ⟨y, rfl⟩ := hrow s (List.mem_cons_of_mem _ hs)
      rfl
    have h2 : ∃ v, loadtxt ([x] :: rest) = .ok v ∧ (∀ m, v ≠ .matrix m) := by
      unfold loadtxt
      simp only [h1, if_true]
      cases rest with
      | nil => exact ⟨_, rfl, fun m h => by cases h⟩
      | cons a b => exact ⟨_, rfl, fun m h => by cases h⟩
    obtain ⟨v, h2, h3⟩ := h2
    simp only [finishEvaluation, List.isEmpty_cons, Bool.not_false, Bool.and_self, if_true,
      computeEnergyStatistics, h2, bind, Except.bind]
    cases v with
    | matrix m => exact absurd rfl (h3 m)
    | scalar x => rfl
    | vector x => rfl

/-- Without records no statistics are computed, and nothing fails. -/
theorem no_records_no_statistics (e : Fin ndev → Fin 0 → Fin nbatch → ℝ) (record : Bool)
    (rows : List (List ℝ)) : finishEvaluation record (energyRows 0 e) = .ok none ∧
      finishEvaluation false rows = .ok none := by
  constructor
  · cases record <;> rfl
  · rfl

theorem tau_nan (curve : List XR) (h2 : 2 ≤ curve.length) (h : ∀ c ∈ curve, c = .nan) :
    tau curve = .nan := by
  match curve with
  | a :: b :: rest =>
    rw [h a (by simp), h b (by simp)]
    have h1 : (XR.nan + XR.nan : XR) = .nan := rfl
    unfold tau pairSums
    rw [h1, cutNegative, if_neg (by simp [XR.lt]), minAcc, List.sum_cons]
    have h3 : ∀ s : XR, XR.nan + s = .nan := fun s => by cases s <;> rfl
    rw [h3]
    rfl

/-- C87: one walker whose local energy never changed during the evaluation (for instance because
all its moves were rejected) makes the integrated autocorrelation and the standard error nan,
whatever the other walkers do.  The average is not affected. -/
theorem stuck_walker_no_error_estimate (e : Fin ndev → Fin n → Fin nbatch → ℝ) (hn : 2 ≤ n)
    (hM : 2 ≤ ndev * nbatch) (g : Fin ndev) (b : Fin nbatch)
    (hstuck : ∀ t t', e g t b = e g t' b) :
    ∃ s, finishEvaluation true (energyRows n e) = .ok (some s) ∧
      s.average = .fin (recordedMean e) ∧ s.iac = .nan ∧ s.stdErr = .nan := by
  have hnR : (n : ℝ) ≠ 0 := by
    have : n ≠ 0 := by omega
    exact_mod_cast this
  set q : Fin (ndev * nbatch) := finProdFinEquiv (g, b) with hq
  have hqs : finProdFinEquiv.symm q = (g, b) := Equiv.symm_apply_apply _ _
  have hdiv : q.divNat = g := congrArg Prod.fst hqs
  have hmod : q.modNat = b := congrArg Prod.snd hqs
  have hconst : ∀ t < n, (fun t => readSamples e t q) t = avg n fun t => readSamples e t q := by
    intro t ht
    show readSamples e ((⟨t, ht⟩ : Fin n) : ℕ) q = _
    rw [readSamples_fin, avg_recorded, hdiv, hmod]
    unfold walkerMean
    rw [Finset.sum_congr rfl fun t' _ => hstuck t' ⟨t, ht⟩]
    simp only [Finset.sum_const, Finset.card_univ, Fintype.card_fin, nsmul_eq_mul]
    field_simp
  have hcurve : ∀ i < n, multiChainAutocorr n (ndev * nbatch) (readSamples e) i = .nan := by
    intro i hi
    have hm : meanX (ndev * nbatch) (fun c => var1 n (fun t => readSamples e t c) *
        perChainAutocorr n (fun t => readSamples e t c) i) = .nan := by
      unfold meanX
      rw [XR.sum_nan (Finset.range (ndev * nbatch)) _ (i := (q : ℕ))
        (Finset.mem_range.mpr q.2) (by
          rw [autocorr_constant_chain n _ i (by omega) hconst hi]
          cases var1 n (fun t => readSamples e t q) <;> rfl)]
      rfl
    unfold multiChainAutocorr
    simp only
    rw [hm]
    have h1 : ∀ a : XR, a - XR.nan = .nan := fun a => by cases a <;> rfl
    have h2 : ∀ a : XR, XR.nan / a = .nan := fun a => by cases a <;> rfl
    rw [h1, h2, h1]
  have hiac : (getStatsSummary n (ndev * nbatch) (readSamples e)).iac = .nan := by
    refine tau_nan _ (by simpa [curveLen] using hn) ?_
    intro c hc
    obtain ⟨i, hi, rfl⟩ := List.mem_map.mp hc
    exact hcurve i (List.mem_range.mp hi)
  refine ⟨_, finishEvaluation_matrix e hn hM, ?_, hiac, ?_⟩
  · rw [summary_average _ _ _ (by omega) (by omega), grandMean_recorded]
  · have : (getStatsSummary n (ndev * nbatch) (readSamples e)).stdErr =
        XR.sqrt ((getStatsSummary n (ndev * nbatch) (readSamples e)).iac *
          overallVar n (ndev * nbatch) (readSamples e) / XR.ofNat (n * (ndev * nbatch))) := rfl
    rw [this, hiac]
    have h1 : ∀ a : XR, XR.nan * a = .nan := fun a => by cases a <;> rfl
    rw [h1]
    rfl

/-- C87 is false of the code: one epoch with two walkers. -/
theorem evaluation_statistics_fail : ¬ EvaluationStatisticsSaved := by
  intro h
  obtain ⟨s, r, h1, -⟩ := h 1 2 1 (fun _ _ _ => 0) le_rfl (by norm_num)
  obtain ⟨msg, h2⟩ := one_epoch_no_statistics (ndev := 1) (nbatch := 2) fun _ _ _ => 0
  rw [h2] at h1
  cases h1

/-- C87, from the evaluation itself: with any local energy which is not random, the average in
the statistics file is the mean, over all devices, walkers and epochs, of the local energy at
the positions reached after the walking steps done so far. -/
theorem evaluation_average {K P D : Type} (r : Rng K) (type : String)
    (htype : type ≠ "random_particle") (nsteps : ℕ)
    (step : P → D → K → XR × D × K) (localEnergy : P → D → Fin nbatch → Option K → ℝ) (p : P)
    (d : Fin ndev → D) (key : Fin ndev → K) (hn : 2 ≤ n) (hM : 2 ≤ ndev * nbatch) :
    ∃ (e : Fin ndev → Fin n → Fin nbatch → ℝ) (s : Summary),
      (∀ g, runEvaluation r type nsteps n step localEnergy p (d g) (key g) =
        .ok (List.ofFn (e g))) ∧
      finishEvaluation true (energyRows n e) = .ok (some s) ∧
      s.average = .fin ((∑ t : Fin n, ∑ g, ∑ b, localEnergy p
        (iterSteps step p ((t + 1) * nsteps) (d g, key g)).1 b none) /
          (n * (ndev * nbatch))) := by
  let e : Fin ndev → Fin n → Fin nbatch → ℝ := fun g t b =>
    localEnergy p (iterSteps step p ((t + 1) * nsteps) (d g, key g)).1 b none
  obtain ⟨s, h1, h2, -⟩ := evaluation_statistics_partial e hn hM
  exact ⟨e, s, fun g => deterministic_evaluation_records r type htype nsteps n step localEnergy p
    (d g) (key g), h1, h2⟩

end

/-- Two devices with one walker each and two epochs: energies 1, 2 and 3, 6. -/
example : ∃ s, finishEvaluation true (energyRows 2 fun (g : Fin 2) (t : Fin 2) (_ : Fin 1) =>
      ((1 + t) * (1 + 2 * g) : ℝ)) = .ok (some s) ∧ s.average = .fin 3 ∧
      s.variance = .fin (3.5 + 4.5 / 2) := by
  obtain ⟨s, h1, h2, h3⟩ := evaluation_statistics_partial
    (fun (g : Fin 2) (t : Fin 2) (_ : Fin 1) => ((1 + t) * (1 + 2 * g) : ℝ)) le_rfl le_rfl
  have hm : recordedMean (fun (g : Fin 2) (t : Fin 2) (_ : Fin 1) =>
      ((1 + t) * (1 + 2 * g) : ℝ)) = 3 := by
    norm_num [recordedMean, Fin.sum_univ_two]
  refine ⟨s, h1, by rw [h2, hm], ?_⟩
  rw [h3]
  norm_num [recordedVariance, walkerMeanVariance, walkerMean, hm, Fin.sum_univ_two]

/-- A stuck walker beside a moving one. -/
example : ∃ s, finishEvaluation true (energyRows 2 fun (_ : Fin 1) (t : Fin 2) (b : Fin 2) =>
      (t * b : ℝ)) = .ok (some s) ∧ s.average = .fin (1 / 4) ∧ s.stdErr = .nan := by
  obtain ⟨s, h1, h2, -, h3⟩ := stuck_walker_no_error_estimate
    (fun (_ : Fin 1) (t : Fin 2) (b : Fin 2) => (t * b : ℝ)) le_rfl le_rfl 0 0
    (fun t t' => by simp)
  refine ⟨s, h1, ?_, h3⟩
  rw [h2]
  norm_num [recordedMean, Fin.sum_univ_two]

end Verif.Props
