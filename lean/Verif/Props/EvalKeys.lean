import Verif.Model.EvalKeys
import Verif.Props.Keys

/-! Evaluation with and without randomised local energies. -/

namespace Verif.Props

open Verif.MCMC Verif.Setup Verif.Spec

variable {K P D E : Type}

theorem walkArr_one (step : P → D → K → XR × D × K) (p : P) (n : ℕ) (d : D) (k : K) :
    walkArr step p n (d, .one k) =
      .ok ((iterSteps step p n (d, k)).1, .one (iterSteps step p n (d, k)).2) := by
  have hcomm : ∀ (n : ℕ) (s : D × K),
      iterSteps step p (n + 1) s =
        iterSteps step p n ((step p s.1 s.2).2.1, (step p s.1 s.2).2.2) := by
    intro n
    induction n with
    | zero => intro s; rfl
    | succ n ih =>
      intro s
      show (let t := iterSteps step p (n + 1) s; let r := step p t.1 t.2; (r.2.1, r.2.2)) = _
      rw [ih]
      rfl
  induction n generalizing d k with
  | zero => rfl
  | succ n ih =>
    show (do let s' ← stepArr step p d (.one k); walkArr step p n s') = _
    rw [hcomm]
    exact ih _ _

theorem walkArr_many (step : P → D → K → XR × D × K) (p : P) (n : ℕ) (d : D) {b : ℕ}
    (ks : Fin b → K) : walkArr step p (n + 1) (d, .many ks) =
      .error "split accepts a single key, but was given a key array" := rfl

/-- Every evaluation whose local energy is not random runs through all its epochs and records in
each the local energies of the walkers after `nsteps` more Metropolis steps. -/
theorem deterministic_evaluation_records (r : Rng K) (type : String)
    (htype : type ≠ "random_particle") {nbatch : ℕ} (nsteps nepochs : ℕ) (step : P → D → K → XR × D × K)
    (localEnergy : P → D → Fin nbatch → Option K → E) (p : P) (d : D) (key : K) :
    runEvaluation r type nsteps nepochs step localEnergy p d key =
      .ok (List.ofFn fun i : Fin nepochs => fun c =>
        localEnergy p (iterSteps step p ((i + 1) * nsteps) (d, key)).1 c none) := by
  have hadd : ∀ (a b : ℕ) (s : D × K),
      iterSteps step p (b + a) s = iterSteps step p a (iterSteps step p b s) := by
    intro a b s
    induction a with
    | zero => rfl
    | succ a ih =>
      show (let t := iterSteps step p (b + a) s; let r := step p t.1 t.2; (r.2.1, r.2.2)) = _
      rw [ih]
      rfl
  unfold runEvaluation
  rw [decide_eq_false htype]
  induction nepochs generalizing d key with
  | zero => rfl
  | succ n ih =>
    unfold evalEpochs
    rw [walkArr_one]
    simp only [bind, Except.bind, evalUpdate, Bool.false_eq_true, if_false]
    rw [ih]
    simp only [pure, Except.pure]
    congr 1
    rw [List.ofFn_succ]
    congr 1
    · simp
    · congr 1
      funext i c
      rw [Fin.val_succ, show ((i : ℕ) + 1 + 1) * nsteps = nsteps + (i + 1) * nsteps by ring, hadd]

/-- With the random-particle local energy the first epoch records, for each walker, the local
energy computed with a key of its own. -/
theorem random_evaluation_first_epoch_partial (r : Rng K) {nbatch : ℕ} (nsteps : ℕ)
    (step : P → D → K → XR × D × K) (localEnergy : P → D → Fin nbatch → Option K → E) (p : P)
    (d : D) (key : K) :
    runEvaluation r "random_particle" nsteps 1 step localEnergy p d key =
      .ok [fun c => localEnergy p (iterSteps step p nsteps (d, key)).1 c
        (some (r.children (iterSteps step p nsteps (d, key)).2 nbatch c))] := by
  unfold runEvaluation evalEpochs
  rw [walkArr_one]
  rfl

/-- With the random-particle local energy the second epoch always fails. -/
theorem random_evaluation_fails (r : Rng K) {nbatch : ℕ} (nsteps nepochs : ℕ) (hn : 2 ≤ nepochs)
    (step : P → D → K → XR × D × K) (localEnergy : P → D → Fin nbatch → Option K → E) (p : P)
    (d : D) (key : K) :
    ∃ msg, runEvaluation r "random_particle" nsteps nepochs step localEnergy p d key =
      .error msg := by
  obtain ⟨n, rfl⟩ : ∃ n, nepochs = n + 2 := ⟨nepochs - 2, by omega⟩
  refine ⟨"split accepts a single key, but was given a key array", ?_⟩
  unfold runEvaluation evalEpochs
  rw [walkArr_one]
  simp only [decide_true, bind, Except.bind, evalUpdate, if_true, KeyArr.children, pure,
    Except.pure]
  unfold evalEpochs
  cases nsteps with
  | zero => rfl
  | succ k => rw [walkArr_many]; rfl

/-- Two epochs of the default evaluation with the standard and the random local energy on
`keyInputs`. -/
example : (∃ rows, runEvaluation freeRng "standard" 10 2
      (stepSingle (n := 4) freeRng (fun _ _ => 0) (fun _ _ _ _ => 1) (fun _ => .fin 1)
        keyInputs.psi 10) (fun (p : ℝ) d c _ => p * d.position c 0 0) 1
      (setupSingle keyInputs (fun _ _ _ => ()) (.seed 0)).data (.seed 1) = .ok rows ∧
      rows.length = 2) ∧
    ∃ msg, runEvaluation freeRng "random_particle" 10 2
      (stepSingle (n := 4) freeRng (fun _ _ => 0) (fun _ _ _ _ => 1) (fun _ => .fin 1)
        keyInputs.psi 10) (fun (p : ℝ) d c _ => p * d.position c 0 0) 1
      (setupSingle keyInputs (fun _ _ _ => ()) (.seed 0)).data (.seed 1) = .error msg :=
  ⟨⟨_, deterministic_evaluation_records freeRng "standard" (by decide) 10 2 _ _ _ _ _, by simp⟩,
    random_evaluation_fails freeRng 10 2 (le_refl 2) _ _ _ _ _⟩

end Verif.Props
