import Verif.Model.Metropolis
import Mathlib.Algebra.Order.BigOperators.Group.Finset

/-! Vocabulary for the Metropolis properties. -/

namespace Verif.Spec
open MCMC

section
variable {P D K : Type}

/-- `n` successive steps, threading data and key. -/
noncomputable def iterSteps (step : P → D → K → XR × D × K) (params : P) :
    ℕ → D × K → D × K
  | 0, s => s
  | n + 1, s =>
    let t := iterSteps step params n s
    let r := step params t.1 t.2
    (r.2.1, r.2.2)

/-- Acceptance value of the `i`-th step. -/
noncomputable def stepAccept (step : P → D → K → XR × D × K) (params : P) (s : D × K) (i : ℕ) :
    XR := (step params (iterSteps step params i s).1 (iterSteps step params i s).2).1

end

/-- Every stored amplitude is the wavefunction at the stored position. -/
def Consistent {P W X M : Type} (psi : P → W → X → XR) (params : P) (d : PAData W X M) : Prop :=
  ∀ w, d.amplitude w = psi params w (d.position w)

/-- The value `r` of an acceptance is a probability. -/
def IsProb (x : XR) : Prop := ∃ r : ℝ, x = .fin r ∧ 0 ≤ r ∧ r ≤ 1

/-- Width after `k` adjustments, the `j`-th using the mean of the `j`-th block of `n`
averages. -/
noncomputable def widthAfter (n : ℕ) (adjust : ℝ → ℝ → ℝ) (a : ℕ → ℝ) (w0 : ℝ) : ℕ → ℝ
  | 0 => w0
  | k + 1 => adjust (widthAfter n adjust a w0 k)
      ((∑ i ∈ Finset.range n, a (k * n + i)) / n)

end Verif.Spec
