import Verif.Model.XRSum
import Mathlib.Analysis.SpecialFunctions.Complex.Log
import Mathlib.Analysis.SpecialFunctions.Exponential

/-!
Model of vmcnet/mcmc/statistics.py.  `samples t c` is sample `t < N` of chain `c`.
Samples are finite reals and N ≥ 1 (numpy's fft raises for N = 0); every division that can be
by zero is done in `XR`.
-/

namespace Verif.Stat
open Complex

/-- `np.fft.fft(a, n=n)` of a real signal given by its first `len` entries, zero padded. -/
noncomputable def fftPad (n len : ℕ) (a : ℕ → ℝ) (k : ℕ) : ℂ :=
  ∑ m ∈ Finset.range n, (if m < len then (a m : ℂ) else 0) *
    exp (-(2 * Real.pi * I * m * k / n))

/-- `np.fft.ifft(A)` of length `n`. -/
noncomputable def ifft (n : ℕ) (A : ℕ → ℂ) (m : ℕ) : ℂ :=
  (∑ k ∈ Finset.range n, A k * exp (2 * Real.pi * I * m * k / n)) / n

/-- `np.mean(samples, axis=0)` of one chain. -/
noncomputable def chainMean (N : ℕ) (x : ℕ → ℝ) : ℝ := (∑ t ∈ Finset.range N, x t) / N

/-- Length of the curve, statistics.py:26-30. -/
def curveLen (N : ℕ) (cutoff : Option ℕ) : ℕ := match cutoff with
  | none => N
  | some c => min c N

/-- `per_chain_autocorr_fast`, statistics.py:8-42, entry `i` (below `curveLen`) of one chain.
The two in-place divisions are kept separate. -/
noncomputable def perChainAutocorr (N : ℕ) (x : ℕ → ℝ) (i : ℕ) : XR :=
  let centered := fun t => x t - chainMean N x
  let fvi := fftPad (2 * N) N centered
  let G := fun i => (ifft (2 * N) (fun k => fvi k * (starRingEnd ℂ) (fvi k)) i).re
  let G' := fun i : ℕ => G i / ((N : ℝ) - i)
  XR.fin (G' i) / XR.fin (G' 0)

/-- The array returned by `per_chain_autocorr_fast` for one chain, statistics.py:8-42. -/
noncomputable def perChainCurve (N : ℕ) (x : ℕ → ℝ) (cutoff : Option ℕ) : List XR :=
  (List.range (curveLen N cutoff)).map (perChainAutocorr N x)

/-- Sum of squared deviations from the mean of `n` numbers. -/
noncomputable def sumSq (n : ℕ) (x : ℕ → ℝ) : ℝ :=
  ∑ t ∈ Finset.range n, (x t - chainMean n x) ^ 2

/-- `np.var(x, ddof=1)`. -/
noncomputable def var1 (n : ℕ) (x : ℕ → ℝ) : XR := XR.fin (sumSq n x) / XR.fin ((n : ℝ) - 1)

/-- `np.mean` of `n` numbers. -/
noncomputable def meanX (n : ℕ) (x : ℕ → XR) : XR := (∑ j ∈ Finset.range n, x j) / XR.ofNat n

/-- `within_chain_term`, statistics.py:68, 72. -/
noncomputable def withinTerm (N M : ℕ) (samples : ℕ → ℕ → ℝ) : XR :=
  meanX M fun c => var1 N fun t => samples t c

/-- `between_chain_term`, statistics.py:71. -/
noncomputable def betweenTerm (N M : ℕ) (samples : ℕ → ℕ → ℝ) : XR :=
  var1 M fun c => chainMean N fun t => samples t c

/-- `overall_var_estimate` in `multi_chain_autocorr_and_variance`, statistics.py:65-73. -/
noncomputable def overallVar (N M : ℕ) (samples : ℕ → ℕ → ℝ) : XR :=
  withinTerm N M samples * XR.fin ((N : ℝ) - 1) / XR.ofNat N + betweenTerm N M samples

/-- The combined curve returned by `multi_chain_autocorr_and_variance`,
statistics.py:67-77, entry `i`. -/
noncomputable def multiChainAutocorr (N M : ℕ) (samples : ℕ → ℕ → ℝ) (i : ℕ) : XR :=
  let autocorrTerm := meanX M fun c =>
    var1 N (fun t => samples t c) * perChainAutocorr N (fun t => samples t c) i
  XR.fin 1 - (withinTerm N M samples - autocorrTerm) / overallVar N M samples

/-- Sums of adjacent pairs, dropping a last odd entry; statistics.py:102-110. -/
noncomputable def pairSums : List XR → List XR
  | a :: b :: rest => (a + b) :: pairSums rest
  | _ => []

open Classical in
/-- Entries before the first negative one; statistics.py:114-119. -/
noncomputable def cutNegative : List XR → List XR
  | [] => []
  | s :: rest => if XR.lt s (.fin 0) then [] else s :: cutNegative rest

/-- `np.minimum.accumulate` with running minimum `m` so far; statistics.py:123. -/
noncomputable def minAccFrom (m : XR) : List XR → List XR
  | [] => []
  | s :: rest => XR.minimum m s :: minAccFrom (XR.minimum m s) rest

/-- `np.minimum.accumulate`; statistics.py:123. -/
noncomputable def minAcc : List XR → List XR
  | [] => []
  | s :: rest => s :: minAccFrom s rest

/-- `tau`, statistics.py:81-124, for a one-dimensional curve. -/
noncomputable def tau (curve : List XR) : XR :=
  XR.fin (-1) + XR.fin 2 * (minAcc (cutNegative (pairSums curve))).sum

/-- The four entries of `get_stats_summary`, statistics.py:127-150. -/
structure Summary where
  average : XR
  variance : XR
  stdErr : XR
  iac : XR

/-- `get_stats_summary`, statistics.py:127-150. -/
noncomputable def getStatsSummary (N M : ℕ) (samples : ℕ → ℕ → ℝ) : Summary :=
  let average := meanX N fun t => meanX M fun c => XR.fin (samples t c)
  let variance := overallVar N M samples
  let iac := tau ((List.range (curveLen N none)).map (multiChainAutocorr N M samples))
  let stdErr := XR.sqrt (iac * variance / XR.ofNat (N * M))
  ⟨average, variance, stdErr, iac⟩

end Verif.Stat
