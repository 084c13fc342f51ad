import Verif.Model.Statistics
import Verif.Model.EvalKeys
import Verif.Model.IO

/-!
Model of the way from the recorded local energies of an evaluation to its statistics file:
the text file `local_energies.txt`, `np.loadtxt`, and `_compute_and_save_energy_statistics`
(vmcnet/train/runners.py:583-593, called at 749-759 and by `vmc_statistics`, 762-784).

Simplifications: all local energies are finite; `np.savetxt` writes 19 significant digits, so that
`np.loadtxt` reads back the number written.
-/

namespace Verif.Stat
open Setup

/-- `np.array(metric).reshape((1, -1))` in `append_metric_to_file`, utils/io.py:31, for the
metric `local_energies` of shape (devices, walkers on the device): the row of all walkers,
device by device.  Without devices the shape is (walkers,), which gives the same row as one
device. -/
def flatRow {E : Type} {ndev nbatch : ℕ} (e : Fin ndev → Fin nbatch → E) : List E :=
  (List.ofFn fun g => List.ofFn (e g)).flatten

/-- An array as returned by `np.loadtxt`. -/
inductive Loaded where
  | scalar (x : ℝ)
  | vector (x : List ℝ)
  | matrix (x : List (List ℝ))

/-- `np.loadtxt(path)` with the default `ndmin=0`, runners.py:586: lines of different lengths are
refused, and dimensions of size one are removed. -/
def loadtxt (rows : List (List ℝ)) : Except String Loaded :=
  match rows with
  | [] => .ok (.vector [])
  | r :: rest =>
    if rest.all fun s => s.length == r.length then
      match rest, r with
      | [], [x] => .ok (.scalar x)
      | [], _ => .ok (.vector r)
      | _ :: _, [_] => .ok (.vector (rows.map fun s => s.headD 0))
      | _ :: _, _ => .ok (.matrix rows)
    else .error "the number of columns changed"

/-- `get_stats_summary`, mcmc/statistics.py:127-150, on a loaded array.  The first line takes two
means over last axes (statistics.py:139), so an array of fewer than two dimensions is refused. -/
noncomputable def summaryOfLoaded : Loaded → Except String Summary
  | .scalar _ => .error "axis -1 is out of bounds for array of dimension 0"
  | .vector _ => .error "axis -1 is out of bounds for array of dimension 0"
  | .matrix rows => .ok (getStatsSummary rows.length (rows.headD []).length
      fun t c => (rows.getD t []).getD c 0)

/-- `_compute_and_save_energy_statistics`, runners.py:583-593: what is saved. -/
noncomputable def computeEnergyStatistics (rows : List (List ℝ)) : Except String Summary := do
  let a ← loadtxt rows
  summaryOfLoaded a

/-- The end of `run_molecule`, runners.py:749-759.  `local_energies.txt` is created by the first
row appended to it. -/
noncomputable def finishEvaluation (record : Bool) (rows : List (List ℝ)) :
    Except String (Option Summary) :=
  if record && !rows.isEmpty then (computeEnergyStatistics rows).map some else .ok none

/-- The rows of `local_energies.txt` after an evaluation in which device `g` recorded the local
energies `recorded g`, epoch by epoch: one call of `append_metric_to_file` for each of
the `n` epochs (utils/checkpoint.py:194-198). -/
def energyRows {ndev nbatch : ℕ} (n : ℕ) (recorded : Fin ndev → Fin n → Fin nbatch → ℝ) :
    List (List ℝ) :=
  (List.finRange n).foldl (fun file t => Files.appendMetric file (flatRow fun g => recorded g t)) []

end Verif.Stat
