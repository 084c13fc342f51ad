import Verif.Model.BatchedEpoch
import Verif.Model.Spin

/-!
The spin-square estimator as array code, `physics/spin.py`.
-/

namespace Verif.Arrays
open Verif.Slog Verif.Energy

/-- `swapped_indices = list(range(n)); swapped_indices[0], swapped_indices[a] = a, 0`.  physics/spin.py:122-124 -/
def swappedList (n a : ℕ) : List ℕ := ((List.range n).set 0 a).set a 0

/-- `jnp.take(x, indices, axis=-2)` for as many indices as there are particles.  physics/spin.py:125 -/
noncomputable def takeParticles (indices : List ℕ) (x : Arr ℝ) : Arr ℝ :=
  .of x.shape fun i => x.get (i.getD 0 0 :: indices.getD (i.getD 1 0) 0 :: i.drop 2)

/-- `local_spin_exchange`.  physics/spin.py:112-132 -/
noncomputable def spinExchangeA (slogPsi : Arr ℝ → Except String (Arr SL)) (nUp nDown : ℕ) (x : Arr ℝ) :
    Except String (Arr XR) :=
  if nUp = 0 ∨ nDown = 0 then .ok (.of (x.shape.drop 2) fun _ => .fin 0)
  else do
    let psi ← slogPsi x
    let exchanged ← slogPsi (takeParticles (swappedList (x.shape.getD 1 0) nUp) x)
    let signOut ← (psi.map Prod.fst).zip (· * ·) (exchanged.map Prod.fst)
    let logOut ← (exchanged.map Prod.snd).zip (· - ·) (psi.map Prod.snd)
    (signOut.map ((-XR.ofNat nUp) * XR.ofNat nDown * ·)).zip (· * ·) (logOut.map XR.exp)

/-- `spin_square_expectation` on one device.  physics/spin.py:60-67 -/
noncomputable def spinSquareA (slogPsi : Arr ℝ → Except String (Arr SL)) (nUp nDown : ℕ) (nanSafe : Bool)
    (x : Arr ℝ) : Except String XR := do
  let out ← spinExchangeA slogPsi nUp nDown x
  return .fin (0.25 * ((nUp : ℝ) - nDown) ^ 2) + .fin (0.5 * ((nUp : ℝ) + nDown)) +
    allreduceMean nanSafe [entriesA out]

end Verif.Arrays
