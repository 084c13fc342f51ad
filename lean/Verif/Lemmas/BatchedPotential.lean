import Verif.Model.BatchedPotential
import Verif.Lemmas.Batched
import Verif.Lemmas.ArrayViewsJastrow

/-!
The array code of the potential energies on one walker of a batch, and on arrays given by functions of indices.
-/

namespace Verif.Arrays

variable {B b : List ℕ} {r : ℕ} {X x : Arr ℝ}

theorem on_softNorm (h : On B b (r + 1) X x) (ε : ℝ) : On B b r (softNormA ε X) (softNormA ε x) :=
  h.reduce _ (by omega)

theorem on_sumPairs {Y y : Arr XR} (h : On B b (r + 2) Y y) : On B b r (sumPairs Y) (sumPairs y) :=
  (h.reduce _ (by omega)).reduce _ (by omega)

theorem on_strictTriu {Y y : Arr XR} (h : On B b (r + 2) Y y) : On B b (r + 2) (strictTriu Y) (strictTriu y) := by
  refine on_of' h.ix h.rank h.shape fun j hj _ => ?_
  rw [h.get j hj]
  match j, hj with
  | i :: k :: j, _ => rfl

theorem on_strictTril {Y y : Arr XR} (h : On B b (r + 2) Y y) : On B b (r + 2) (strictTril Y) (strictTril y) := by
  refine on_of' h.ix h.rank h.shape fun j hj _ => ?_
  rw [h.get j hj]
  match j, hj with
  | i :: k :: j, _ => rfl

theorem on_firstRows {α : Type} [Inhabited α] {Y y : Arr α} (h : On B b (r + 2) Y y) (k : ℕ) :
    On B b (r + 2) (firstRowsA k Y) (firstRowsA k y) := by
  unfold firstRowsA
  rw [h.getD (by omega : 1 < r + 2)]
  exact h.slice (by omega) _ _

/-- A pair of a number and an array. -/
theorem on_firstParticles (h : On B b 2 X x) (nparticles : Option ℕ) :
    ERel (fun p q => p.1 = q.1 ∧ On B b 2 p.2 q.2) (firstParticles nparticles X) (firstParticles nparticles x) := by
  unfold firstParticles
  split
  · exact .ok ⟨rfl, h⟩
  · exact .error _
  · rw [h.getD (by omega : 1 < 2)]
    exact .ok ⟨rfl, on_firstRows (r := 0) h _⟩

theorem on_electronIon' {ions charges : Arr ℝ} (hi : ions.shape.length = 2) (hc : charges.shape.length = 1)
    (strength ε : ℝ) (nparticles : Option ℕ) (h : On B b 2 X x) :
    ERel (On B b 0) (electronIonA ions charges strength ε nparticles X)
      (electronIonA ions charges strength ε nparticles x) := by
  unfold electronIonA
  refine (on_firstParticles h nparticles).bind fun p q hpq => ?_
  have h0 : Side B b 3 (ions.expand 2) (ions.expand 2) :=
    side_const _ (by unfold Arr.expand Arr.of; simp [hi, List.length_insertIdx])
  refine (on_displacements hpq.2 h0).bind fun R r hR => ?_
  refine ((on_softNorm hR ε).zip' (side_const charges (by omega)) _).bind fun A a hA => ?_
  rw [hpq.1]
  exact .pure ((on_sumPairs (r := 0) hA).map _)

theorem on_electronElectron' (strength ε : ℝ) (nparticles : Option ℕ) (h : On B b 2 X x) :
    ERel (On B b 0) (electronElectronA strength ε nparticles X) (electronElectronA strength ε nparticles x) := by
  unfold electronElectronA
  refine (on_displacements h (h.expand (by omega)).side).bind fun R r hR => ?_
  have hm := (on_softNorm hR ε).map fun r => (.fin strength / .fin r : XR)
  simp only
  split
  · exact .pure (on_sumPairs (r := 0) (on_strictTriu hm))
  · exact .error _
  · rw [h.getD (by omega : 1 < 2)]
    refine ((on_strictTriu hm).zip (on_strictTril (r := 0) hm).side _).bind fun D e hD => ?_
    exact .pure ((on_sumPairs (r := 0) (on_firstRows hD _)).map _)

/-! ### One walker -/

open Phys

variable {a c d m n : ℕ}

theorem softNorm_ofFn (ε : ℝ) (v : Fin d → ℝ) : softNorm ε (List.ofFn v) = computeSoftNorm v ε := by
  unfold softNorm computeSoftNorm
  rw [List.map_ofFn, List.sum_ofFn]
  rfl

theorem softNorm_A3 (ε : ℝ) (v : Fin a → Fin c → Fin d → ℝ) :
    softNormA ε (A3 v) = A2 fun i j => computeSoftNorm (v i j) ε := by
  unfold softNormA
  rw [reduce_last_A3]
  simp only [softNorm_ofFn]

theorem reduce_last_A2' {α β : Type} [Inhabited α] [Inhabited β] (f : List α → β) (x : Fin a → Fin c → α) :
    (A2 x).reduce f 0 false = A1 fun i => f (List.ofFn (x i)) := by
  refine eq_A1 rfl fun i => ?_
  simp only [Arr.reduce, Bool.false_eq_true, if_false]
  rw [of_get (by exact .cons i.2 .nil)]
  congr 1
  refine map_range_eq_ofFn _ _ fun j => ?_
  exact A2_get x i.2 j.2

theorem reduce_A1' {α β : Type} [Inhabited α] [Inhabited β] (f : List α → β) (x : Fin a → α) :
    (A1 x).reduce f 0 false = A0 (f (List.ofFn x)) := by
  refine eq_A0 rfl ?_
  simp only [Arr.reduce, Bool.false_eq_true, if_false]
  rw [of_get (by exact .nil)]
  congr 1
  refine map_range_eq_ofFn _ _ fun j => ?_
  exact A1_get x j.2

theorem sumPairs_A2 (x : Fin a → Fin c → XR) : sumPairs (A2 x) = A0 (∑ i, ∑ j, x i j) := by
  unfold sumPairs
  rw [reduce_last_A2', reduce_A1']
  simp only [List.sum_ofFn]

theorem strictTriu_A2 (x : Fin n → Fin n → XR) : strictTriu (A2 x) = A2 (triu1 x) := by
  refine eq_A2 rfl fun i j => ?_
  unfold strictTriu
  rw [of_get (by exact ix2)]
  show (if i.val + 1 ≤ j.val then (A2 x).get [j.val, i.val] else 0) = _
  rw [A2_get x i.2 j.2]
  rfl

theorem strictTril_A2 (x : Fin n → Fin n → XR) : strictTril (A2 x) = A2 (tril1 x) := by
  refine eq_A2 rfl fun i j => ?_
  unfold strictTril
  rw [of_get (by exact ix2)]
  show (if j.val + 1 ≤ i.val then (A2 x).get [j.val, i.val] else 0) = _
  rw [A2_get x i.2 j.2]
  rfl

theorem firstRows_A2 {α : Type} [Inhabited α] (k : ℕ) (x : Fin n → Fin d → α) :
    firstRowsA k (A2 x) = A2 (firstRows k x) := by
  have hs : (firstRowsA k (A2 x)).shape = [d, min k n] := by
    show [d, min k n - 0] = _
    simp
  refine eq_A2 hs fun i j => ?_
  unfold firstRowsA Arr.slice
  rw [of_get (by
    show Ix [j.val, i.val] [d, min k n - 0]
    exact .cons j.2 (.cons (by have := i.2; simpa using this) .nil))]
  exact A2_get x (lt_of_lt_of_le i.2 (min_le_right _ _)) j.2

theorem charges_zip {α : Type} [Inhabited α] (f : ℝ → ℝ → α) (q : Fin c → ℝ) (x : Fin a → Fin c → ℝ) :
    (A1 q).zip f (A2 x) = .ok (A2 fun i j => f (q j) (x i j)) := by
  have hs : bshape (A1 q).shape (A2 x).shape = some [c, a] := by
    show bshape [c] [c, a] = _
    simp [bshape]
  rw [zip_of_eq _ hs]
  congr 1
  refine eq_A2 rfl fun i j => ?_
  rw [of_get ix2]
  have h1 : proj [j.val, i.val] (A1 q).shape = [j.val] := by
    show proj [j.val, i.val] [c] = _
    simp only [proj, List.zipWith_cons_cons, List.zipWith_nil_right]
    split_ifs with h
    · have := j.2; simp; omega
    · rfl
  rw [h1, show proj [j.val, i.val] (A2 x).shape = [j.val, i.val] from proj_id ix2, A1_get q j.2,
    A2_get x i.2 j.2]

theorem products_zip (q : Fin c → ℝ) :
    ((A1 q).expand 0).zip (· * ·) (A1 q) = .ok (A2 fun i j => q i * q j) := by
  have hs : bshape ((A1 q).expand 0).shape (A1 q).shape = some [c, c] := by
    show bshape [1, c] [c] = _
    by_cases h : c = 1
    · subst h; rfl
    · simp [bshape, h, Ne.symm h]
  rw [zip_of_eq _ hs]
  congr 1
  refine eq_A2 rfl fun i j => ?_
  rw [of_get ix2]
  have h1 : proj [j.val, i.val] ((A1 q).expand 0).shape = [0, i.val] := by
    show proj [j.val, i.val] [1, c] = _
    simp only [proj, List.zipWith_cons_cons, List.zipWith_nil_right, if_true]
    split_ifs with h
    · have := i.2; simp; omega
    · rfl
  have h2 : proj [j.val, i.val] (A1 q).shape = [j.val] := by
    show proj [j.val, i.val] [c] = _
    simp only [proj, List.zipWith_cons_cons, List.zipWith_nil_right]
    split_ifs with h
    · have := j.2; simp; omega
    · rfl
  rw [h1, h2, A1_get q j.2]
  congr 1
  unfold Arr.expand
  rw [of_get (by
    show Ix [0, i.val] [1, c]
    exact .cons (by omega) (.cons i.2 .nil))]
  exact A1_get q i.2

theorem electronIon_one (ions : Pos m d) (q : Fin m → ℝ) (strength ε : ℝ) (nparticles : Option ℕ)
    (hk : nparticles ≠ some 0) (x : Pos n d) :
    electronIonA (A2 ions) (A1 q) strength ε nparticles (A2 x) =
      .ok (A0 (electronIonPotential ions q strength ε nparticles x)) := by
  have key : ∀ {n : ℕ} (x : Pos n d) (t : ℝ), (do
      let displacements ← displacementsA (A2 x) (A2 ions)
      let attraction ← (A1 q).zip (fun q r => (.fin q / .fin r : XR)) (softNormA ε displacements)
      return (sumPairs attraction).map fun v => .fin (-strength) * v * .fin t : Except String (Arr XR)) =
      .ok (A0 (.fin (-strength) * (∑ i, ∑ I, (.fin (q I) / .fin (computeSoftNorm (fun k => x i k - ions I k) ε)))
        * .fin t)) := by
    intro n x t
    rw [displacements_A2, ok_bind, softNorm_A3, charges_zip, ok_bind, sumPairs_A2, map_A0]
    rfl
  unfold electronIonA electronIonPotential firstParticles
  match nparticles, hk with
  | none, _ => exact key x 1
  | some (k + 1), _ =>
    simp only [ok_bind]
    rw [firstRows_A2]
    exact key _ _

theorem electronElectron_one (strength ε : ℝ) (nparticles : Option ℕ) (hk : nparticles ≠ some 0) (x : Pos n d) :
    electronElectronA strength ε nparticles (A2 x) =
      .ok (A0 (electronElectronPotential strength ε nparticles x)) := by
  unfold electronElectronA electronElectronPotential
  rw [displacements_A2, ok_bind]
  simp only
  rw [softNorm_A3, map_A2, strictTriu_A2]
  match nparticles, hk with
  | none, _ =>
    simp only
    rw [sumPairs_A2]
    rfl
  | some (k + 1), _ =>
    simp only
    rw [strictTril_A2, zip_A2, ok_bind, firstRows_A2, sumPairs_A2, map_A0]
    rfl

theorem ionIon_eq (ions : Pos m d) (q : Fin m → ℝ) (x : Arr ℝ) :
    ionIonA (A2 ions) (A1 q) x = .ok (A0 (ionIonPotential ions q)) := by
  unfold ionIonA ionIonPotential
  rw [displacements_A2, ok_bind, products_zip, ok_bind, softNorm_A3, zip_A2, ok_bind, strictTriu_A2, sumPairs_A2]
  rfl

end Verif.Arrays
