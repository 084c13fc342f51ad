import Verif.Model.XR
import Mathlib.Algebra.BigOperators.Group.Finset.Basic
import Mathlib.Data.Fintype.BigOperators
import Mathlib.Data.Finset.Filter

/-!
Sums and means of arrays of `XR`.  Addition of `XR` is commutative and associative (there is
no rounding), so `jnp.sum` does not depend on the order and is a finite sum.
-/

namespace Verif.XR

theorem add_comm' (a b : XR) : a + b = b + a := by
  show add a b = add b a
  cases a <;> cases b <;> simp [add, add_comm]

theorem add_assoc' (a b c : XR) : a + b + c = a + (b + c) := by
  show add (add a b) c = add a (add b c)
  cases a <;> cases b <;> cases c <;> simp [add, add_assoc]

theorem zero_add' (a : XR) : fin 0 + a = a := by
  show add (fin 0) a = a
  cases a <;> simp [add]

noncomputable instance : Zero XR := ⟨fin 0⟩

noncomputable instance : AddCommMonoid XR where
  add_assoc := add_assoc'
  add_comm := add_comm'
  zero_add := zero_add'
  add_zero := fun a => by rw [add_comm']; exact zero_add' a
  nsmul := nsmulRec

theorem zero_def : (0 : XR) = fin 0 := rfl

/-- embedding of the reals as an additive map -/
noncomputable def finHom : ℝ →+ XR where
  toFun := fin
  map_zero' := rfl
  map_add' := fun _ _ => rfl

theorem sum_fin {ι : Type*} (s : Finset ι) (f : ι → ℝ) :
    ∑ i ∈ s, fin (f i) = fin (∑ i ∈ s, f i) := (map_sum finHom f s).symm

/-- `jnp.mean` over one axis indexed by a finite type. -/
noncomputable def mean {ι : Type*} [Fintype ι] (x : ι → XR) : XR :=
  (∑ i, x i) / ofNat (Fintype.card ι)

open Classical in
/-- `jnp.nanmean`: nan entries are replaced by 0 in the sum and not counted. -/
noncomputable def nanmean {ι : Type*} [Fintype ι] (x : ι → XR) : XR :=
  (∑ i, if (x i).isNan then fin 0 else x i) /
    ofNat (Finset.univ.filter fun i => ¬ (x i).isNan).card

theorem mean_fin {ι : Type*} [Fintype ι] [Nonempty ι] (f : ι → ℝ) :
    mean (fun i => fin (f i)) = fin ((∑ i, f i) / Fintype.card ι) := by
  unfold mean
  rw [sum_fin, ofNat, fin_div]
  exact_mod_cast Fintype.card_ne_zero

theorem sum_nan {ι : Type*} (s : Finset ι) (f : ι → XR) {i : ι} (hi : i ∈ s)
    (h : f i = nan) : ∑ i ∈ s, f i = nan := by
  classical
  rw [← Finset.add_sum_erase s f hi, h, nan_add]

theorem nanmean_fin {ι : Type*} [Fintype ι] (f : ι → ℝ) :
    nanmean (fun i => fin (f i)) = mean (fun i => fin (f i)) := by
  unfold nanmean mean
  simp [isNan]

end Verif.XR
