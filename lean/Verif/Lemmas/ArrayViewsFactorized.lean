import Verif.Lemmas.ArrayViewsJastrow
import Verif.Lemmas.Antisymmetry

/-!
The antisymmetrization of a function of the particles of every species, on arrays given by functions
of indices.
-/

namespace Verif.Arrays
open Verif.Slog Verif.Construct Verif.Net Verif.Antisym Equiv

variable {K M a b c d m : ℕ} {n : Fin (K + 1) → ℕ}

/-- Rows one after the other. -/
def rowMajor (x : Fin m → Fin d → ℝ) (k : Fin (m * d)) : ℝ :=
  x (finProdFinEquiv.symm k).1 (finProdFinEquiv.symm k).2

theorem reshapeRow_eq (x : Fin m → Fin d → ℝ) : reshapeRow x = List.ofFn (rowMajor x) := by
  unfold reshapeRow
  rw [List.ofFn_mul]
  congr 2
  funext i
  congr 1
  funext j
  unfold rowMajor
  have h : (⟨i.val * d + j.val, by
      calc i.val * d + j.val < (i.val + 1) * d := by
            rw [Nat.add_mul, one_mul]; exact Nat.add_lt_add_left j.2 _
        _ ≤ m * d := Nat.mul_le_mul_right _ i.2⟩ : Fin (m * d)) = finProdFinEquiv (i, j) := by
    refine Fin.ext ?_
    rw [finProdFinEquiv_apply_val]
    simp only
    ring
  rw [h, Equiv.symm_apply_apply]

theorem apply_list (r : ResNetDesc) (P : ResNetParams) (k : ℕ) (l : List ℝ) (h : l.length = m)
    (f : Fin m → ℝ) (hf : ∀ i, l.get (Fin.cast h.symm i) = f i) :
    r.apply P k l.get = r.apply P k f := by
  subst h
  congr 1
  funext i
  exact hf i

theorem apply_ofFn (r : ResNetDesc) (P : ResNetParams) (k : ℕ) (f : Fin m → ℝ) :
    r.apply P k (List.ofFn f).get = r.apply P k f :=
  apply_list r P k _ List.length_ofFn f fun i => by simp

theorem length_signs (k : ℕ) : (getLexicographicSigns k).length = (permutationList k).length := by
  rw [length_permutationList, signs_eq, List.length_map]

theorem takePerms_A2 (hm : m ≠ 0) (x : Fin m → Fin d → ℝ) :
    takePerms (A2 x) = .ok (A3 fun (p : Fin (permutationList m).length) i k =>
      x (permIndex m p i) k) := by
  simp only [takePerms, A2_shape]
  rw [if_neg hm]
  congr 1
  refine eq_A3 rfl fun p i k => ?_
  rw [of_get (by exact ix3)]
  show (A2 x).get [k.val, ((permutationList m).getD p.val []).getD i.val 0] = _
  have h : ((permutationList m).getD p.val []).getD i.val 0 = (permIndex m p i).val := by
    rw [List.getD_eq_getElem _ _ p.2, ← List.get_eq_getElem, get_permutationList]
    simp [permToList]
  rw [h, A2_get x (Fin.isLt _) k.2]

theorem leafSigns_zip (y : Fin (permutationList m).length → Fin c → ℝ) :
    (leafSigns m).zip (· * ·) (A2 y) = .ok (A2 fun p j =>
      ((Perm.sign (permIndex m p) : ℤ) : ℝ) * y p j) := by
  have hs : (leafSigns m).shape = [1, (permutationList m).length] := by
    show [1, (getLexicographicSigns m).length] = _
    rw [length_signs]
  rw [zip_of_eq _ (s := [c, (permutationList m).length]) (by
    rw [hs]
    by_cases hc : c = 1
    · simp [bshape, hc]
    · have : ¬ (1 = c) := fun h => hc h.symm
      simp [bshape, hc, this])]
  congr 1
  refine eq_A2 rfl fun p j => ?_
  rw [of_get ix2, A2_shape, proj_id ix2, A2_get y p.2 j.2]
  have : proj [j.val, p.val] (leafSigns m).shape = [0, p.val] := by
    rw [hs]
    simp only [proj_cons, proj_one p.2, if_true]
    rfl
  rw [this]
  unfold leafSigns
  rw [of_get (.cons one_pos (.cons (by rw [length_signs]; exact p.2) .nil))]
  show (getLexicographicSigns m).getD p.val 0 * _ = _
  rw [get_signs]

theorem factorizedLeaf_A2 (hm : m ≠ 0) (fn : Arr ℝ → Except String (Arr ℝ)) (g : (Fin (m * d) → ℝ) → Fin c → ℝ)
    (hfn : ∀ (t : ℕ) (y : Fin t → Fin (m * d) → ℝ), fn (A2 y) = .ok (A2 fun i => g (y i)))
    (x : Fin m → Fin d → ℝ) :
    factorizedLeafA fn (A2 x) = .ok (A1 fun j => ∑ σ : Perm (Fin m),
      ((Perm.sign σ : ℤ) : ℝ) * g (rowMajor fun i => x (σ i)) j) := by
  unfold factorizedLeafA
  rw [takePerms_A2 hm, ok_bind, flatten_A3 false (by simp), ok_bind, hfn, ok_bind]
  simp only [A2_shape, List.getD_cons_succ, List.getD_cons_zero]
  rw [leafSigns_zip, ok_bind, reduce_rows_A2]
  show Except.ok _ = Except.ok _
  congr 2
  funext j
  rw [List.sum_ofFn]
  exact Equiv.sum_comp (permIndex m) fun σ => ((Perm.sign σ : ℤ) : ℝ) * g (rowMajor fun i => x (σ i)) j

theorem resNets_A2 (r : ResNetDesc) (PA : ℕ → ResNetA) (P : ℕ → ResNetParams) (rank : ℕ)
    (hP : ∀ i : ℕ, PA i = resA r (P i) d 1) (x : Fin a → Fin d → ℝ) :
    resNetsA r PA (rank + 1) (A2 x) =
      .ok (A2 fun t (i : Fin (rank + 1)) => r.apply (P i) 1 (x t) 0) := by
  unfold resNetsA
  rw [range_eq_ofFn, mapM_ofFn (C := fun i : Fin (rank + 1) => A2 fun t (_ : Fin 1) =>
    r.apply (P i) 1 (x t) 0) fun i => ?_, ok_bind, concat_each_A2 fun t i => r.apply (P i) 1 (x t) 0]
  rw [hP, resNet_A2]
  congr 2
  funext t j
  have : j = 0 := Fin.ext (by omega)
  rw [this]

theorem factorizedLeaves_ofFn {S : ℕ} (fn : ℕ → Arr ℝ → Except String (Arr ℝ)) (s : ℕ)
    {A C : Fin S → Arr ℝ} (h : ∀ t : Fin S, factorizedLeafA (fn (s + t)) (A t) = .ok (C t)) :
    factorizedLeaves fn s (List.ofFn A) = .ok (List.ofFn C) := by
  induction S generalizing s with
  | zero => rfl
  | succ S ih =>
    rw [List.ofFn_succ, List.ofFn_succ]
    unfold factorizedLeaves
    have h0 : factorizedLeafA (fn s) (A 0) = .ok (C 0) := h 0
    have hr := ih (s + 1) (A := fun t => A t.succ) (C := fun t => C t.succ) fun t => by
      have := h t.succ
      rwa [Fin.val_succ, Nat.add_comm t.val, ← Nat.add_assoc] at this
    rw [h0, ok_bind, hr]
    rfl

theorem slogSumLast_A1 (x : Fin a → SL) : slogSumLast (A1 x) = A0 (slogSumOverAxis x) := by
  unfold slogSumLast
  rw [reduce_last_A1]
  congr 1
  exact slogSum_cast (List.length_ofFn) _ _ fun i => List.get_ofFn x i

/-- The sum of the products of the antisymmetrized ResNets of the species. -/
theorem factorized_one (hn : ∀ s, n s ≠ 0) (r : ResNetDesc) (PA : ℕ → ℕ → ResNetA)
    (P : ℕ → ℕ → ResNetParams) (rank : ℕ)
    (hP : ∀ (s : Fin (K + 1)) (i : ℕ), PA s i = resA r (P s i) (n s * d) 1) (x : Stream1 n d) :
    antisymA (.factorized (rank + 1)) r PA (List.ofFn fun s => A2 fun i : Fin (n s) => x ⟨s, i⟩) =
      .ok (A0 (slogSumOverAxis (factorizedAntisymmetrizeSlog (dout := rank + 1)
        (fun (s : Fin (K + 1)) l (i : Fin (rank + 1)) => r.apply (P s i) 1 l.get 0)
          fun s i => x ⟨s, i⟩))) := by
  unfold antisymA
  simp only
  unfold factorizedA
  rw [factorizedLeaves_ofFn _ 0 (C := fun s => A1 fun j : Fin (rank + 1) => ∑ σ : Perm (Fin (n s)),
    ((Perm.sign σ : ℤ) : ℝ) * r.apply (P s j) 1 (rowMajor fun i => x ⟨s, σ i⟩) 0) fun s => ?_]
  · rw [ok_bind, List.map_ofFn]
    simp only [Function.comp_def, map_A1]
    rw [foldE_A1]
    show Except.ok _ = Except.ok _
    rw [slogSumLast_A1]
    congr 3
    funext j
    unfold factorizedAntisymmetrizeSlog
    congr 1
    funext s
    rw [factorizedLeaf_eq]
    congr 2
    refine Finset.sum_congr rfl fun σ _ => ?_
    rw [reshapeRow_eq]
    beta_reduce
    rw [apply_ofFn]
  · rw [Nat.zero_add]
    exact factorizedLeaf_A2 (hn s) _ (fun y j => r.apply (P s j) 1 y 0)
      (fun t y => resNets_A2 r _ (P s) rank (hP s) y) _

theorem factorized_zero (hn : ∀ s, n s ≠ 0) (r : ResNetDesc) (PA : ℕ → ℕ → ResNetA)
    (x : Stream1 n d) :
    antisymA (.factorized 0) r PA (List.ofFn fun s => A2 fun i : Fin (n s) => x ⟨s, i⟩) =
      .error "Need at least one array to concatenate." := by
  unfold antisymA
  simp only
  unfold factorizedA
  rw [List.ofFn_succ]
  unfold factorizedLeaves factorizedLeafA
  rw [takePerms_A2 (hn 0), ok_bind, flatten_A3 false (by simp), ok_bind]
  rfl

end Verif.Arrays
