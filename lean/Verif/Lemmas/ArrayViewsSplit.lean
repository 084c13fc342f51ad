import Verif.Lemmas.ArrayViews

namespace Verif.Arrays
open Verif.Slog

variable {α : Type} [Inhabited α] {S K a b c d : ℕ}

theorem sigma_symm {n : Fin S → ℕ} (s : Fin S) (i : Fin (n s)) {k : ℕ} (hk : k = start n s + i)
    (h : k < ∑ s, n s) : (finSigmaFinEquiv.symm ⟨k, h⟩ : Σ s, Fin (n s)) = ⟨s, i⟩ := by
  rw [Equiv.symm_apply_eq]
  refine Fin.ext ?_
  rw [sigma_val]
  exact hk

theorem sigma_split {n : Fin S → ℕ} (k : Fin (∑ s, n s)) :
    k.val = start n (finSigmaFinEquiv.symm k).1 + (finSigmaFinEquiv.symm k).2 := by
  have h := sigma_val n (finSigmaFinEquiv.symm k).1 (finSigmaFinEquiv.symm k).2
  rw [Sigma.eta, Equiv.apply_symm_apply] at h
  exact h

theorem start_const (d : ℕ) (s : Fin S) : start (fun _ => d) s = s * d := by
  unfold start
  simp

theorem split_rows2 {n : Fin (K + 1) → ℕ} (x : (Σ s, Fin (n s)) → Fin b → α) :
    split 1 (ends n) (A2 fun i => x (finSigmaFinEquiv.symm i)) =
      .ok (List.ofFn fun s => A2 fun i : Fin (n s) => x ⟨s, i⟩) := by
  rw [split_ends 1 _ n rfl]
  congr 2
  funext s
  refine eq_A2 ?_ fun i j => ?_
  · show [b, start n s + n s - start n s] = _
    rw [Nat.add_sub_cancel_left]
  · have hi : i.val + start n s < ∑ s, n s := by have := start_add_le n s; have := i.2; omega
    unfold Arr.slice
    rw [of_get (by
      show Ix _ [b, start n s + n s - start n s]
      rw [Nat.add_sub_cancel_left]
      exact ix2)]
    show (A2 _).get [j.val, i.val + start n s] = _
    rw [A2_get _ hi j.2, sigma_symm s i (Nat.add_comm _ _)]

theorem split_rows3 {n : Fin (K + 1) → ℕ} (x : (Σ s, Fin (n s)) → Fin b → Fin c → α) :
    split 2 (ends n) (A3 fun i => x (finSigmaFinEquiv.symm i)) =
      .ok (List.ofFn fun s => A3 fun i : Fin (n s) => x ⟨s, i⟩) := by
  rw [split_ends 2 _ n rfl]
  congr 2
  funext s
  refine eq_A3 ?_ fun i j k => ?_
  · show [c, b, start n s + n s - start n s] = _
    rw [Nat.add_sub_cancel_left]
  · have hi : i.val + start n s < ∑ s, n s := by have := start_add_le n s; have := i.2; omega
    unfold Arr.slice
    rw [of_get (by
      show Ix _ [c, b, start n s + n s - start n s]
      rw [Nat.add_sub_cancel_left]
      exact ix3)]
    show (A3 _).get [k.val, j.val, i.val + start n s] = _
    rw [A3_get _ hi j.2 k.2, sigma_symm s i (Nat.add_comm _ _)]

theorem split_mid3 {n : Fin (K + 1) → ℕ} (x : Fin a → (Σ s, Fin (n s)) → Fin c → α) :
    split 1 (ends n) (A3 fun i j => x i (finSigmaFinEquiv.symm j)) =
      .ok (List.ofFn fun s => A3 fun i (j : Fin (n s)) => x i ⟨s, j⟩) := by
  rw [split_ends 1 _ n rfl]
  congr 2
  funext s
  refine eq_A3 ?_ fun i j k => ?_
  · show [c, start n s + n s - start n s, a] = _
    rw [Nat.add_sub_cancel_left]
  · have hj : j.val + start n s < ∑ s, n s := by have := start_add_le n s; have := j.2; omega
    unfold Arr.slice
    rw [of_get (by
      show Ix _ [c, start n s + n s - start n s, a]
      rw [Nat.add_sub_cancel_left]
      exact ix3)]
    show (A3 _).get [k.val, j.val + start n s, i.val] = _
    rw [A3_get _ i.2 hj k.2, sigma_symm s j (Nat.add_comm _ _)]

theorem concat_rows2 {n : Fin (K + 1) → ℕ} (y : ∀ s, Fin (n s) → Fin b → α) :
    concat 1 (List.ofFn fun s => A2 (y s)) =
      .ok (A2 fun i => y (finSigmaFinEquiv.symm i).1 (finSigmaFinEquiv.symm i).2) := by
  rw [concat_ofFn 1 _ n (sh := [b, 0]) (fun _ => rfl) (by simp)]
  congr 1
  refine eq_A2 rfl fun i j => ?_
  rw [of_get (by exact ix2),
    pick_ofFn 1 _ n (fun _ => rfl) (finSigmaFinEquiv.symm i).1 (finSigmaFinEquiv.symm i).2 _ (by simp)
      (by exact sigma_split i)]
  exact A2_get _ (Fin.isLt _) j.2

theorem concat_mid3 {n : Fin (K + 1) → ℕ} (y : ∀ s, Fin a → Fin (n s) → Fin c → α) :
    concat 1 (List.ofFn fun s => A3 (y s)) =
      .ok (A3 fun i j => y (finSigmaFinEquiv.symm j).1 i (finSigmaFinEquiv.symm j).2) := by
  rw [concat_ofFn 1 _ n (sh := [c, 0, a]) (fun _ => rfl) (by simp)]
  congr 1
  refine eq_A3 rfl fun i j k => ?_
  rw [of_get (by exact ix3),
    pick_ofFn 1 _ n (fun _ => rfl) (finSigmaFinEquiv.symm j).1 (finSigmaFinEquiv.symm j).2 _ (by simp)
      (by exact sigma_split j)]
  exact A3_get _ i.2 (Fin.isLt _) k.2

theorem prod_split (k : Fin (S * d)) :
    k.val = start (fun _ : Fin S => d) (finProdFinEquiv.symm k).1 + (finProdFinEquiv.symm k).2 := by
  have h : (finProdFinEquiv (finProdFinEquiv.symm k)).val = k.val := by
    rw [Equiv.apply_symm_apply]
  rw [start_const, ← h]
  conv_lhs => rw [← Prod.mk.eta (p := finProdFinEquiv.symm k)]
  rw [finProdFinEquiv_apply_val]
  ring

theorem concat_features2 (z : Fin (K + 1) → Fin a → Fin d → α) :
    concat 0 (List.ofFn fun s => A2 (z s)) =
      .ok (A2 fun i (k : Fin ((K + 1) * d)) => z (finProdFinEquiv.symm k).1 i (finProdFinEquiv.symm k).2) := by
  rw [concat_ofFn 0 _ (fun _ => d) (sh := [0, a]) (fun _ => rfl) (by simp)]
  congr 1
  refine eq_A2 (by simp) fun i j => ?_
  rw [of_get (by simp),
    pick_ofFn 0 _ (fun _ => d) (fun _ => rfl) (finProdFinEquiv.symm j).1 (finProdFinEquiv.symm j).2 _
      (by simp) (by exact prod_split j)]
  exact A2_get _ i.2 (Fin.isLt _)

/-- A column is appended. -/
theorem concat_snoc3 (x : Fin a → Fin b → Fin c → α) (y : Fin a → Fin b → Fin 1 → α) :
    concat 0 [A3 x, A3 y] = .ok (A3 fun i j => Fin.snoc (α := fun _ => α) (x i j) (y i j 0)) := by
  simp only [concat]
  rw [if_pos (by simp)]
  congr 1
  refine eq_A3 (by simp) fun i j k => ?_
  rw [of_get (by
    have h := ix3 (i := i) (j := j) (k := k)
    simpa using h)]
  simp only [pick, A3_shape, List.getD_cons_zero]
  refine Fin.lastCases ?_ (fun k => ?_) k
  · rw [if_neg (by simp), Fin.snoc_last]
    simp only [Fin.val_last, List.modify_cons, Nat.sub_self, if_true]
    rw [if_pos (by simp), A3_get y i.2 j.2 (by omega)]
    rfl
  · rw [if_pos (by simp), Fin.snoc_castSucc, A3_get x i.2 j.2 (by simp)]
    rfl

theorem flatten_A3 (infer : Bool) (ha : infer = true → a ≠ 0) (x : Fin a → Fin b → Fin c → α) :
    flatten infer (A3 x) = .ok (A2 fun i (k : Fin (b * c)) =>
      x i (finProdFinEquiv.symm k).1 (finProdFinEquiv.symm k).2) := by
  simp only [flatten, A3_shape]
  rw [if_neg (by
    rintro ⟨h, h0⟩
    simp only [List.mem_singleton] at h0
    exact ha h h0.symm)]
  congr 1
  refine eq_A2 rfl fun i k => ?_
  rw [of_get (by exact ix2)]
  simp only [List.headD_cons, List.tail_cons]
  have h1 : ((finProdFinEquiv.symm k).1 : ℕ) = k / c := rfl
  have h2 : ((finProdFinEquiv.symm k).2 : ℕ) = k % c := rfl
  rw [← h1, ← h2, A3_get x i.2 (Fin.isLt _) (Fin.isLt _)]

theorem flatten_A2 (x : Fin a → Fin b → α) :
    flatten false (A2 x) = .ok (A1 fun k : Fin (a * b) =>
      x (finProdFinEquiv.symm k).1 (finProdFinEquiv.symm k).2) := by
  simp only [flatten, A2_shape]
  rw [if_neg (by simp)]
  congr 1
  refine eq_A1 rfl fun k => ?_
  rw [of_get (by exact .cons k.2 .nil)]
  simp only [List.headD_cons, List.tail_cons]
  have h1 : ((finProdFinEquiv.symm k).1 : ℕ) = k / b := rfl
  have h2 : ((finProdFinEquiv.symm k).2 : ℕ) = k % b := rfl
  rw [← h1, ← h2, A2_get x (Fin.isLt _) (Fin.isLt _)]

/-! ### Input streams -/

theorem proj_one {i k : ℕ} (h : i < k) : (if k = 1 then 0 else i) = i := by
  split_ifs
  · omega
  · rfl

/-- Every row of one array with every row of another. -/
theorem displacements_A2 (x : Fin a → Fin c → ℝ) (y : Fin b → Fin c → ℝ) :
    displacementsA (A2 x) (A2 y) = .ok (A3 (Net.displacements x y)) := by
  unfold displacementsA
  have hs : bshape ((A2 x).expand 1).shape ((A2 y).expand 2).shape = some [c, b, a] := by
    show bshape [c, 1, a] [c, b, 1] = _
    by_cases hb : b = 1 <;> simp [bshape, hb]
  rw [zip_of_eq _ hs]
  congr 1
  refine eq_A3 rfl fun i j k => ?_
  rw [of_get ix3]
  have h1 : proj [k.val, j.val, i.val] ((A2 x).expand 1).shape = [k.val, 0, i.val] := by
    show proj [k.val, j.val, i.val] [c, 1, a] = _
    simp only [proj_cons, proj_one k.2, proj_one i.2, if_true]
    rfl
  have h2 : proj [k.val, j.val, i.val] ((A2 y).expand 2).shape = [k.val, j.val, 0] := by
    show proj [k.val, j.val, i.val] [c, b, 1] = _
    simp only [proj_cons, proj_one k.2, proj_one j.2, if_true]
    rfl
  rw [h1, h2]
  unfold Arr.expand
  rw [of_get (by exact .cons k.2 (.cons one_pos (.cons i.2 .nil))),
    of_get (by exact .cons k.2 (.cons j.2 (.cons one_pos .nil)))]
  show (A2 x).get [k.val, i.val] - (A2 y).get [k.val, j.val] = _
  rw [A2_get x i.2 k.2, A2_get y j.2 k.2]
  rfl

theorem electronIon_A2 (ha : a ≠ 0) (x : Fin a → Fin c → ℝ) (ions : Fin b → Fin c → ℝ) (softening : ℝ) :
    electronIon (A2 ions) true softening (A2 x) =
      .ok (A2 fun i (k : Fin (b * (c + 1))) => Fin.snoc (α := fun _ => ℝ)
        (Net.displacements x ions i (finProdFinEquiv.symm k).1)
        (Net.softened (Net.norm2 (Net.displacements x ions i (finProdFinEquiv.symm k).1)) softening)
        (finProdFinEquiv.symm k).2, A3 (Net.displacements x ions)) := by
  unfold electronIon
  rw [displacements_A2]
  simp only [ok_bind, if_true]
  rw [reduce_last_A3_keep, map_A3, concat_snoc3]
  simp only [ok_bind]
  rw [flatten_A3 true (fun _ => ha)]
  simp only [norm_ofFn]
  rfl

theorem eeNorms_A3 (softening : ℝ) (r : Fin a → Fin a → Fin c → ℝ) :
    eeNorms softening (A3 r) = .ok (A3 fun i j (_ : Fin 1) => Net.eeNormSafeDiag softening r i j) := by
  have heye : (Arr.of [1, a, a] fun i => if i.getD 1 0 = i.getD 2 0 then (1 : ℝ) else 0) =
      A3 fun (i j : Fin a) (_ : Fin 1) => if i = j then (1 : ℝ) else 0 := by
    refine eq_A3 rfl fun i j k => ?_
    rw [of_get ix3]
    show (if j.val = i.val then (1 : ℝ) else 0) = _
    refine if_congr ?_ rfl rfl
    rw [Fin.ext_iff, eq_comm]
  have hz : (A3 r).zip (· + ·) (A3 fun (i j : Fin a) (_ : Fin 1) => if i = j then (1 : ℝ) else 0) =
      .ok (A3 fun i j k => r i j k + if i = j then (1 : ℝ) else 0) := by
    rw [zip_of_eq _ (s := [c, a, a]) (by simp [bshape])]
    congr 1
    refine eq_A3 rfl fun i j k => ?_
    rw [of_get ix3, A3_shape, A3_shape, proj_id ix3, A3_get r i.2 j.2 k.2]
    have : proj [k.val, j.val, i.val] [1, a, a] = [0, j.val, i.val] := by
      simp only [proj_cons, proj_one j.2, proj_one i.2, if_true]
      rfl
    rw [this, A3_get _ i.2 j.2 one_pos]
  unfold eeNorms
  simp only [A3_shape, List.getD_cons_succ, List.getD_cons_zero]
  rw [heye, hz]
  simp only [ok_bind]
  rw [reduce_last_A3_keep, map_A3, map_A3, zip_A3]
  simp only [norm_ofFn]
  rfl

theorem electronElectron_A2 (x : Fin a → Fin c → ℝ) (softening : ℝ) :
    electronElectron true softening (A2 x) = .ok (A3 fun i j => Fin.snoc (α := fun _ => ℝ)
      (Net.displacements x x i j) (Net.eeNormSafeDiag softening (Net.displacements x x) i j),
      A3 (Net.displacements x x)) := by
  unfold electronElectron
  rw [displacements_A2]
  simp only [ok_bind, if_true]
  rw [eeNorms_A3]
  simp only [ok_bind]
  rw [concat_snoc3]
  rfl

theorem electronElectron_A2_plain (x : Fin a → Fin c → ℝ) (softening : ℝ) :
    electronElectron false softening (A2 x) =
      .ok (A3 (Net.displacements x x), A3 (Net.displacements x x)) := by
  unfold electronElectron
  rw [displacements_A2]
  rfl

end Verif.Arrays
