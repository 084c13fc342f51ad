import Verif.Lemmas.ArrayViewsBackflow

namespace Verif.Arrays
open Verif.Slog Verif.Construct

variable {α β γ : Type} [Inhabited α] [Inhabited β] [Inhabited γ] {K S M a b c d d' e : ℕ}

/-! ### Swapped, widened and split axes -/

theorem swap01_A3 (x : Fin a → Fin b → Fin c → α) : (A3 x).swap 0 1 = A3 fun i k j => x i j k := by
  refine eq_A3 rfl fun i k j => ?_
  unfold Arr.swap
  rw [of_get (by exact ix3)]
  exact A3_get x i.2 j.2 k.2

theorem swap02_A4 (x : Fin a → Fin b → Fin c → Fin d → α) :
    (A4 x).swap 0 2 = A4 fun i l k j => x i j k l := by
  refine eq_A4 rfl fun i l k j => ?_
  unfold Arr.swap
  rw [of_get (by exact ix4)]
  exact A4_get x i.2 j.2 k.2 l.2

theorem swap01_A4 (x : Fin a → Fin b → Fin c → Fin d → α) :
    (A4 x).swap 0 1 = A4 fun i j l k => x i j k l := by
  refine eq_A4 rfl fun i j l k => ?_
  unfold Arr.swap
  rw [of_get (by exact ix4)]
  exact A4_get x i.2 j.2 k.2 l.2

theorem swap10_A2 (x : Fin a → Fin b → α) : (A2 x).swap 1 0 = A2 fun j i => x i j := by
  refine eq_A2 rfl fun j i => ?_
  unfold Arr.swap
  rw [of_get (by exact ix2)]
  exact A2_get x i.2 j.2

theorem widen_A3 (x : Fin a → Fin b → Fin c → α) :
    Arr.of (((A3 x).expand 0).shape.set 0 d) (fun i => ((A3 x).expand 0).get (i.set 0 0)) =
      A4 fun i j k (_ : Fin d) => x i j k := by
  refine eq_A4 rfl fun i j k l => ?_
  rw [of_get (by exact ix4)]
  show ((A3 x).expand 0).get [0, k.val, j.val, i.val] = _
  unfold Arr.expand
  rw [of_get (by exact .cons one_pos ix3)]
  exact A3_get x i.2 j.2 k.2

theorem zip_kernel_A4 (x : Fin a → Fin b → Fin c → Fin d → ℝ) (kernel : ℕ → ℝ) :
    (A4 x).zip (· * ·) (.of [d, 1] fun i => kernel (i.headD 0)) =
      .ok (A4 fun i j k l => x i j k l * kernel l) := by
  rw [zip_of_eq _ (s := [d, c, b, a]) (by simp [bshape])]
  congr 1
  refine eq_A4 rfl fun i j k l => ?_
  rw [of_get ix4, A4_shape, proj_id ix4, A4_get x i.2 j.2 k.2 l.2]
  have : proj [l.val, k.val, j.val, i.val] [d, 1] = [l.val, 0] := by
    simp only [proj_cons, proj_one l.2, if_true]
    rfl
  rw [of_shape, this, of_get (.cons l.2 (.cons one_pos .nil))]
  rfl

theorem isotropy_A3 (kernel : ℕ → ℝ) (r : Fin a → Fin b → Fin c → ℝ) :
    isotropyA kernel d (A3 r) = .ok (A4 fun i (o : Fin d) j k => r i j k * kernel o) := by
  unfold isotropyA
  rw [swap01_A3]
  simp only [widen_A3]
  rw [zip_kernel_A4, ok_bind, swap02_A4]
  rfl

theorem slice_mid3 (r : Fin a → Fin b → Fin c → ℝ) (j : Fin b) :
    (A3 r).slice 1 j (j + 1) = A3 fun i (_ : Fin 1) k => r i j k := by
  refine eq_A3 ?_ fun i z k => ?_
  · show [c, j.val + 1 - j.val, a] = _
    rw [Nat.add_sub_cancel_left]
  · unfold Arr.slice
    rw [of_get (by
      show Ix _ [c, j.val + 1 - j.val, a]
      rw [Nat.add_sub_cancel_left]
      exact ix3)]
    show (A3 r).get [k.val, z.val + j.val, i.val] = _
    have : z.val + j.val = j.val := by have := z.2; omega
    rw [this, A3_get r i.2 j.2 k.2]

theorem split_each_mid3 (r : Fin a → Fin (M + 1) → Fin c → ℝ) :
    splitEqual 1 (M + 1) (A3 r) =
      .ok (List.ofFn fun j => A3 fun i (_ : Fin 1) k => r i j k) := by
  have h : (A3 r).shape.getD 1 0 = ∑ _s : Fin (M + 1), 1 := by simp
  rw [splitEqual_ones 1 h, split_ends 1 _ _ h]
  congr 2
  funext j
  rw [start_const, Nat.mul_one, slice_mid3]

theorem concat_each_mid3 (y : Fin (M + 1) → Fin a → Fin 1 → Fin c → ℝ) :
    concat 1 (List.ofFn fun j => A3 (y j)) = .ok (A3 fun i j k => y j i 0 k) := by
  rw [concat_ofFn 1 _ (fun _ => 1) (sh := [c, 0, a]) (fun _ => rfl) (by simp)]
  congr 1
  have hs : [c, 0, a].set 1 (∑ _s : Fin (M + 1), 1) = [c, M + 1, a] := by simp
  rw [hs]
  refine eq_A3 rfl fun i j k => ?_
  rw [of_get (by exact ix3),
    pick_ofFn 1 _ (fun _ => 1) (fun _ => rfl) j 0 _ (by simp) (by rw [start_const]; simp)]
  exact A3_get (y j) i.2 one_pos k.2

theorem unflatten_A3 (x : Fin a → Fin b → Fin (d * e) → α) :
    unflatten d e (A3 x) = .ok (A4 fun i j k l => x i j (finProdFinEquiv (k, l))) := by
  simp only [unflatten, A3_shape]
  rw [if_pos (by simp only [List.prod_cons]; ring)]
  congr 1
  refine eq_A4 rfl fun i j k l => ?_
  rw [of_get (by exact ix4)]
  have h : k.val * e + l.val = (finProdFinEquiv (k, l)).val := by
    rw [finProdFinEquiv_apply_val]; ring
  show (A3 x).get [k.val * e + l.val, j.val, i.val] = _
  rw [h, A3_get x i.2 j.2 (Fin.isLt _)]

theorem unflatten_A2 (x : Fin a → Fin (d * e) → α) :
    unflatten d e (A2 x) = .ok (A3 fun i k l => x i (finProdFinEquiv (k, l))) := by
  simp only [unflatten, A2_shape]
  rw [if_pos (by simp only [List.prod_cons]; ring)]
  congr 1
  refine eq_A3 rfl fun i k l => ?_
  rw [of_get (by exact ix3)]
  have h : k.val * e + l.val = (finProdFinEquiv (k, l)).val := by
    rw [finProdFinEquiv_apply_val]; ring
  show (A2 x).get [k.val * e + l.val, i.val] = _
  rw [h, A2_get x i.2 (Fin.isLt _)]

theorem anisotropy_A3 (kernel : Fin (M + 1) → Fin d → Fin d → Fin e → ℝ) (bias : Fin (d * e) → ℝ)
    (P : ℕ → DenseA) (hP : ∀ j : Fin (M + 1), P j = toDense (fun l (q : Fin (d * e)) =>
      kernel j l (finProdFinEquiv.symm q).1 (finProdFinEquiv.symm q).2) bias)
    (r : Fin a → Fin (M + 1) → Fin d → ℝ) :
    anisotropyA P e (A3 r) = .ok (A4 fun i => Net.anisotropyOnLeaf kernel (r i)) := by
  unfold anisotropyA
  simp only [A3_shape, List.getD_cons_zero, List.getD_cons_succ]
  rw [split_each_mid3, ok_bind, ofFn_const, denseParts_ofFn]
  simp only [Nat.zero_add, hP, dense_A3]
  rw [concat_each_mid3, ok_bind, unflatten_A3, ok_bind, swap02_A4, swap01_A4]
  show Except.ok _ = Except.ok _
  congr 2
  funext i o j k
  simp [Net.dense, Net.anisotropyOnLeaf]

/-! ### Orbitals -/

/-- The parameters of the orbital layers as functions of natural numbers; the dense layers of the
anisotropy are flattened as in the code. -/
noncomputable def orbitalsA {d1 nion : ℕ} {norb : Fin S → ℕ} (L : Net.OrbitalLayer S d1 nion d norb) :
    OrbitalsA where
  linear s := if h : s < S then toDense (L.kernel ⟨s, h⟩) (L.bias ⟨s, h⟩) else zeroDense
  iso s o := if h : s < S then (if h' : o < norb ⟨s, h⟩ then L.isoKernel ⟨s, h⟩ ⟨o, h'⟩ else 0) else 0
  aniso s j := if h : s < S then (if h' : j < nion then
    toDense (fun l (q : Fin (d * norb ⟨s, h⟩)) => L.anisoKernel ⟨s, h⟩ ⟨j, h'⟩ l
      (finProdFinEquiv.symm q).1 (finProdFinEquiv.symm q).2) 0 else zeroDense) else zeroDense
  ion s o j := if h : s < S then (if h' : o < norb ⟨s, h⟩ ∧ j < nion then
    L.ionKernel ⟨s, h⟩ ⟨o, h'.1⟩ ⟨j, h'.2⟩ else 0) else 0

theorem zip_ion_A3 (x : Fin a → Fin b → Fin c → ℝ) (g : ℕ → ℕ → ℝ) :
    (A3 x).zip (· * ·) (.of [c, b, 1] fun i => g (i.getD 1 0) (i.headD 0)) =
      .ok (A3 fun i j k => x i j k * g j k) := by
  rw [zip_of_eq _ (s := [c, b, a]) (by simp [bshape])]
  congr 1
  refine eq_A3 rfl fun i j k => ?_
  rw [of_get ix3, A3_shape, proj_id ix3, A3_get x i.2 j.2 k.2]
  have : proj [k.val, j.val, i.val] [c, b, 1] = [k.val, j.val, 0] := by
    simp only [proj_cons, proj_one k.2, proj_one j.2, if_true]
    rfl
  rw [of_shape, this, of_get (.cons k.2 (.cons j.2 (.cons one_pos .nil)))]
  rfl

theorem envelope_A3 {d1 : ℕ} {norb : Fin S → ℕ} (f : FermiDesc)
    (L : Net.OrbitalLayer S d1 (M + 1) d norb) (s : Fin S) (r : Fin a → Fin (M + 1) → Fin d → ℝ) :
    envelopeA f.orbitals f.envelopeSoftening (orbitalsA L) s (A3 r) (norb s) =
      .ok (A2 fun i => Net.envelope (f.orbitalLayer L) s (r i)) := by
  have hs : scaledDisplacements f.orbitals (orbitalsA L) s (A3 r) (norb s) =
      .ok (A4 fun i => if f.orbitals.isotropicDecay then Net.isotropyOnLeaf (L.isoKernel s) (r i)
        else Net.anisotropyOnLeaf (L.anisoKernel s) (r i)) := by
    unfold scaledDisplacements
    cases hi : f.orbitals.isotropicDecay
    · rw [if_neg (by simp)]
      simp only [Bool.false_eq_true, if_false]
      exact anisotropy_A3 (L.anisoKernel s) 0 _ (fun j => (dif_pos s.2).trans (dif_pos j.2)) r
    · rw [if_pos rfl, isotropy_A3]
      simp only [if_true]
      congr 2
      funext i o j k
      simp [orbitalsA, Net.isotropyOnLeaf]
  unfold envelopeA
  rw [hs, ok_bind, reduce_last_A4, map_A3]
  simp only [A3_shape, List.getD_cons_zero, List.getD_cons_succ, norm_ofFn]
  rw [zip_ion_A3, ok_bind, reduce_last_A3]
  show Except.ok _ = Except.ok _
  congr 2
  funext i o
  rw [List.sum_ofFn]
  refine Finset.sum_congr rfl fun j _ => ?_
  have hk : (orbitalsA L).ion s o j = L.ionKernel s o j := (dif_pos s.2).trans (dif_pos ⟨o.2, j.2⟩)
  rw [hk]
  rfl

theorem envelopes_ofFn {S : ℕ} (o : OrbitalDesc) (softening : ℝ) (P : OrbitalsA) (s : ℕ)
    {A C : Fin S → Arr ℝ} {m : Fin S → ℕ}
    (h : ∀ t : Fin S, envelopeA o softening P (s + t) (A t) (m t) = .ok (C t)) :
    envelopes o softening P s (List.ofFn A) (List.ofFn m) = .ok (List.ofFn C) := by
  induction S generalizing s with
  | zero => rfl
  | succ S ih =>
    rw [List.ofFn_succ, List.ofFn_succ, List.ofFn_succ]
    unfold envelopes
    have h0 : envelopeA o softening P s (A 0) (m 0) = .ok (C 0) := h 0
    rw [h0, ok_bind, ih (s + 1) (C := fun t => C t.succ) fun t => by
      have := h t.succ
      rwa [Fin.val_succ, Nat.add_comm t.val, ← Nat.add_assoc] at this]
    rfl

theorem orbitalLayer_S1 {d1 : ℕ} {n norb : Fin (K + 1) → ℕ} (f : FermiDesc)
    (hf : places f.spinSplit = ends n) (L : Net.OrbitalLayer (K + 1) d1 (M + 1) d norb)
    (x : Net.Stream1 n d1) (rei : Net.Elec n → Fin (M + 1) → Fin d → ℝ) :
    orbitalLayer f.orbitals f.envelopeSoftening (orbitalsA L) f.spinSplit (List.ofFn norb) (S1 x)
      (A3 fun i => rei (finSigmaFinEquiv.symm i)) =
      .ok (List.ofFn fun s => A2 fun i => (f.orbitalLayer L).apply x (some rei) s i) := by
  unfold orbitalLayer splitDense
  have hl : f.spinSplit.length = K := by
    have := congrArg List.length hf
    simpa [places, ends] using this
  rw [if_neg (by simp [hl]), hf, split_rows2, split_rows3]
  simp only [ok_bind]
  rw [denseParts_ofFn]
  show (envelopes f.orbitals f.envelopeSoftening (orbitalsA L) 0 _ _ >>= fun envs =>
    treeMap2 _ _ envs) = _
  rw [envelopes_ofFn f.orbitals f.envelopeSoftening (orbitalsA L) 0 fun s => by
    rw [Nat.zero_add]; exact envelope_A3 f L s _, ok_bind]
  refine treeMap2_ofFn fun s => ?_
  have hd : (orbitalsA L).linear (0 + s) = toDense (L.kernel s) (L.bias s) := by
    rw [Nat.zero_add]
    exact dif_pos s.2
  rw [hd, dense_A2, zip_A2]
  rfl

theorem toFront_A3 (x : Fin a → Fin b → Fin c → α) : (A3 x).toFront 1 = A3 fun j i k => x i j k := by
  refine eq_A3 rfl fun j i k => ?_
  unfold Arr.toFront
  rw [of_get (by exact ix3)]
  exact A3_get x i.2 j.2 k.2

theorem reshapeRaw_A2 {ndet m : ℕ} (h : ndet ≠ 0) (x : Fin a → Fin (ndet * m) → ℝ) :
    reshapeRawA ndet (A2 x) = .ok (A3 fun i r => Net.reshapeRaw (x r) i) := by
  unfold reshapeRawA
  rw [if_neg h]
  have : (A2 x).shape.getD 0 0 / ndet = m := Nat.mul_div_cancel_left m (Nat.pos_of_ne_zero h)
  rw [this, unflatten_A2, ok_bind, toFront_A3]
  rfl

end Verif.Arrays
