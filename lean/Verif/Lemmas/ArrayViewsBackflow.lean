import Verif.Lemmas.ArrayViewsSplit

namespace Verif.Arrays
open Verif.Slog Verif.Construct

variable {K S a b c d d' : ℕ} {n : Fin (K + 1) → ℕ}

/-! ### Streams of electrons of several species -/

/-- A one-electron stream as an array. -/
noncomputable abbrev S1 {S : ℕ} {n : Fin S → ℕ} (x : Net.Stream1 n d) : Arr ℝ :=
  A2 fun i => x (finSigmaFinEquiv.symm i)

/-- A two-electron stream as an array. -/
noncomputable abbrev S2 {S : ℕ} {n : Fin S → ℕ} (y : Net.Stream2 n d) : Arr ℝ :=
  A3 fun i j => y (finSigmaFinEquiv.symm i) (finSigmaFinEquiv.symm j)

theorem cumsum_ofFn (n : Fin (K + 1) → ℕ) (acc : ℕ) :
    (Split.cumsumFrom acc (List.ofFn fun s => (n s : ℤ)).dropLast).map Int.toNat =
      List.ofFn fun s : Fin K => acc + start n s.succ := by
  induction K generalizing acc with
  | zero => simp [Split.cumsumFrom]
  | succ K ih =>
    rw [List.ofFn_succ (f := fun s => (n s : ℤ)), List.dropLast_cons_of_ne_nil (by simp),
      Split.cumsumFrom, List.map_cons]
    have h1 : (acc : ℤ) + (n 0 : ℤ) = ((acc + n 0 : ℕ) : ℤ) := by push_cast; ring
    rw [h1, ih (fun s => n s.succ) (acc + n 0), List.ofFn_succ]
    congr 2
    funext s
    rw [start_succ n s.succ]; omega

theorem places_counts (n : Fin (K + 1) → ℕ) : places (Split.getSpinSplit (counts n)) = ends n := by
  unfold places Split.getSpinSplit counts ends
  have h := cumsum_ofFn n 0
  simp only [Nat.zero_add] at h
  exact h

theorem splitMean_rows {ss : List ℤ} (hs : places ss = ends n) (x : Net.Stream1 n d) :
    splitMeanA 1 true ss (S1 x) = .ok (List.ofFn fun s => A2 fun (_ : Fin 1) => Net.splitMean x s) := by
  unfold splitMeanA
  rw [hs, split_rows2]
  simp only [ok_bind, List.map_ofFn, Function.comp_def, reduce_rows_A2_keep, mean_ofFn]
  rfl

theorem splitMean_mid {ss : List ℤ} (hs : places ss = ends n)
    (y : Fin a → (Σ s, Fin (n s)) → Fin d → ℝ) :
    splitMeanA 1 false ss (A3 fun i j => y i (finSigmaFinEquiv.symm j)) =
      .ok (List.ofFn fun s => A2 fun i => Net.splitMean (y i) s) := by
  unfold splitMeanA
  rw [hs, split_mid3]
  simp only [ok_bind, List.map_ofFn, Function.comp_def, reduce_mid_A3, mean_ofFn]
  rfl

theorem rolled_ofFn {δ : Type} (A : Fin S → δ) (s : Fin S) :
    (List.ofFn A).drop s ++ (List.ofFn A).take s = List.ofFn fun p => A (Net.rolled s p) := by
  refine List.ext_getElem (by simp) fun p h1 h2 => ?_
  rw [List.getElem_append, List.getElem_ofFn]
  simp only [List.length_ofFn] at h2
  split_ifs with h
  · rw [List.getElem_drop, List.getElem_ofFn]
    simp only [List.length_drop, List.length_ofFn] at h
    congr 1
    refine Fin.ext ?_
    simp only [Net.rolled]
    rw [Nat.mod_eq_of_lt (by omega)]
  · rw [List.getElem_take, List.getElem_ofFn]
    simp only [List.length_drop, List.length_ofFn] at h ⊢
    congr 1
    refine Fin.ext ?_
    simp only [Net.rolled]
    have := s.2
    rw [Nat.mod_eq_sub_mod (by omega), Nat.mod_eq_of_lt (by omega)]
    omega

theorem rolledConcat_ofFn (m : Fin (K + 1) → Fin a → Fin d → ℝ) (s : Fin (K + 1)) :
    rolledConcat (List.ofFn fun s => A2 (m s)) s =
      .ok (A2 fun i k => Net.concatMeans true s (fun t => m t i) (finProdFinEquiv.symm k)) := by
  unfold rolledConcat
  rw [rolled_ofFn, concat_features2 fun p => m (Net.rolled s p)]
  rfl

theorem concatMeans_ofFn (o : OneDesc) (m : Fin (K + 1) → Fin a → Fin d → ℝ) (s : Fin (K + 1)) :
    concatMeans o s (List.ofFn fun s => A2 (m s)) =
      .ok (A2 fun i k => Net.concatMeans o.cyclic s (fun t => m t i) (finProdFinEquiv.symm k)) := by
  unfold concatMeans
  cases hc : o.cyclic
  · rw [if_neg (by simp), concat_features2]
    rfl
  · rw [if_pos rfl, rolledConcat_ofFn]

/-- A dense layer on flattened features. -/
theorem dense_flat (kernel : Fin S × Fin d → Fin d' → ℝ) (v : Fin S × Fin d → ℝ) :
    Net.dense false (fun k : Fin (S * d) => kernel (finProdFinEquiv.symm k)) 0
      (fun k => v (finProdFinEquiv.symm k)) = Net.dense false kernel 0 v := by
  funext j
  unfold Net.dense
  congr 1
  exact Equiv.sum_comp finProdFinEquiv.symm fun p => v p * kernel p j

theorem ofFn_const {δ : Type} (x : δ) : List.replicate S x = List.ofFn fun _ : Fin S => x := by
  rw [List.ofFn_const]

theorem range_eq_ofFn (S : ℕ) : List.range S = List.ofFn fun s : Fin S => s.val := by
  refine List.ext_getElem (by simp) fun i h1 h2 => by simp

theorem splitEqual_ones (p : ℕ) {X : Arr ℝ} (hX : X.shape.getD p 0 = ∑ _s : Fin (K + 1), 1) :
    splitEqual p (K + 1) X = split p (ends fun _ : Fin (K + 1) => 1) X := by
  unfold splitEqual
  rw [hX]
  have h : ∑ _s : Fin (K + 1), 1 = K + 1 := by simp
  rw [h, if_pos (by simp)]
  congr 1
  unfold ends
  rw [Nat.div_self (Nat.succ_pos K)]
  refine map_range_eq_ofFn _ _ fun i => ?_
  rw [start_const]
  simp

/-- The parameters of a one-electron layer, flattened as flax has them. -/
noncomputable def oneA {d1 d2 H : ℕ} (p : OneParams S d1 d2 d' H) (two : DenseA) : BlockA where
  unmixed := toDense p.unmixedKernel p.bias
  mixed := toDense (fun k : Fin (S * d1) => p.mixedKernel (finProdFinEquiv.symm k)) 0
  dense2e := toDense (fun k : Fin (S * d2) => p.kernel2e (finProdFinEquiv.symm k)) 0
  attention m _ X r c := if h : r < m ∧ c < d' then
    p.attention.apply (fun (j : Fin m) (k : Fin d1) => X j k) ⟨r, h.1⟩ ⟨c, h.2⟩ else 0
  two := two

theorem transformed1e_ofFn {d1 d2 H : ℕ} (o : OneDesc) (p : OneParams (K + 1) d1 d2 o.ndense H)
    (two : DenseA) (m : Fin (K + 1) → Fin d1 → ℝ) :
    transformed1e o (oneA p two) (List.ofFn fun s => A2 fun (_ : Fin 1) => m s) =
      .ok (List.ofFn fun s => A2 fun (_ : Fin 1) =>
        Net.dense false p.mixedKernel 0 (Net.concatMeans o.cyclic s m)) := by
  unfold transformed1e
  cases hc : o.cyclic
  · rw [if_neg (by simp), concat_features2]
    simp only [ok_bind, List.length_ofFn]
    rw [ofFn_const, oneA, dense_A2]
    show Except.ok _ = Except.ok _
    congr 2
    funext s
    congr 1
    funext _
    exact dense_flat p.mixedKernel fun q => m q.1 q.2
  · rw [if_pos rfl, List.length_ofFn, range_eq_ofFn,
      mapM_ofFn (C := fun s => A2 fun (_ : Fin 1) (k : Fin ((K + 1) * d1)) =>
        Net.concatMeans true s m (finProdFinEquiv.symm k)) fun s =>
          rolledConcat_ofFn (fun t (_ : Fin 1) => m t) s]
    simp only [ok_bind, List.length_ofFn]
    rw [concat_rows2 (n := fun _ => 1)]
    simp only [ok_bind]
    rw [oneA, dense_A2, splitEqual_ones 1 rfl,
      split_rows2 (n := fun _ : Fin (K + 1) => 1) fun e => Net.dense false
        (fun k : Fin ((K + 1) * d1) => p.mixedKernel (finProdFinEquiv.symm k)) 0
        fun k => Net.concatMeans true e.1 m (finProdFinEquiv.symm k)]
    congr 2
    funext s
    congr 1
    funext _
    exact dense_flat _ _

theorem concat2e_ofFn {S : ℕ} (o : OneDesc) (s : ℕ) {A C : Fin S → Arr ℝ}
    (h : ∀ t : Fin S, (splitMeanA 1 false o.spinSplit (A t) >>= concatMeans o (s + t)) = .ok (C t)) :
    concat2e o s (List.ofFn A) = .ok (List.ofFn C) := by
  induction S generalizing s with
  | zero => rfl
  | succ S ih =>
    rw [List.ofFn_succ, List.ofFn_succ]
    unfold concat2e
    have h0 := h 0
    have hr := ih (s + 1) (A := fun t => A t.succ) (C := fun t => C t.succ) fun t => by
      have := h t.succ
      rwa [Fin.val_succ, Nat.add_comm t.val, ← Nat.add_assoc] at this
    cases hm : splitMeanA 1 false o.spinSplit (A 0) with
    | error e => rw [hm] at h0; cases h0
    | ok m =>
      rw [hm, ok_bind] at h0
      rw [ok_bind]
      have h0' : concatMeans o s m = .ok (C 0) := h0
      rw [h0', ok_bind, hr]
      rfl

theorem transformed2e_S2 {d1 d2 : ℕ} (o : OneDesc) (ho : places o.spinSplit = ends n)
    (p : OneParams (K + 1) d1 d2 o.ndense o.numHeads) (two : DenseA) (y : Net.Stream2 n d2) :
    transformed2eA o (oneA p two) (S2 y) = .ok (List.ofFn fun s => A2 fun i : Fin (n s) =>
      Net.transformed2e (o.layer p) y ⟨s, i⟩) := by
  unfold transformed2eA
  rw [ho, split_rows3 fun e j => y e (finSigmaFinEquiv.symm j)]
  simp only [ok_bind]
  rw [concat2e_ofFn o 0 (C := fun s => A2 fun (i : Fin (n s)) (k : Fin ((K + 1) * d2)) =>
    Net.concatMeans o.cyclic s (Net.splitMean (y ⟨s, i⟩)) (finProdFinEquiv.symm k)) ?_]
  · simp only [ok_bind]
    rw [concat_rows2]
    simp only [ok_bind]
    rw [oneA, dense_A2, split_rows2 (n := n) fun e => Net.dense false
        (fun k : Fin ((K + 1) * d2) => p.kernel2e (finProdFinEquiv.symm k)) 0
        fun k => Net.concatMeans o.cyclic e.1 (Net.splitMean (y e)) (finProdFinEquiv.symm k)]
    congr 2
    funext s
    congr 1
    funext i
    exact dense_flat _ _
  · intro s
    rw [splitMean_mid ho fun i => y ⟨s, i⟩, ok_bind, Nat.zero_add, concatMeans_ofFn]

theorem onRows_A2 (f : ℕ → ℕ → (ℕ → ℕ → ℝ) → ℕ → ℕ → ℝ) (x : Fin a → Fin b → ℝ)
    (g : Fin a → Fin c → ℝ)
    (h : ∀ X : ℕ → ℕ → ℝ, (∀ (i : Fin a) (j : Fin b), X i j = x i j) →
      ∀ (i : Fin a) (j : Fin c), f a b X i j = g i j) :
    onRows f c (A2 x) = A2 g := by
  refine eq_A2 rfl fun i j => ?_
  unfold onRows
  rw [of_get (by exact ix2)]
  exact h (fun r k => (A2 x).get [k, r]) (fun r k => A2_get x r.2 k.2) i j

theorem skip_A2 (skip : Bool) (scale : ℝ) (x : Fin a → Fin d → ℝ) (out : Fin a → Fin d' → ℝ) :
    skipA skip scale (A2 x) (A2 out) =
      .ok (A2 fun i => Net.skipConnect skip scale (x i) (out i)) := by
  unfold skipA Net.skipConnect
  by_cases hd : d' = d
  · subst hd
    cases skip
    · rw [if_neg (by simp)]
      simp
    · rw [if_pos (by simp), zip_A2, ok_bind, map_A2]
      simp
      rfl
  · rw [if_neg (by
      rintro ⟨-, h⟩
      exact hd h.symm)]
    simp [hd]

theorem skip_A3 (skip : Bool) (scale : ℝ) (x : Fin a → Fin b → Fin d → ℝ)
    (out : Fin a → Fin b → Fin d' → ℝ) :
    skipA skip scale (A3 x) (A3 out) =
      .ok (A3 fun i j => Net.skipConnect skip scale (x i j) (out i j)) := by
  unfold skipA Net.skipConnect
  by_cases hd : d' = d
  · subst hd
    cases skip
    · rw [if_neg (by simp)]
      simp
    · rw [if_pos (by simp), zip_A3, ok_bind, map_A3]
      simp
      rfl
  · rw [if_neg (by
      rintro ⟨-, h⟩
      exact hd h.symm)]
    simp [hd]

/-- The sum of the unmixed and the mixed parts. -/
theorem mixed_S1 {d1 d2 : ℕ} (o : OneDesc) (ho : places o.spinSplit = ends n)
    (p : OneParams (K + 1) d1 d2 o.ndense o.numHeads) (two : DenseA) (x : Net.Stream1 n d1)
    (u : Net.Stream1 n o.ndense) :
    (mixedSplit o (oneA p two) (S1 x) >>= fun m =>
      treeSumA (List.ofFn fun s => A2 fun i : Fin (n s) => u ⟨s, i⟩) m) =
      .ok (List.ofFn fun s => A2 fun (i : Fin (n s)) k =>
        u ⟨s, i⟩ k + Net.mixed (o.layer p) x ⟨s, i⟩ k) := by
  unfold mixedSplit treeSumA
  cases ht : o.useTransformer
  · rw [if_neg (by simp), splitMean_rows ho]
    simp only [ok_bind]
    rw [transformed1e_ofFn]
    simp only [ok_bind]
    refine treeMap2_ofFn fun s => ?_
    rw [zip_row]
    congr 2
    funext i k
    simp only [Net.mixed, OneDesc.layer, ht]
    rfl
  · rw [if_pos rfl, ho, split_rows2]
    simp only [ok_bind, List.map_ofFn]
    refine treeMap2_ofFn fun s => ?_
    rw [Function.comp_apply, onRows_A2 _ _ (fun i => p.attention.apply (fun j => x ⟨s, j⟩) i), zip_A2]
    · congr 2
      funext i k
      simp only [Net.mixed, OneDesc.layer, ht]
      rfl
    · intro X hX i j
      simp only [oneA, i.2, j.2, and_self, dif_pos]
      congr 1
      funext r k
      exact hX r k

theorem oneLayer_S1 {d1 d2 : ℕ} (o : OneDesc) (ho : places o.spinSplit = ends n)
    (p : OneParams (K + 1) d1 d2 o.ndense o.numHeads) (two : DenseA) (x : Net.Stream1 n d1)
    (y : Option (Net.Stream2 n d2)) :
    oneLayer o (oneA p two) (S1 x) (y.map S2) = .ok (S1 ((o.layer p).apply x y)) := by
  unfold oneLayer
  have h1 : dense o.useBias (oneA p two).unmixed o.ndense (S1 x) =
      S1 fun e => Net.dense o.useBias p.unmixedKernel p.bias (x e) := dense_A2 _ _ _ _
  rw [ho, h1, split_rows2 (n := n) fun e => Net.dense o.useBias p.unmixedKernel p.bias (x e), ok_bind]
  have h2 := mixed_S1 o ho p two x fun e => Net.dense o.useBias p.unmixedKernel p.bias (x e)
  cases hm : mixedSplit o (oneA p two) (S1 x) with
  | error e => rw [hm] at h2; cases h2
  | ok m =>
    rw [hm, ok_bind] at h2
    rw [ok_bind, h2, ok_bind]
    cases y with
    | none =>
      simp only [Option.map_none, add2e, ok_bind]
      rw [concat_rows2 (n := n), ok_bind, map_A2, skip_A2]
      rfl
    | some y =>
      simp only [Option.map_some, add2e]
      rw [transformed2e_S2 o ho p two y, ok_bind]
      unfold treeSumA
      rw [treeMap2_ofFn fun s => zip_A2 _ _ _, ok_bind, concat_rows2 (n := n), ok_bind, map_A2, skip_A2]
      rfl

theorem twoLayer_S2 {d2 : ℕ} (t : TwoDesc) (P : BlockA) (p : Net.DenseParams d2 t.ndense)
    (hP : P.two = toDense p.kernel p.bias) (y : Net.Stream2 n d2) :
    twoLayer t P (S2 y) = .ok (S2 ((t.layer p).apply y)) := by
  unfold twoLayer
  rw [hP, dense_A3, map_A3, skip_A3]
  rfl

/-- Parameters of a layer which is not there. -/
def zeroDense : DenseA := ⟨fun _ _ => 0, fun _ => 0⟩

/-- The parameters of a block. -/
noncomputable def blockA (P : BackflowParams S) (i : ℕ) (b : BlockDesc) (w : ℕ × ℕ) : BlockA :=
  oneA (P.one i w.1 w.2 b.one.ndense b.one.numHeads) (match b.two with
    | some t => toDense (P.two i w.2 t.ndense).kernel (P.two i w.2 t.ndense).bias
    | none => zeroDense)

theorem block_S (P : BackflowParams (K + 1)) (i : ℕ) (b : BlockDesc) (w : ℕ × ℕ)
    (hb : places b.one.spinSplit = ends n) (xs : Net.Streams n w) :
    block b (blockA P i b w) (S1 xs.1) (xs.2.map S2) =
      .ok (S1 ((b.block P i w).apply xs).1, ((b.block P i w).apply xs).2.map S2) := by
  obtain ⟨one, two⟩ := b
  obtain ⟨x, y⟩ := xs
  unfold block blockA
  rw [oneLayer_S1 one hb, ok_bind]
  cases two with
  | none => rfl
  | some t =>
    cases y with
    | none => rfl
    | some y =>
      simp only [Option.map_some, block2e]
      rw [twoLayer_S2 t _ (P.two i w.2 t.ndense) rfl y]
      rfl

/-- The parameters of the blocks from number `i` on. -/
noncomputable def blocksA (P : BackflowParams S) : ℕ → List BlockDesc → ℕ × ℕ → ℕ → BlockA
  | _, [], _ => fun _ => ⟨zeroDense, zeroDense, zeroDense, fun _ _ _ _ _ => 0, zeroDense⟩
  | i, b :: bs, w => fun j => if j = i then blockA P i b w else blocksA P (i + 1) bs (b.out w) j

theorem backflow_S (P : BackflowParams (K + 1)) (PA : ℕ → BlockA) (i : ℕ) (bs : List BlockDesc)
    (w : ℕ × ℕ) (hP : ∀ j, i ≤ j → PA j = blocksA P i bs w j)
    (hb : ∀ b ∈ bs, places b.one.spinSplit = ends n) (xs : Net.Streams n w) :
    backflowA PA i bs (S1 xs.1) (xs.2.map S2) = .ok (S1 ((blocks P i bs w).backflow xs)) := by
  induction bs generalizing i w with
  | nil => rfl
  | cons b bs ih =>
    unfold backflowA
    have h0 : PA i = blockA P i b w := by rw [hP i le_rfl]; simp [blocksA]
    rw [h0, block_S P i b w (hb b (by simp)), ok_bind]
    refine ih (i + 1) (b.out w) (fun j hj => ?_) (fun b hb' => hb b (by simp [hb'])) _
    rw [hP j (by omega)]
    exact if_neg (by omega)

end Verif.Arrays
