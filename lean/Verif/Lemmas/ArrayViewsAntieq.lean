import Verif.Lemmas.BatchedAntieq
import Verif.Lemmas.ArrayViewsEmbedded

/-!
The antiequivariant layers on arrays given by functions of indices.
-/

namespace Verif.Arrays
open Verif.Slog Verif.Construct Verif.Net

variable {K M a b c d e : ℕ} {n : Fin (K + 1) → ℕ}

/-! ### Cofactors -/

theorem submatrix_A2 {k : ℕ} (x : Fin (k + 1) → Fin (k + 1) → ℝ) (i : Fin (k + 1)) :
    ((A2 x).delete 1 i).delete 0 0 = A2 fun (r : Fin k) (c : Fin k) => x (i.succAbove r) c.succ := by
  refine eq_A2 rfl fun r c => ?_
  unfold Arr.delete
  rw [of_get (by exact ix2)]
  have h1 : ([c.val, r.val].modify 0 fun t => if t < 0 then t else t + 1) = [c.val + 1, r.val] := rfl
  rw [h1, of_get (by exact .cons (Nat.succ_lt_succ c.2) (.cons r.2 .nil))]
  have h2 : ([c.val + 1, r.val].modify 1 fun t => if t < i.val then t else t + 1) =
      [c.val + 1, (i.succAbove r).val] := by
    show [c.val + 1, if r.val < i.val then r.val else r.val + 1] = _
    congr 2
    unfold Fin.succAbove
    simp only [Fin.lt_def, Fin.val_castSucc]
    split_ifs <;> rfl
  rw [h2]
  exact A2_get x (Fin.isLt _) (Nat.succ_lt_succ c.2)

theorem expand2_A2 {α : Type} [Inhabited α] (x : Fin a → Fin b → α) :
    (A2 x).expand 2 = A3 fun (_ : Fin 1) i j => x i j := by
  refine eq_A3 rfl fun z i j => ?_
  unfold Arr.expand
  rw [of_get (by exact ix3)]
  exact A2_get x i.2 j.2

theorem stackAt_A2 (x : Fin (K + 1) → Fin a → Fin b → ℝ) :
    stackAt 2 (List.ofFn fun s => A2 (x s)) = .ok (A3 x) := by
  unfold stackAt
  rw [if_neg (by simp), List.map_ofFn]
  have : (fun p : Arr ℝ => p.expand 2) ∘ (fun s => A2 (x s)) = fun s => A3 fun (_ : Fin 1) i j => x s i j := by
    funext s
    exact expand2_A2 (x s)
  rw [this, concat_ofFn 2 _ (fun _ => 1) (sh := [b, a, 0]) (fun _ => rfl) (by simp)]
  congr 1
  have hs : [b, a, 0].set 2 (∑ _s : Fin (K + 1), 1) = [b, a, K + 1] := by simp
  rw [hs]
  refine eq_A3 rfl fun s i j => ?_
  rw [of_get ix3, pick_ofFn 2 _ (fun _ => 1) (fun _ => rfl) s 0 _ (by simp) (by rw [start_const]; simp)]
  exact A3_get _ one_pos i.2 j.2

theorem at0_A2 (x : Fin a → Fin b → ℝ) (h : 0 < b) : (A2 x).at0 0 = A1 fun i => x i ⟨0, h⟩ := by
  refine eq_A1 rfl fun i => ?_
  unfold Arr.at0
  rw [of_get (by exact .cons i.2 .nil)]
  exact A2_get x i.2 h

theorem signs_A1 (n : ℕ) : (Arr.of [n] fun i => (Antisym.getAlternatingSigns n).getD (i.headD 0) 0) =
    A1 fun i : Fin n => (Antisym.getAlternatingSigns n).getD i 0 :=
  eq_A1 rfl fun i => by rw [of_get (by exact .cons i.2 .nil)]; rfl

theorem cofactor_A2 {m : ℕ} (x : Fin m → Fin m → ℝ) :
    cofactorA (A2 x) = A1 <$> Antieq.cofactorAntieq x := by
  unfold cofactorA submatricesA
  rw [if_neg (by simp)]
  cases m with
  | zero => rfl
  | succ k =>
    have h1 : (List.range ((A2 x).shape.getD 0 0)).map (fun i => ((A2 x).delete 1 i).delete 0 0) =
        List.ofFn fun i => A2 fun (r : Fin k) (c : Fin k) => x (i.succAbove r) c.succ :=
      map_range_eq_ofFn _ _ fun i => submatrix_A2 x i
    rw [h1, stackAt_A2, ok_bind, onSquares_A3, ok_bind]
    show ((Arr.of [k + 1] fun i => (Antisym.getAlternatingSigns (k + 1)).getD (i.headD 0) 0).zip _ _ >>= _) = _
    rw [signs_A1, zip_A1, ok_bind, at0_A2 x (Nat.succ_pos k), zip_A1]
    have h2 : Antieq.getSubmatrices x = .ok fun i => Matrix.of fun r c => x (i.succAbove r) (Fin.succAbove 0 c) := by
      show (if h : k + 1 = k + 1 then _ else _) = _
      exact dif_pos rfl
    unfold Antieq.cofactorAntieq
    rw [h2]
    show Except.ok _ = Except.ok _
    congr 2

theorem sequence_succ {S : ℕ} {C : Fin (S + 1) → Type} (g : ∀ s, Except String (C s)) :
    Net.sequence g = g 0 >>= fun a => Net.sequence (fun s : Fin S => g s.succ) >>= fun r =>
      .ok (Fin.cons a r) := by
  show (match g 0, Net.sequence fun s : Fin S => g s.succ with
    | .ok a, .ok r => (.ok (Fin.cons a r) : Except String (∀ s, C s))
    | .error e, _ => .error e
    | .ok _, .error e => .error e) = _
  cases g 0 with
  | error e => rfl
  | ok y =>
    cases Net.sequence fun s : Fin S => g s.succ with
    | error e => rfl
    | ok ys => rfl

theorem mapM_sequence {S : ℕ} {δ ε : Type} {C : Fin S → Type} {f : δ → Except String ε} {A : Fin S → δ}
    {g : ∀ s, Except String (C s)} (v : ∀ s, C s → ε) (h : ∀ s, f (A s) = v s <$> g s) :
    (List.ofFn A).mapM f = (fun y => List.ofFn fun s => v s (y s)) <$> Net.sequence g := by
  induction S with
  | zero => rfl
  | succ S ih =>
    rw [List.ofFn_succ, List.mapM_cons, h 0, ih (fun s => v s.succ) fun s => h s.succ, sequence_succ]
    cases g 0 with
    | error e => rfl
    | ok y =>
      cases Net.sequence fun s : Fin S => g s.succ with
      | error e => rfl
      | ok ys =>
        show Except.ok _ = Except.ok (List.ofFn fun s => v s ((Fin.cons y ys : ∀ s, C s) s))
        rw [List.ofFn_succ]
        rfl

theorem sequence_map {S : ℕ} {C D : Fin S → Type} (g : ∀ s, Except String (C s)) (v : ∀ s, C s → D s) :
    Net.sequence (fun s => (g s).map (v s)) = (Net.sequence g).map fun y s => v s (y s) := by
  induction S with
  | zero =>
    show Except.ok _ = Except.ok _
    congr 1
    funext s
    exact s.elim0
  | succ S ih =>
    rw [sequence_succ, sequence_succ, ih (fun s => g s.succ) fun s => v s.succ]
    cases g 0 with
    | error e => rfl
    | ok y =>
      cases Net.sequence fun s : Fin S => g s.succ with
      | error e => rfl
      | ok ys =>
        show Except.ok _ = Except.ok _
        congr 1
        funext s
        refine Fin.cases rfl (fun s => rfl) s

theorem expandAll {S : ℕ} {m : Fin S → ℕ} (x : ∀ s, Fin (m s) → ℝ) :
    (List.ofFn fun s => A1 (x s)).map (·.expand 0) = List.ofFn fun s => A2 fun i (_ : Fin 1) => x s i := by
  rw [List.map_ofFn]
  congr 1
  funext s
  exact expand0_A1 (x s)

theorem places_counts_self (n : Fin (K + 1) → ℕ) : places (counts n) = List.ofFn n := by
  unfold places counts
  rw [List.map_ofFn]
  rfl

/-- The number of electrons per species, as the array code finds it. -/
theorem nelec_S1 {ss : List ℤ} (hs : ss = Split.getSpinSplit (counts n)) {d1 : ℕ} (x : Stream1 n d1)
    {δ : Type} (f : List ℤ → Except String δ) :
    (nelecPerSplit ss ((S1 x).shape.getD 1 0) >>= f) =
      nelecPerSplit ss (counts n).sum >>= fun _ => f (counts n) := by
  have : (S1 x).shape.getD 1 0 = ∑ s, n s := rfl
  rw [this, ← counts_sum, hs, Props.nelecPerSplit_counts]
  split_ifs <;> rfl

theorem expand_sequence {S : ℕ} {m : Fin S → ℕ} (g : ∀ s, Except String (Fin (m s) → ℝ)) :
    (((fun y => List.ofFn fun s => A1 (y s)) <$> Net.sequence g) >>= fun c => pure (c.map (·.expand 0))) =
      (fun y => List.ofFn fun s => A2 (y s)) <$>
        Net.sequence fun s => (g s).map fun (c : Fin (m s) → ℝ) i (_ : Fin 1) => c i := by
  rw [sequence_map]
  cases Net.sequence g with
  | error e => rfl
  | ok y => exact congrArg Except.ok (expandAll y)

/-- What the cofactor layer returns after the numbers of electrons are known. -/
theorem cofactorLayer_S1 (ss : List ℤ) (hs : ss = Split.getSpinSplit (counts n)) (o : OrbitalDesc) {d1 : ℕ}
    (L : OrbitalLayer (K + 1) d1 (M + 1) d n) (x : Stream1 n d1) (rei : Elec n → Fin (M + 1) → Fin d → ℝ) :
    cofactorLayerA o (orbitalsA L) ss (S1 x) (A3 fun i => rei (finSigmaFinEquiv.symm i)) =
      nelecPerSplit ss (counts n).sum >>= fun _ => (fun y => List.ofFn fun s => A2 (y s)) <$>
        Net.sequence (cofactorNetLayer L o.useBias o.isotropicDecay x (some rei)) := by
  unfold cofactorLayerA
  rw [nelec_S1 hs]
  congr 1
  funext _
  rw [places_counts_self]
  have h1 := orbitalLayer_S1 (K := K) (n := n)
    (⟨ss, ⟨false, false, 0, false, 0⟩, [], 0, { o with
      useBias := o.isotropicDecay
      isotropicDecay := false }, if o.useBias then 1 else 0, none, .parallelEven, false⟩ : FermiDesc)
    (by rw [hs]; exact places_counts n) L x rei
  simp only at h1
  rw [h1, ok_bind, mapM_sequence (fun s => A1) fun s => cofactor_A2 _]
  exact expand_sequence _

/-! ### One matrix per particle -/

theorem repeat1_A2 (k : ℕ) (x : Fin a → Fin b → ℝ) :
    (A2 x).repeat 1 k = A2 fun (i : Fin (a * k)) => x (finProdFinEquiv.symm i).1 := by
  refine eq_A2 rfl fun i j => ?_
  unfold Arr.repeat
  rw [of_get (by exact ix2)]
  exact A2_get x (finProdFinEquiv.symm i).1.2 j.2

theorem splitAxis1_A2 (l k : ℕ) (x : Fin (l * k) → Fin b → ℝ) :
    splitAxis1 l k (A2 x) = .ok (A3 fun i j c => x (finProdFinEquiv (i, j)) c) := by
  simp only [splitAxis1, A2_shape]
  rw [if_pos (by simp only [List.prod_cons]; ring)]
  congr 1
  refine eq_A3 rfl fun i j c => ?_
  rw [of_get (by exact ix3)]
  have h : i.val * k + j.val = (finProdFinEquiv (i, j)).val := by
    rw [finProdFinEquiv_apply_val]; ring
  show (A2 x).get [c.val, i.val * k + j.val] = _
  rw [h, A2_get x (Fin.isLt _) c.2]

theorem repeat2_A3 (k : ℕ) (x : Fin a → Fin b → ℝ) :
    (A3 fun (_ : Fin 1) i j => x i j).repeat 2 k = A3 fun (_ : Fin k) i j => x i j := by
  refine eq_A3 (by show [b, a, 1 * k] = _; rw [one_mul]) fun p i j => ?_
  unfold Arr.repeat
  rw [of_get (by show Ix _ [b, a, 1 * k]; rw [one_mul]; exact ix3)]
  have : ([j.val, i.val, p.val].modify 2 (· / k)) = [j.val, i.val, 0] := by
    show [j.val, i.val, p.val / k] = _
    rw [Nat.div_eq_of_lt p.2]
  rw [this]
  exact A3_get _ one_pos i.2 j.2

theorem concat_last3 (x : Fin a → Fin b → Fin c → ℝ) (y : Fin a → Fin b → Fin d → ℝ) :
    concat 0 [A3 x, A3 y] = .ok (A3 fun i j => Fin.append (x i j) (y i j)) := by
  simp only [concat]
  rw [if_pos (by simp)]
  congr 1
  have hs : (A3 x).shape.set 0 ([A3 x, A3 y].map fun c => c.shape.getD 0 0).sum = [c + d, b, a] := by simp
  rw [hs]
  refine eq_A3 rfl fun i j k => ?_
  rw [of_get (by exact ix3)]
  simp only [pick, A3_shape, List.getD_cons_zero]
  by_cases h : k.val < c
  · rw [if_pos h, A3_get x i.2 j.2 h]
    exact (Fin.append_left (x i j) (y i j) ⟨k, h⟩).symm
  · have h' : k.val - c < d := by have := k.2; omega
    have e1 : [k.val, j.val, i.val].modify 0 (· - c) = [k.val - c, j.val, i.val] := rfl
    rw [if_neg h, e1, List.getD_cons_zero, if_pos h', A3_get y i.2 j.2 h']
    have h2 := Fin.append_right (x i j) (y i j) ⟨k.val - c, h'⟩
    rw [← h2]
    congr 1
    exact Fin.ext (by simp; omega)

theorem doublyOne_A2 (useBias : Bool) (kernel : Fin b ⊕ Fin b → Fin c → ℝ) (bias : Fin c → ℝ)
    (x : Fin a → Fin b → ℝ) :
    doublyOne useBias (toDense (fun q : Fin (b + b) => kernel (finSumFinEquiv.symm q)) bias) c (A2 x) =
      .ok (A3 fun p i => Net.dense useBias kernel bias (Sum.elim (x p) (x i))) := by
  unfold doublyOne
  simp only [A2_shape, List.getD_cons_succ, List.getD_cons_zero]
  rw [repeat1_A2, splitAxis1_A2, ok_bind, expand2_A2, repeat2_A3, concat_last3, ok_bind, dense_A3]
  show Except.ok _ = Except.ok _
  congr 2
  funext p i o
  unfold Net.dense
  congr 1
  rw [← finSumFinEquiv.sum_comp]
  refine Finset.sum_congr rfl fun q _ => ?_
  show Fin.append (x (finProdFinEquiv.symm (finProdFinEquiv (p, i))).1) (x i) (finSumFinEquiv q) *
    kernel (finSumFinEquiv.symm (finSumFinEquiv q)) o = _
  rw [Equiv.symm_apply_apply, Equiv.symm_apply_apply]
  cases q with
  | inl q => rw [finSumFinEquiv_apply_left, Fin.append_left]; rfl
  | inr q => rw [finSumFinEquiv_apply_right, Fin.append_right]; rfl

/-- The parameters of the doubly equivariant orbital layer. -/
noncomputable def doublyA {S d1 nion : ℕ} {norb : Fin S → ℕ} (L : Antieq.DoublyLayer S d1 nion d norb) :
    OrbitalsA :=
  { orbitalsA L.envelopes with
    linear := fun s => if h : s < S then
      toDense (fun q : Fin (d1 + d1) => L.kernel ⟨s, h⟩ (finSumFinEquiv.symm q)) (L.bias ⟨s, h⟩)
      else zeroDense }

theorem doublyAll_ofFn {S : ℕ} (useBias : Bool) (P : ℕ → DenseA) (s : ℕ) {A C : Fin S → Arr ℝ}
    {m : Fin S → ℕ} (h : ∀ t : Fin S, doublyOne useBias (P (s + t)) (m t) (A t) = .ok (C t)) :
    doublyAll useBias P s (List.ofFn A) (List.ofFn m) = .ok (List.ofFn C) := by
  induction S generalizing s with
  | zero => rfl
  | succ S ih =>
    rw [List.ofFn_succ, List.ofFn_succ, List.ofFn_succ]
    unfold doublyAll
    have h0 : doublyOne useBias (P s) (m 0) (A 0) = .ok (C 0) := h 0
    rw [h0, ok_bind, ih (s + 1) (C := fun t => C t.succ) fun t => by
      have := h t.succ
      rwa [Fin.val_succ, Nat.add_comm t.val, ← Nat.add_assoc] at this]
    rfl

theorem zip_page (x : Fin a → Fin b → Fin c → ℝ) (y : Fin b → Fin c → ℝ) :
    (A3 x).zip (· * ·) ((A2 y).expand 2) = .ok (A3 fun p i j => x p i j * y i j) := by
  rw [expand2_A2, zip_of_eq _ (s := [c, b, a]) (by simp [bshape])]
  congr 1
  refine eq_A3 rfl fun p i j => ?_
  rw [of_get ix3, A3_shape, proj_id ix3, A3_get x p.2 i.2 j.2]
  have : proj [j.val, i.val, p.val] [c, b, 1] = [j.val, i.val, 0] := by
    simp only [proj_cons, proj_one j.2, proj_one i.2, if_true]
    rfl
  rw [A3_shape, this, A3_get _ one_pos i.2 j.2]

theorem perParticleLayer_S1 (ss : List ℤ) (hs : ss = Split.getSpinSplit (counts n)) (o : OrbitalDesc) {d1 : ℕ}
    (L : Antieq.DoublyLayer (K + 1) d1 (M + 1) d n) (x : Stream1 n d1)
    (rei : Elec n → Fin (M + 1) → Fin d → ℝ) :
    perParticleLayerA o (doublyA L) ss (S1 x) (A3 fun i => rei (finSigmaFinEquiv.symm i)) =
      nelecPerSplit ss (counts n).sum >>= fun _ => (fun y => List.ofFn fun s => A2 (y s)) <$>
        Net.sequence (perParticleNetLayer L o.useBias o.isotropicDecay x (some rei)) := by
  unfold perParticleLayerA
  rw [nelec_S1 hs]
  congr 1
  funext _
  rw [places_counts_self]
  have hpl : places ss = ends n := by rw [hs, places_counts]
  unfold doublyLayerA
  rw [hpl, split_rows2, ok_bind, doublyAll_ofFn o.useBias (doublyA L).linear 0
    (C := fun s => A3 fun p i => Net.dense o.useBias (L.kernel s) (L.bias s) (Sum.elim (x ⟨s, p⟩) (x ⟨s, i⟩)))
    (fun s => by
      have hd : (doublyA L).linear (0 + s) =
          toDense (fun q : Fin (d1 + d1) => L.kernel s (finSumFinEquiv.symm q)) (L.bias s) := by
        rw [Nat.zero_add]
        exact dif_pos s.2
      rw [hd, doublyOne_A2]), ok_bind, split_rows3, ok_bind]
  have he := fun s : Fin (K + 1) => envelope_A3
    (⟨ss, ⟨false, false, 0, false, 0⟩, [], 0, o, 0, none, .parallelEven, false⟩ : FermiDesc)
    L.envelopes s fun i : Fin (n s) => rei ⟨s, i⟩
  rw [envelopes_ofFn o 0 (doublyA L) 0 (C := fun s => A2 fun i => Net.envelope
    { L.envelopes with
      envelopeSoftening := 0
      isotropicDecay := o.isotropicDecay } s (rei ⟨s, i⟩)) (fun s => by
    rw [Nat.zero_add]; exact he s), ok_bind, List.map_ofFn]
  have ht := treeMap2_ofFn (f := fun a c : Arr ℝ => a.zip (· * ·) c)
    (A := fun s => A3 fun p i =>
      Net.dense o.useBias (L.kernel s) (L.bias s) (Sum.elim (x ⟨s, p⟩) (x ⟨s, i⟩)))
    (B := (fun x => Arr.expand 2 x) ∘ fun s => A2 fun i => Net.envelope
      { L.envelopes with
        envelopeSoftening := 0
        isotropicDecay := o.isotropicDecay } s (rei ⟨s, i⟩)) fun s => zip_page _ _
  rw [ht, ok_bind,
    mapM_sequence (g := fun s => .ok fun p => Matrix.det (Matrix.of fun i j =>
      Net.dense o.useBias (L.kernel s) (L.bias s) (Sum.elim (x ⟨s, p⟩) (x ⟨s, i⟩)) j * Net.envelope
      { L.envelopes with
        envelopeSoftening := 0
        isotropicDecay := o.isotropicDecay } s (rei ⟨s, i⟩) j)) (fun s => A1) fun s => onSquares_A3 _ _]
  exact expand_sequence _

end Verif.Arrays
