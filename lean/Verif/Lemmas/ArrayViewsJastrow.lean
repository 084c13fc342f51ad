import Verif.Lemmas.BatchedExplicit
import Verif.Lemmas.ArrayViewsNet

/-!
The Jastrow factors on arrays given by functions of indices.
-/

namespace Verif.Arrays
open Verif.Slog Verif.Construct Verif.Net

variable {K M a b c d : ℕ} {n : Fin (K + 1) → ℕ}

theorem map_A1 {α β : Type} [Inhabited α] [Inhabited β] (f : α → β) (x : Fin a → α) :
    (A1 x).map f = A1 fun i => f (x i) :=
  eq_A1 rfl fun i => by unfold Arr.map; rw [of_get (by exact .cons i.2 .nil), A1_get x i.2]

theorem oneBody_A3 (kernel : ℕ → ℝ) (r : Fin a → Fin b → Fin c → ℝ) :
    oneBodyA kernel (A3 r) = .ok (A0 (Jastrow.oneBodyExpDecay (fun o => kernel o) true r)) := by
  unfold oneBodyA
  rw [isotropy_A3, ok_bind]
  simp only
  rw [reduce_last_A4, reduce_last_A3, reduce_last_A2, reduce_last_A1, map_A0]
  simp only [List.sum_ofFn, norm_ofFn]
  rfl

theorem triu_A2 (x : Fin a → Fin a → ℝ) : (A2 x).triu = A2 (Jastrow.triu x) := by
  refine eq_A2 rfl fun i j => ?_
  unfold Arr.triu
  rw [of_get (by exact ix2)]
  show (if i.val ≤ j.val then (A2 x).get [j.val, i.val] else 0) = _
  rw [A2_get x i.2 j.2]
  rfl

theorem reduce_last_A2_keep {α β : Type} [Inhabited α] [Inhabited β] (f : List α → β)
    (x : Fin a → Fin b → α) :
    (A2 x).reduce f 0 true = A2 fun i (_ : Fin 1) => f (List.ofFn (x i)) := by
  refine eq_A2 rfl fun i j => ?_
  simp only [Arr.reduce, if_true]
  rw [of_get (by exact ix2)]
  congr 1
  exact map_range_eq_ofFn _ _ fun k => A2_get x i.2 k.2

theorem squeeze_A3 {α : Type} [Inhabited α] (x : Fin a → Fin b → Fin 1 → α) :
    (A3 x).squeeze 0 = .ok (A2 fun i j => x i j 0) := by
  unfold Arr.squeeze
  rw [if_pos (by simp)]
  congr 1
  refine eq_A2 rfl fun i j => ?_
  rw [of_get (by exact ix2)]
  exact A3_get x i.2 j.2 one_pos

theorem squeeze_A2 {α : Type} [Inhabited α] (x : Fin a → Fin 1 → α) :
    (A2 x).squeeze 0 = .ok (A1 fun i => x i 0) := by
  unfold Arr.squeeze
  rw [if_pos (by simp)]
  congr 1
  refine eq_A1 rfl fun i => ?_
  rw [of_get (by exact .cons i.2 .nil)]
  exact A2_get x i.2 one_pos

/-- A dense layer with one feature. -/
noncomputable def oneByOne (x : ℝ) : DenseA := toDense (fun (_ : Fin 1) (_ : Fin 1) => x) 0

theorem oneByOne_A2 (q : ℝ) (x : Fin a → Fin 1 → ℝ) :
    dense false (oneByOne q) 1 (A2 x) = A2 fun i (_ : Fin 1) => q * x i 0 := by
  unfold oneByOne
  rw [dense_A2]
  congr 1
  funext i j
  simp [Net.dense, mul_comm]

theorem slice_last_A2 {α : Type} [Inhabited α] (x : Fin a → Fin b → α) (s : Fin b) :
    (A2 x).slice 0 s (s + 1) = A2 fun i (_ : Fin 1) => x i s := by
  refine eq_A2 ?_ fun i j => ?_
  · show [s.val + 1 - s.val, a] = _
    simp
  · unfold Arr.slice
    rw [of_get (by
      show Ix _ [s.val + 1 - s.val, a]
      rw [Nat.add_sub_cancel_left]
      exact ix2)]
    show (A2 x).get [j.val + s.val, i.val] = _
    have : j.val + s.val = s.val := by omega
    rw [this, A2_get x i.2 s.2]

theorem split_each_A2 (x : Fin a → Fin (M + 1) → ℝ) :
    splitEqual 0 (M + 1) (A2 x) = .ok (List.ofFn fun s => A2 fun i (_ : Fin 1) => x i s) := by
  rw [splitEqual_ones 0 (by simp), split_ends 0 _ _ (by simp)]
  congr 2
  funext s
  rw [start_const, Nat.mul_one, slice_last_A2]

theorem concat_each_A2 (x : Fin a → Fin (M + 1) → ℝ) :
    concat 0 (List.ofFn fun s => A2 fun i (_ : Fin 1) => x i s) = .ok (A2 x) := by
  rw [concat_ofFn 0 _ (fun _ => 1) (sh := [0, a]) (fun _ => rfl) (by simp)]
  congr 1
  refine eq_A2 (by simp) fun i j => ?_
  rw [of_get (by
      have h := ix2 (i := i) (j := j)
      simpa using h),
    pick_ofFn 0 _ (fun _ => 1) (fun _ => rfl) j 0 _ (by simp) (by rw [start_const]; simp)]
  exact A2_get _ i.2 one_pos

theorem scaledEi_A2 (trainable : Bool) (kernel : ℕ → DenseA) (z : Fin (M + 1) → ℝ)
    (hk : ∀ j : Fin (M + 1), kernel j = oneByOne (z j)) (strengths : ℕ → ℝ)
    (x : Fin a → Fin (M + 1) → ℝ) :
    scaledEi trainable kernel strengths (A2 x) =
      .ok (A2 fun i j => (if trainable then z j else strengths j) * x i j) := by
  unfold scaledEi
  cases trainable
  · rw [if_neg (by simp)]
    show (Arr.of [M + 1] _).zip _ _ = _
    rw [zip_of_eq _ (s := [M + 1, a]) (by simp [bshape])]
    congr 1
    refine eq_A2 rfl fun i j => ?_
    rw [of_get ix2, A2_shape, proj_id ix2, A2_get x i.2 j.2]
    have : proj [j.val, i.val] [M + 1] = [j.val] := by
      simp only [proj_cons, proj_one j.2]
      rfl
    rw [of_shape, this, of_get (.cons j.2 .nil)]
    simp
  · rw [if_pos rfl]
    simp only [A2_shape, List.getD_cons_zero]
    rw [split_each_A2, ok_bind, ofFn_const, denseParts_ofFn]
    have : (fun t : Fin (M + 1) => dense false (kernel (0 + t.val)) 1 (A2 fun i (_ : Fin 1) => x i t)) =
        fun t => A2 fun i (_ : Fin 1) => z t * x i t := by
      funext t
      rw [Nat.zero_add, hk, oneByOne_A2]
    rw [this, concat_each_A2 fun i t => z t * x i t]
    simp

theorem scaledEe_A2 (trainable : Bool) (q strength : ℝ) (x : Fin a → Fin 1 → ℝ) :
    scaledEe trainable (oneByOne q) strength (A2 x) =
      A2 fun i (_ : Fin 1) => (if trainable then q else strength) * x i 0 := by
  unfold scaledEe
  cases trainable
  · rw [if_neg (by simp), map_A2]
    congr 1
    funext i j
    have : j = 0 := Fin.ext (by omega)
    rw [this]
    simp
  · rw [if_pos rfl, oneByOne_A2]
    simp

theorem twoBody_A3 (trainable : Bool) (kernel : ℕ → DenseA) (z : Fin (M + 1) → ℝ)
    (hk : ∀ j : Fin (M + 1), kernel j = oneByOne (z j)) (q : ℝ) (strengths : ℕ → ℝ)
    (strength scale : ℝ) (rei : Fin a → Fin (M + 1) → Fin d → ℝ) (ree : Fin a → Fin a → Fin d → ℝ) :
    twoBodyA trainable kernel (oneByOne q) strengths strength scale (A3 rei) (A3 ree) =
      .ok (A0 (Jastrow.twoBodyExpDecay (fun j => if trainable then z j else strengths j)
        (if trainable then q else strength) scale true rei ree)) := by
  unfold twoBodyA
  rw [reduce_last_A3, eeNorms_A3]
  simp only [ok_bind]
  rw [squeeze_A3, ok_bind, triu_A2, reduce_last_A2_keep, scaledEi_A2 trainable kernel z hk, ok_bind,
    scaledEe_A2, squeeze_A2, ok_bind, reduce_last_A2, zip_A1, ok_bind, reduce_last_A1, map_A0]
  simp only [List.sum_ofFn, norm_ofFn]
  rfl

theorem backflowJastrow_A2 (x : Fin a → Fin d → ℝ) :
    backflowJastrowA (A2 x) = A0 (Jastrow.backflowJastrow true x) := by
  unfold backflowJastrowA
  rw [reduce_last_A2, reduce_last_A1, map_A0]
  simp only [mean_ofFn, norm_ofFn]
  rfl

/-- The parameters of the Jastrow factors as the array code reads them. -/
structure JastrowParams (P : ExplicitA) {nion : ℕ} (Q : Params (K + 1) nion d) (w : ℕ × ℕ) : Prop where
  oneBody : ∀ o : Fin 1, P.oneBody o = Q.oneBodyKernel o
  ei : ∀ j : Fin nion, P.ei j = oneByOne (Q.eiStrength j)
  ee : P.ee = oneByOne Q.eeStrength
  backflow : ∀ bs, P.jastrowBackflow bs = blocksA Q.jastrowBackflow 0 bs w

theorem zip_A0 {α β γ : Type} [Inhabited α] [Inhabited β] [Inhabited γ] (f : α → β → γ) (x : α) (y : β) :
    (A0 x).zip f (A0 y) = .ok (A0 (f x y)) := by
  rw [zip_same f rfl]
  congr 1
  exact eq_A0 rfl (by rw [of_get (by exact .nil), A0_get, A0_get])

theorem jastrow_one (P : ExplicitA) (Q : Params (K + 1) (M + 1) d) (w : ℕ × ℕ)
    (hP : JastrowParams P Q w) (xs : Net.Streams n w) {d1 : ℕ} (stream : Stream1 n d1)
    (rei : Elec n → Fin (M + 1) → Fin d → ℝ) (ree : Option (Stream2 n d)) (j : JastrowDesc (M + 1))
    (hj : j.Matches (counts n)) :
    jastrowA P (S1 xs.1) (xs.2.map S2) (S1 stream) (A3 fun i => rei (finSigmaFinEquiv.symm i))
      (ree.map S2) j = A0 <$> (j.build Q w).apply xs stream (some rei) ree := by
  induction j with
  | oneBody _ =>
    unfold jastrowA JastrowDesc.build JastrowModel.apply
    rw [oneBody_A3]
    have : (fun o : Fin 1 => P.oneBody o) = Q.oneBodyKernel := funext hP.oneBody
    rw [this]
    rfl
  | twoBody charges strength scale trainable =>
    unfold jastrowA
    cases ree with
    | none =>
      unfold JastrowDesc.build
      cases trainable <;> rfl
    | some ree =>
      simp only [Option.map_some]
      rw [hP.ee, twoBody_A3 trainable P.ei Q.eiStrength hP.ei]
      unfold JastrowDesc.build
      cases trainable
      · simp only [Bool.false_eq_true, if_false, Fin.is_lt, dif_pos]
        rfl
      · simp only [if_true]
        rfl
  | backflow bs =>
    unfold jastrowA
    cases bs with
    | none =>
      unfold backflowBasedA
      rw [backflowJastrow_A2]
      rfl
    | some bs =>
      unfold backflowBasedA
      simp only
      rw [hP.backflow, backflow_S Q.jastrowBackflow _ 0 bs w (fun _ _ => rfl)
        (fun b hb' => by rw [hj b hb', places_counts]), ok_bind, backflowJastrow_A2]
      rfl
  | added a b iha ihb =>
    unfold jastrowA
    rw [iha hj.1, ihb hj.2]
    rw [JastrowDesc.build]
    simp only [JastrowModel.apply]
    cases (a.build Q w).apply xs stream (some rei) ree with
    | error e => rfl
    | ok x =>
      cases (b.build Q w).apply xs stream (some rei) ree with
      | error e => rfl
      | ok y => exact zip_A0 _ x y

theorem inputStreams_ree (s : StreamsDesc) (hs : s.includeEiNorm = true) (hN : ∑ s, n s ≠ 0)
    (ions : Fin M → Fin d → ℝ) (pos : Stream1 n d) :
    inputStreams s (A2 ions) (S1 pos) =
      .ok (S1 (ionStreams ions s.include2e s.eiSoftening s.includeEeNorm s.eeSoftening pos).1.1,
        (ionStreams ions s.include2e s.eiSoftening s.includeEeNorm s.eeSoftening pos).1.2.map S2,
        A3 (fun i => displacements pos ions (finSigmaFinEquiv.symm i)),
        (eeDisplacements s.include2e pos).map S2) := by
  unfold inputStreams
  rw [hs, electronIon_A2 hN, ok_bind]
  cases h2 : s.include2e
  · rfl
  · cases he : s.includeEeNorm
    · rw [electronElectron_A2_plain]
      rfl
    · rw [electronElectron_A2]
      refine congrArg Except.ok (Prod.ext rfl (Prod.ext ?_ rfl))
      refine congrArg some (congrArg A3 ?_)
      funext i j
      show Fin.snoc (α := fun _ => ℝ) _ (eeNormSafeDiag _ (fun i j => displacements pos pos
        (finSigmaFinEquiv.symm i) (finSigmaFinEquiv.symm j)) i j) = _
      rw [eeNorm_flat]
      rfl

end Verif.Arrays
