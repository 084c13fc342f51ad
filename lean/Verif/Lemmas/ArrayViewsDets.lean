import Verif.Lemmas.ArrayViewsOrbitals

namespace Verif.Arrays
open Verif.Slog Verif.Construct

variable {α β γ : Type} [Inhabited α] [Inhabited β] [Inhabited γ] {K S M a b c d d' e : ℕ}

/-! ### Determinants -/

theorem onSquares_A3 {m : ℕ} (f : ∀ m : ℕ, Matrix (Fin m) (Fin m) ℝ → β) (x : Fin a → Fin m → Fin m → ℝ) :
    onSquares f (A3 x) = .ok (A1 fun i => f m (Matrix.of (x i))) := by
  simp only [onSquares, A3_shape, if_true]
  congr 1
  refine eq_A1 rfl fun i => ?_
  rw [of_get (.cons i.2 .nil)]
  congr 1
  ext r k
  exact A3_get x i.2 r.2 k.2

theorem zip_A1 (f : α → β → γ) (x : Fin a → α) (y : Fin a → β) :
    (A1 x).zip f (A1 y) = .ok (A1 fun i => f (x i) (y i)) := by
  rw [zip_same f rfl]
  congr 1
  exact eq_A1 rfl fun i => by
    rw [of_get (by exact .cons i.2 .nil), A1_get x i.2, A1_get y i.2]

theorem foldl_A1 (f : α → α → α) (x : Fin a → α) (ys : List (Fin a → α)) :
    (ys.map A1).foldlM (fun p q => p.zip f q) (A1 x) =
      .ok (A1 fun i => (ys.map fun y => y i).foldl f (x i)) := by
  induction ys generalizing x with
  | nil => rfl
  | cons y ys ih =>
    rw [List.map_cons, List.foldlM_cons, zip_A1, ok_bind, ih]
    rfl

theorem foldE_A1 (f : α → α → α) (x : Fin (K + 1) → Fin a → α) :
    foldE (fun p q => p.zip f q) (List.ofFn fun s => A1 (x s)) =
      .ok (A1 fun i => Antisym.reduceLeaves f fun s => x s i) := by
  rw [List.ofFn_succ]
  simp only [foldE]
  have h : (List.ofFn fun s : Fin K => A1 (x s.succ)) = (List.ofFn fun s : Fin K => x s.succ).map A1 := by
    rw [List.map_ofFn]; rfl
  rw [h, foldl_A1]
  congr 2
  funext i
  rw [List.map_ofFn]
  rfl

theorem slogSum_cast {m m' : ℕ} (h : m = m') (y : Fin m → SL) (x : Fin m' → SL)
    (hy : ∀ i, y i = x (Fin.cast h i)) : slogSumOverAxis y = slogSumOverAxis x := by
  subst h
  congr 1
  funext i
  exact hy i

theorem reduceFront_A1 (f : List α → β) (x : Fin a → α) : (A1 x).reduceFront f = A0 (f (List.ofFn x)) := by
  refine eq_A0 rfl ?_
  unfold Arr.reduceFront
  rw [of_get (by exact .nil)]
  congr 1
  exact map_range_eq_ofFn _ _ fun t => A1_get x t.2

theorem slogSumFront_A1 (x : Fin a → SL) : slogSumFront (A1 x) = A0 (slogSumOverAxis x) := by
  unfold slogSumFront
  rw [reduceFront_A1]
  congr 1
  exact slogSum_cast (List.length_ofFn) _ _ fun i => List.get_ofFn x i

theorem slogdetProduct_A3 {m : Fin (K + 1) → ℕ} (M : Fin a → ∀ s, Matrix (Fin (m s)) (Fin (m s)) ℝ) :
    slogdetProductA (List.ofFn fun s => A3 fun i r k => M i s r k) =
      .ok (A1 fun i => Antisym.slogdetProduct (M i)) := by
  unfold slogdetProductA
  rw [mapM_ofFn (C := fun s => A1 fun i => Antisym.slogdet (M i s)) fun s => onSquares_A3 _ _, ok_bind,
    foldE_A1]
  rfl

theorem toLast_A1 (x : Fin a → α) : (A1 x).toLast = A1 x := by
  refine eq_A1 rfl fun i => ?_
  unfold Arr.toLast
  rw [of_get (by exact .cons i.2 .nil)]
  exact A1_get x i.2

/-! ### The determinant function -/

/-- The parameters of a ResNet from width `d` to width `dout`. -/
noncomputable def resA (r : ResNetDesc) (P : ResNetParams) (d dout : ℕ) : ResNetA where
  inner i :=
    let p := P.inner i (if i = 0 then d else r.ndense) r.ndense
    toDense p.kernel p.bias
  final :=
    let p := P.final (innerWidth r.ndense (r.nlayers - 1) d) dout
    toDense p.kernel p.bias

theorem addInput_A2 (x : Fin a → Fin d → ℝ) (y : Fin a → Fin d' → ℝ) :
    addInput (A2 x) (A2 y) = .ok (A2 fun i => Net.skipSum (x i) (y i)) := by
  unfold addInput
  by_cases h : d' = d
  · subst h
    rw [if_pos (by simp), zip_A2]
    congr 2
    funext i j
    simp [Net.skipSum]
  · rw [if_neg fun h' => h h'.symm]
    congr 2
    funext i j
    simp [Net.skipSum, h]

theorem inner_A2 (r : ResNetDesc) (P : ResNetParams) (PA : ResNetA) (i k : ℕ) (d : ℕ)
    (h0 : PA.inner i = toDense (P.inner i d r.ndense).kernel (P.inner i d r.ndense).bias)
    (hP : ∀ j, i < j → PA.inner j =
      toDense (P.inner j r.ndense r.ndense).kernel (P.inner j r.ndense r.ndense).bias)
    (x : Fin a → Fin d → ℝ) :
    innerA r PA i k (A2 x) = .ok (A2 fun t => (innerLayers P r.ndense i k d).run r.useBias
      (fun _ y j => r.activation.fn (y j)) (x t)) := by
  induction k generalizing i d with
  | zero => rfl
  | succ k ih =>
    unfold innerA
    rw [h0, dense_A2, map_A2]
    show (addInput (A2 x) (A2 _) >>= _) = _
    rw [addInput_A2, ok_bind,
      ih (i + 1) r.ndense (hP _ (Nat.lt_succ_self i)) fun j hj => hP j (by omega)]
    rfl

theorem resNet_A2 (r : ResNetDesc) (P : ResNetParams) (dout : ℕ) (x : Fin a → Fin d → ℝ) :
    resNetA r (resA r P d dout) dout (A2 x) = .ok (A2 fun t => r.apply P dout (x t)) := by
  unfold resNetA
  rw [inner_A2 r P (resA r P d dout) 0 (r.nlayers - 1) d rfl
    (fun j hj => by simp only [resA]; rw [if_neg (by omega)]), ok_bind]
  show Except.ok _ = Except.ok _
  rw [resA, dense_A2]
  rfl

/-- The determinant function of the model. -/
noncomputable def detFnM {ndet : ℕ} (r : ResNetDesc) (P : ResNetParams) (dout : ℕ)
    (dets : Fin (K + 1) → Fin ndet → ℝ) : Fin dout → ℝ :=
  r.apply P dout fun q : Fin ((K + 1) * ndet) => dets (finProdFinEquiv.symm q).1 (finProdFinEquiv.symm q).2

theorem detFn_A2 {ndet : ℕ} (r : ResNetDesc) (P : ResNetParams) (dout : ℕ)
    (x : Fin a → Fin (K + 1) → Fin ndet → ℝ) :
    detFnA r (resA r P ((K + 1) * ndet) dout) dout (List.ofFn fun s => A2 fun t => x t s) =
      .ok (A2 fun t => detFnM r P dout (x t)) := by
  unfold detFnA
  rw [concat_features2 fun s t => x t s, ok_bind, resNet_A2]
  rfl

theorem signOrbit_A1 (i N : ℕ) (x : Fin a → ℝ) :
    signOrbit 1 i N (A1 x) = .ok (A2 fun s : Fin (2 ^ N) => SignSym.orbitSingleArray x i s) := by
  unfold signOrbit
  have hs : (List.replicate ((A1 x).shape.length + 1) 1).set 1 (2 ^ N) = [1, 2 ^ N] := rfl
  rw [hs]
  have he : (A1 x).expand 1 = A2 fun (_ : Fin 1) j => x j := by
    refine eq_A2 rfl fun z j => ?_
    unfold Arr.expand
    rw [of_get (by exact ix2)]
    exact A1_get x j.2
  rw [he, zip_of_eq _ (s := [a, 2 ^ N]) (by
    by_cases ha : a = 1
    · simp [bshape, ha]
    · have : ¬ (1 = a) := fun h => ha h.symm
      simp [bshape, ha, this])]
  congr 1
  refine eq_A2 rfl fun s j => ?_
  rw [of_get ix2]
  have h1 : proj [j.val, s.val] [1, 2 ^ N] = [0, s.val] := by
    simp only [proj_cons, proj_one s.2, if_true]
    rfl
  have h2 : proj [j.val, s.val] [a, 1] = [j.val, 0] := by
    simp only [proj_cons, proj_one j.2, if_true]
    rfl
  rw [of_shape, A2_shape, h1, h2, of_get (.cons one_pos (.cons s.2 .nil)), A2_get _ one_pos j.2]
  rfl

theorem signOrbits_A1 (N i : ℕ) (x : Fin S → Fin a → ℝ) :
    signOrbits 1 N i (List.ofFn fun t => A1 (x t)) =
      .ok (List.ofFn fun t : Fin S => A2 fun s : Fin (2 ^ N) => SignSym.orbitSingleArray (x t) (i + t) s) := by
  induction S generalizing i with
  | zero => rfl
  | succ S ih =>
    rw [List.ofFn_succ, List.ofFn_succ]
    unfold signOrbits
    rw [signOrbit_A1, ok_bind, ih (i + 1), ok_bind]
    show Except.ok _ = Except.ok _
    congr 3
    funext t
    rw [Fin.val_succ, Nat.add_assoc, Nat.add_comm 1]

theorem reduce_rows_A2 (f : List α → β) (x : Fin a → Fin b → α) :
    (A2 x).reduce f 1 false = A1 fun j => f (List.ofFn fun i => x i j) := by
  refine eq_A1 rfl fun j => ?_
  simp only [Arr.reduce, Bool.false_eq_true, if_false]
  rw [of_get (by exact .cons j.2 .nil)]
  congr 1
  exact map_range_eq_ofFn _ _ fun k => A2_get x k.2 j.2

theorem reduce_last_A2 (f : List α → β) (x : Fin a → Fin b → α) :
    (A2 x).reduce f 0 false = A1 fun i => f (List.ofFn (x i)) := by
  refine eq_A1 rfl fun j => ?_
  simp only [Arr.reduce, Bool.false_eq_true, if_false]
  rw [of_get (by exact .cons j.2 .nil)]
  congr 1
  exact map_range_eq_ofFn _ _ fun k => A2_get x j.2 k.2

theorem reduce_last_A1 (f : List α → β) (x : Fin a → α) :
    (A1 x).reduce f 0 false = A0 (f (List.ofFn x)) := by
  refine eq_A0 rfl ?_
  simp only [Arr.reduce, Bool.false_eq_true, if_false]
  rw [of_get (by exact .nil)]
  congr 1
  exact map_range_eq_ofFn _ _ fun k => A1_get x k.2

theorem multiplySign_A2 (g : ℕ → ℝ) (x : Fin a → Fin b → ℝ) :
    multiplySign 1 (.of [a] fun t => g (t.headD 0)) (A2 x) = .ok (A2 fun i j => g i * x i j) := by
  unfold multiplySign
  rw [swap10_A2, zip_of_eq _ (s := [a, b]) (by simp [bshape]), ok_bind]
  have : (Arr.of [a, b] fun i => (Arr.of [a] fun t => g (t.headD 0)).get
      (proj i (Arr.of [a] fun t => g (t.headD 0)).shape) * (A2 fun j i => x i j).get
      (proj i (A2 fun j i => x i j).shape)) = A2 fun (j : Fin b) (i : Fin a) => g i * x i j := by
    refine eq_A2 rfl fun j i => ?_
    rw [of_get ix2, A2_shape, proj_id ix2, A2_get _ j.2 i.2]
    have : proj [i.val, j.val] [a] = [i.val] := by
      simp only [proj_cons, proj_one i.2]
      rfl
    rw [of_shape, this, of_get (.cons i.2 .nil)]
    rfl
  rw [this, swap10_A2]
  rfl

theorem signInvariant_A1 {dout : ℕ} (fn : List (Arr ℝ) → Except String (Arr ℝ))
    (g : (Fin (K + 1) → Fin a → ℝ) → Fin dout → ℝ)
    (hfn : ∀ (t : ℕ) (x : Fin t → Fin (K + 1) → Fin a → ℝ),
      fn (List.ofFn fun s => A2 fun i => x i s) = .ok (A2 fun i => g (x i)))
    (dets : Fin (K + 1) → Fin a → ℝ) :
    signInvariantA 1 fn (List.ofFn fun s => A1 (dets s)) =
      .ok (A1 (SignSym.arrayListSignInvariant g dets)) := by
  unfold signInvariantA
  rw [List.length_ofFn, signOrbits_A1, ok_bind]
  simp only [Nat.zero_add]
  rw [hfn _ fun s t => SignSym.orbitSingleArray (dets t) t s, ok_bind, reduce_rows_A2]
  show Except.ok _ = Except.ok _
  congr 2
  funext j
  rw [List.sum_ofFn]
  rfl

theorem signCovariant_A1 {dout : ℕ} (fn : List (Arr ℝ) → Except String (Arr ℝ))
    (g : (Fin (K + 1) → Fin a → ℝ) → Fin dout → ℝ)
    (hfn : ∀ (t : ℕ) (x : Fin t → Fin (K + 1) → Fin a → ℝ),
      fn (List.ofFn fun s => A2 fun i => x i s) = .ok (A2 fun i => g (x i)))
    (dets : Fin (K + 1) → Fin a → ℝ) :
    signCovariantA 1 fn (List.ofFn fun s => A1 (dets s)) =
      .ok (A1 (SignSym.arrayListSignCovariant g dets)) := by
  unfold signCovariantA
  rw [List.length_ofFn, signOrbits_A1, ok_bind]
  simp only [Nat.zero_add]
  rw [hfn _ fun s t => SignSym.orbitSingleArray (dets t) t s, ok_bind,
    multiplySign_A2 (SignSym.combinedSigns (K + 1)), ok_bind, reduce_rows_A2]
  show Except.ok _ = Except.ok _
  congr 2
  funext j
  rw [List.sum_ofFn]
  rfl

theorem squeeze_A1 (x : Fin 1 → α) : (A1 x).squeeze 0 = .ok (A0 (x 0)) := by
  unfold Arr.squeeze
  rw [if_pos (by simp)]
  congr 1
  refine eq_A0 rfl ?_
  rw [of_get (by exact .nil)]
  exact A1_get x one_pos

theorem expand0_A1 (x : Fin a → α) : (A1 x).expand 0 = A2 fun i (_ : Fin 1) => x i := by
  refine eq_A2 rfl fun i z => ?_
  unfold Arr.expand
  rw [of_get (by exact ix2)]
  exact A1_get x i.2

theorem expand1_A1 (x : Fin a → α) : (A1 x).expand 1 = A2 fun (_ : Fin 1) j => x j := by
  refine eq_A2 rfl fun z j => ?_
  unfold Arr.expand
  rw [of_get (by exact ix2)]
  exact A1_get x j.2

theorem stackLast_A1 (x : Fin (K + 1) → Fin a → α) :
    stackLast (List.ofFn fun s => A1 (x s)) = .ok (A2 fun i s => x s i) := by
  unfold stackLast
  rw [List.map_ofFn]
  have : (fun p : Arr α => p.expand 0) ∘ (fun s => A1 (x s)) = fun s => A2 fun i (_ : Fin 1) => x s i := by
    funext s
    exact expand0_A1 (x s)
  rw [this, concat_ofFn 0 _ (fun _ => 1) (sh := [0, a]) (fun _ => rfl) (by simp)]
  congr 1
  have hs : [0, a].set 0 (∑ _s : Fin (K + 1), 1) = [K + 1, a] := by simp
  rw [hs]
  refine eq_A2 rfl fun i s => ?_
  rw [of_get ix2, pick_ofFn 0 _ (fun _ => 1) (fun _ => rfl) s 0 _ (by simp) (by rw [start_const]; simp)]
  exact A2_get _ i.2 one_pos

/-- The parameters of the determinant function, for the output width which the mode has. -/
noncomputable def detFnParams (f : FermiDesc) (P : ResNetParams) (K : ℕ) : ResNetA :=
  match f.detFn with
  | none => ⟨fun _ => zeroDense, zeroDense⟩
  | some r => resA r P ((K + 1) * f.ndeterminants) (match f.mode with
    | .signCovariance => 1
    | .parallelEven => f.ndeterminants
    | .pairwiseEven => f.ndeterminants * f.ndeterminants)

theorem outer_A1 (x y : Fin a → ℝ) :
    ((A1 x).expand 0).zip (· * ·) ((A1 y).expand 1) = .ok (A2 fun i j => x i * y j) := by
  rw [expand0_A1, expand1_A1, zip_of_eq _ (s := [a, a]) (by
    by_cases ha : a = 1
    · simp [bshape, ha]
    · have : ¬ (1 = a) := fun h => ha h.symm
      simp [bshape, ha, this])]
  congr 1
  refine eq_A2 rfl fun i j => ?_
  rw [of_get ix2]
  have h1 : proj [j.val, i.val] [1, a] = [0, i.val] := by
    simp only [proj_cons, proj_one i.2, if_true]
    rfl
  have h2 : proj [j.val, i.val] [a, 1] = [j.val, 0] := by
    simp only [proj_cons, proj_one j.2, if_true]
    rfl
  rw [A2_shape, A2_shape, h1, h2, A2_get _ i.2 one_pos, A2_get _ one_pos j.2]

theorem dets_A3 (f : FermiDesc) (P : ResNetParams) (PA : FermiA) (hP : PA.detFn = detFnParams f P K)
    {m : Fin (K + 1) → ℕ} (M : Fin f.ndeterminants → ∀ s, Matrix (Fin (m s)) (Fin (m s)) ℝ) :
    detsA f PA (List.ofFn fun s => A3 fun i r k => M i s r k) =
      A0 <$> Net.combine (detFnOf P f.mode f.detFn) M := by
  unfold detsA detFnOf
  cases hr : f.detFn with
  | none =>
    simp only [Option.map_none, Net.combine]
    rw [slogdetProduct_A3]
    exact congrArg Except.ok (slogSumFront_A1 _)
  | some r =>
    simp only [Option.map_some, Net.combine]
    rw [mapM_ofFn (C := fun s => A1 fun i => (M i s).det) fun s => onSquares_A3 _ _, ok_bind,
      List.map_ofFn]
    have hl : ((fun p : Arr ℝ => p.toLast) ∘ fun s => A1 fun i => (M i s).det) =
        fun s => A1 fun i => (M i s).det := by
      funext s
      exact toLast_A1 _
    rw [hl]
    unfold psiA
    simp only [detFnParams, hr] at hP
    cases hm : f.mode with
    | signCovariance =>
      simp only [hm] at hP
      simp only [hP]
      rw [signCovariant_A1 _ _ fun t x => detFn_A2 r P 1 x, ok_bind, squeeze_A1, ok_bind, map_A0]
      rfl
    | parallelEven =>
      simp only [hm] at hP
      simp only [hP, parallelEven]
      rw [signInvariant_A1 _ _ fun t x => detFn_A2 r P f.ndeterminants x, ok_bind, stackLast_A1, ok_bind,
        reduce_last_A2, zip_A1, ok_bind, reduce_last_A1]
      simp only [List.prod_ofFn, List.sum_ofFn]
      show Except.ok _ = Except.ok _
      rw [map_A0]
      rfl
    | pairwiseEven =>
      simp only [hm] at hP
      simp only [hP]
      match K, m, M, P with
      | 0, m, M, P => rfl
      | K + 2, m, M, P =>
        rw [dif_neg (by omega), List.ofFn_succ, List.ofFn_succ, List.ofFn_succ]
        rfl
      | 1, m, M, P => 
        have h2 : (List.ofFn fun s : Fin (1 + 1) => A1 fun i => (M i s).det) =
            [A1 fun i => (M i 0).det, A1 fun i => (M i 1).det] := by
          simp [List.ofFn_succ]
        have hinv := signInvariant_A1 _ _
          (fun t x => detFn_A2 (K := 1) r P (f.ndeterminants * f.ndeterminants) x)
          fun (s : Fin (1 + 1)) i => (M i s).det
        rw [h2] at hinv ⊢
        simp only [pairwiseEven, pow_two]
        rw [hinv, ok_bind, outer_A1, ok_bind, flatten_A2, ok_bind, zip_A1, ok_bind, reduce_last_A1,
          List.sum_ofFn]
        show Except.ok _ = Except.ok _
        rw [map_A0]
        rfl

end Verif.Arrays
