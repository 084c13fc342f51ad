import Verif.Lemmas.ArrayViewsAntieq
import Verif.Lemmas.ArrayViewsNet

/-!
The antiequivariance networks on the array of one walker.
-/

namespace Verif.Arrays
open Verif.Slog Verif.Construct Verif.Net

variable {K M N a b c d e : ℕ} {n : Fin (K + 1) → ℕ}

/-! ### Multiplication by the features -/

theorem zip_col (x : Fin a → Fin b → ℝ) (y : Fin a → Fin 1 → ℝ) :
    (A2 x).zip (· * ·) (A2 y) = .ok (A2 fun i k => x i k * y i 0) := by
  rw [zip_of_eq _ (s := [b, a]) (by simp [bshape])]
  congr 1
  refine eq_A2 rfl fun i k => ?_
  have : proj [k.val, i.val] [1, a] = [0, i.val] := by
    simp only [proj_cons, proj_one i.2, if_true]
    rfl
  rw [of_get ix2, A2_shape, A2_shape, proj_id ix2, this, A2_get x i.2 k.2, A2_get y i.2 one_pos]
  rfl

theorem multiply_S1 (m : Bool) {ss : List ℤ} (hs : places ss = ends n) (y : ∀ s, Fin (n s) → Fin 1 → ℝ)
    (x : Stream1 n d) : multiplyA m ss (List.ofFn fun s => A2 (y s)) (S1 x) =
      .ok (List.ofFn fun s => A2 ((multiplyOf m d).apply y x s)) := by
  unfold multiplyA
  cases m with
  | false => rfl
  | true =>
    rw [if_pos rfl, hs]
    have h : split 1 (ends n) (S1 x) = .ok (List.ofFn fun s => A2 fun i : Fin (n s) => x ⟨s, i⟩) := split_rows2 x
    rw [h, ok_bind]
    exact treeMap2_ofFn fun s => zip_col _ _

/-! ### Products -/

theorem pairwiseDots_A2 (x : Fin a → Fin c → ℝ) (y : Fin b → Fin c → ℝ) :
    pairwiseDotsA (A2 x) (A2 y) = .ok (A2 (SignSym.pairwiseDots x y)) := by
  simp only [pairwiseDotsA, A2_shape]
  rw [if_pos (by simp)]
  congr 1
  refine eq_A2 rfl fun i j => ?_
  rw [of_get (by exact ix2), Finset.sum_range]
  unfold SignSym.pairwiseDots
  refine Finset.sum_congr rfl fun k _ => ?_
  exact congrArg₂ _ (A2_get x i.2 k.2) (A2_get y j.2 k.2)

/-- The kernel with one weight per pair of electrons. -/
noncomputable def productsKernelA (a b : ℕ) (kernel : ℕ → ℕ → ℝ) : DenseA :=
  toDense (fun (q : Fin (a * b)) (_ : Fin 1) =>
    kernel (finProdFinEquiv.symm q).1 (finProdFinEquiv.symm q).2) fun _ => 0

theorem products_A2 (x : Fin a → Fin c → ℝ) (y : Fin b → Fin c → ℝ) :
    (fun z => Arr.reduce List.sum 0 false z) <$> productsA none [A2 x, A2 y] =
      .ok (A0 (SignSym.productsCovariance x y)) := by
  simp only [productsA]
  rw [pairwiseDots_A2, ok_bind, reduce_last_A2, reduce_last_A1]
  have : (A0 (List.ofFn fun i => (List.ofFn (SignSym.pairwiseDots x y i)).sum).sum).expand 0 =
      A1 fun _ : Fin 1 => SignSym.productsCovariance x y := by
    refine eq_A1 rfl fun z => ?_
    unfold Arr.expand
    rw [of_get (by exact .cons z.2 .nil)]
    have : (A0 (List.ofFn fun i => (List.ofFn (SignSym.pairwiseDots x y i)).sum).sum).get [] = _ := A0_get _
    refine this.trans ?_
    simp only [List.sum_ofFn]
    rfl
  rw [this]
  show Except.ok _ = _
  beta_reduce
  rw [reduce_last_A1, List.sum_ofFn]
  simp

theorem weighted_A2 (kernel : ℕ → ℕ → ℝ) (x : Fin a → Fin c → ℝ) (y : Fin b → Fin c → ℝ) :
    (fun z => Arr.reduce List.sum 0 false z) <$>
        productsA (some (productsKernelA a b kernel)) [A2 x, A2 y] =
      .ok (A0 (∑ c, SignSym.productsCovarianceWeighted (features := 1) (fun i j _ => kernel i j) x y c)) := by
  simp only [productsA]
  rw [pairwiseDots_A2, ok_bind, flatten_A2, ok_bind]
  unfold productsKernelA
  rw [dense_A1]
  show Except.ok _ = _
  beta_reduce
  rw [reduce_last_A1, List.sum_ofFn]
  congr 2
  refine Finset.sum_congr rfl fun c _ => ?_
  unfold Net.dense SignSym.productsCovarianceWeighted
  rw [← Fintype.sum_prod_type' fun i j => SignSym.pairwiseDots x y i j * kernel i j]
  simp only [Bool.false_eq_true, if_false, add_zero]
  exact Equiv.sum_comp finProdFinEquiv.symm fun p => SignSym.pairwiseDots x y p.1 p.2 * kernel p.1 p.2

theorem products_other (hK : K ≠ 1) (w : Option DenseA) (A : Fin (K + 1) → Arr ℝ) :
    productsA w (List.ofFn A) = .error "Products covariance only supported for nspins=2" := by
  match K, hK with
  | 0, _ => rfl
  | K + 2, _ =>
    rw [List.ofFn_succ, List.ofFn_succ, List.ofFn_succ]
    rfl

/-! ### Sign-symmetrized backflow -/

theorem signOrbit_A2 (i N : ℕ) (x : Fin a → Fin b → ℝ) :
    signOrbit 2 i N (A2 x) = .ok (A3 fun (s : Fin (2 ^ N)) p q =>
      SignSym.orbitSingleArray (fun t : Fin a × Fin b => x t.1 t.2) i s (p, q)) := by
  unfold signOrbit
  have hs : (List.replicate ((A2 x).shape.length + 1) 1).set 2 (2 ^ N) = [1, 1, 2 ^ N] := rfl
  rw [hs, expand2_A2, zip_of_eq _ (s := [b, a, 2 ^ N]) (by
    have h : ∀ k : ℕ, (if k = 1 then 1 else k) = k := fun k => by split_ifs with h <;> simp [h]
    by_cases ha : a = 1 <;> by_cases hb : b = 1
    all_goals
      have ha' : 1 = a ↔ a = 1 := eq_comm
      have hb' : 1 = b ↔ b = 1 := eq_comm
      simp [bshape, ha, hb, ha', hb'])]
  congr 1
  refine eq_A3 rfl fun s p q => ?_
  rw [of_get ix3]
  have h1 : proj [q.val, p.val, s.val] [1, 1, 2 ^ N] = [0, 0, s.val] := by
    simp only [proj_cons, proj_one s.2, if_true]
    rfl
  have h2 : proj [q.val, p.val, s.val] [b, a, 1] = [q.val, p.val, 0] := by
    simp only [proj_cons, proj_one p.2, proj_one q.2, if_true]
    rfl
  rw [of_shape, A3_shape, h1, h2, of_get (.cons one_pos (.cons one_pos (.cons s.2 .nil))),
    A3_get _ one_pos p.2 q.2]
  rfl

theorem signOrbits_A2 {S : ℕ} {m : Fin S → ℕ} (N i : ℕ) (x : ∀ t, Fin (m t) → Fin b → ℝ) :
    signOrbits 2 N i (List.ofFn fun t => A2 (x t)) =
      .ok (List.ofFn fun t : Fin S => A3 fun (s : Fin (2 ^ N)) p q =>
        SignSym.orbitSingleArray (fun r : Fin (m t) × Fin b => x t r.1 r.2) (i + t) s (p, q)) := by
  induction S generalizing i with
  | zero => rfl
  | succ S ih =>
    rw [List.ofFn_succ, List.ofFn_succ]
    unfold signOrbits
    rw [signOrbit_A2, ok_bind, ih (i + 1), ok_bind]
    show Except.ok _ = Except.ok _
    congr 3
    funext t
    rw [Fin.val_succ, Nat.add_assoc, Nat.add_comm 1]

theorem swap20_A3 (x : Fin a → Fin b → Fin c → ℝ) : (A3 x).swap 2 0 = A3 fun k j i => x i j k := by
  refine eq_A3 rfl fun k j i => ?_
  unfold Arr.swap
  rw [of_get (by exact ix3)]
  exact A3_get x i.2 j.2 k.2

theorem multiplySign_A3 (g : ℕ → ℝ) (x : Fin a → Fin b → Fin c → ℝ) :
    multiplySign 2 (.of [a] fun t => g (t.headD 0)) (A3 x) = .ok (A3 fun i j k => g i * x i j k) := by
  unfold multiplySign
  rw [swap20_A3, zip_of_eq _ (s := [a, b, c]) (by simp [bshape]), ok_bind]
  have : (Arr.of [a, b, c] fun i => (Arr.of [a] fun t => g (t.headD 0)).get
      (proj i (Arr.of [a] fun t => g (t.headD 0)).shape) * (A3 fun k j i => x i j k).get
      (proj i (A3 fun k j i => x i j k).shape)) =
        A3 fun (k : Fin c) (j : Fin b) (i : Fin a) => g i * x i j k := by
    refine eq_A3 rfl fun k j i => ?_
    rw [of_get ix3, A3_shape, proj_id ix3, A3_get _ k.2 j.2 i.2]
    have : proj [i.val, j.val, k.val] [a] = [i.val] := by
      simp only [proj_cons, proj_one i.2]
      rfl
    rw [of_shape, this, of_get (.cons i.2 .nil)]
    rfl
  rw [this, swap20_A3]
  rfl

theorem reduce_page_A3 (f : List ℝ → ℝ) (x : Fin a → Fin b → Fin c → ℝ) :
    (A3 x).reduce f 2 false = A2 fun j k => f (List.ofFn fun i => x i j k) := by
  refine eq_A2 rfl fun j k => ?_
  simp only [Arr.reduce, Bool.false_eq_true, if_false]
  rw [of_get (by exact ix2)]
  congr 1
  exact map_range_eq_ofFn _ _ fun i => A3_get x i.2 j.2 k.2

/-- Operations which act on parts as on the whole, on arrays with one axis more. -/
theorem lift_A3 {F : Arr ℝ → Except String (Arr ℝ)}
    (hF : ∀ B b X x, On B b 2 X x → ERel (On B b 2) (F X) (F x)) (hN : 0 < N)
    (X : Fin N → Fin a → Fin b → ℝ) (Y : Fin N → Fin c → Fin d → ℝ)
    (h : ∀ t, F (A2 (X t)) = .ok (A2 (Y t))) : F (A3 X) = .ok (A3 Y) := by
  have key : ∀ t : Fin N, ∃ Z, F (A3 X) = .ok Z ∧ On [N] [t.val] 2 Z (A2 (Y t)) := by
    intro t
    have h1 : On [N] [t.val] 2 (A3 X) (A2 (X t)) := by
      refine ⟨.cons t.2 .nil, rfl, fun j hj => ?_, rfl⟩
      obtain ⟨q, p, rfl⟩ : ∃ q p, j = [q, p] := List.length_eq_two.1 hj
      by_cases hq : q < b
      · by_cases hp : p < a
        · rw [A2_get _ hp hq]
          exact A3_get X t.2 hp hq
        · rw [(A3 X).off _ fun h => by cases h with | cons _ h => cases h with | cons h _ => exact hp h,
            (A2 (X t)).off _ fun h => by cases h with | cons _ h => cases h with | cons h _ => exact hp h]
      · rw [(A3 X).off _ fun h => by cases h with | cons h _ => exact hq h,
          (A2 (X t)).off _ fun h => by cases h with | cons h _ => exact hq h]
    have h2 := hF _ _ _ _ h1
    rw [h] at h2
    cases hz : F (A3 X) with
    | error e => rw [hz] at h2; cases h2
    | ok Z =>
      rw [hz] at h2
      cases h2 with
      | ok h3 => exact ⟨Z, rfl, h3⟩
  obtain ⟨Z, hZ, h0⟩ := key ⟨0, hN⟩
  rw [hZ]
  congr 1
  refine eq_A3 h0.shape fun i j k => ?_
  obtain ⟨Z', hZ', h1⟩ := key i
  rw [hZ] at hZ'
  cases hZ'
  exact (h1.get [k.val, j.val] rfl).trans (A2_get _ j.2 k.2)

/-- The covariances of one walker, summed over the features. -/
theorem covariance_A2 (v : CovarianceDesc) (P : Params (K + 1) M e) (x : ∀ s, Fin (n s) → Fin d → ℝ)
    (CA : CovarianceA) (hp : CA.products = productsKernelA (n 0) (n (Fin.last K)) P.productsKernel)
    (hb : CA.backflow = fun bs => blocksA P.covBackflow 0 bs (d, 0))
    (hv : ∀ cfg ks dt bs, v = .backflow cfg ks dt → getBackflow cfg ks dt = .ok bs →
      BlocksMatch (counts n) bs) :
    (fun z => Arr.reduce List.sum 0 false z) <$> covarianceA v CA (List.ofFn fun s => A2 (x s)) =
      v.build P d >>= fun C => A0 <$> C.apply x := by
  cases v with
  | products k w =>
    show _ = A0 <$> Covariance.apply (if w then .weightedProducts P.productsKernel else .products) x
    simp only [covarianceA]
    by_cases hK : K = 1
    · subst hK
      rw [List.ofFn_succ, List.ofFn_succ, List.ofFn_zero]
      cases w with
      | false =>
        rw [if_neg (by simp), if_neg (by simp)]
        exact products_A2 _ _
      | true =>
        rw [if_pos rfl, if_pos rfl, hp]
        exact weighted_A2 _ _ _
    · rw [products_other hK]
      cases w with
      | false =>
        rw [if_neg (by simp)]
        simp only [Covariance.apply]
        rw [dif_neg (by omega)]
        rfl
      | true =>
        rw [if_pos rfl]
        simp only [Covariance.apply]
        rw [dif_neg (by omega)]
        rfl
  | backflow cfg ks dt =>
    simp only [covarianceA, CovarianceDesc.build]
    unfold signCovariantA
    rw [List.length_ofFn, signOrbits_A2, ok_bind]
    unfold backflowEquivarianceA
    rw [concat_mid3, ok_bind]
    cases hg : getBackflow cfg ks dt with
    | error e => rfl
    | ok bs =>
      have hm := hv cfg ks dt bs rfl hg
      rw [ok_bind]
      have hl := lift_A3 (N := 2 ^ (K + 1)) (F := fun x => backflowA (CA.backflow bs) 0 bs x none)
        (fun _ _ _ _ h => on_backflow (CA.backflow bs) bs 0 h .none) (by positivity)
        (fun s j q => SignSym.orbitSingleArray
          (fun r : Fin (n (finSigmaFinEquiv.symm j).1) × Fin d => x (finSigmaFinEquiv.symm j).1 r.1 r.2)
          (0 + (finSigmaFinEquiv.symm j).1) s ((finSigmaFinEquiv.symm j).2, q))
        (fun s j => (blocks P.covBackflow 0 bs (d, 0)).backflow (n := n)
          (fun i k => SignSym.orbitSingleArray (fun r : Fin (n i.1) × Fin d => x i.1 r.1 r.2) (0 + i.1) s
            (i.2, k), none) (finSigmaFinEquiv.symm j))
        (fun s => backflow_S (n := n) P.covBackflow (CA.backflow bs) 0 bs (d, 0) (fun _ _ => by rw [hb])
          (fun b hb' => by rw [hm b hb', places_counts])
          (fun i k => SignSym.orbitSingleArray (fun r : Fin (n i.1) × Fin d => x i.1 r.1 r.2) (0 + i.1) s
            (i.2, k), none))
      simp only at hl
      rw [hl, ok_bind, multiplySign_A3 (SignSym.combinedSigns (K + 1)), ok_bind, reduce_page_A3]
      show Except.ok _ = Except.ok _
      congr 1
      beta_reduce
      rw [reduce_rows_A2, reduce_last_A1, List.sum_ofFn]
      congr 1
      refine Finset.sum_congr rfl fun c _ => ?_
      rw [List.sum_ofFn, ← Equiv.sum_comp finSigmaFinEquiv.symm]
      refine Finset.sum_congr rfl fun j _ => ?_
      rw [List.sum_ofFn]
      simp only [Nat.zero_add]
      rfl

/-! ### The network -/

/-- The parameters of the antiequivariant layer. -/
noncomputable def antieqLayerParams (perParticle : Bool) (P : Params (K + 1) (M + 1) d) (d1 : ℕ)
    (n : Fin (K + 1) → ℕ) : OrbitalsA :=
  if perParticle then doublyA (P.doubly d1 n) else orbitalsA (P.orbitals d1 n)

/-- The parameters of the sign covariance of arrays with `da` features. -/
noncomputable def covarianceParams (P : Params (K + 1) (M + 1) d) (da : ℕ) (n : Fin (K + 1) → ℕ) : CovarianceA where
  products := productsKernelA (n 0) (n (Fin.last K)) P.productsKernel
  backflow bs := blocksA P.covBackflow 0 bs (da, 0)

/-- The array code on one walker. -/
theorem antiequivariance_one (ss : List ℤ) (s : StreamsDesc) (bs : List BlockDesc) (pp : Bool)
    (o : OrbitalDesc) (v : CovarianceDesc) (m : Bool) (P : Params (K + 1) (M + 1) d)
    (hs : ss = Split.getSpinSplit (counts n)) (hb : BlocksMatch (counts n) bs)
    (hv : ∀ cfg ks dt, v = .backflow cfg ks dt →
      ∃ bs, getBackflow cfg ks dt = .ok bs ∧ BlocksMatch (counts n) bs)
    (hei : s.includeEiNorm = true) (hN : ∑ s, n s ≠ 0) (ions : Fin (M + 1) → Fin d → ℝ) (pos : Stream1 n d) :
    antiequivarianceA ss s bs pp ss o v m
        (blocksA P.backflow 0 bs (inWidths (M + 1) d s.includeEeNorm))
        (antieqLayerParams pp P (outWidths bs (inWidths (M + 1) d s.includeEeNorm)).1 n)
        (covarianceParams P (multiplyWidth m (outWidths bs (inWidths (M + 1) d s.includeEeNorm)).1) n)
        (A2 ions) (S1 pos) =
      A0 <$> applyAntiequivariance ss s bs pp o v m P ions pos := by
  obtain ⟨ree, hin⟩ := inputStreams_S1 s hei hN ions pos
  have hpl : places ss = ends n := by rw [hs, places_counts]
  obtain ⟨C, hC⟩ : ∃ C, v.build P (multiplyWidth m
      (outWidths bs (inWidths (M + 1) d s.includeEeNorm)).1) = .ok C := by
    cases v with
    | products k w => exact ⟨_, rfl⟩
    | backflow cfg ks dt =>
      obtain ⟨b, h, _⟩ := hv cfg ks dt rfl
      simp only [CovarianceDesc.build, h]
      exact ⟨_, rfl⟩
  unfold antiequivarianceA
  rw [hin, ok_bind]
  simp only
  rw [backflow_S P.backflow (blocksA P.backflow 0 bs (inWidths (M + 1) d s.includeEeNorm)) 0 bs
    (inWidths (M + 1) d s.includeEeNorm) (fun _ _ => rfl) (fun b hb' => by rw [hb b hb', places_counts]), ok_bind]
  unfold applyAntiequivariance
  simp only [hC, ok_bind]
  have last : ∀ g : ∀ s, Except String (Fin (n s) → Fin 1 → ℝ),
      (((fun y => List.ofFn fun s => A2 (y s)) <$> Net.sequence g) >>= fun antieq =>
        multiplyA m ss antieq (S1 ((blocks P.backflow 0 bs (inWidths (M + 1) d s.includeEeNorm)).backflow
          (ionStreams ions s.include2e s.eiSoftening s.includeEeNorm s.eeSoftening pos).1)) >>= fun antieq =>
        covarianceA v (covarianceParams P
          (multiplyWidth m (outWidths bs (inWidths (M + 1) d s.includeEeNorm)).1) n) antieq >>= fun antisym =>
        pure ((antisym.reduce List.sum 0 false).map fun x => arrayToSlog (.fin x))) =
      A0 <$> (Net.sequence g).bind fun a => (C.apply ((multiplyOf m _).apply a
        ((blocks P.backflow 0 bs (inWidths (M + 1) d s.includeEeNorm)).backflow
          (ionStreams ions s.include2e s.eiSoftening s.includeEeNorm s.eeSoftening pos).1))).map fun r =>
            arrayToSlog (.fin r) := by
    intro g
    cases Net.sequence g with
    | error e => rfl
    | ok y =>
      show multiplyA m ss (List.ofFn fun s => A2 (y s)) _ >>= _ = _
      rw [multiply_S1 m hpl, ok_bind]
      have hcov := covariance_A2 v P ((multiplyOf m _).apply y
        ((blocks P.backflow 0 bs (inWidths (M + 1) d s.includeEeNorm)).backflow
          (ionStreams ions s.include2e s.eiSoftening s.includeEeNorm s.eeSoftening pos).1))
        (covarianceParams P (multiplyWidth m (outWidths bs (inWidths (M + 1) d s.includeEeNorm)).1) n) rfl rfl
        (fun cfg ks dt bs h hg => by
          obtain ⟨b, h1, h2⟩ := hv cfg ks dt h
          rw [hg] at h1
          cases h1
          exact h2)
      rw [hC, ok_bind] at hcov
      show _ = A0 <$> (C.apply _).map _
      revert hcov
      generalize covarianceA v _ _ = A
      generalize C.apply _ = R
      intro hcov
      cases A with
      | error e =>
        cases R with
        | error e' => cases hcov; rfl
        | ok r => cases hcov
      | ok A =>
        cases R with
        | error e' => cases hcov
        | ok r =>
          have h1 : A.reduce List.sum 0 false = A0 r := Except.ok.inj hcov
          show Except.ok _ = Except.ok _
          rw [h1, map_A0]
  unfold antieqLayerA antieqLayerParams
  cases pp with
  | true =>
    simp only [if_true]
    have h1 := perParticleLayer_S1 ss hs o
      (P.doubly (outWidths bs (inWidths (M + 1) d s.includeEeNorm)).1 n)
      ((blocks P.backflow 0 bs (inWidths (M + 1) d s.includeEeNorm)).backflow
        (ionStreams ions s.include2e s.eiSoftening s.includeEeNorm s.eeSoftening pos).1)
      (displacements pos ions)
    rw [h1]
    cases nelecPerSplit ss (counts n).sum with
    | error e => rfl
    | ok l => exact last _
  | false =>
    simp only [Bool.false_eq_true, if_false]
    have h1 := cofactorLayer_S1 ss hs o
      (P.orbitals (outWidths bs (inWidths (M + 1) d s.includeEeNorm)).1 n)
      ((blocks P.backflow 0 bs (inWidths (M + 1) d s.includeEeNorm)).backflow
        (ionStreams ions s.include2e s.eiSoftening s.includeEeNorm s.eeSoftening pos).1)
      (displacements pos ions)
    rw [h1]
    cases nelecPerSplit ss (counts n).sum with
    | error e => rfl
    | ok l => exact last _

end Verif.Arrays
