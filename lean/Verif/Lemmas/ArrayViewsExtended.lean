import Verif.Lemmas.ArrayViewsEmbedded

namespace Verif.Arrays
open Verif.Slog Verif.Construct Verif.Net

variable {K M a b c d e : ℕ} {n : Fin (K + 1) → ℕ}

/-! ### Extended orbital matrices -/

theorem concat_pair3 (x : Fin a → Fin b → Fin e → ℝ) (y : Fin a → Fin c → Fin e → ℝ) :
    concat 1 [A3 x, A3 y] = .ok (A3 fun i => Fin.append (x i) (y i)) := by
  simp only [concat]
  rw [if_pos (by simp)]
  congr 1
  have hs : (A3 x).shape.set 1 ([A3 x, A3 y].map fun c => c.shape.getD 1 0).sum = [e, b + c, a] := by simp
  rw [hs]
  refine eq_A3 rfl fun i j k => ?_
  rw [of_get (by exact ix3)]
  simp only [pick, A3_shape, List.getD_cons_succ, List.getD_cons_zero]
  by_cases h1 : j.val < b
  · rw [if_pos h1, A3_get x i.2 h1 k.2]
    exact (congrFun (Fin.append_left (x i) (y i) ⟨j, h1⟩) k).symm
  · rw [if_neg h1]
    have e1 : [k.val, j.val, i.val].modify 1 (· - b) = [k.val, j.val - b, i.val] := rfl
    have h2 : j.val - b < c := by omega
    rw [e1]
    simp only [List.getD_cons_succ, List.getD_cons_zero]
    rw [if_pos h2, A3_get y i.2 h2 k.2]
    refine (congrFun (Fin.append_right (x i) (y i) ⟨j - b, h2⟩) k).symm.trans ?_
    refine congrFun (congrArg (Fin.append (x i) (y i)) (Fin.ext ?_)) k
    show b + (j.val - b) = j
    omega

theorem stackRows_ofFn {S : ℕ} {A B C : Fin S → Arr ℝ} (h : ∀ s, concat 1 [A s, B s] = .ok (C s)) :
    stackRows (List.ofFn A) (List.ofFn B) = .ok (List.ofFn C) := by
  induction S with
  | zero => rfl
  | succ S ih =>
    rw [List.ofFn_succ, List.ofFn_succ, List.ofFn_succ]
    unfold stackRows
    rw [h 0, ok_bind, ih fun s => h s.succ]
    rfl

/-- Parameters of the invariance of an extended FermiNet with `cols` columns per species. -/
noncomputable def extendedInvarianceA {nion : ℕ} (f : FermiDesc) (h cols : Fin (K + 1) → ℕ)
    (invBackflow : Option (List BlockDesc)) (P : Params (K + 1) nion d) : InvarianceA where
  backflow := blocksA P.invBackflow 0 (invBackflow.getD []) (inWidths nion d f.streams.includeEeNorm)
  dense := match invBackflow with
    | some bs => invariantA (P.invariance (outWidths bs (inWidths nion d f.streams.includeEeNorm)).1 h cols)
    | none => invariantA
      (P.invariance (outWidths f.backflow (inWidths nion d f.streams.includeEeNorm)).1 h cols)

/-- The invariance which is appended to the orbitals. -/
noncomputable def appended {w w' v : ℕ × ℕ} {h cols : Fin (K + 1) → ℕ}
    (inv : (Blocks (K + 1) w v × InvariantDense (K + 1) v.1 h cols) ⊕ InvariantDense (K + 1) w'.1 h cols)
    (inputs : Streams n w) (stream : Stream1 n w'.1) : ∀ s, Fin (h s) → Fin (cols s) → ℝ :=
  match inv with
  | .inl (bs, I) => I.apply (bs.backflow inputs)
  | .inr I => I.apply stream

theorem invariance_S1 (f : FermiDesc) (hpl : places f.spinSplit = ends n)
    (invBackflow : Option (List BlockDesc)) (inv : InvarianceDesc) (P : Params (K + 1) (M + 1) d)
    (hb : ∀ bs, invBackflow = some bs → BlocksMatch (counts n) bs) (h cols : Fin (K + 1) → ℕ)
    (inputs : Streams n (inWidths (M + 1) d f.streams.includeEeNorm))
    (stream : Stream1 n (outWidths f.backflow (inWidths (M + 1) d f.streams.includeEeNorm)).1) :
    (invarianceStream invBackflow (extendedInvarianceA f h cols invBackflow P) (S1 inputs.1)
        (inputs.2.map S2) (S1 stream) >>= fun x =>
      invariantTensorA inv.useBias (extendedInvarianceA f h cols invBackflow P).dense f.spinSplit
        (List.ofFn fun s => (h s, cols s)) x) =
      .ok (List.ofFn fun s => A2 (appended (extendedInvariance invBackflow inv P
        (inWidths (M + 1) d f.streams.includeEeNorm)
        (outWidths f.backflow (inWidths (M + 1) d f.streams.includeEeNorm)) h cols) inputs stream s)) := by
  cases invBackflow with
  | none => exact invariantTensor_S1 hpl inv _ _
  | some bs =>
    unfold invarianceStream
    simp only
    rw [backflow_S P.invBackflow (extendedInvarianceA f h cols (some bs) P).backflow 0 bs
      (inWidths (M + 1) d f.streams.includeEeNorm) (fun _ _ => rfl)
      (fun b hb' => by rw [hb bs rfl b hb', places_counts]), ok_bind]
    exact invariantTensor_S1 hpl inv _ _

/-- Rows of an extended matrix. -/
theorem extendedTail (f : FermiDesc) (hdet : f.ndeterminants ≠ 0) (hpl : places f.spinSplit = ends n)
    (PA : FermiA) (I : InvarianceA) {d1 : ℕ} {norb h : Fin (K + 1) → ℕ}
    (L : OrbitalLayer (K + 1) d1 (M + 1) d fun s => f.ndeterminants * norb s)
    (ho : PA.orbitals = orbitalsA L) (x : Stream1 n d1) (rei : Elec n → Fin (M + 1) → Fin d → ℝ)
    (nh : List ℕ) (hl : nh = List.ofFn h) (invBackflow : Option (List BlockDesc)) (inv : InvarianceDesc)
    (in1e : Arr ℝ) (in2e : Option (Arr ℝ))
    (rows : ∀ s, Fin (h s) → Fin (f.ndeterminants * norb s) → ℝ)
    (hi : (invarianceStream invBackflow I in1e in2e (S1 x) >>= fun x =>
      invariantTensorA inv.useBias I.dense f.spinSplit
        (List.ofFn fun s => (h s, f.ndeterminants * norb s)) x) = .ok (List.ofFn fun s => A2 (rows s))) :
    (do
      let raw ← orbitalLayer f.orbitals f.envelopeSoftening PA.orbitals f.spinSplit
        ((List.ofFn norb).map (· * f.ndeterminants)) (S1 x)
        (A3 fun i => rei (finSigmaFinEquiv.symm i))
      let equivariant ← raw.mapM (reshapeRawA f.ndeterminants)
      let invariant ← invarianceRows f nh invBackflow inv I (List.ofFn norb) in1e in2e (S1 x)
      let orbs ← stackRows equivariant invariant
      combineA f PA orbs) =
      combineA f PA (List.ofFn fun s => A3 fun i => Fin.append
        (fun a => reshapeRaw ((f.orbitalLayer L).apply x (some rei) s a) i)
        fun b => reshapeRaw (rows s b) i) := by
  rw [raw_counts, ho, orbitalLayer_S1 f hpl, ok_bind,
    mapM_ofFn (C := fun s => A3 fun i a o =>
      reshapeRaw ((f.orbitalLayer L).apply x (some rei) s a) i o)
    fun s => reshapeRaw_A2 hdet _, ok_bind]
  have hz : List.zipWith (fun h m => (h, m * f.ndeterminants)) nh (List.ofFn norb) =
      List.ofFn fun s => (h s, f.ndeterminants * norb s) := by
    subst hl
    refine List.ext_getElem (by simp) fun i h1 h2 => ?_
    rw [List.getElem_zipWith, List.getElem_ofFn, List.getElem_ofFn, List.getElem_ofFn, Nat.mul_comm]
  have hI : invarianceRows f nh invBackflow inv I (List.ofFn norb) in1e in2e (S1 x) =
      .ok (List.ofFn fun s => A3 fun i b => reshapeRaw (rows s b) i) := by
    unfold invarianceRows
    rw [if_neg (by simp [hl]), hz, ← bind_assoc, hi, ok_bind]
    exact mapM_ofFn (C := fun s => A3 fun i b => reshapeRaw (rows s b) i) fun s => reshapeRaw_A2 hdet _
  rw [hI, ok_bind, stackRows_ofFn fun s => concat_pair3 _ _, ok_bind]

theorem extendedRows_eq {nion ndet : ℕ} {h norb : Fin (K + 1) → ℕ} {w w' v : ℕ × ℕ}
    (L : OrbitalLayer (K + 1) w'.1 nion d fun s => ndet * norb s)
    (inv : (Blocks (K + 1) w v × InvariantDense (K + 1) v.1 h fun s => ndet * norb s) ⊕
      InvariantDense (K + 1) w'.1 h fun s => ndet * norb s)
    (inputs : Streams n w) (stream : Stream1 n w'.1)
    (rei : Option (Elec n → Fin nion → Fin d → ℝ)) (i : Fin ndet) (s : Fin (K + 1)) :
    extendedRows L inv inputs stream rei i s = Fin.append
      (fun a => reshapeRaw (L.apply stream rei s a) i)
      fun b => reshapeRaw (appended inv inputs stream s b) i := by
  cases inv <;> rfl

theorem combine_split_A3 (f : FermiDesc) (hf : f.fullDet = false) (P : ResNetParams) (PA : FermiA)
    (hP : PA.detFn = detFnParams f P K) {m : Fin (K + 1) → ℕ}
    (rows : Fin f.ndeterminants → ∀ s, Fin (m s) → Fin (m s) → ℝ) :
    combineA f PA (List.ofFn fun s => A3 fun i => rows i s) =
      A0 <$> combine (detFnOf P f.mode f.detFn) fun i s => Matrix.of (rows i s) := by
  unfold combineA matricesA
  rw [hf, if_neg (by simp), ok_bind]
  exact dets_A3 f P PA hP fun i s => Matrix.of (rows i s)

theorem combine_full_A3 (f : FermiDesc) (hf : f.fullDet = true) (P : ResNetParams) (PA : FermiA)
    (hP : PA.detFn = detFnParams f P 0) {m : Fin (K + 1) → ℕ}
    (rows : Fin f.ndeterminants → ∀ s, Fin (m s) → Fin (∑ s, m s) → ℝ) :
    combineA f PA (List.ofFn fun s => A3 fun i => rows i s) =
      A0 <$> combine (K := 0) (m := fun _ => ∑ s, m s) (detFnOf P f.mode f.detFn)
        fun i _ => concatRows (rows i) := by
  unfold combineA matricesA
  rw [hf, if_pos rfl, concat_mid3]
  have hl : ∀ X : Arr ℝ, (((fun a => [a]) <$> Except.ok X : Except String (List (Arr ℝ))) >>=
      fun orbs => detsA f PA orbs) = detsA f PA (List.ofFn fun _ : Fin (0 + 1) => X) := fun X => by
    rw [show (List.ofFn fun _ : Fin (0 + 1) => X) = [X] by simp]
    rfl
  rw [hl]
  exact dets_A3 (K := 0) (m := fun _ => ∑ s, m s) f P PA hP fun i _ => concatRows (rows i)

/-- The columns of the invariance of an extended FermiNet. -/
def extendedCols (f : FermiDesc) (n h : Fin (K + 1) → ℕ) (s : Fin (K + 1)) : ℕ :=
  if f.fullDet then f.ndeterminants * ∑ s, (n s + h s) else f.ndeterminants * (n s + h s)

theorem extendedNorbitals_full (f : FermiDesc) (hf : f.fullDet = true) (hpl : places f.spinSplit = ends n)
    (nh : List ℕ) (hl : nh.length = K + 1) (pos : Stream1 n d) :
    extendedNorbitals f nh (S1 pos) =
      .ok (List.ofFn fun _ : Fin (K + 1) => ∑ s, (n s + hiddenOf K nh s)) := by
  have hs : nh.sum = ∑ s, hiddenOf K nh s := by
    conv_lhs => rw [hidden_ofFn nh hl]
    rw [List.sum_ofFn]
  have hl' : f.spinSplit.length = K := by
    have := congrArg List.length hpl
    simpa [places, ends] using this
  unfold extendedNorbitals
  simp only [hf, if_true]
  rw [Split.getNsplits, hl', ofFn_const, hs, Finset.sum_add_distrib]
  rfl

theorem extendedNorbitals_split (f : FermiDesc) (hf : f.fullDet = false)
    (hs : f.spinSplit = Split.getSpinSplit (counts n)) (hK : K ≠ 0) (nh : List ℕ) (hl : nh.length = K + 1)
    (pos : Stream1 n d) :
    extendedNorbitals f nh (S1 pos) = .ok (List.ofFn fun s => n s + hiddenOf K nh s) := by
  unfold extendedNorbitals
  simp only [hf, Bool.false_eq_true, if_false]
  have : (S1 pos).shape.getD 1 0 = ∑ s, n s := rfl
  rw [this, ← counts_sum, hs, Props.nelecPerSplit_counts, if_neg hK, ok_bind]
  have hc : (counts n).length = K + 1 := by simp [counts]
  rw [if_neg (by omega)]
  show Except.ok _ = Except.ok _
  congr 1
  conv_lhs => rw [hidden_ofFn nh hl]
  unfold counts
  refine List.ext_getElem (by simp) fun i h1 h2 => ?_
  rw [List.getElem_zipWith, List.getElem_ofFn, List.getElem_ofFn, List.getElem_ofFn]
  rfl

/-- The array code of the extended FermiNet on one walker. -/
theorem extended_one (f : FermiDesc) (nh : List ℕ) (invBackflow : Option (List BlockDesc))
    (inv : InvarianceDesc) (P : Params (K + 1) (M + 1) d) (hl : nh.length = K + 1)
    (hs : f.spinSplit = Split.getSpinSplit (counts n)) (hb : BlocksMatch (counts n) f.backflow)
    (hb' : ∀ bs, invBackflow = some bs → BlocksMatch (counts n) bs)
    (hei : f.streams.includeEiNorm = true) (hdet : f.ndeterminants ≠ 0)
    (hN : ∑ s, n s ≠ 0) (ions : Fin (M + 1) → Fin d → ℝ) (pos : Stream1 n d) :
    extendedA f nh invBackflow inv (fermiA f P fun s => n s + hiddenOf K nh s)
      (extendedInvarianceA f (hiddenOf K nh) (extendedCols f n (hiddenOf K nh)) invBackflow P)
      (A2 ions) (S1 pos) = A0 <$> applyExtended f nh invBackflow inv P ions pos := by
  obtain ⟨ree, hin⟩ := inputStreams_S1 f.streams hei hN ions pos
  have hpl : places f.spinSplit = ends n := by rw [hs, places_counts]
  have hl' : f.spinSplit.length = K := by
    have := congrArg List.length hpl
    simpa [places, ends] using this
  unfold extendedA
  rw [hin, ok_bind]
  simp only
  rw [backflow_S P.backflow (fermiA f P fun s => n s + hiddenOf K nh s).backflow 0 f.backflow
    (inWidths (M + 1) d f.streams.includeEeNorm) (fun _ _ => rfl)
    (fun b hb' => by rw [hb b hb', places_counts]), ok_bind]
  unfold applyExtended
  cases hf : f.fullDet
  · simp only [Bool.false_eq_true, if_false]
    by_cases hK : K = 0
    · have : extendedNorbitals f nh (S1 pos) = .error "IndexError: tuple index out of range" := by
        unfold extendedNorbitals
        simp only [hf, Bool.false_eq_true, if_false]
        have : (S1 pos).shape.getD 1 0 = ∑ s, n s := rfl
        rw [this, ← counts_sum, hs, Props.nelecPerSplit_counts, if_pos hK]
        rfl
      rw [this, hs, Props.nelecPerSplit_counts, if_pos hK]
      rfl
    · rw [extendedNorbitals_split f hf hs hK nh hl, ok_bind]
      have hcols : extendedCols f n (hiddenOf K nh) =
          fun s => f.ndeterminants * (n s + hiddenOf K nh s) := by
        funext s
        unfold extendedCols
        rw [hf, if_neg (by simp)]
      rw [hcols]
      refine (extendedTail f hdet hpl _ _ (norb := fun s => n s + hiddenOf K nh s)
        (P.orbitals (outWidths f.backflow (inWidths (M + 1) d f.streams.includeEeNorm)).1
          fun s => f.ndeterminants * (n s + hiddenOf K nh s)) (by unfold fermiA; simp [hf]) _ _ nh
        (hidden_ofFn nh hl) invBackflow inv _ _ _
        (invariance_S1 f hpl invBackflow inv P hb' _ _ _ _)).trans ?_
      rw [hs, Props.nelecPerSplit_counts, if_neg hK, ok_bind]
      have hc : (counts n).length = K + 1 := by simp [counts]
      rw [if_neg (show ¬ nh.length ≠ (counts n).length by omega)]
      rw [combine_split_A3 f hf P.detFn (fermiA f P fun s => n s + hiddenOf K nh s)
        (by unfold fermiA; simp [hf]) (m := fun s => n s + hiddenOf K nh s) fun i s => Fin.append _ _]
      simp only [extendedFermiNet, extendedRows_eq]
      rfl
  · simp only [if_true]
    rw [extendedNorbitals_full f hf hpl nh hl, ok_bind]
    have hcols : extendedCols f n (hiddenOf K nh) =
        fun _ => f.ndeterminants * ∑ s, (n s + hiddenOf K nh s) := by
      funext s
      unfold extendedCols
      rw [hf, if_pos rfl]
    rw [hcols]
    refine (extendedTail f hdet hpl _ _ (norb := fun _ => ∑ s, (n s + hiddenOf K nh s))
      (P.orbitals (outWidths f.backflow (inWidths (M + 1) d f.streams.includeEeNorm)).1
        fun _ => f.ndeterminants * ∑ s, (n s + hiddenOf K nh s)) (by unfold fermiA; simp [hf]) _ _ nh
      (hidden_ofFn nh hl) invBackflow inv _ _ _
      (invariance_S1 f hpl invBackflow inv P hb' _ _ _ _)).trans ?_
    rw [if_neg (show ¬ nh.length ≠ Split.getNsplits (.indices f.spinSplit) by
      simp [Split.getNsplits, hl', hl])]
    rw [combine_full_A3 f hf P.detFn (fermiA f P fun s => n s + hiddenOf K nh s)
      (by unfold fermiA; simp [hf]) (m := fun s => n s + hiddenOf K nh s) fun i s => Fin.append _ _]
    unfold extendedFermiNetFull
    refine congrArg (A0 <$> ·) (congrArg (combine (K := 0) _) ?_)
    funext i _
    refine congrArg concatRows ?_
    funext s
    exact (extendedRows_eq (norb := fun _ => ∑ s, (n s + hiddenOf K nh s)) _ _ _ _ _ i s).symm

end Verif.Arrays
