import Verif.Model.BatchedExplicit
import Verif.Lemmas.BatchedNets

/-!
The array code of the explicitly antisymmetrized networks acts on each walker of a batch alone.
-/

namespace Verif.Arrays
open Verif.Slog Verif.Construct Verif.Net

variable {B b : List ℕ} {r : ℕ} {X x : Arr ℝ}

/-! ### Jastrow factors -/

theorem on_oneBody (kernel : ℕ → ℝ) (h : On B b 3 X x) :
    ERel (On B b 0) (oneBodyA kernel X) (oneBodyA kernel x) := by
  unfold oneBodyA
  exact (on_isotropy kernel 1 h).bind fun _ _ hS => .pure
    (((((hS.reduce norm (by omega)).reduce _ (by omega)).reduce _ (by omega)).reduce _ (by omega)).map _)

theorem On.triu (h : On B b (r + 2) X x) : On B b (r + 2) X.triu x.triu := by
  refine on_of' h.ix h.rank h.shape fun j hj _ => ?_
  match j, hj with
  | i :: k :: j, hj =>
    simp only [List.cons_append, List.headD_cons, List.getD_cons_succ, List.getD_cons_zero]
    split_ifs
    · exact h.get _ hj
    · rfl

theorem on_scaledEi (trainable : Bool) (kernel : ℕ → DenseA) (strengths : ℕ → ℝ)
    (h : On B b (r + 1) X x) :
    ERel (On B b (r + 1)) (scaledEi trainable kernel strengths X) (scaledEi trainable kernel strengths x) := by
  unfold scaledEi
  rw [h.getD (by omega)]
  split_ifs
  · exact (h.splitEqual (by omega) _).bind fun _ _ hS => On.concat (on_denseParts _ _ hS _ _) (by omega)
  · exact h.zip' (side_const _ (by simp [Arr.of])) _

theorem on_scaledEe (trainable : Bool) (kernel : DenseA) (strength : ℝ) (h : On B b (r + 1) X x) :
    On B b (r + 1) (scaledEe trainable kernel strength X) (scaledEe trainable kernel strength x) := by
  unfold scaledEe
  split_ifs
  · exact h.dense _ _ _
  · exact h.map _

theorem on_twoBody (trainable : Bool) (eiKernel : ℕ → DenseA) (eeKernel : DenseA) (strengths : ℕ → ℝ)
    (strength scale : ℝ) {Y y : Arr ℝ} (h : On B b 3 X x) (hy : On B b 3 Y y) :
    ERel (On B b 0) (twoBodyA trainable eiKernel eeKernel strengths strength scale X Y)
      (twoBodyA trainable eiKernel eeKernel strengths strength scale x y) := by
  unfold twoBodyA
  refine (on_eeNorms hy 0).bind fun N m hN => ?_
  refine (hN.squeeze (by omega)).bind fun E e hE => ?_
  refine (on_scaledEi trainable eiKernel strengths (h.reduce norm (by omega))).bind fun S s hS => ?_
  refine ((on_scaledEe trainable eeKernel strength
    ((On.triu hE).reduce_keep List.sum (by omega))).squeeze (by omega)).bind fun T t hT => ?_
  exact (hT.zip (hS.reduce List.sum (by omega)).side _).bind fun _ _ hD =>
    .pure ((hD.reduce _ (by omega)).map _)

theorem on_backflowJastrow (h : On B b 2 X x) : On B b 0 (backflowJastrowA X) (backflowJastrowA x) :=
  ((h.reduce norm (by omega)).reduce mean (by omega)).map _

theorem on_jastrow {nion : ℕ} (P : ExplicitA) {I1 i1 T t R s : Arr ℝ} {I2 i2 E e : Option (Arr ℝ)}
    (h1 : On B b 2 I1 i1) (h2 : OnO B b 3 I2 i2) (ht : On B b 2 T t) (hr : On B b 3 R s)
    (he : OnO B b 3 E e) (j : JastrowDesc nion) :
    ERel (On B b 0) (jastrowA P I1 I2 T R E j) (jastrowA P i1 i2 t s e j) := by
  induction j with
  | oneBody _ => exact on_oneBody _ hr
  | twoBody charges strength scale trainable =>
    unfold jastrowA
    cases he with
    | none => exact .error _
    | some he => exact on_twoBody _ _ _ _ _ _ hr he
  | backflow bs =>
    unfold jastrowA backflowBasedA
    cases bs with
    | none => exact .ok (on_backflowJastrow ht)
    | some bs => exact (on_backflow _ _ _ h1 h2).bind fun _ _ hO => .pure (on_backflowJastrow hO)
  | added a b ha hb =>
    unfold jastrowA
    exact ha.bind fun _ _ hx => hb.bind fun _ _ hy => hx.zip hy.side _

/-! ### Antisymmetrization -/

theorem shape2 (h : On B b 2 X x) : ∃ d n, x.shape = [d, n] ∧ X.shape = d :: n :: B := by
  have h1 := h.rank
  match hx : x.shape with
  | [] => rw [hx] at h1; simp at h1
  | [_] => rw [hx] at h1; simp at h1
  | [d, n] => exact ⟨d, n, rfl, by rw [h.shape, hx]; rfl⟩
  | _ :: _ :: _ :: _ => rw [hx] at h1; simp at h1

theorem on_takePerms (h : On B b 2 X x) : ERel (On B b 3) (takePerms X) (takePerms x) := by
  obtain ⟨d, n, hx, hX⟩ := shape2 h
  unfold takePerms
  rw [hx, hX]
  simp only
  split_ifs
  · exact .error _
  · refine .ok (on_of' h.ix (by simp) rfl fun j hj _ => ?_)
    match j, hj with
    | [i, k, l], _ =>
      simp only [List.cons_append, List.nil_append, List.headD_cons, List.getD_cons_succ,
        List.getD_cons_zero, List.drop_succ_cons, List.drop_zero]
      exact h.get [i, _] rfl

theorem on_factorizedLeaf {fn : Arr ℝ → Except String (Arr ℝ)}
    (hfn : ∀ {Y y : Arr ℝ}, On B b 2 Y y → ERel (On B b 2) (fn Y) (fn y)) (h : On B b 2 X x) :
    ERel (On B b 1) (factorizedLeafA fn X) (factorizedLeafA fn x) := by
  unfold factorizedLeafA
  rw [h.getD (by omega)]
  refine (on_takePerms h).bind fun _ _ hP => (hP.flatten _).bind fun _ _ hF => (hfn hF).bind fun _ _ hO => ?_
  exact (hO.zip' (side_const _ (by simp [leafSigns, Arr.of])) _).bind fun _ _ hS =>
    .pure (hS.reduce _ (by omega))

theorem on_resNets (r' : ResNetDesc) (P : ℕ → ResNetA) (rank : ℕ) (h : On B b (r + 1) X x) :
    ERel (On B b (r + 1)) (resNetsA r' P rank X) (resNetsA r' P rank x) := by
  unfold resNetsA
  exact (erel_range (fun i => on_resNet r' (P i) 1 h) _).bind fun _ _ hS => On.concat hS (by omega)

theorem on_factorizedLeaves {fn : ℕ → Arr ℝ → Except String (Arr ℝ)}
    (hfn : ∀ s {Y y : Arr ℝ}, On B b 2 Y y → ERel (On B b 2) (fn s Y) (fn s y)) {Xs xs : List (Arr ℝ)}
    (h : List.Forall₂ (On B b 2) Xs xs) (s : ℕ) :
    ERel (List.Forall₂ (On B b 1)) (factorizedLeaves fn s Xs) (factorizedLeaves fn s xs) := by
  induction h generalizing s with
  | nil => exact .ok .nil
  | cons h _ ih =>
    exact (on_factorizedLeaf (hfn s) h).bind fun _ _ hY => (ih _).bind fun _ _ hYs => .pure (.cons hY hYs)

theorem on_foldE {α : Type} [Inhabited α] (f : α → α → α) {Xs xs : List (Arr α)}
    (h : List.Forall₂ (On B b r) Xs xs) :
    ERel (On B b r) (foldE (fun a c => a.zip f c) Xs) (foldE (fun a c => a.zip f c) xs) := by
  cases h with
  | nil => exact .error _
  | @cons A a As as hA hs =>
    unfold foldE
    induction hs generalizing A a with
    | nil => exact .ok hA
    | cons h _ ih =>
      simp only [List.foldlM_cons]
      exact (hA.zip h.side _).bind fun _ _ hM => ih hM

theorem on_factorized {fn : ℕ → Arr ℝ → Except String (Arr ℝ)}
    (hfn : ∀ s {Y y : Arr ℝ}, On B b 2 Y y → ERel (On B b 2) (fn s Y) (fn s y)) {Xs xs : List (Arr ℝ)}
    (h : List.Forall₂ (On B b 2) Xs xs) : ERel (On B b 1) (factorizedA fn Xs) (factorizedA fn xs) := by
  unfold factorizedA
  refine (on_factorizedLeaves hfn h 0).bind fun _ _ hY => on_foldE _ ?_
  rw [List.forall₂_map_left_iff, List.forall₂_map_right_iff]
  exact hY.imp fun _ _ h => h.map _

theorem ithFactorial_length (k i m : ℕ) : (ithFactorial k i m).length = k := by
  simp [ithFactorial]

theorem shape3 (h : On B b 3 X x) : ∃ d n m, x.shape = [d, n, m] ∧ X.shape = d :: n :: m :: B := by
  have h1 := h.rank
  match hx : x.shape with
  | [] => rw [hx] at h1; simp at h1
  | [_] => rw [hx] at h1; simp at h1
  | [_, _] => rw [hx] at h1; simp at h1
  | [d, n, m] => exact ⟨d, n, m, rfl, by rw [h.shape, hx]; rfl⟩
  | _ :: _ :: _ :: _ :: _ => rw [hx] at h1; simp at h1

theorem on_reshapePerms {k i : ℕ} (hi : i < k) (h : On B b 3 X x) :
    On B b (k + 2) (reshapePerms k i X) (reshapePerms k i x) := by
  obtain ⟨d, n, m, hx, hX⟩ := shape3 h
  unfold reshapePerms
  rw [hx, hX]
  refine on_of' h.ix (by simp [ithFactorial_length]) (by simp) fun j hj _ => ?_
  match j, hj with
  | p :: q :: j, hj =>
    have hj' : j.length = k := by simpa using hj
    have h1 : (p :: q :: j ++ b).getD (2 + (k - 1 - i)) 0 = (p :: q :: j).getD (2 + (k - 1 - i)) 0 :=
      List.getD_append _ _ _ _ (by simp; omega)
    have h2 : (p :: q :: j ++ b).drop (2 + k) = b := by
      rw [show 2 + k = (p :: q :: j).length by simp; omega]
      exact List.drop_left
    have h3 : (p :: q :: j).drop (2 + k) = [] := List.drop_eq_nil_of_le (by simp; omega)
    rw [h1, h2, h3]
    exact h.get [p, q, _] rfl

theorem on_broadcastTo {s : List ℕ} (hs : s.length = r) (h : On B b r X x) :
    ERel (On B b r) (broadcastTo (s ++ B) X) (broadcastTo s x) := by
  unfold broadcastTo
  have hc : bshape (s ++ B) X.shape = some (s ++ B) ↔ bshape s x.shape = some s := by
    rw [h.shape, bshape_append (hs.trans h.rank.symm)]
    cases bshape s x.shape with
    | none => simp
    | some t => simp
  simp only [hc]
  split_ifs
  · refine .ok (on_of' h.ix hs rfl fun j hj _ => ?_)
    rw [h.shape, proj_append (hj.trans h.rank.symm) h.ix]
    exact h.get _ (by rw [proj_length, hj, h.rank, min_self])
  · exact .error _

theorem on_gridPerms {nperms : List ℕ} {i : ℕ} (hi : i < nperms.length) (h : On B b 3 X x) :
    ERel (On B b (nperms.length + 1)) (gridPerms nperms i X) (gridPerms nperms i x) := by
  obtain ⟨d, n, m, hx, hX⟩ := shape3 h
  unfold gridPerms
  refine ERel.bind (R := On B b (nperms.length + 2)) ?_ fun _ _ hB => hB.flatten _
  have h1 : X.shape.take 2 ++ nperms.reverse ++ X.shape.drop 3 =
      (x.shape.take 2 ++ nperms.reverse ++ x.shape.drop 3) ++ B := by
    rw [hx, hX]
    simp
  rw [h1]
  exact on_broadcastTo (by rw [hx]; simp) (on_reshapePerms hi h)

theorem on_gridPermsAll {nperms : List ℕ} {Xs xs : List (Arr ℝ)} (h : List.Forall₂ (On B b 3) Xs xs)
    (i : ℕ) (hi : i + xs.length = nperms.length) :
    ERel (List.Forall₂ (On B b (nperms.length + 1))) (gridPermsAll nperms i Xs)
      (gridPermsAll nperms i xs) := by
  induction h generalizing i with
  | nil => exact .ok .nil
  | cons h _ ih =>
    simp only [List.length_cons] at hi
    exact (on_gridPerms (by omega) h).bind fun _ _ hY => (ih (i + 1) (by omega)).bind fun _ _ hYs =>
      .pure (.cons hY hYs)

theorem on_multiplyGridSigns {k : ℕ} (ns : List ℕ) (i : ℕ) {X x : Arr ℝ} (h : On B b (k + 1) X x) :
    ERel (On B b (k + 1)) (multiplyGridSigns k i ns X) (multiplyGridSigns k i ns x) := by
  induction ns generalizing i X x with
  | nil => exact .ok h
  | cons n ns ih =>
    exact (h.zip (side_const _ (by
      show (1 :: ithFactorial k i _).length ≤ k + 1
      rw [List.length_cons, ithFactorial_length])) _).bind fun _ _ hY => ih _ hY

theorem on_sumLast (k : ℕ) {X x : Arr ℝ} (h : On B b (r + k) X x) : On B b r (sumLast k X) (sumLast k x) := by
  induction k generalizing X x with
  | zero => exact h
  | succ k ih => exact ih (On.reduce (r := r + k) h _ (by omega))

theorem map_getD {Xs xs : List (Arr ℝ)} (h : List.Forall₂ (On B b r) Xs xs) {p : ℕ} (hp : p < r) :
    Xs.map (fun x => x.shape.getD p 0) = xs.map fun x => x.shape.getD p 0 := by
  induction h with
  | nil => rfl
  | cons h _ ih => rw [List.map_cons, List.map_cons, ih, h.getD hp]

theorem mapM_length {δ ε : Type} {f : δ → Except String ε} {l : List δ} {l' : List ε}
    (h : l.mapM f = .ok l') : l'.length = l.length := by
  induction l generalizing l' with
  | nil => cases h; rfl
  | cons a l ih =>
    rw [List.mapM_cons] at h
    cases h1 : f a with
    | error e => rw [h1] at h; cases h
    | ok b =>
      rw [h1] at h
      cases h2 : l.mapM f with
      | error e => rw [h2] at h; cases h
      | ok bs =>
        rw [h2] at h
        cases h
        simp [ih h2]

theorem on_generic {fn : Arr ℝ → Except String (Arr ℝ)}
    (hfn : ∀ r {Y y : Arr ℝ}, On B b (r + 1) Y y → ERel (On B b (r + 1)) (fn Y) (fn y)) {Xs xs : List (Arr ℝ)}
    (h : List.Forall₂ (On B b 2) Xs xs) : ERel (On B b 0) (genericA fn Xs) (genericA fn xs) := by
  unfold genericA
  rw [map_getD h (by omega), h.length_eq]
  have hm := ERel.mapM h fun _ _ ha => on_takePerms ha
  cases h1 : xs.mapM takePerms with
  | error e =>
    rw [h1] at hm
    cases h2 : Xs.mapM takePerms with
    | ok _ => rw [h2] at hm; cases hm
    | error e' => rw [h2] at hm; cases hm; exact .error _
  | ok s =>
    rw [h1] at hm
    cases h2 : Xs.mapM takePerms with
    | error _ => rw [h2] at hm; cases hm
    | ok S =>
      rw [h2] at hm
      cases hm with
      | ok hS =>
        have hl := mapM_length h1
        show ERel _ (gridPermsAll _ 0 S >>= _) (gridPermsAll _ 0 s >>= _)
        refine ERel.bind (R := List.Forall₂ (On B b (xs.length + 1))) ?_ fun _ _ hG => ?_
        · rw [map_getD hS (by omega)]
          have := on_gridPermsAll (nperms := s.map fun x => x.shape.getD 2 0) hS 0 (by simp)
          rwa [List.length_map, hl] at this
        refine (On.concat hG (by omega)).bind fun _ _ hC => (hfn _ hC).bind fun _ _ hO => ?_
        exact (on_multiplyGridSigns _ _ hO).bind fun _ _ hM =>
          .pure ((on_sumLast (r := 0) (xs.length + 1) (by simpa using hM)).map _)

/-! ### Networks -/

theorem on_antisym (a : AntisymDesc) (r' : ResNetDesc) (P : ℕ → ℕ → ResNetA) {Xs xs : List (Arr ℝ)}
    (h : List.Forall₂ (On B b 2) Xs xs) : ERel (On B b 0) (antisymA a r' P Xs) (antisymA a r' P xs) := by
  unfold antisymA
  cases a with
  | factorized rank =>
    have h1 := on_factorized (fn := fun s => resNetsA r' (P s) rank) (fun s _ _ hY => on_resNets r' (P s) rank hY) h
    show ERel _ (slogSumLast <$> _) (slogSumLast <$> _)
    cases hX : factorizedA (fun s => resNetsA r' (P s) rank) Xs with
    | error e =>
      cases hx : factorizedA (fun s => resNetsA r' (P s) rank) xs with
      | error e' => rw [hX, hx] at h1; cases h1; exact .error _
      | ok _ => rw [hX, hx] at h1; cases h1
    | ok Z =>
      cases hx : factorizedA (fun s => resNetsA r' (P s) rank) xs with
      | error e' => rw [hX, hx] at h1; cases h1
      | ok z =>
        rw [hX, hx] at h1
        cases h1 with
        | ok h1 => exact .ok (h1.reduce _ (by omega))
  | generic => exact on_generic (fun _ _ _ hY => on_resNet r' (P 0 0) 1 hY) h

theorem on_explicit {nion : ℕ} {ions : Arr ℝ} (hi : ions.shape.length = 2) (ks : List ℤ) (s : StreamsDesc)
    (hs : s.includeEiNorm = true) (bs : List BlockDesc) (j : JastrowDesc nion) (a : AntisymDesc)
    (r' : ResNetDesc) (P : ExplicitA) (h : On B b 2 X x) :
    ERel (On B b 0) (explicitA ks s bs j a r' P ions X) (explicitA ks s bs j a r' P ions x) := by
  unfold explicitA
  refine (on_inputStreams hi _ hs h).bind fun S s hS => ?_
  obtain ⟨S1, S2, S3, S4⟩ := S
  obtain ⟨s1, s2, s3, s4⟩ := s
  simp only
  refine (on_backflow _ _ _ hS.in1e hS.in2e).bind fun T t hT => ?_
  refine (hT.split (by omega) _).bind fun Q q hQ => (on_antisym a r' P.resnets hQ).bind fun Y y hY => ?_
  exact (on_jastrow P hS.in1e hS.in2e hT hS.rei hS.ree j).bind fun _ _ hJ => hY.zip hJ.side _

end Verif.Arrays
