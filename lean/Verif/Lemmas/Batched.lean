import Verif.Model.Batched
import Verif.Lemmas.Arrays

/-!
Every step of the array code of `Model/Batched.lean` acts on the part at an index of the batch axes as
on the whole array.
-/

namespace Verif.Arrays
open Verif.Slog Verif.Construct Verif.Net

variable {B b : List ℕ} {r : ℕ} {X x : Arr ℝ}

theorem On.dense (h : On B b (r + 1) X x) (useBias : Bool) (P : DenseA) (k : ℕ) :
    On B b (r + 1) (dense useBias P k X) (dense useBias P k x) := by
  unfold Arrays.dense
  rw [h.getD (by omega : 0 < r + 1)]
  refine on_of' h.ix (by rw [List.length_set, h.rank])
    (by rw [h.shape, List.set_append_left _ _ (by rw [h.rank]; omega)]) fun j hj _ => ?_
  match j, hj with
  | i :: j, hj =>
    simp only [List.cons_append, List.headD_cons, List.set_cons_zero]
    congr 1
    refine Finset.sum_congr rfl fun t _ => ?_
    rw [← h.get (t :: j) (by simpa using hj)]
    rfl

/-! ### Input streams -/

theorem on_displacements {Y y : Arr ℝ} (h : On B b 2 X x) (hy : Side B b 3 (Y.expand 2) (y.expand 2)) :
    ERel (On B b 3) (displacementsA X Y) (displacementsA x y) :=
  (h.expand (by omega)).zip hy _

/-- Two pairs of arrays. -/
structure On2 (B b : List ℕ) (r s : ℕ) (X x : Arr ℝ × Arr ℝ) : Prop where
  fst : On B b r X.1 x.1
  snd : On B b s X.2 x.2

theorem on_electronIon {ions : Arr ℝ} (hi : ions.shape.length = 2) (h : On B b 2 X x) (ε : ℝ) :
    ERel (On2 B b 2 3) (electronIon ions true ε X) (electronIon ions true ε x) := by
  have h0 : Side B b 3 (ions.expand 2) (ions.expand 2) :=
    side_const _ (by unfold Arr.expand Arr.of; simp [hi, List.length_insertIdx])
  unfold electronIon
  refine (on_displacements h h0).bind fun R r hR => ?_
  simp only [if_true]
  refine (On.concat (.cons hR (.cons ((hR.reduce_keep norm (p := 0) (by omega)).map _) .nil))
    (p := 0) (by omega)).bind fun C c hC => ?_
  refine (hC.flatten true).bind fun F f hF => .pure ⟨hF, hR⟩

theorem on_eeNorms (h : On B b 3 X x) (ε : ℝ) : ERel (On B b 3) (eeNorms ε X) (eeNorms ε x) := by
  unfold eeNorms
  simp only [h.getD (by omega : 1 < 3)]
  refine (h.zip (side_const _ (by simp [Arr.of])) _).bind fun S s hS => ?_
  exact ((hS.reduce_keep norm (p := 0) (by omega)).map _).zip
    (side_const _ (by simp [Arr.of, Arr.map])) _

theorem on_electronElectron (h : On B b 2 X x) (includeEeNorm : Bool) (ε : ℝ) :
    ERel (On2 B b 3 3) (electronElectron includeEeNorm ε X) (electronElectron includeEeNorm ε x) := by
  unfold electronElectron
  refine (on_displacements h (h.expand (by omega)).side).bind fun R r hR => ?_
  split_ifs
  · refine (on_eeNorms hR ε).bind fun N n hN => ?_
    exact (On.concat (.cons hR (.cons hN .nil)) (p := 0) (by omega)).bind fun C c hC =>
      .pure ⟨hC, hR⟩
  · exact .pure ⟨hR, hR⟩

/-- Two optional arrays. -/
inductive OnO (B b : List ℕ) (r : ℕ) : Option (Arr ℝ) → Option (Arr ℝ) → Prop
  | none : OnO B b r none none
  | some {X x : Arr ℝ} (h : On B b r X x) : OnO B b r (some X) (some x)

/-- Two sets of input streams. -/
structure OnStreams (B b : List ℕ) (X x : Arr ℝ × Option (Arr ℝ) × Arr ℝ × Option (Arr ℝ)) : Prop where
  in1e : On B b 2 X.1 x.1
  in2e : OnO B b 3 X.2.1 x.2.1
  rei : On B b 3 X.2.2.1 x.2.2.1
  ree : OnO B b 3 X.2.2.2 x.2.2.2

theorem on_inputStreams {ions : Arr ℝ} (hi : ions.shape.length = 2) (s : StreamsDesc)
    (hs : s.includeEiNorm = true) (h : On B b 2 X x) :
    ERel (OnStreams B b) (inputStreams s ions X) (inputStreams s ions x) := by
  unfold inputStreams
  rw [hs]
  refine (on_electronIon hi h _).bind fun P p hP => ?_
  obtain ⟨P1, P2⟩ := P
  obtain ⟨p1, p2⟩ := p
  simp only
  split_ifs
  · refine (on_electronElectron h _ _).bind fun Q q hQ => ?_
    obtain ⟨Q1, Q2⟩ := Q
    obtain ⟨q1, q2⟩ := q
    exact .pure ⟨hP.fst, .some hQ.fst, hP.snd, .some hQ.snd⟩
  · exact .pure ⟨hP.fst, .none, hP.snd, .none⟩

/-! ### Backflow -/

theorem forall₂_map {R S : Arr ℝ → Arr ℝ → Prop} {f : Arr ℝ → Arr ℝ} {Xs xs : List (Arr ℝ)}
    (h : List.Forall₂ R Xs xs) (hf : ∀ a a', R a a' → S (f a) (f a')) :
    List.Forall₂ S (Xs.map f) (xs.map f) := by
  rw [List.forall₂_map_left_iff, List.forall₂_map_right_iff]
  exact h.imp hf

theorem on_splitMean_keep (h : On B b r X x) {p : ℕ} (hp : p < r) (ks : List ℤ) :
    ERel (List.Forall₂ (On B b r)) (splitMeanA p true ks X) (splitMeanA p true ks x) := by
  unfold splitMeanA
  exact (h.split hp _).bind fun _ _ hP => .pure (forall₂_map hP fun _ _ ha => ha.reduce_keep _ hp)

theorem on_splitMean (h : On B b (r + 1) X x) {p : ℕ} (hp : p < r + 1) (ks : List ℤ) :
    ERel (List.Forall₂ (On B b r)) (splitMeanA p false ks X) (splitMeanA p false ks x) := by
  unfold splitMeanA
  exact (h.split hp _).bind fun _ _ hP => .pure (forall₂_map hP fun _ _ ha => ha.reduce _ hp)

theorem on_rolledConcat {Xs xs : List (Arr ℝ)} (h : List.Forall₂ (On B b (r + 1)) Xs xs) (n : ℕ) :
    ERel (On B b (r + 1)) (rolledConcat Xs n) (rolledConcat xs n) :=
  On.concat (List.rel_append (List.forall₂_drop n h) (List.forall₂_take n h)) (by omega)

theorem erel_range {S : Arr ℝ → Arr ℝ → Prop} {f f' : ℕ → Except String (Arr ℝ)}
    (h : ∀ n, ERel S (f n) (f' n)) (l : List ℕ) :
    ERel (List.Forall₂ S) (l.mapM f) (l.mapM f') :=
  ERel.mapM (R := Eq) (List.forall₂_eq_eq_eq ▸ rfl) fun a _ e => e ▸ h a

theorem on_transformed1e (o : OneDesc) (P : BlockA) {Xs xs : List (Arr ℝ)}
    (h : List.Forall₂ (On B b 2) Xs xs) :
    ERel (List.Forall₂ (On B b 2)) (transformed1e o P Xs) (transformed1e o P xs) := by
  unfold transformed1e
  rw [h.length_eq]
  split_ifs
  · refine (erel_range (fun n => on_rolledConcat h n) _).bind fun C c hC => ?_
    rw [hC.length_eq]
    refine (On.concat hC (by omega)).bind fun A a hA => ?_
    exact (hA.dense _ _ _).splitEqual (by omega) _
  · refine (On.concat h (by omega)).bind fun A a hA => .pure ?_
    have := hA.dense false P.mixed o.ndense
    generalize xs.length = n
    induction n with
    | zero => exact .nil
    | succ n ih => exact .cons this ih

theorem on_concat2e (o : OneDesc) {Xs xs : List (Arr ℝ)} (h : List.Forall₂ (On B b 3) Xs xs) (s : ℕ) :
    ERel (List.Forall₂ (On B b 2)) (concat2e o s Xs) (concat2e o s xs) := by
  induction h generalizing s with
  | nil => exact .ok .nil
  | cons h _ ih =>
    unfold concat2e
    refine (on_splitMean (r := 2) h (p := 1) (by omega) _).bind fun M m hM => ?_
    refine ERel.bind (R := On B b 2) ?_ fun C c hC => (ih _).bind fun _ _ hs => .pure (.cons hC hs)
    unfold concatMeans
    split_ifs
    · exact on_rolledConcat hM s
    · exact On.concat hM (by omega)

theorem on_transformed2e (o : OneDesc) (P : BlockA) (h : On B b 3 X x) :
    ERel (List.Forall₂ (On B b 2)) (transformed2eA o P X) (transformed2eA o P x) := by
  unfold transformed2eA
  refine (h.split (by omega) _).bind fun S s hS => ?_
  refine (on_concat2e o hS 0).bind fun C c hC => ?_
  refine (On.concat hC (by omega)).bind fun A a hA => ?_
  exact (hA.dense _ _ _).split (by omega) _

theorem on_mixedSplit (o : OneDesc) (P : BlockA) (h : On B b 2 X x) :
    ERel (List.Forall₂ (On B b 2)) (mixedSplit o P X) (mixedSplit o P x) := by
  unfold mixedSplit
  split_ifs
  · exact (h.split (by omega) _).bind fun _ _ hS =>
      .pure (forall₂_map hS fun _ _ ha => On.onRows (r := 0) ha _ _)
  · exact (on_splitMean_keep h (by omega) _).bind fun _ _ hM => on_transformed1e o P hM

theorem on_skip (skip : Bool) (c : ℝ) {Y y : Arr ℝ} (h : On B b (r + 1) X x) (hy : On B b (r + 1) Y y) :
    ERel (On B b (r + 1)) (skipA skip c X Y) (skipA skip c x y) := by
  unfold skipA
  rw [h.getD (by omega : 0 < r + 1), hy.getD (by omega : 0 < r + 1)]
  split_ifs
  · exact (hy.zip h.side _).bind fun _ _ hS => .pure (hS.map _)
  · exact .ok hy

theorem on_sum {Xs xs Ys ys : List (Arr ℝ)} (h : List.Forall₂ (On B b r) Xs xs)
    (hy : List.Forall₂ (On B b r) Ys ys) (f : ℝ → ℝ → ℝ) :
    ERel (List.Forall₂ (On B b r)) (treeMap2 (fun a c => a.zip f c) Xs Ys)
      (treeMap2 (fun a c => a.zip f c) xs ys) :=
  ERel.treeMap2 h hy fun _ _ _ _ ha hc => ha.zip hc.side _

theorem on_oneLayer (o : OneDesc) (P : BlockA) {Y y : Option (Arr ℝ)} (h : On B b 2 X x)
    (hy : OnO B b 3 Y y) : ERel (On B b 2) (oneLayer o P X Y) (oneLayer o P x y) := by
  unfold oneLayer
  refine ((h.dense _ _ _).split (by omega) _).bind fun U u hU => ?_
  refine (on_mixedSplit o P h).bind fun M m hM => ?_
  refine (on_sum hU hM _).bind fun O o' hO => ?_
  refine ERel.bind (R := List.Forall₂ (On B b 2)) ?_ fun O' o'' hO' => ?_
  · cases hy with
    | none => exact .ok hO
    | some hy => exact (on_transformed2e o P hy).bind fun _ _ hT => on_sum hO hT _
  · exact (On.concat hO' (by omega)).bind fun _ _ hA => on_skip _ _ h (hA.map _)

theorem on_twoLayer (t : TwoDesc) (P : BlockA) (h : On B b 3 X x) :
    ERel (On B b 3) (twoLayer t P X) (twoLayer t P x) :=
  on_skip _ _ h ((h.dense _ _ _).map _)

/-- The two streams of the backflow. -/
structure OnBoth (B b : List ℕ) (X x : Arr ℝ × Option (Arr ℝ)) : Prop where
  fst : On B b 2 X.1 x.1
  snd : OnO B b 3 X.2 x.2

theorem on_block (d : BlockDesc) (P : BlockA) {Y y : Option (Arr ℝ)} (h : On B b 2 X x)
    (hy : OnO B b 3 Y y) : ERel (OnBoth B b) (block d P X Y) (block d P x y) := by
  unfold block
  refine (on_oneLayer d.one P h hy).bind fun O o hO => ?_
  refine ERel.bind (R := OnO B b 3) ?_ fun _ _ hT => .pure ⟨hO, hT⟩
  cases d.two with
  | none => cases hy with
    | none => exact .ok .none
    | some hy => exact .ok (.some hy)
  | some t =>
    cases hy with
    | none => exact .ok .none
    | some hy => exact (on_twoLayer t P hy).of_map fun _ _ hT => .some hT

theorem on_backflow (P : ℕ → BlockA) (ds : List BlockDesc) (i : ℕ) {X x : Arr ℝ}
    {Y y : Option (Arr ℝ)} (h : On B b 2 X x)
    (hy : OnO B b 3 Y y) : ERel (On B b 2) (backflowA P i ds X Y) (backflowA P i ds x y) := by
  induction ds generalizing i X x Y y with
  | nil => exact .ok h
  | cons d ds ih =>
    unfold backflowA
    refine (on_block d (P i) h hy).bind fun Q q hQ => ?_
    obtain ⟨Q1, Q2⟩ := Q
    obtain ⟨q1, q2⟩ := q
    exact ih _ hQ.fst hQ.snd

/-! ### Orbitals -/

theorem on_denseParts (useBias : Bool) (P : ℕ → DenseA) {Xs xs : List (Arr ℝ)}
    (h : List.Forall₂ (On B b (r + 1)) Xs xs) (s : ℕ) (ms : List ℕ) :
    List.Forall₂ (On B b (r + 1)) (denseParts useBias P s Xs ms) (denseParts useBias P s xs ms) := by
  induction h generalizing s ms with
  | nil => cases ms <;> exact .nil
  | cons h _ ih =>
    cases ms with
    | nil => exact .nil
    | cons m ms => exact .cons (h.dense _ _ _) (ih _ _)

theorem on_splitDense (useBias : Bool) (P : ℕ → DenseA) (ks : List ℤ) (ms : List ℕ)
    (h : On B b 2 X x) :
    ERel (List.Forall₂ (On B b 2)) (splitDense useBias P ks ms X) (splitDense useBias P ks ms x) := by
  unfold splitDense
  split_ifs
  · exact .error _
  · exact (h.split (by omega) _).bind fun _ _ hS => .pure (on_denseParts _ _ hS _ _)

theorem on_isotropy (kernel : ℕ → ℝ) (norb : ℕ) (h : On B b 3 X x) :
    ERel (On B b 4) (isotropyA kernel norb X) (isotropyA kernel norb x) := by
  unfold isotropyA
  have h1 := (h.swap (p := 0) (q := 1) (by omega) (by omega)).expand (p := 0) (by omega)
  have h2 : On B b 4 (.of (((X.swap 0 1).expand 0).shape.set 0 norb) fun i =>
      ((X.swap 0 1).expand 0).get (i.set 0 0))
      (.of (((x.swap 0 1).expand 0).shape.set 0 norb) fun i =>
        ((x.swap 0 1).expand 0).get (i.set 0 0)) := by
    refine on_of' h.ix (by rw [List.length_set, h1.rank])
      (by rw [h1.shape, List.set_append_left _ _ (by rw [h1.rank]; omega)]) fun j hj _ => ?_
    rw [List.set_append_left _ _ (by omega), h1.get _ (by rw [List.length_set, hj])]
  exact (h2.zip (side_const _ (by simp [Arr.of])) _).bind fun _ _ hO =>
    .pure (hO.swap (by omega) (by omega))

theorem on_anisotropy (kernel : ℕ → DenseA) (norb : ℕ) (h : On B b 3 X x) :
    ERel (On B b 4) (anisotropyA kernel norb X) (anisotropyA kernel norb x) := by
  unfold anisotropyA
  simp only [h.getD (by omega : 0 < 3), h.getD (by omega : 1 < 3)]
  refine (h.splitEqual (by omega) _).bind fun S s hS => ?_
  refine (On.concat (on_denseParts _ _ hS _ _) (by omega)).bind fun A a hA => ?_
  exact (hA.unflatten _ _).bind fun _ _ hO =>
    .pure ((hO.swap (by omega) (by omega)).swap (by omega) (by omega))

theorem on_envelope (o : OrbitalDesc) (ε : ℝ) (P : OrbitalsA) (s : ℕ) (h : On B b 3 X x) (norb : ℕ) :
    ERel (On B b 2) (envelopeA o ε P s X norb) (envelopeA o ε P s x norb) := by
  unfold envelopeA
  refine ERel.bind (R := On B b 4) ?_ fun S s' hS => ?_
  · unfold scaledDisplacements
    split_ifs
    · exact on_isotropy _ _ h
    · exact on_anisotropy _ _ h
  · have hD := (hS.reduce norm (p := 0) (by omega)).map fun r => Real.exp (-softened r ε)
    simp only [hD.getD (by omega : 0 < 3), hD.getD (by omega : 1 < 3)]
    exact (hD.zip (side_const _ (by simp [Arr.of])) _).bind fun _ _ hW =>
      .pure (hW.reduce _ (by omega))

theorem on_envelopes (o : OrbitalDesc) (ε : ℝ) (P : OrbitalsA) {Xs xs : List (Arr ℝ)}
    (h : List.Forall₂ (On B b 3) Xs xs) (s : ℕ) (ms : List ℕ) :
    ERel (List.Forall₂ (On B b 2)) (envelopes o ε P s Xs ms) (envelopes o ε P s xs ms) := by
  induction h generalizing s ms with
  | nil =>
    cases ms with
    | nil => exact .ok .nil
    | cons m ms => exact .error _
  | cons h _ ih =>
    cases ms with
    | nil => exact .error _
    | cons m ms =>
      exact (on_envelope o ε P s h m).bind fun _ _ hE => (ih _ _).bind fun _ _ hs =>
        .pure (.cons hE hs)

theorem on_orbitalLayer (o : OrbitalDesc) (ε : ℝ) (P : OrbitalsA) (ks : List ℤ) (ms : List ℕ)
    {R r : Arr ℝ} (h : On B b 2 X x) (hR : On B b 3 R r) :
    ERel (List.Forall₂ (On B b 2)) (orbitalLayer o ε P ks ms X R) (orbitalLayer o ε P ks ms x r) := by
  unfold orbitalLayer
  refine (on_splitDense _ _ _ _ h).bind fun O o' hO => ?_
  refine (hR.split (by omega) _).bind fun S s hS => ?_
  exact (on_envelopes o ε P hS 0 ms).bind fun _ _ hE => on_sum hO hE _

theorem unflatten_getD {l k : ℕ} {a c : Arr ℝ} (h : unflatten l k a = .ok c) :
    c.shape.getD 1 0 = l := by
  unfold unflatten at h
  split at h
  · split_ifs at h
    cases h
    rfl
  · cases h

theorem on_reshapeRaw (ndet : ℕ) (h : On B b 2 X x) :
    ERel (OnP B b ndet 2) (reshapeRawA ndet X) (reshapeRawA ndet x) := by
  unfold reshapeRawA
  rw [h.getD (by omega : 0 < 2)]
  split_ifs
  · exact .error _
  · have h1 := h.unflatten ndet (x.shape.getD 0 0 / ndet)
    cases h2 : unflatten ndet (x.shape.getD 0 0 / ndet) x with
    | error e =>
      rw [h2] at h1
      cases h3 : unflatten ndet (x.shape.getD 0 0 / ndet) X with
      | ok a => rw [h3] at h1; cases h1
      | error e' => rw [h3] at h1; cases h1; exact .error _
    | ok a =>
      rw [h2] at h1
      cases h3 : unflatten ndet (x.shape.getD 0 0 / ndet) X with
      | error e => rw [h3] at h1; cases h1
      | ok A =>
        rw [h3] at h1
        cases h1 with
        | ok h1 =>
          have := h1.toFront (q := 1) (by omega)
          rw [unflatten_getD h2] at this
          exact .pure this

/-! ### Determinants -/

theorem on_inner (r' : ResNetDesc) (P : ResNetA) (k i : ℕ) {X x : Arr ℝ} (h : On B b (r + 1) X x) :
    ERel (On B b (r + 1)) (innerA r' P i k X) (innerA r' P i k x) := by
  induction k generalizing i X x with
  | zero => exact .ok h
  | succ k ih =>
    unfold innerA
    have hy := (h.dense r'.useBias (P.inner i) r'.ndense).map r'.activation.fn
    refine ERel.bind (R := On B b (r + 1)) ?_ fun _ _ hY => ih _ hY
    unfold addInput
    simp only [h.getD (by omega : 0 < r + 1), hy.getD (by omega : 0 < r + 1)]
    split_ifs
    · exact hy.zip h.side _
    · exact .ok hy

theorem on_resNet (r' : ResNetDesc) (P : ResNetA) (dout : ℕ) (h : On B b (r + 1) X x) :
    ERel (On B b (r + 1)) (resNetA r' P dout X) (resNetA r' P dout x) :=
  (on_inner r' P _ 0 h).bind fun _ _ hY => .pure (hY.dense _ _ _)

theorem on_detFn (r' : ResNetDesc) (P : ResNetA) (dout : ℕ) {Xs xs : List (Arr ℝ)}
    (h : List.Forall₂ (On B b (r + 1)) Xs xs) :
    ERel (On B b (r + 1)) (detFnA r' P dout Xs) (detFnA r' P dout xs) :=
  (On.concat h (by omega)).bind fun _ _ hA => on_resNet r' P dout hA

theorem proj_ones (b : List ℕ) : Ix (proj b (List.replicate b.length 1)) (List.replicate b.length 1) := by
  induction b with
  | nil => exact .nil
  | cons a b ih => exact .cons (by simp) ih

theorem on_signOrbit {p : ℕ} (i N : ℕ) (h : On B b r X x) (hp : p ≤ r) :
    ERel (On B b (r + 1)) (signOrbit p i N X) (signOrbit p i N x) := by
  have e : (List.replicate (X.shape.length + 1) 1).set p (2 ^ N) =
      (List.replicate (r + 1) 1).set p (2 ^ N) ++ List.replicate B.length 1 := by
    rw [← List.set_append_left _ _ (by rw [List.length_replicate]; omega),
      List.replicate_append_replicate, h.shape, List.length_append, h.rank]
    congr 2; omega
  unfold signOrbit
  rw [e, h.rank]
  refine (h.expand hp).zip' ⟨fun s hs => bshape_append_ones (by simp [hs]) B, by simp [Arr.of],
    fun j hj => ?_⟩ _
  simp only [Arr.of]
  have hl : j.length = ((List.replicate (r + 1) 1).set p (2 ^ N)).length := by simp [hj]
  have hb : b.length = B.length := h.ix.length_eq
  have e2 : proj (j ++ b) ((List.replicate (r + 1) 1).set p (2 ^ N) ++ List.replicate B.length 1) =
      proj j ((List.replicate (r + 1) 1).set p (2 ^ N)) ++ proj b (List.replicate B.length 1) :=
    List.zipWith_append hl
  have hl' : (proj j ((List.replicate (r + 1) 1).set p (2 ^ N))).length =
      ((List.replicate (r + 1) 1).set p (2 ^ N)).length := by rw [proj_length, hl, min_self]
  have h3 := proj_ones b
  rw [hb] at h3
  rw [e2, List.getD_append _ _ _ _ (by rw [hl']; simp; omega)]
  refine if_congr ?_ rfl rfl
  rw [ix_append hl', and_iff_left h3]

theorem on_signOrbits {p : ℕ} (N : ℕ) (hp : p ≤ r) {Xs xs : List (Arr ℝ)}
    (h : List.Forall₂ (On B b r) Xs xs) (i : ℕ) :
    ERel (List.Forall₂ (On B b (r + 1))) (signOrbits p N i Xs) (signOrbits p N i xs) := by
  induction h generalizing i with
  | nil => exact .ok .nil
  | cons h _ ih =>
    exact (on_signOrbit i N h hp).bind fun _ _ hO => (ih _).bind fun _ _ hs => .pure (.cons hO hs)

theorem on_multiplySign {p : ℕ} {S : Arr ℝ} (hS : S.shape.length ≤ r + 1) (h : On B b (r + 1) X x)
    (hp : p < r + 1) :
    ERel (On B b (r + 1)) (multiplySign p S X) (multiplySign p S x) :=
  ((h.swap hp (by omega)).zip' (side_const _ hS) _).bind fun _ _ hY =>
    .pure (hY.swap hp (by omega))

theorem on_signCovariant {p r' : ℕ} {fn : List (Arr ℝ) → Except String (Arr ℝ)}
    (hfn : ∀ Xs xs, List.Forall₂ (On B b (r + 1)) Xs xs → ERel (On B b (r' + 1)) (fn Xs) (fn xs))
    (hp : p ≤ r) (hp' : p ≤ r') {Xs xs : List (Arr ℝ)} (h : List.Forall₂ (On B b r) Xs xs) :
    ERel (On B b r') (signCovariantA p fn Xs) (signCovariantA p fn xs) := by
  unfold signCovariantA
  rw [h.length_eq]
  refine (on_signOrbits _ hp h 0).bind fun S s hS => (hfn _ _ hS).bind fun O o hO => ?_
  exact (on_multiplySign (by simp [Arr.of]) hO (by omega)).bind fun _ _ hM =>
    .pure (hM.reduce _ (by omega))

theorem on_signInvariant {p r' : ℕ} {fn : List (Arr ℝ) → Except String (Arr ℝ)}
    (hfn : ∀ Xs xs, List.Forall₂ (On B b (r + 1)) Xs xs → ERel (On B b (r' + 1)) (fn Xs) (fn xs))
    (hp : p ≤ r) (hp' : p ≤ r') {Xs xs : List (Arr ℝ)} (h : List.Forall₂ (On B b r) Xs xs) :
    ERel (On B b r') (signInvariantA p fn Xs) (signInvariantA p fn xs) := by
  unfold signInvariantA
  rw [h.length_eq]
  exact (on_signOrbits _ hp h 0).bind fun S s hS => (hfn _ _ hS).bind fun O o hO =>
    .pure (hO.reduce _ (by omega))

theorem on_parallelEven {fn : ℕ → List (Arr ℝ) → Except String (Arr ℝ)}
    (hfn : ∀ m Xs xs, List.Forall₂ (On B b 2) Xs xs → ERel (On B b 2) (fn m Xs) (fn m xs))
    (ndet : ℕ) {Xs xs : List (Arr ℝ)} (h : List.Forall₂ (On B b 1) Xs xs) :
    ERel (On B b 0) (parallelEven fn ndet Xs) (parallelEven fn ndet xs) := by
  unfold parallelEven stackLast
  refine (on_signInvariant (r' := 1) (hfn ndet) le_rfl le_rfl h).bind fun E e hE => ?_
  refine (On.concat (forall₂_map h fun _ _ ha => ha.expand (p := 0) (by omega))
    (p := 0) (by omega)).bind fun S s hS => ?_
  exact ((hS.reduce List.prod (p := 0) (by omega)).zip hE.side _).bind fun _ _ hW =>
    .pure (hW.reduce _ (by omega))

theorem on_pairwiseEven {fn : ℕ → List (Arr ℝ) → Except String (Arr ℝ)}
    (hfn : ∀ m Xs xs, List.Forall₂ (On B b 2) Xs xs → ERel (On B b 2) (fn m Xs) (fn m xs))
    (ndet : ℕ) {Xs xs : List (Arr ℝ)} (h : List.Forall₂ (On B b 1) Xs xs) :
    ERel (On B b 0) (pairwiseEven fn ndet Xs) (pairwiseEven fn ndet xs) := by
  match Xs, xs, h with
  | [], [], _ => exact .error _
  | [_], [_], _ => exact .error _
  | [U, D], [u, d], h =>
    have hU : On B b 1 U u := by cases h; assumption
    have hD : On B b 1 D d := by
      cases h with
      | cons _ h => cases h; assumption
    unfold pairwiseEven
    refine (on_signInvariant (r' := 1) (hfn _) le_rfl le_rfl h).bind fun E e hE => ?_
    refine ((hU.expand (p := 0) (by omega)).zip (hD.expand (p := 1) (by omega)).side _).bind
      fun P p hP => ?_
    refine (hP.flatten false).bind fun F f hF => ?_
    exact (hF.zip hE.side _).bind fun _ _ hW => .pure (hW.reduce _ (by omega))
  | _ :: _ :: _ :: _, _ :: _ :: _ :: _, _ => exact .error _

theorem on_slogdets {p : ℕ} (hp : 0 < p) {Xs xs : List (Arr ℝ)}
    (h : List.Forall₂ (OnP B b p 2) Xs xs) {β : Type} [Inhabited β]
    (f : ∀ m : ℕ, Matrix (Fin m) (Fin m) ℝ → β) :
    ERel (List.Forall₂ (OnP B b p 0)) (Xs.mapM (onSquares f)) (xs.mapM (onSquares f)) :=
  ERel.mapM h fun _ _ ha => OnP.lift hp (fun _ _ _ _ hX => hX.onSquares f) ha

theorem on_slogdetProduct {Xs xs : List (Arr ℝ)}
    (h : List.Forall₂ (On B b 2) Xs xs) :
    ERel (On B b 0) (slogdetProductA Xs) (slogdetProductA xs) := by
  unfold slogdetProductA
  refine (ERel.mapM h fun _ _ ha => On.onSquares ha _).bind fun S s hS => ?_
  cases hS with
  | nil => exact .error _
  | @cons A a As as hA hs =>
    unfold foldE
    induction hs generalizing A a with
    | nil => exact .ok hA
    | cons h _ ih =>
      simp only [List.foldlM_cons]
      exact (hA.zip h.side _).bind fun _ _ hM => ih hM

theorem on_combine (f : FermiDesc) (P : FermiA) (hb : Ix b B) (hp : 0 < f.ndeterminants)
    {Xs xs : List (Arr ℝ)} (h : List.Forall₂ (OnP B b f.ndeterminants 2) Xs xs) :
    ERel (On B b 0) (combineA f P Xs) (combineA f P xs) := by
  unfold combineA
  refine ERel.bind (R := List.Forall₂ (OnP B b f.ndeterminants 2)) ?_ fun O o hO => ?_
  · unfold matricesA
    split_ifs
    · exact (OnP.liftList hp (fun _ _ _ _ hX => On.concat hX (by omega)) hb h).of_map
        fun _ _ ha => .cons ha .nil
    · exact .ok h
  · unfold detsA
    cases f.detFn with
    | none =>
      exact (OnP.liftList hp (fun _ _ _ _ hX => on_slogdetProduct hX) hb hO).of_map
        fun _ _ ha => ha.reduceFront _
    | some r =>
      refine (on_slogdets hp hO _).bind fun D d hD => ?_
      have hI : List.Forall₂ (On B b 1) (D.map (·.toLast)) (d.map (·.toLast)) :=
        forall₂_map hD fun _ _ ha => ha.toLast
      refine ERel.bind (R := On B b 0) ?_ fun _ _ hW => .pure (hW.map _)
      unfold psiA
      cases f.mode with
      | signCovariance =>
        exact (on_signCovariant (r' := 1) (fun _ _ hX => on_detFn r P.detFn 1 hX) le_rfl le_rfl
          hI).bind fun _ _ hO => hO.squeeze (by omega)
      | parallelEven => exact on_parallelEven (fun m _ _ hX => on_detFn r P.detFn m hX) _ hI
      | pairwiseEven => exact on_pairwiseEven (fun m _ _ hX => on_detFn r P.detFn m hX) _ hI

theorem combine_nil (f : FermiDesc) (P : FermiA) : ∃ e, combineA f P [] = .error e := by
  unfold combineA matricesA
  split_ifs
  · exact ⟨_, rfl⟩
  · show ∃ e, detsA f P [] = .error e
    unfold detsA
    cases f.detFn with
    | none => exact ⟨_, rfl⟩
    | some r =>
      show ∃ e, (psiA f r P [] >>= fun psi => pure (psi.map fun x => arrayToSlog (.fin x))) = .error e
      unfold psiA
      cases f.mode with
      | signCovariance => exact ⟨_, rfl⟩
      | parallelEven => exact ⟨_, rfl⟩
      | pairwiseEven => exact ⟨_, rfl⟩

theorem on_fermiNet {ions : Arr ℝ} (hi : ions.shape.length = 2) (f : FermiDesc)
    (hf : f.streams.includeEiNorm = true) (P : FermiA) (h : On B b 2 X x) :
    ERel (On B b 0) (fermiNetA f P ions X) (fermiNetA f P ions x) := by
  unfold fermiNetA
  refine (on_inputStreams hi _ hf h).bind fun S s hS => ?_
  obtain ⟨S1, S2, S3, S4⟩ := S
  obtain ⟨s1, s2, s3, s4⟩ := s
  simp only
  refine (on_backflow _ _ _ hS.in1e hS.in2e).bind fun T t hT => ?_
  have hn : norbitals f X = norbitals f x := by
    unfold norbitals
    rw [h.getD (by omega : 1 < 2)]
  rw [hn]
  refine ERel.bind (R := Eq) ?_ fun m _ e => ?_
  · cases norbitals f x with
    | ok a => exact .ok rfl
    | error e => exact .error e
  subst e
  refine (on_orbitalLayer _ _ _ _ _ hT hS.rei).bind fun O o hO => ?_
  by_cases hd : f.ndeterminants = 0
  · cases hO with
    | nil =>
      obtain ⟨e, he⟩ := combine_nil f P
      show ERel _ (combineA f P []) (combineA f P [])
      rw [he]
      exact .error e
    | cons ho _ =>
      have e : reshapeRawA f.ndeterminants = fun _ =>
          .error "ZeroDivisionError: integer division or modulo by zero" := by
        funext a
        exact if_pos hd
      rw [e]
      exact .error _
  · exact (ERel.mapM hO fun _ _ ha => on_reshapeRaw _ ha).bind fun _ _ hR =>
      on_combine f P h.ix (by omega) hR

end Verif.Arrays
