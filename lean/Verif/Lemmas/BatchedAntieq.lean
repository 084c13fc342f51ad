import Verif.Model.BatchedAntieq
import Verif.Lemmas.BatchedNets

/-!
The array code of the antiequivariance networks acts on each walker of a batch alone.
-/

namespace Verif.Arrays
open Verif.Slog Verif.Construct Verif.Net

section
variable {α : Type} [Inhabited α] {B b : List ℕ} {r : ℕ} {X x : Arr α}

theorem On.modify {f g : ℕ → ℕ} (h : On B b r X x) {p : ℕ} (hp : p < r) :
    On B b r (.of (X.shape.modify p f) fun j => X.get (j.modify p g))
      (.of (x.shape.modify p f) fun j => x.get (j.modify p g)) := by
  refine on_of' h.ix (by rw [List.length_modify, h.rank]) ?_ fun j hj _ => ?_
  · rw [h.shape, modify_append_left (by rw [h.rank]; exact hp)]
  · rw [modify_append_left (by omega)]
    exact h.get _ (by rw [List.length_modify, hj])

theorem On.delete (h : On B b r X x) {p : ℕ} (hp : p < r) (i : ℕ) :
    On B b r (X.delete p i) (x.delete p i) := h.modify hp

theorem On.repeat (h : On B b r X x) {p : ℕ} (hp : p < r) (k : ℕ) :
    On B b r (X.repeat p k) (x.repeat p k) := h.modify hp

theorem On.stackAt {Xs xs : List (Arr α)} (h : List.Forall₂ (On B b r) Xs xs) {p : ℕ} (hp : p < r + 1) :
    ERel (On B b (r + 1)) (stackAt p Xs) (stackAt p xs) := by
  unfold Arrays.stackAt
  cases h with
  | nil => exact .error _
  | cons h hs =>
    rw [if_neg (by simp), if_neg (by simp)]
    refine On.concat ?_ hp
    rw [List.forall₂_map_left_iff, List.forall₂_map_right_iff]
    exact (List.Forall₂.cons h hs).imp fun _ _ h => h.expand (by omega)

theorem On.at0 (h : On B b (r + 1) X x) (i : ℕ) : On B b r (X.at0 i) (x.at0 i) := by
  have h1 : x.shape ≠ [] := fun h0 => by have := h.rank; rw [h0] at this; simp at this
  refine on_of' h.ix (by rw [List.length_tail, h.rank]; rfl) ?_ fun j hj _ => ?_
  · rw [h.shape, List.tail_append_of_ne_nil h1]
  · exact h.get (i :: j) (by simp [hj])

theorem On.splitAxis1 (h : On B b (r + 2) X x) (l k : ℕ) :
    ERel (On B b (r + 3)) (splitAxis1 l k X) (splitAxis1 l k x) := by
  obtain ⟨d, m, rest, hx⟩ : ∃ d m rest, x.shape = d :: m :: rest := by
    have := h.rank
    match hx : x.shape with
    | [] => rw [hx] at this; simp at this
    | [_] => rw [hx] at this; simp at this
    | d :: m :: rest => exact ⟨d, m, rest, rfl⟩
  have hr : rest.length = r := by
    have := h.rank
    rw [hx] at this
    simpa using this
  have hX : X.shape = d :: m :: (rest ++ B) := by rw [h.shape, hx]; rfl
  have h1 : (d :: m :: (rest ++ B)).prod = (d :: k :: l :: (rest ++ B)).prod ↔
      (d :: m :: rest).prod = (d :: k :: l :: rest).prod := by
    simp only [List.prod_cons, List.prod_append, ← mul_assoc]
    exact Nat.mul_left_inj (prod_pos h.ix).ne'
  unfold Arrays.splitAxis1
  rw [hx, hX]
  simp only [h1]
  split_ifs
  · refine .ok (on_of' h.ix (by simp [hr]) rfl fun j hj _ => ?_)
    match j, hj with
    | i :: t :: u :: j, hj =>
      simp only [List.cons_append, List.headD_cons, List.getD_cons_succ, List.getD_cons_zero,
        List.drop_succ_cons, List.drop_zero]
      exact h.get (i :: (u * k + t) :: j) (by simpa using hj)
  · exact .error _

/-- Operations which act on parts as on the whole do so too on arrays with one axis more, as long as it is not
empty. -/
theorem On.lift {β : Type} [Inhabited β] {r' N : ℕ} (hN : 0 < N)
    {op : Arr α → Except String (Arr β)}
    (hop : ∀ B b X x, On B b r X x → ERel (On B b r') (op X) (op x)) (h : On B b (r + 1) X x)
    (hs : x.shape.getD r 0 = N) : ERel (On B b (r' + 1)) (op X) (op x) := by
  obtain ⟨s, hsr, hx⟩ : ∃ s, s.length = r ∧ x.shape = s ++ [N] := by
    have hr := h.rank
    refine ⟨x.shape.take r, by rw [List.length_take, hr]; omega, ?_⟩
    have h1 : x.shape = x.shape.take r ++ x.shape.drop r := (List.take_append_drop _ _).symm
    have h2 : x.shape.drop r = [N] := by
      rw [← hs]
      refine List.ext_getElem (by simp [hr]) fun i h1 h2 => ?_
      have : i = 0 := by simpa using h2
      subst this
      rw [List.getElem_drop, List.getElem_singleton, List.getD_eq_getElem _ _ (by omega)]
      rfl
    rw [h2] at h1
    exact h1
  have hr : ∀ t, t < N → On [N] [t] r x (x.part [t]) := fun t ht => by
    rw [← hsr]
    exact on_part (.cons ht .nil) hx
  have hl : ∀ t, t < N → On (N :: B) (t :: b) r X (x.part [t]) := fun t ht => by
    have h4 := hr t ht
    refine ⟨.cons ht h.ix, ?_, fun j hj => ?_, h4.rank⟩
    · rw [h.shape, h4.shape, List.append_assoc]; rfl
    · rw [← h4.get j hj, ← h.get (j ++ [t]) (by simp [hj]), List.append_assoc]
      rfl
  have h1 := fun t ht => hop _ _ _ _ (hl t ht)
  have h2 := fun t ht => hop _ _ _ _ (hr t ht)
  have h3 := h1 0 hN
  have h4 := h2 0 hN
  cases hX : op X with
  | error e =>
    rw [hX] at h3
    cases h5 : op (x.part [0]) with
    | ok a => rw [h5] at h3; cases h3
    | error e' =>
      rw [h5] at h3 h4
      cases h3
      cases h6 : op x with
      | ok a => rw [h6] at h4; cases h4
      | error e'' => rw [h6] at h4; cases h4; exact .error _
  | ok Y =>
    rw [hX] at h3
    cases h5 : op (x.part [0]) with
    | error e => rw [h5] at h3; cases h3
    | ok a =>
      rw [h5] at h3 h4
      cases h6 : op x with
      | error e => rw [h6] at h4; cases h4
      | ok y =>
        rw [h6] at h4
        cases h3 with
        | ok h3 =>
        cases h4 with
        | ok h4 =>
        have hYs : Y.shape = y.shape ++ B := by
          rw [h3.shape, h4.shape, List.append_assoc]; rfl
        have hyr : y.shape.length = r' + 1 := by rw [h4.shape, List.length_append, h4.rank]; rfl
        refine .ok ⟨h.ix, hYs, fun j hj => ?_, hyr⟩
        by_cases hj' : Ix j y.shape
        · obtain ⟨i, t, rfl⟩ : ∃ i t, j = i ++ [t] := by
            have : j ≠ [] := by rintro rfl; simp at hj
            exact ⟨j.dropLast, j.getLast this, (List.dropLast_append_getLast this).symm⟩
          have hi : i.length = r' := by simpa using hj
          rw [h4.shape, ix_append (hi.trans h4.rank.symm)] at hj'
          have ht : t < N := by
            have := hj'.2
            cases this with
            | cons h _ => exact h
          have h7 := h1 t ht
          have h8 := h2 t ht
          rw [hX] at h7
          rw [h6] at h8
          cases h9 : op (x.part [t]) with
          | error e => rw [h9] at h7; cases h7
          | ok z =>
            rw [h9] at h7 h8
            cases h7 with
            | ok h7 =>
            cases h8 with
            | ok h8 =>
              rw [h8.get i hi, ← h7.get i hi, List.append_assoc]
              rfl
        · rw [y.off' hj', Y.off']
          rw [hYs, ix_append (hj.trans hyr.symm)]
          exact fun h => hj' h.1

end

variable {B b : List ℕ} {r : ℕ} {X x : Arr ℝ}

theorem on_submatrices (h : On B b 2 X x) : ERel (On B b 3) (submatricesA X) (submatricesA x) := by
  unfold submatricesA
  rw [h.getD (by omega : 0 < 2), h.getD (by omega : 1 < 2)]
  split_ifs
  · exact .error _
  · refine On.stackAt (r := 2) ?_ (by omega)
    rw [List.forall₂_map_left_iff, List.forall₂_map_right_iff, List.forall₂_same]
    exact fun i _ => (h.delete (by omega) i).delete (by omega) 0

theorem on_cofactor (h : On B b 2 X x) : ERel (On B b 1) (cofactorA X) (cofactorA x) := by
  unfold cofactorA
  rw [h.getD (by omega : 0 < 2)]
  refine (on_submatrices h).bind fun S s hS => ?_
  refine (On.onSquares (r := 1) hS _).bind fun D d hD => ?_
  refine (hD.zip' (side_const _ (by simp [Arr.of])) _).bind fun C c hC => ?_
  exact (On.at0 h 0).zip hC.side _

theorem on_expand0 {Xs xs : List (Arr ℝ)} (h : List.Forall₂ (On B b r) Xs xs) :
    List.Forall₂ (On B b (r + 1)) (Xs.map (·.expand 0)) (xs.map (·.expand 0)) :=
  forall₂_map h fun _ _ ha => ha.expand (by omega)

theorem on_cofactorLayer (o : OrbitalDesc) (P : OrbitalsA) (ks : List ℤ) {R r : Arr ℝ}
    (h : On B b 2 X x) (hR : On B b 3 R r) :
    ERel (List.Forall₂ (On B b 2)) (cofactorLayerA o P ks X R) (cofactorLayerA o P ks x r) := by
  unfold cofactorLayerA
  rw [h.getD (by omega : 1 < 2)]
  refine (erel_eq _).bind fun m m' hm => ?_
  subst hm
  refine (on_orbitalLayer _ _ _ _ _ h hR).bind fun O o' hO => ?_
  exact (ERel.mapM hO fun _ _ ha => on_cofactor ha).bind fun _ _ hC => .pure (on_expand0 hC)

theorem on_doublyOne (useBias : Bool) (P : DenseA) (norb : ℕ) (h : On B b 2 X x) :
    ERel (On B b 3) (doublyOne useBias P norb X) (doublyOne useBias P norb x) := by
  unfold doublyOne
  simp only [h.getD (by omega : 1 < 2)]
  refine (On.splitAxis1 (r := 0) (h.repeat (by omega) _) _ _).bind fun A a hA => ?_
  refine (On.concat (.cons hA (.cons ((h.expand (by omega)).repeat (by omega) _) .nil))
    (by omega)).bind fun C c hC => .pure (hC.dense _ _ _)

theorem on_doublyAll (useBias : Bool) (P : ℕ → DenseA) {Xs xs : List (Arr ℝ)}
    (h : List.Forall₂ (On B b 2) Xs xs) (s : ℕ) (ms : List ℕ) :
    ERel (List.Forall₂ (On B b 3)) (doublyAll useBias P s Xs ms) (doublyAll useBias P s xs ms) := by
  induction h generalizing s ms with
  | nil => exact .ok .nil
  | cons h _ ih =>
    cases ms with
    | nil => exact .error _
    | cons m ms =>
      exact (on_doublyOne _ _ _ h).bind fun _ _ hY => (ih _ _).bind fun _ _ hYs => .pure (.cons hY hYs)

theorem on_doublyLayer (o : OrbitalDesc) (P : OrbitalsA) (ks : List ℤ) (ms : List ℕ) {R r : Arr ℝ}
    (h : On B b 2 X x) (hR : On B b 3 R r) :
    ERel (List.Forall₂ (On B b 3)) (doublyLayerA o P ks ms X R) (doublyLayerA o P ks ms x r) := by
  unfold doublyLayerA
  refine (h.split (by omega) _).bind fun S s hS => ?_
  refine (on_doublyAll _ _ hS _ _).bind fun O o' hO => ?_
  refine (hR.split (by omega) _).bind fun D d hD => ?_
  refine (on_envelopes _ _ _ hD _ _).bind fun E e hE => ?_
  exact on_sum hO (forall₂_map hE fun _ _ ha => ha.expand (by omega)) _

theorem on_perParticleLayer (o : OrbitalDesc) (P : OrbitalsA) (ks : List ℤ) {R r : Arr ℝ}
    (h : On B b 2 X x) (hR : On B b 3 R r) :
    ERel (List.Forall₂ (On B b 2)) (perParticleLayerA o P ks X R) (perParticleLayerA o P ks x r) := by
  unfold perParticleLayerA
  rw [h.getD (by omega : 1 < 2)]
  refine (erel_eq _).bind fun m m' hm => ?_
  subst hm
  refine (on_doublyLayer _ _ _ _ h hR).bind fun O o' hO => ?_
  exact (ERel.mapM hO fun _ _ ha => On.onSquares (r := 1) ha _).bind fun _ _ hC =>
    .pure (on_expand0 hC)

theorem on_antieqLayer (perParticle : Bool) (o : OrbitalDesc) (P : OrbitalsA) (ks : List ℤ)
    {R r : Arr ℝ} (h : On B b 2 X x) (hR : On B b 3 R r) :
    ERel (List.Forall₂ (On B b 2)) (antieqLayerA perParticle o P ks X R)
      (antieqLayerA perParticle o P ks x r) := by
  unfold antieqLayerA
  split_ifs
  · exact on_perParticleLayer o P ks h hR
  · exact on_cofactorLayer o P ks h hR

theorem on_multiply (multiply : Bool) (ks : List ℤ) {Xs xs : List (Arr ℝ)}
    (h : List.Forall₂ (On B b 2) Xs xs) (h' : On B b 2 X x) :
    ERel (List.Forall₂ (On B b 2)) (multiplyA multiply ks Xs X) (multiplyA multiply ks xs x) := by
  unfold multiplyA
  split_ifs
  · exact (h'.split (by omega) _).bind fun _ _ hS => on_sum hS h _
  · exact .ok h

theorem on_pairwiseDots {Y y : Arr ℝ} (h : On B b 2 X x) (h' : On B b 2 Y y) :
    ERel (On B b 2) (pairwiseDotsA X Y) (pairwiseDotsA x y) := by
  have two : ∀ {X x : Arr ℝ}, On B b 2 X x → ∃ k m, x.shape = [k, m] := by
    intro X x h
    have := h.rank
    match hx : x.shape with
    | [] => rw [hx] at this; simp at this
    | [_] => rw [hx] at this; simp at this
    | [k, m] => exact ⟨k, m, rfl⟩
    | _ :: _ :: _ :: _ => rw [hx] at this; simp at this
  obtain ⟨k, m, hx⟩ := two h
  obtain ⟨k', m', hy⟩ := two h'
  unfold pairwiseDotsA
  rw [h.shape, h'.shape, hx, hy]
  simp only [List.cons_append, List.nil_append, and_true]
  split_ifs
  · refine .ok (on_of' h.ix rfl rfl fun j hj _ => ?_)
    match j, hj with
    | [i, t], _ =>
      simp only [List.cons_append, List.nil_append, List.headD_cons, List.getD_cons_succ,
        List.getD_cons_zero, List.drop_succ_cons, List.drop_zero]
      refine Finset.sum_congr rfl fun u _ => ?_
      exact congrArg₂ (· * ·) (h.get [u, t] rfl) (h'.get [u, i] rfl)
  · exact .error _

theorem on_products (W : Option DenseA) {Xs xs : List (Arr ℝ)} (h : List.Forall₂ (On B b 2) Xs xs) :
    ERel (On B b 1) (productsA W Xs) (productsA W xs) := by
  match Xs, xs, h with
  | [], [], _ => exact .error _
  | [_], [_], _ => exact .error _
  | [U, D], [u, d], .cons hU (.cons hD .nil) =>
    refine (on_pairwiseDots hU hD).bind fun P p hP => ?_
    cases W with
    | none =>
      exact .pure (((hP.reduce (r := 1) List.sum (p := 0) (by omega)).reduce (r := 0) List.sum
        (p := 0) (by omega)).expand (by omega))
    | some W => exact (On.flatten (r := 0) hP false).bind fun _ _ hF => .pure (hF.dense _ _ _)
  | _ :: _ :: _ :: _, _ :: _ :: _ :: _, _ => exact .error _

theorem on_backflowEquivariance (cfg : BackflowCfg) (ks : List ℤ) (dtype : ℕ)
    (P : List BlockDesc → ℕ → BlockA) {N : ℕ} (hN : 0 < N) {Xs xs : List (Arr ℝ)}
    (h : List.Forall₂ (On B b 3) Xs xs) (hs : ∀ y ∈ xs, y.shape.getD 2 0 = N) :
    ERel (On B b 3) (backflowEquivarianceA cfg ks dtype P Xs)
      (backflowEquivarianceA cfg ks dtype P xs) := by
  unfold backflowEquivarianceA
  have hc : ∀ z, concat 1 xs = .ok z → z.shape.getD 2 0 = N := by
    intro z hz
    cases xs with
    | nil => cases hz
    | cons y ys =>
      simp only [Arrays.concat] at hz
      split_ifs at hz
      cases hz
      show (y.shape.set 1 _).getD 2 0 = N
      rw [← hs y (by simp), List.getD_eq_getElem?_getD, List.getElem?_set_ne (by omega),
        List.getD_eq_getElem?_getD]
  have hcc := On.concat h (p := 1) (by omega)
  cases h1 : concat 1 xs with
  | error e =>
    rw [h1] at hcc
    cases h2 : concat 1 Xs with
    | ok _ => rw [h2] at hcc; cases hcc
    | error e' => rw [h2] at hcc; cases hcc; exact .error _
  | ok z =>
    rw [h1] at hcc
    cases h2 : concat 1 Xs with
    | error _ => rw [h2] at hcc; cases hcc
    | ok Z =>
      rw [h2] at hcc
      cases hcc with
      | ok hZ =>
        refine ERel.bind (erel_eq (getBackflow cfg ks dtype)) fun bs bs' hb => ?_
        subst hb
        exact On.lift hN (fun _ _ _ _ h => on_backflow (P bs) bs 0 h .none) hZ (hc z h1)

theorem bshape_getD {s t u : List ℕ} (h : bshape s t = some u) {p : ℕ} (hp : p < s.length)
    (ht : t.getD p 0 = 1) : u.getD p 0 = s.getD p 0 := by
  induction s generalizing t u p with
  | nil => simp at hp
  | cons k s ih =>
    cases t with
    | nil => simp at ht
    | cons l t =>
      simp only [bshape] at h
      cases p with
      | zero =>
        simp only [List.getD_cons_zero] at ht
        rw [if_pos (.inr ht), Option.map_eq_some_iff] at h
        obtain ⟨v, _, rfl⟩ := h
        rfl
      | succ p =>
        simp only [List.getD_cons_succ] at ht ⊢
        split_ifs at h
        · rw [Option.map_eq_some_iff] at h
          obtain ⟨v, hv, rfl⟩ := h
          exact ih hv (by simpa using hp) ht
        · rw [Option.map_eq_some_iff] at h
          obtain ⟨v, hv, rfl⟩ := h
          exact ih hv (by simpa using hp) ht

theorem signOrbit_axis {p i N : ℕ} {x y : Arr ℝ} (hp : p ≤ x.shape.length)
    (h : signOrbit p i N x = .ok y) : y.shape.getD p 0 = 2 ^ N := by
  unfold signOrbit Arr.zip at h
  split at h
  · cases h
  · rename_i u hu
    cases h
    show u.getD p 0 = _
    rw [bshape_getD hu (p := p) (by simp [Arr.of]; omega) (by
      show (x.shape.insertIdx p 1).getD p 0 = 1
      rw [List.getD_eq_getElem _ _ (by rw [List.length_insertIdx_of_le_length hp]; omega),
        List.getElem_insertIdx_self])]
    show ((List.replicate (x.shape.length + 1) 1).set p (2 ^ N)).getD p 0 = _
    rw [List.getD_eq_getElem _ _ (by simp; omega), List.getElem_set_self]

theorem signOrbits_axis {p N : ℕ} {xs ys : List (Arr ℝ)} (i : ℕ)
    (hp : ∀ x ∈ xs, p ≤ x.shape.length)
    (h : signOrbits p N i xs = .ok ys) : ∀ y ∈ ys, y.shape.getD p 0 = 2 ^ N := by
  induction xs generalizing i ys with
  | nil => cases h; simp
  | cons x xs ih =>
    unfold signOrbits at h
    cases h1 : signOrbit p i N x with
    | error e => rw [h1] at h; cases h
    | ok o =>
      rw [h1] at h
      cases h2 : signOrbits p N (i + 1) xs with
      | error e => rw [h2] at h; cases h
      | ok os =>
        rw [h2] at h
        cases h
        intro y hy
        rcases List.mem_cons.1 hy with rfl | hy
        · exact signOrbit_axis (hp x (by simp)) h1
        · exact ih (i + 1) (fun x hx => hp x (by simp [hx])) h2 y hy

theorem on_covariance (c : CovarianceDesc) (P : CovarianceA) {Xs xs : List (Arr ℝ)}
    (h : List.Forall₂ (On B b 2) Xs xs) :
    ERel (On B b 1) (covarianceA c P Xs) (covarianceA c P xs) := by
  unfold covarianceA
  cases c with
  | products _ w => exact on_products _ h
  | backflow cfg ks dtype =>
    refine ERel.bind (R := On B b 2) ?_ fun O o hO => .pure (hO.reduce _ (by omega))
    unfold signCovariantA
    rw [h.length_eq]
    have hrank : ∀ x ∈ xs, 2 ≤ x.shape.length := by
      intro x hx
      have : ∀ {Xs xs : List (Arr ℝ)}, List.Forall₂ (On B b 2) Xs xs → x ∈ xs → 2 ≤ x.shape.length := by
        intro Xs xs h hx
        induction h with
        | nil => simp at hx
        | cons h _ ih =>
          rcases List.mem_cons.1 hx with rfl | hx
          · exact h.rank.ge
          · exact ih hx
      exact this h hx
    have ho := on_signOrbits xs.length (p := 2) le_rfl h 0
    cases h1 : signOrbits 2 xs.length 0 xs with
    | error e =>
      rw [h1] at ho
      cases h2 : signOrbits 2 xs.length 0 Xs with
      | ok _ => rw [h2] at ho; cases ho
      | error e' => rw [h2] at ho; cases ho; exact .error _
    | ok s =>
      rw [h1] at ho
      cases h2 : signOrbits 2 xs.length 0 Xs with
      | error _ => rw [h2] at ho; cases ho
      | ok S =>
        rw [h2] at ho
        cases ho with
        | ok hS =>
          refine ERel.bind (on_backflowEquivariance cfg ks dtype P.backflow (N := 2 ^ xs.length)
            (by positivity) hS (signOrbits_axis 0 hrank h1)) fun O o hO => ?_
          exact (on_multiplySign (r := 2) (by simp [Arr.of]) hO (by omega)).bind fun _ _ hM =>
            .pure (hM.reduce _ (by omega))

theorem on_antiequivariance {ions : Arr ℝ} (hi : ions.shape.length = 2) (ks : List ℤ) (s : StreamsDesc)
    (hs : s.includeEiNorm = true) (bs : List BlockDesc) (perParticle : Bool) (ks' : List ℤ)
    (o : OrbitalDesc) (c : CovarianceDesc) (multiply : Bool) (P : ℕ → BlockA) (L : OrbitalsA)
    (C : CovarianceA) (h : On B b 2 X x) :
    ERel (On B b 0) (antiequivarianceA ks s bs perParticle ks' o c multiply P L C ions X)
      (antiequivarianceA ks s bs perParticle ks' o c multiply P L C ions x) := by
  unfold antiequivarianceA
  refine (on_inputStreams hi _ hs h).bind fun S s hS => ?_
  obtain ⟨S1, S2, S3, S4⟩ := S
  obtain ⟨s1, s2, s3, s4⟩ := s
  simp only
  refine (on_backflow _ _ _ hS.in1e hS.in2e).bind fun T t hT => ?_
  refine (on_antieqLayer _ _ _ _ hT hS.rei).bind fun A a hA => ?_
  refine (on_multiply _ _ hA hT).bind fun A' a' hA' => ?_
  exact (on_covariance _ _ hA').bind fun _ _ hV => .pure ((hV.reduce _ (by omega)).map _)

end Verif.Arrays
