import Verif.Lemmas.ArrayViewsFactorized
import Verif.Lemmas.ArrayViewsEmbedded

/-!
The antisymmetrization of a function of all particles, on arrays given by functions of indices.  The
axes of the permutations of the species are treated like axes of a batch.
-/

namespace Verif.Arrays
open Verif.Slog Verif.Construct Verif.Net Verif.Antisym Equiv

variable {K M a b c d m S : ℕ} {n : Fin (K + 1) → ℕ}

/-! ### ResNets on one vector -/

theorem addInput_A1 {d' : ℕ} (x : Fin d → ℝ) (y : Fin d' → ℝ) :
    addInput (A1 x) (A1 y) = .ok (A1 (Net.skipSum x y)) := by
  unfold addInput
  by_cases h : d' = d
  · subst h
    rw [if_pos (by simp), zip_A1]
    congr 2
    funext j
    simp [Net.skipSum]
  · rw [if_neg fun h' => h h'.symm]
    congr 2
    funext j
    simp [Net.skipSum, h]

theorem inner_A1 (r : ResNetDesc) (P : ResNetParams) (PA : ResNetA) (i k : ℕ) (d : ℕ)
    (h0 : PA.inner i = toDense (P.inner i d r.ndense).kernel (P.inner i d r.ndense).bias)
    (hP : ∀ j, i < j → PA.inner j =
      toDense (P.inner j r.ndense r.ndense).kernel (P.inner j r.ndense r.ndense).bias)
    (x : Fin d → ℝ) :
    innerA r PA i k (A1 x) = .ok (A1 ((innerLayers P r.ndense i k d).run r.useBias
      (fun _ y j => r.activation.fn (y j)) x)) := by
  induction k generalizing i d with
  | zero => rfl
  | succ k ih =>
    unfold innerA
    rw [h0, dense_A1, map_A1]
    show (addInput (A1 x) (A1 _) >>= _) = _
    rw [addInput_A1, ok_bind,
      ih (i + 1) r.ndense (hP _ (Nat.lt_succ_self i)) fun j hj => hP j (by omega)]
    rfl

theorem resNet_A1 (r : ResNetDesc) (P : ResNetParams) (dout : ℕ) (x : Fin d → ℝ) :
    resNetA r (resA r P d dout) dout (A1 x) = .ok (A1 (r.apply P dout x)) := by
  unfold resNetA
  rw [inner_A1 r P (resA r P d dout) 0 (r.nlayers - 1) d rfl
    (fun j hj => by simp only [resA]; rw [if_neg (by omega)]), ok_bind]
  show Except.ok _ = Except.ok _
  rw [resA, dense_A1]
  rfl

/-! ### Vectors one after the other -/

theorem concat_A1 {w : Fin (K + 1) → ℕ} (z : ∀ s, Fin (w s) → ℝ) :
    concat 0 (List.ofFn fun s => A1 (z s)) =
      .ok (A1 fun k => z (finSigmaFinEquiv.symm k).1 (finSigmaFinEquiv.symm k).2) := by
  rw [concat_ofFn 0 _ w (sh := [0]) (fun _ => rfl) (by simp)]
  congr 1
  refine eq_A1 rfl fun k => ?_
  rw [of_get (by exact .cons k.2 .nil),
    pick_ofFn 0 _ w (fun _ => rfl) (finSigmaFinEquiv.symm k).1 (finSigmaFinEquiv.symm k).2 _ (by simp)
      (by exact sigma_split k)]
  exact A1_get _ (Fin.isLt _)

theorem flatten_getElem {w : Fin S → ℕ} (z : ∀ s, Fin (w s) → ℝ) (s : Fin S) (i : Fin (w s)) :
    (List.ofFn fun s => List.ofFn (z s)).flatten[start w s + i]? = some (z s i) := by
  induction S with
  | zero => exact s.elim0
  | succ S ih =>
    rw [List.ofFn_succ, List.flatten_cons]
    revert i
    refine Fin.cases ?_ (fun s => ?_) s
    · intro i
      rw [start_zero, Nat.zero_add, List.getElem?_append_left (by simp)]
      simp
    · intro i
      rw [start_succ, List.getElem?_append_right (by simp; omega)]
      have h := ih (w := fun t => w t.succ) (fun t => z t.succ) s i
      rw [List.length_ofFn, Nat.add_assoc, Nat.add_sub_cancel_left]
      exact h

theorem apply_flatten (r : ResNetDesc) (P : ResNetParams) (k : ℕ) {w : Fin S → ℕ}
    (z : ∀ s, Fin (w s) → ℝ) :
    r.apply P k (List.ofFn fun s => List.ofFn (z s)).flatten.get =
      r.apply P k fun q : Fin (∑ s, w s) => z (finSigmaFinEquiv.symm q).1 (finSigmaFinEquiv.symm q).2 := by
  refine apply_list r P k _ (by simp [List.length_flatten, List.map_ofFn, Function.comp_def,
    List.sum_ofFn]) _ fun q => ?_
  have h := flatten_getElem z (finSigmaFinEquiv.symm q).1 (finSigmaFinEquiv.symm q).2
  rw [← sigma_split q] at h
  rw [List.getElem?_eq_some_iff] at h
  obtain ⟨_, h⟩ := h
  exact h

/-! ### The grid of the permutations -/

/-- The axes of the grid. -/
def gridB (N : Fin S → ℕ) : List ℕ := (List.ofFn N).reverse

/-- A point of the grid. -/
def gridIx {N : Fin S → ℕ} (κ : ∀ s, Fin (N s)) : List ℕ := (List.ofFn fun s => (κ s).val).reverse

theorem gridB_length (N : Fin S → ℕ) : (gridB N).length = S := by simp [gridB]

theorem gridIx_ix {N : Fin S → ℕ} (κ : ∀ s, Fin (N s)) : Ix (gridIx κ) (gridB N) := by
  unfold gridIx gridB
  rw [Ix, List.forall₂_reverse_iff, List.forall₂_iff_get]
  exact ⟨by simp, fun i h1 h2 => by simp⟩

theorem gridB_get (N : Fin S → ℕ) (s : Fin S) (h : S - 1 - s < (gridB N).length) :
    (gridB N)[S - 1 - s.val] = N s := by
  simp only [gridB, List.getElem_reverse, List.length_ofFn, List.getElem_ofFn]
  congr 1
  refine Fin.ext ?_
  simp only
  omega

theorem gridIx_get {N : Fin S → ℕ} (κ : ∀ s, Fin (N s)) (s : Fin S) (h : S - 1 - s < (gridIx κ).length) :
    (gridIx κ)[S - 1 - s.val] = κ s := by
  simp only [gridIx, List.getElem_reverse, List.length_ofFn, List.getElem_ofFn]
  have : (⟨S - 1 - (S - 1 - s.val), by omega⟩ : Fin S) = s := Fin.ext (by simp only; omega)
  rw [this]

/-- The second shape is stretched to the first one. -/
abbrev Stretch (s t : List ℕ) : Prop := List.Forall₂ (fun k l => k = l ∨ l = 1) s t

theorem bshape_stretch {s t : List ℕ} (h : Stretch s t) : bshape s t = some s := by
  induction h with
  | nil => rfl
  | cons h _ ih => simp only [bshape, h, if_true, ih, Option.map_some]

theorem ix_stretch {i s t : List ℕ} (hi : Ix i s) (h : Stretch s t) : Ix (proj i t) t := by
  induction h generalizing i with
  | nil => cases hi; exact .nil
  | @cons k l s t h _ ih =>
    cases hi with
    | cons hi his =>
      rw [proj_cons]
      refine .cons ?_ (ih his)
      split_ifs with h1
      · omega
      · omega

theorem stretch_ith (N : Fin S → ℕ) (s : Fin S) : Stretch (gridB N) (ithFactorial S s (N s)) := by
  rw [Stretch, List.forall₂_iff_get]
  refine ⟨by simp [gridB, ithFactorial], fun i h1 h2 => ?_⟩
  simp only [List.get_eq_getElem]
  unfold ithFactorial
  rw [List.getElem_set]
  split_ifs with h
  · left
    subst h
    exact gridB_get N s h1
  · right
    simp

theorem proj_place {N : Fin S → ℕ} (κ : ∀ s, Fin (N s)) (s : Fin S) :
    (proj (gridIx κ) (ithFactorial S s (N s))).getD (S - 1 - s) 0 = κ s := by
  have hS := s.2
  have h1 : S - 1 - s < (gridIx κ).length := by simp [gridIx]; omega
  have h2 : S - 1 - s < (ithFactorial S s (N s)).length := by simp [ithFactorial]; omega
  unfold proj
  rw [List.getD_eq_getElem _ _ (by rw [List.length_zipWith]; omega), List.getElem_zipWith,
    gridIx_get κ s h1]
  have h3 : (ithFactorial S s (N s))[S - 1 - s.val] = N s := by
    simp only [ithFactorial, List.getElem_set_self]
  rw [h3, proj_one (κ s).2]

theorem on_A1 {B b : List ℕ} {X : Arr ℝ} {x : Fin a → ℝ} (hb : Ix b B) (hX : X.shape = a :: B)
    (hg : ∀ i : Fin a, X.get (i.val :: b) = x i) : On B b 1 X (A1 x) := by
  refine ⟨hb, hX, fun j hj => ?_, rfl⟩
  match j, hj with
  | [i], _ =>
    by_cases hi : i < a
    · rw [A1_get x hi]
      exact hg ⟨i, hi⟩
    · rw [X.off, (A1 x).off]
      · intro h; cases h with | cons h _ => exact hi h
      · rw [hX]; intro h; cases h with | cons h _ => exact hi h

theorem on_A2 {B b : List ℕ} {X : Arr ℝ} {x : Fin a → Fin c → ℝ} (hb : Ix b B)
    (hX : X.shape = c :: a :: B) (hg : ∀ (i : Fin a) (j : Fin c), X.get (j.val :: i.val :: b) = x i j) :
    On B b 2 X (A2 x) := by
  refine ⟨hb, hX, fun j hj => ?_, rfl⟩
  match j, hj with
  | [j, i], _ =>
    by_cases hi : i < a ∧ j < c
    · rw [A2_get x hi.1 hi.2]
      exact hg ⟨i, hi.1⟩ ⟨j, hi.2⟩
    · rw [X.off, (A2 x).off]
      · intro h
        cases h with | cons h h' => cases h' with | cons h' _ => exact hi ⟨h', h⟩
      · rw [hX]
        intro h
        cases h with | cons h h' => cases h' with | cons h' _ => exact hi ⟨h', h⟩

/-- The result for all points of the grid. -/
theorem uniform {ι : Type} [Nonempty ι] {B : List ℕ} {b : ι → List ℕ} {r : ℕ} {F : Except String (Arr ℝ)}
    {g : ι → Arr ℝ} (h : ∀ κ, ERel (On B (b κ) r) F (.ok (g κ))) :
    ∃ Y, F = .ok Y ∧ ∀ κ, On B (b κ) r Y (g κ) := by
  obtain ⟨κ⟩ := ‹Nonempty ι›
  have h0 := h κ
  cases hF : F with
  | error e => rw [hF] at h0; cases h0
  | ok Y =>
    refine ⟨Y, rfl, fun κ => ?_⟩
    have h1 := h κ
    rw [hF] at h1
    cases h1 with
    | ok h1 => exact h1

theorem flatten_true_A2 (x : Fin a → Fin c → ℝ) : flatten true (A2 x) = .ok (A1 (rowMajor x)) := by
  have h := flatten_A2 x
  simp only [flatten, A2_shape, List.not_mem_nil, and_false, if_false] at h ⊢
  exact h

theorem gridPerms_grid {N : Fin S → ℕ} [Nonempty (∀ s, Fin (N s))] (s : Fin S)
    (y : Fin (N s) → Fin m → Fin d → ℝ) :
    ∃ Y, gridPerms (List.ofFn N) s (A3 y) = .ok Y ∧
      ∀ κ, On (gridB N) (gridIx κ) 1 Y (A1 (rowMajor (y (κ s)))) := by
  have hr : (reshapePerms S s (A3 y)).shape = d :: m :: ithFactorial S s (N s) := by
    simp [reshapePerms]
  have hst : Stretch (d :: m :: gridB N) (d :: m :: ithFactorial S s (N s)) :=
    .cons (.inl rfl) (.cons (.inl rfl) (stretch_ith N s))
  refine uniform fun κ => ?_
  unfold gridPerms
  have hb : broadcastTo ((A3 y).shape.take 2 ++ (List.ofFn N).reverse ++ (A3 y).shape.drop 3)
      (reshapePerms (List.ofFn N).length s (A3 y)) = .ok (.of (d :: m :: gridB N) fun i =>
        (reshapePerms S s (A3 y)).get (proj i (reshapePerms S s (A3 y)).shape)) := by
    unfold broadcastTo
    rw [List.length_ofFn]
    have h1 : (A3 y).shape.take 2 ++ (List.ofFn N).reverse ++ (A3 y).shape.drop 3 =
        d :: m :: gridB N := by simp [gridB]
    rw [h1, if_pos (by rw [hr]; exact bshape_stretch hst)]
  rw [hb, ok_bind, ← flatten_true_A2]
  refine On.flatten (r := 0) (on_A2 (gridIx_ix κ) rfl fun i k => ?_) true
  have hix : Ix (k.val :: i.val :: gridIx κ) (d :: m :: gridB N) :=
    .cons k.2 (.cons i.2 (gridIx_ix κ))
  rw [of_get hix, hr]
  have hp := ix_stretch hix hst
  unfold reshapePerms
  rw [of_get (by simpa using hp)]
  have hp2 : proj (k.val :: i.val :: gridIx κ) (d :: m :: ithFactorial S s (N s)) =
      k.val :: i.val :: proj (gridIx κ) (ithFactorial S s (N s)) := by
    rw [proj_cons, proj_cons, proj_one k.2, proj_one i.2]
  rw [hp2]
  have h3 : (k.val :: i.val :: proj (gridIx κ) (ithFactorial S s (N s))).drop (2 + S) = [] := by
    refine List.drop_eq_nil_of_le ?_
    simp [proj, ithFactorial]
    omega
  have h4 : (k.val :: i.val :: proj (gridIx κ) (ithFactorial S s (N s))).getD (2 + (S - 1 - s)) 0 =
      κ s := by
    rw [Nat.add_comm, List.getD_cons_succ, List.getD_cons_succ, proj_place]
  rw [h3, h4]
  exact A3_get y (κ s).2 i.2 k.2

theorem gridPermsAll_ofFn {T : ℕ} (nperms : List ℕ) (s : ℕ) {A C : Fin T → Arr ℝ}
    (h : ∀ t : Fin T, gridPerms nperms (s + t) (A t) = .ok (C t)) :
    gridPermsAll nperms s (List.ofFn A) = .ok (List.ofFn C) := by
  induction T generalizing s with
  | zero => rfl
  | succ T ih =>
    rw [List.ofFn_succ, List.ofFn_succ]
    unfold gridPermsAll
    have h0 : gridPerms nperms s (A 0) = .ok (C 0) := h 0
    have hr := ih (s + 1) (A := fun t => A t.succ) (C := fun t => C t.succ) fun t => by
      have := h t.succ
      rwa [Fin.val_succ, Nat.add_comm t.val, ← Nat.add_assoc] at this
    rw [h0, ok_bind, hr]
    rfl

/-! ### Signs -/

theorem gridSigns_grid {N : Fin S → ℕ} [Nonempty (∀ s, Fin (N s))] (s : Fin S) {k : ℕ}
    (hk : N s = (getLexicographicSigns k).length) {X : Arr ℝ} {f : (∀ s, Fin (N s)) → ℝ}
    (hX : ∀ κ, On (gridB N) (gridIx κ) 1 X (A1 fun _ : Fin 1 => f κ)) :
    ∃ Y, X.zip (· * ·) (gridSigns S s k) = .ok Y ∧ ∀ κ, On (gridB N) (gridIx κ) 1 Y
      (A1 fun _ : Fin 1 => f κ * (getLexicographicSigns k).getD (κ s) 0) := by
  have hs : X.shape = 1 :: gridB N := (hX (Classical.arbitrary _)).shape
  have hst : Stretch (1 :: gridB N) (1 :: ithFactorial S s (getLexicographicSigns k).length) := by
    rw [← hk]
    exact .cons (.inl rfl) (stretch_ith N s)
  have hg : (gridSigns S s k).shape = 1 :: ithFactorial S s (getLexicographicSigns k).length := rfl
  refine ⟨_, zip_of_eq _ (s := 1 :: gridB N) (by rw [hs, hg]; exact bshape_stretch hst), fun κ => ?_⟩
  refine on_A1 (gridIx_ix κ) rfl fun i => ?_
  have hi : i.val = 0 := by omega
  rw [hi]
  have hix : Ix (0 :: gridIx κ) (1 :: gridB N) := .cons one_pos (gridIx_ix κ)
  rw [of_get hix, hs, proj_id hix, hg]
  have h1 : X.get (0 :: gridIx κ) = f κ := by
    rw [show 0 :: gridIx κ = [0] ++ gridIx κ from rfl, (hX κ).get [0] rfl, A1_get _ one_pos]
  have h2 : (gridSigns S s k).get (proj (0 :: gridIx κ)
      (1 :: ithFactorial S s (getLexicographicSigns k).length)) =
      (getLexicographicSigns k).getD (κ s) 0 := by
    unfold gridSigns
    rw [of_get (ix_stretch hix hst), proj_cons, if_pos rfl, Nat.add_comm 1, List.getD_cons_succ, ← hk,
      proj_place]
  rw [h1, h2]

/-- The sign of the permutation of a species at a point of the grid. -/
noncomputable def gridSign {N : Fin S → ℕ} (ks : Fin S → ℕ) (κ : ∀ s, Fin (N s)) (s : Fin S) : ℝ :=
  (getLexicographicSigns (ks s)).getD (κ s) 0

/-- The signs of the species from number `i` on, multiplied one after the other. -/
theorem multiplyGridSigns_grid {N : Fin S → ℕ} [Nonempty (∀ s, Fin (N s))] (ks : Fin S → ℕ)
    (hk : ∀ s, N s = (getLexicographicSigns (ks s)).length) {T : ℕ} (i : ℕ) (hT : i + T = S)
    (X : Arr ℝ) (f : (∀ s, Fin (N s)) → ℝ)
    (hX : ∀ κ, On (gridB N) (gridIx κ) 1 X (A1 fun _ : Fin 1 => f κ)) :
    ∃ Y, multiplyGridSigns S i (List.ofFn fun t : Fin T => ks ⟨i + t, by omega⟩) X = .ok Y ∧
      ∀ κ, On (gridB N) (gridIx κ) 1 Y (A1 fun _ : Fin 1 =>
        (List.ofFn fun t : Fin T => gridSign ks κ ⟨i + t, by omega⟩).foldl (· * ·) (f κ)) := by
  induction T generalizing i X f with
  | zero => exact ⟨X, rfl, hX⟩
  | succ T ih =>
    obtain ⟨Y, hY, hon⟩ := gridSigns_grid ⟨i, by omega⟩ (hk ⟨i, by omega⟩) hX
    obtain ⟨Z, hZ, hon'⟩ := ih (i + 1) (by omega) Y _ hon
    have he : ∀ t : Fin T, (⟨i + 1 + t.val, by omega⟩ : Fin S) = ⟨i + t.succ.val, by simp; omega⟩ :=
      fun t => Fin.ext (by simp; omega)
    refine ⟨Z, ?_, fun κ => ?_⟩
    · rw [List.ofFn_succ]
      unfold multiplyGridSigns
      have h0 : X.zip (· * ·) (gridSigns S i (ks ⟨i + (0 : Fin (T + 1)), by simp; omega⟩)) = .ok Y := hY
      rw [h0, ok_bind]
      simp only [he] at hZ
      exact hZ
    · have h1 := hon' κ
      rw [List.ofFn_succ, List.foldl_cons]
      simp only [he] at h1
      exact h1

/-! ### Sums over the grid -/

/-- The sum of a function of the indices of a shape. -/
def total : List ℕ → (List ℕ → ℝ) → ℝ
  | [], f => f []
  | k :: s, f => total s fun i => ∑ t : Fin k, f (t.val :: i)

theorem total_congr {s : List ℕ} {f g : List ℕ → ℝ} (h : ∀ i, Ix i s → f i = g i) :
    total s f = total s g := by
  induction s generalizing f g with
  | nil => exact h [] .nil
  | cons k s ih => exact ih fun i hi => Finset.sum_congr rfl fun t _ => h _ (.cons t.2 hi)

theorem sumLast_total (k : ℕ) (X : Arr ℝ) (hX : X.shape.length = k) :
    sumLast k X = A0 (total X.shape X.get) := by
  induction k generalizing X with
  | zero =>
    have : X.shape = [] := List.length_eq_zero_iff.1 hX
    refine eq_A0 this ?_
    rw [this]
    rfl
  | succ k ih =>
    match hs : X.shape with
    | [] => rw [hs] at hX; simp at hX
    | l :: s =>
      have h1 : (X.reduce List.sum 0 false).shape = s := by
        simp [Arr.reduce, hs]
      rw [sumLast, ih _ (by rw [h1]; rw [hs] at hX; simpa using hX), h1]
      congr 1
      refine total_congr fun i hi => ?_
      have h2 : Ix i (X.shape.eraseIdx 0) := by rw [hs]; exact hi
      simp only [Arr.reduce, Bool.false_eq_true, if_false]
      rw [of_get h2, hs]
      simp only [List.getD_cons_zero]
      rw [map_range_eq_ofFn _ (fun t : Fin l => X.get (t.val :: i)) fun t => rfl, List.sum_ofFn]

theorem total_grid (N : Fin S → ℕ) (f : List ℕ → ℝ) :
    total (gridB N) f = ∑ κ : ∀ s, Fin (N s), f (gridIx κ) := by
  induction S generalizing f with
  | zero =>
    rw [Fintype.sum_unique]
    rfl
  | succ S ih =>
    have h1 : gridB N = N (Fin.last S) :: gridB fun s => N s.castSucc := by
      unfold gridB
      rw [List.ofFn_succ', List.concat_eq_append, List.reverse_append]
      rfl
    rw [h1, total, ih, ← Equiv.sum_comp (Fin.snocEquiv fun s => Fin (N s)), Fintype.sum_prod_type,
      Finset.sum_comm]
    refine Finset.sum_congr rfl fun κ _ => Finset.sum_congr rfl fun t _ => ?_
    congr 1
    unfold gridIx
    rw [List.ofFn_succ' (n := S), List.concat_eq_append, List.reverse_append]
    simp [Fin.snocEquiv]

/-! ### The antisymmetrization -/

/-- The features of the permuted particles of a species. -/
noncomputable def permuted (x : Stream1 n d) (κ : ∀ s, Fin (permutationList (n s)).length)
    (s : Fin (K + 1)) : Fin (n s * d) → ℝ :=
  rowMajor fun i => x ⟨s, permIndex (n s) (κ s) i⟩

theorem generic_one (hn : ∀ s, n s ≠ 0) (r : ResNetDesc) (PA : ℕ → ℕ → ResNetA) (P : ResNetParams)
    (hP : PA 0 0 = resA r P (∑ s, n s * d) 1) (x : Stream1 n d) :
    antisymA .generic r PA (List.ofFn fun s => A2 fun i : Fin (n s) => x ⟨s, i⟩) =
      .ok (A0 (genericAntisymmetrizeSlog (fun l => r.apply P 1 l.get) fun s i => x ⟨s, i⟩)) := by
  set N : Fin (K + 1) → ℕ := fun s => (permutationList (n s)).length with hN
  have hne : Nonempty (∀ s, Fin (N s)) := ⟨fun s => (permIndex (n s)).symm 1⟩
  unfold antisymA
  simp only
  unfold genericA
  rw [mapM_ofFn (C := fun s => A3 fun (p : Fin (N s)) i k => x ⟨s, permIndex (n s) p i⟩ k)
    fun s => takePerms_A2 (hn s) _, ok_bind]
  have hnp : ((List.ofFn fun s => A3 fun (p : Fin (N s)) i k => x ⟨s, permIndex (n s) p i⟩ k).map
      fun x => x.shape.getD 2 0) = List.ofFn N := by
    rw [List.map_ofFn]
    rfl
  rw [hnp]
  choose Y hY hon using fun s => gridPerms_grid (N := N) s
    fun p i k => x ⟨s, permIndex (n s) p i⟩ k
  rw [gridPermsAll_ofFn _ 0 (C := Y) fun s => by rw [Nat.zero_add]; exact hY s, ok_bind]
  obtain ⟨Z, hZ, honZ⟩ := uniform (F := concat 0 (List.ofFn Y)) (b := gridIx) (B := gridB N) (r := 1)
    (g := fun κ => A1 fun q : Fin (∑ s, n s * d) =>
      permuted x κ (finSigmaFinEquiv.symm q).1 (finSigmaFinEquiv.symm q).2)
    fun κ => by
      rw [← concat_A1 (permuted x κ)]
      refine On.concat ?_ one_pos
      rw [List.forall₂_iff_get]
      exact ⟨by simp, fun i h1 h2 => by
        rw [List.get_ofFn, List.get_ofFn]
        exact hon _ κ⟩
  rw [hZ, ok_bind]
  obtain ⟨O, hO, honO⟩ := uniform (F := resNetA r (PA 0 0) 1 Z) (b := gridIx) (B := gridB N) (r := 1)
    (g := fun κ => A1 (r.apply P 1 fun q : Fin (∑ s, n s * d) =>
      permuted x κ (finSigmaFinEquiv.symm q).1 (finSigmaFinEquiv.symm q).2))
    fun κ => by
      have h := on_resNet (r := 0) r (PA 0 0) 1 (honZ κ)
      rw [hP, resNet_A1] at h
      rw [hP]
      exact h
  rw [hO, ok_bind]
  have hc : ∀ g : Fin 1 → ℝ, g = fun _ => g 0 := fun g => by
    funext j
    exact congrArg g (Fin.ext (by omega))
  obtain ⟨W, hW, honW⟩ := multiplyGridSigns_grid (N := N) n (fun s => (length_signs (n s)).symm) 0
    (T := K + 1) (by omega) O _ fun κ => by
      have h := honO κ
      rw [hc (r.apply P 1 _)] at h
      exact h
  simp only [Nat.zero_add] at hW honW
  have hms : ((List.ofFn fun s => A2 fun i : Fin (n s) => x ⟨s, i⟩).map fun x => x.shape.getD 1 0) =
      List.ofFn n := by
    rw [List.map_ofFn]
    rfl
  rw [hms, List.length_ofFn]
  have hW' : multiplyGridSigns (K + 1) 0 (List.ofFn n) O = .ok W := hW
  rw [hW', ok_bind]
  have hsW : W.shape = 1 :: gridB N := (honW (Classical.arbitrary _)).shape
  show Except.ok _ = Except.ok _
  rw [sumLast_total (K + 1 + 1) W (by rw [hsW, List.length_cons, gridB_length]), map_A0, hsW, total,
    total_grid]
  congr 2
  unfold genericAntisymmetrizeSlog genericAntisymmetrize
  congr 2
  refine Finset.sum_congr rfl fun κ _ => Finset.sum_congr rfl fun t _ => ?_
  have ht : t = 0 := Fin.ext (by omega)
  subst ht
  have h1 := (honW κ).get [0] rfl
  rw [A1_get _ one_pos] at h1
  rw [show ((0 : Fin 1).val :: gridIx κ) = [0] ++ gridIx κ from rfl, h1]
  simp only [parallelPermutations]
  congr 1
  have h2 : (List.ofFn fun s => reshapeRow (takeRows (fun i => x ⟨s, i⟩)
      ((permutationList (n s)).get (κ s)))) =
      List.ofFn fun s => List.ofFn (permuted x κ s) := by
    congr 1
    funext s
    rw [get_permutationList, takeRows_permToList, reshapeRow_eq]
    rfl
  rw [h2, apply_flatten]

end Verif.Arrays
