import Verif.Model.Arrays

/-!
How the array operations act on the part of an array at an index of its leading axes.
-/

namespace Verif.Arrays
open Verif.Slog

variable {α β γ : Type} [Inhabited α] [Inhabited β] [Inhabited γ]

theorem ix_append {j s b B : List ℕ} (h : j.length = s.length) :
    Ix (j ++ b) (s ++ B) ↔ Ix j s ∧ Ix b B := by
  induction j generalizing s with
  | nil =>
    cases s with
    | nil => simp [Ix]
    | cons => simp at h
  | cons i j ih =>
    cases s with
    | nil => simp at h
    | cons k s =>
      simp only [List.length_cons, Nat.add_right_cancel_iff] at h
      simp [Ix, List.forall₂_cons, and_assoc, ← ih h]

theorem insertIdx_append_left {l : List ℕ} {p : ℕ} (h : p ≤ l.length) (a : ℕ) (B : List ℕ) :
    (l ++ B).insertIdx p a = l.insertIdx p a ++ B := by
  induction p generalizing l with
  | zero => rfl
  | succ p ih =>
    cases l with
    | nil => simp at h
    | cons k l =>
      simp only [List.length_cons, Nat.add_le_add_iff_right] at h
      simp only [List.cons_append, List.insertIdx_succ_cons, ih h]

theorem modify_append_left {l : List ℕ} {p : ℕ} (h : p < l.length) (f : ℕ → ℕ) (B : List ℕ) :
    (l ++ B).modify p f = l.modify p f ++ B := by
  induction p generalizing l with
  | zero =>
    cases l with
    | nil => simp at h
    | cons k l => rfl
  | succ p ih =>
    cases l with
    | nil => simp at h
    | cons k l =>
      simp only [List.length_cons, Nat.add_lt_add_iff_right] at h
      simp only [List.cons_append, List.modify_succ_cons, ih h]

/-- `x` is the part of `X` at index `b` of the leading axes `B`, and has `r` axes. -/
structure On (B b : List ℕ) (r : ℕ) (X x : Arr α) : Prop where
  ix : Ix b B
  shape : X.shape = x.shape ++ B
  get : ∀ j, j.length = r → X.get (j ++ b) = x.get j
  rank : x.shape.length = r

/-- Both raise the same exception, or both give values in a relation. -/
inductive ERel {δ ε : Type} (R : δ → ε → Prop) : Except String δ → Except String ε → Prop
  | ok {a : δ} {b : ε} (h : R a b) : ERel R (.ok a) (.ok b)
  | error (e : String) : ERel R (.error e) (.error e)

section erel
variable {δ ε δ' ε' : Type} {R : δ → ε → Prop} {S : δ' → ε' → Prop}

theorem ERel.bind {m : Except String δ} {m' : Except String ε} (h : ERel R m m')
    {f : δ → Except String δ'} {f' : ε → Except String ε'}
    (hf : ∀ a a', R a a' → ERel S (f a) (f' a')) : ERel S (m >>= f) (m' >>= f') := by
  cases h with
  | ok h => exact hf _ _ h
  | error e => exact .error e

theorem ERel.pure {a : δ} {b : ε} (h : R a b) : ERel R (Pure.pure a) (Pure.pure b) := .ok h

theorem ERel.mapM {f : δ → Except String δ'} {f' : ε → Except String ε'} {l : List δ} {l' : List ε}
    (h : List.Forall₂ R l l') (hf : ∀ a a', R a a' → ERel S (f a) (f' a')) :
    ERel (List.Forall₂ S) (l.mapM f) (l'.mapM f') := by
  induction h with
  | nil => exact .ok .nil
  | cons h _ ih =>
    simp only [List.mapM_cons]
    exact (hf _ _ h).bind fun a a' ha => ih.bind fun l l' hl => .pure (.cons ha hl)

theorem ERel.treeMap2 {δ'' ε'' : Type} {T : δ'' → ε'' → Prop} {f : δ → δ' → Except String δ''}
    {f' : ε → ε' → Except String ε''} {l : List δ} {l' : List ε} {k : List δ'} {k' : List ε'}
    (h : List.Forall₂ R l l') (hk : List.Forall₂ S k k')
    (hf : ∀ a a' c c', R a a' → S c c' → ERel T (f a c) (f' a' c')) :
    ERel (List.Forall₂ T) (treeMap2 f l k) (treeMap2 f' l' k') := by
  induction h generalizing k k' with
  | nil =>
    cases hk with
    | nil => exact .ok .nil
    | cons => exact .error _
  | cons h _ ih =>
    cases hk with
    | nil => exact .error _
    | cons hc hk =>
      simp only [Arrays.treeMap2]
      exact (hf _ _ _ _ h hc).bind fun a a' ha => (ih hk).bind fun l l' hl => .pure (.cons ha hl)

theorem ERel.of_map {m : Except String δ} {m' : Except String ε} (h : ERel R m m')
    {f : δ → δ'} {f' : ε → ε'} (hf : ∀ a a', R a a' → S (f a) (f' a')) :
    ERel S (f <$> m) (f' <$> m') := by
  cases h with
  | ok h => exact .ok (hf _ _ h)
  | error e => exact .error e

end erel

theorem Arr.off' (a : Arr α) {i : List ℕ} (h : ¬ Ix i a.shape) : a.get i = default := a.off i h

theorem on_of {B b s : List ℕ} {r : ℕ} {g h : List ℕ → α} (hb : Ix b B) (hr : s.length = r)
    (hg : ∀ j, j.length = r → Ix j s → g (j ++ b) = h j) :
    On B b r (Arr.of (s ++ B) g) (Arr.of s h) := by
  refine ⟨hb, rfl, fun j hj => ?_, hr⟩
  have h1 := ix_append (b := b) (B := B) (hj.trans hr.symm)
  unfold Arr.of
  by_cases hjs : Ix j s
  · simp only [h1.2 ⟨hjs, hb⟩, hjs, if_true]
    exact hg j hj hjs
  · have : ¬ Ix (j ++ b) (s ++ B) := fun h => hjs (h1.1 h).1
    simp only [this, hjs, if_false]

theorem on_of' {B b s t : List ℕ} {r : ℕ} {g h : List ℕ → α} (hb : Ix b B) (hr : s.length = r)
    (ht : t = s ++ B) (hg : ∀ j, j.length = r → Ix j s → g (j ++ b) = h j) :
    On B b r (Arr.of t g) (Arr.of s h) := by
  subst ht
  exact on_of hb hr hg

theorem On.part {B b : List ℕ} {r : ℕ} {X x : Arr α} (h : On B b r X x) : X.part b = x := by
  have hl : b.length = B.length := h.ix.length_eq
  obtain ⟨shape, get, off⟩ := x
  have hs := h.shape
  simp only at hs
  have h1 : X.shape.take (X.shape.length - b.length) = shape := by
    rw [hs, List.length_append, hl, Nat.add_sub_cancel, List.take_left]
  unfold Arr.part Arr.of
  simp only [Arr.mk.injEq, h1, true_and]
  funext j
  by_cases hj : Ix j shape
  · rw [if_pos hj]
    exact h.get j (hj.length_eq.trans h.rank)
  · rw [if_neg hj, off j hj]

theorem on_part {B b s : List ℕ} {X : Arr α} (hb : Ix b B) (hs : X.shape = s ++ B) :
    On B b s.length X (X.part b) := by
  have hl : b.length = B.length := hb.length_eq
  have h1 : X.shape.take (X.shape.length - b.length) = s := by
    rw [hs, List.length_append, hl, Nat.add_sub_cancel, List.take_left]
  refine ⟨hb, ?_, fun j hj => ?_, ?_⟩
  · show X.shape = X.shape.take (X.shape.length - b.length) ++ B
    rw [h1, hs]
  · unfold Arr.part Arr.of
    simp only [h1]
    split_ifs with h2
    · rfl
    · exact X.off _ fun h3 => h2 ((ix_append hj).1 (hs ▸ h3)).1
  · show (X.shape.take (X.shape.length - b.length)).length = _
    rw [h1]

variable {B b : List ℕ} {r : ℕ} {X x : Arr α}

theorem On.map (h : On B b r X x) (f : α → β) : On B b r (X.map f) (x.map f) := by
  refine on_of' h.ix h.rank h.shape fun j hj _ => ?_
  rw [h.get j hj]

theorem On.getD (h : On B b r X x) {p : ℕ} (hp : p < r) : X.shape.getD p 0 = x.shape.getD p 0 := by
  rw [h.shape, List.getD_append _ _ _ _ (by rw [h.rank]; exact hp)]

theorem On.expand (h : On B b r X x) {p : ℕ} (hp : p ≤ r) :
    On B b (r + 1) (X.expand p) (x.expand p) := by
  refine on_of' h.ix ?_ ?_ fun j hj _ => ?_
  · rw [List.length_insertIdx_of_le_length (by rw [h.rank]; exact hp), h.rank]
  · rw [h.shape, insertIdx_append_left (by rw [h.rank]; exact hp)]
  · rw [List.eraseIdx_append_of_lt_length (by omega)]
    exact h.get _ (by rw [List.length_eraseIdx_of_lt (by omega), hj]; rfl)

theorem On.reduce_keep (h : On B b r X x) (f : List α → β) {p : ℕ} (hp : p < r) :
    On B b r (X.reduce f p true) (x.reduce f p true) := by
  unfold Arr.reduce
  simp only [if_true, h.getD hp]
  refine on_of' h.ix ?_ ?_ fun j hj _ => ?_
  · rw [List.length_set, h.rank]
  · rw [h.shape, List.set_append_left _ _ (by rw [h.rank]; exact hp)]
  · congr 1
    refine List.map_congr_left fun t _ => ?_
    rw [List.set_append_left _ _ (by omega)]
    exact h.get _ (by rw [List.length_set, hj])

theorem On.reduce (h : On B b (r + 1) X x) (f : List α → β) {p : ℕ} (hp : p < r + 1) :
    On B b r (X.reduce f p false) (x.reduce f p false) := by
  unfold Arr.reduce
  simp only [Bool.false_eq_true, if_false, h.getD hp]
  refine on_of' h.ix ?_ ?_ fun j hj _ => ?_
  · rw [List.length_eraseIdx_of_lt (by rw [h.rank]; exact hp), h.rank]; rfl
  · rw [h.shape, List.eraseIdx_append_of_lt_length (by rw [h.rank]; exact hp)]
  · congr 1
    refine List.map_congr_left fun t _ => ?_
    rw [insertIdx_append_left (by omega)]
    exact h.get _ (by rw [List.length_insertIdx_of_le_length (by omega), hj])

/-! ### Broadcasting -/

theorem bshape_self (s : List ℕ) : bshape s s = some s := by
  induction s with
  | nil => rfl
  | cons k s ih => simp [bshape, ih]

theorem bshape_nil (s : List ℕ) : bshape s [] = some s := by cases s <;> rfl

theorem bshape_append {s t : List ℕ} (h : s.length = t.length) (B : List ℕ) :
    bshape (s ++ B) (t ++ B) = (bshape s t).map (· ++ B) := by
  induction s generalizing t with
  | nil =>
    cases t with
    | nil => simp [bshape_self, bshape]
    | cons => simp at h
  | cons k s ih =>
    cases t with
    | nil => simp at h
    | cons l t =>
      simp only [List.length_cons, Nat.add_right_cancel_iff] at h
      simp only [List.cons_append, bshape, ih h]
      split_ifs <;> simp [Function.comp_def]

theorem bshape_append_ones {s t : List ℕ} (h : s.length = t.length) (B : List ℕ) :
    bshape (s ++ B) (t ++ List.replicate B.length 1) = (bshape s t).map (· ++ B) := by
  induction s generalizing t with
  | nil =>
    cases t with
    | nil =>
      have : ∀ B : List ℕ, bshape B (List.replicate B.length 1) = some B := by
        intro B
        induction B with
        | nil => rfl
        | cons k B ih => simp [bshape, List.replicate_succ, ih]
      simp [this, bshape]
    | cons => simp at h
  | cons k s ih =>
    cases t with
    | nil => simp at h
    | cons l t =>
      simp only [List.length_cons, Nat.add_right_cancel_iff] at h
      simp only [List.cons_append, bshape, ih h]
      split_ifs <;> simp [Function.comp_def]

theorem bshape_append_const {s t : List ℕ} (h : t.length ≤ s.length) (B : List ℕ) :
    bshape (s ++ B) t = (bshape s t).map (· ++ B) := by
  induction s generalizing t with
  | nil =>
    cases t with
    | nil => simp [bshape_nil]
    | cons => simp at h
  | cons k s ih =>
    cases t with
    | nil => simp [bshape_nil]
    | cons l t =>
      simp only [List.length_cons, Nat.add_le_add_iff_right] at h
      simp only [List.cons_append, bshape, ih h]
      split_ifs <;> simp [Function.comp_def]

theorem bshape_length {s t u : List ℕ} (h : bshape s t = some u) :
    u.length = max s.length t.length := by
  induction s generalizing t u with
  | nil =>
    simp only [bshape, Option.some.injEq] at h
    simp [← h]
  | cons k s ih =>
    cases t with
    | nil =>
      simp only [bshape, Option.some.injEq] at h
      simp [← h]
    | cons l t =>
      simp only [bshape] at h
      split_ifs at h <;> try (simp only [Option.map_eq_some_iff] at h)
      all_goals
        obtain ⟨v, hv, rfl⟩ := h
        have := ih hv
        simp only [List.length_cons]
        omega

theorem bshape_comm (s t : List ℕ) : bshape s t = bshape t s := by
  induction s generalizing t with
  | nil => rw [bshape_nil]; rfl
  | cons k s ih =>
    cases t with
    | nil => rfl
    | cons l t =>
      simp only [bshape, ih t]
      by_cases h1 : k = l
      · subst h1; simp
      · by_cases h2 : l = 1
        · by_cases h3 : k = 1
          · exact absurd (h3.trans h2.symm) h1
          · simp [h2, h3, eq_comm]
        · by_cases h3 : k = 1
          · subst h3; simp [h2, h1]
          · simp [h1, h2, h3, Ne.symm h1]

theorem proj_append {j s : List ℕ} (h : j.length = s.length) {b B : List ℕ} (hb : Ix b B) :
    proj (j ++ b) (s ++ B) = proj j s ++ b := by
  unfold proj
  rw [List.zipWith_append h]
  congr 1
  induction hb with
  | nil => rfl
  | cons h _ ih =>
    rw [List.zipWith_cons_cons, ih]
    congr 1
    split_ifs with h1
    · omega
    · rfl

theorem proj_length {i s : List ℕ} : (proj i s).length = min i.length s.length := by
  simp [proj]

theorem zip_comm (f : α → β → γ) (a : Arr α) (c : Arr β) :
    a.zip f c = c.zip (fun x y => f y x) a := by
  unfold Arr.zip
  rw [bshape_comm]

/-- The second operand of a broadcast: entries which belong to a part of the first operand. -/
structure Side (B b : List ℕ) (r : ℕ) (C c : Arr α) : Prop where
  shape : ∀ s, s.length = r → bshape (s ++ B) C.shape = (bshape s c.shape).map (· ++ B)
  rank : c.shape.length ≤ r
  get : ∀ j, j.length = r → C.get (proj (j ++ b) C.shape) = c.get (proj j c.shape)

theorem On.side (h : On B b r X x) : Side B b r X x := by
  refine ⟨fun s hs => ?_, h.rank.le, fun j hj => ?_⟩
  · rw [h.shape, bshape_append (hs.trans h.rank.symm)]
  · rw [h.shape, proj_append (hj.trans h.rank.symm) h.ix]
    exact h.get _ (by rw [proj_length, hj, h.rank, min_self])

theorem side_const (c : Arr α) (hc : c.shape.length ≤ r) : Side B b r c c := by
  refine ⟨fun s hs => bshape_append_const (by omega) B, hc, fun j hj => ?_⟩
  congr 1
  unfold proj
  rw [List.zipWith_eq_zipWith_take_min, List.zipWith_eq_zipWith_take_min (l₁ := j)]
  congr 1
  · rw [List.length_append, min_eq_right (by omega), min_eq_right (by omega),
      List.take_append_of_le_length (by omega)]
  · rw [List.length_append, min_eq_right (by omega), min_eq_right (by omega)]

theorem On.zip (h : On B b r X x) {C c : Arr β} (hc : Side B b r C c) (f : α → β → γ) :
    ERel (On B b r) (X.zip f C) (x.zip f c) := by
  unfold Arr.zip
  have h1 := hc.shape x.shape h.rank
  rw [← h.shape] at h1
  rw [h1]
  cases h2 : bshape x.shape c.shape with
  | none => exact .error _
  | some u =>
    have h3 := bshape_length h2
    have h4 := hc.rank
    have h5 : u.length = r := by rw [h3, h.rank]; omega
    refine .ok (on_of h.ix h5 fun j hj _ => ?_)
    rw [hc.get j hj, h.shape, proj_append (hj.trans h.rank.symm) h.ix,
      h.get _ (by rw [proj_length, hj, h.rank, min_self])]

theorem On.zip' (h : On B b r X x) {C c : Arr β} (hc : Side B b r C c) (f : β → α → γ) :
    ERel (On B b r) (C.zip f X) (c.zip f x) := by
  rw [zip_comm, zip_comm f c]
  exact h.zip hc _

/-! ### Parts of axes -/

theorem On.pick {Xs xs : List (Arr α)} (h : List.Forall₂ (On B b r) Xs xs) {p : ℕ} (hp : p < r)
    (j : List ℕ) (hj : j.length = r) : pick p Xs (j ++ b) = pick p xs j := by
  induction h generalizing j with
  | nil => rfl
  | cons h _ ih =>
    simp only [Arrays.pick, h.getD hp]
    rw [List.getD_append _ _ _ _ (by omega), h.get j hj, modify_append_left (by omega),
      ih _ (by rw [List.length_modify, hj])]

theorem On.concat {Xs xs : List (Arr α)} (h : List.Forall₂ (On B b r) Xs xs) {p : ℕ} (hp : p < r) :
    ERel (On B b r) (concat p Xs) (concat p xs) := by
  cases h with
  | nil => exact .error _
  | @cons X x Xs xs h hs =>
    have h1 : (∀ c ∈ Xs, c.shape.set p 0 = X.shape.set p 0) ↔
        ∀ c ∈ xs, c.shape.set p 0 = x.shape.set p 0 := by
      induction hs with
      | nil => simp
      | @cons Y y Ys ys hy _ ih =>
        simp only [List.forall_mem_cons, ih]
        refine and_congr_left fun _ => ?_
        rw [hy.shape, h.shape, List.set_append_left _ _ (by rw [hy.rank]; exact hp),
          List.set_append_left _ _ (by rw [h.rank]; exact hp), List.append_left_inj]
    have h2 : ∀ Xs xs : List (Arr α), List.Forall₂ (On B b r) Xs xs →
        (Xs.map fun c => c.shape.getD p 0) = xs.map fun c => c.shape.getD p 0 := by
      intro Xs xs hXs
      induction hXs with
      | nil => rfl
      | cons h _ ih => rw [List.map_cons, List.map_cons, ih, h.getD hp]
    have h2 := h2 _ _ (.cons h hs)
    simp only [Arrays.concat, h1, h2]
    split_ifs
    · refine .ok (on_of' h.ix ?_ ?_ fun j hj _ => ?_)
      · rw [List.length_set, h.rank]
      · rw [h.shape, List.set_append_left _ _ (by rw [h.rank]; exact hp)]
      · exact On.pick (.cons h hs) hp j hj
    · exact .error _

theorem On.slice (h : On B b r X x) {p : ℕ} (hp : p < r) (lo hi : ℕ) :
    On B b r (X.slice p lo hi) (x.slice p lo hi) := by
  refine on_of' h.ix ?_ ?_ fun j hj _ => ?_
  · rw [List.length_set, h.rank]
  · rw [h.shape, List.set_append_left _ _ (by rw [h.rank]; exact hp)]
  · rw [modify_append_left (by omega)]
    exact h.get _ (by rw [List.length_modify, hj])

theorem On.splitFrom (h : On B b r X x) {p : ℕ} (hp : p < r) (ks : List ℕ) (lo : ℕ) :
    List.Forall₂ (On B b r) (splitFrom p X lo ks) (splitFrom p x lo ks) := by
  induction ks generalizing lo with
  | nil =>
    simp only [Arrays.splitFrom, h.getD hp]
    exact .cons (h.slice hp _ _) .nil
  | cons k ks ih => exact .cons (h.slice hp _ _) (ih k)

theorem On.split (h : On B b r X x) {p : ℕ} (hp : p < r) (ks : List ℕ) :
    ERel (List.Forall₂ (On B b r)) (split p ks X) (split p ks x) := by
  unfold Arrays.split
  rw [h.getD hp]
  split_ifs
  · exact .ok (h.splitFrom hp _ _)
  · exact .error _

theorem On.splitEqual (h : On B b r X x) {p : ℕ} (hp : p < r) (k : ℕ) :
    ERel (List.Forall₂ (On B b r)) (splitEqual p k X) (splitEqual p k x) := by
  unfold Arrays.splitEqual
  rw [h.getD hp]
  split_ifs
  · exact h.split hp _
  · exact .error _

theorem On.swap (h : On B b r X x) {p q : ℕ} (hp : p < r) (hq : q < r) :
    On B b r (X.swap p q) (x.swap p q) := by
  have h1 : ∀ j : List ℕ, j.length = r → ∀ B : List ℕ, swapList p q (j ++ B) = swapList p q j ++ B := by
    intro j hj B
    unfold swapList
    rw [List.getD_append _ _ _ _ (by omega), List.getD_append _ _ _ _ (by omega),
      List.set_append_left _ _ (by omega), List.set_append_left _ _ (by rw [List.length_set]; omega)]
  have h2 : ∀ j : List ℕ, (swapList p q j).length = j.length := by
    intro j
    simp [swapList]
  refine on_of' h.ix ?_ ?_ fun j hj _ => ?_
  · rw [h2, h.rank]
  · rw [h.shape, h1 _ h.rank]
  · rw [h1 _ hj]
    exact h.get _ (by rw [h2, hj])

theorem On.squeeze (h : On B b (r + 1) X x) {p : ℕ} (hp : p < r + 1) :
    ERel (On B b r) (X.squeeze p) (x.squeeze p) := by
  unfold Arr.squeeze
  rw [h.getD hp]
  split_ifs
  · refine .ok (on_of' h.ix ?_ ?_ fun j hj _ => ?_)
    · rw [List.length_eraseIdx_of_lt (by rw [h.rank]; exact hp), h.rank]; rfl
    · rw [h.shape, List.eraseIdx_append_of_lt_length (by rw [h.rank]; exact hp)]
    · rw [insertIdx_append_left (by omega)]
      exact h.get _ (by rw [List.length_insertIdx_of_le_length (by omega), hj])
  · exact .error _

theorem ix_pos {b B : List ℕ} (h : Ix b B) : 0 ∉ B := by
  induction h with
  | nil => simp
  | cons h _ ih =>
    simp only [List.mem_cons, not_or]
    exact ⟨by omega, ih⟩

theorem On.flatten (h : On B b (r + 2) X x) (infer : Bool) :
    ERel (On B b (r + 1)) (flatten infer X) (flatten infer x) := by
  obtain ⟨k, m, rest, hx⟩ : ∃ k m rest, x.shape = k :: m :: rest := by
    have := h.rank
    match hx : x.shape with
    | [] => rw [hx] at this; simp at this
    | [_] => rw [hx] at this; simp at this
    | k :: m :: rest => exact ⟨k, m, rest, rfl⟩
  have hr : rest.length = r := by
    have := h.rank
    rw [hx] at this
    simpa using this
  have hX : X.shape = k :: m :: (rest ++ B) := by rw [h.shape, hx]; rfl
  unfold Arrays.flatten
  rw [hx, hX]
  simp only [List.mem_append, ix_pos h.ix, or_false]
  split_ifs
  · exact .error _
  · refine .ok (on_of' h.ix (by simp [hr]) rfl fun j hj _ => ?_)
    cases j with
    | nil => simp at hj
    | cons i j =>
      simp only [List.cons_append, List.headD_cons, List.tail_cons]
      exact h.get (i % k :: i / k :: j) (by simpa using hj)

theorem prod_pos {b B : List ℕ} (h : Ix b B) : 0 < B.prod := by
  induction h with
  | nil => simp
  | cons h _ ih =>
    rw [List.prod_cons]
    exact Nat.mul_pos (by omega) ih

theorem On.unflatten (h : On B b (r + 1) X x) (l k : ℕ) :
    ERel (On B b (r + 2)) (unflatten l k X) (unflatten l k x) := by
  obtain ⟨m, rest, hx⟩ : ∃ m rest, x.shape = m :: rest := by
    have := h.rank
    match hx : x.shape with
    | [] => rw [hx] at this; simp at this
    | m :: rest => exact ⟨m, rest, rfl⟩
  have hr : rest.length = r := by
    have := h.rank
    rw [hx] at this
    simpa using this
  have hX : X.shape = m :: (rest ++ B) := by rw [h.shape, hx]; rfl
  have h1 : (m :: (rest ++ B)).prod = (k :: l :: (rest ++ B)).prod ↔
      (m :: rest).prod = (k :: l :: rest).prod := by
    simp only [List.prod_cons, List.prod_append, ← mul_assoc]
    exact Nat.mul_left_inj (prod_pos h.ix).ne'
  unfold Arrays.unflatten
  rw [hx, hX]
  simp only [h1]
  split_ifs
  · refine .ok (on_of' h.ix (by simp [hr]) rfl fun j hj _ => ?_)
    match j, hj with
    | i :: t :: j, hj =>
      simp only [List.cons_append, List.headD_cons, List.getD_cons_succ, List.getD_cons_zero,
        List.drop_succ_cons, List.drop_zero]
      exact h.get ((t * k + i) :: j) (by simpa using hj)
  · exact .error _

theorem On.onSquares {X x : Arr ℝ} (h : On B b (r + 2) X x)
    (f : ∀ m : ℕ, Matrix (Fin m) (Fin m) ℝ → β) :
    ERel (On B b r) (onSquares f X) (onSquares f x) := by
  obtain ⟨k, m, rest, hx⟩ : ∃ k m rest, x.shape = k :: m :: rest := by
    have := h.rank
    match hx : x.shape with
    | [] => rw [hx] at this; simp at this
    | [_] => rw [hx] at this; simp at this
    | k :: m :: rest => exact ⟨k, m, rest, rfl⟩
  have hr : rest.length = r := by
    have := h.rank
    rw [hx] at this
    simpa using this
  have hX : X.shape = k :: m :: (rest ++ B) := by rw [h.shape, hx]; rfl
  unfold Arrays.onSquares
  rw [hx, hX]
  simp only
  split_ifs
  · refine .ok (on_of h.ix hr fun j hj _ => ?_)
    congr 2
    funext p q
    exact h.get (q.val :: p.val :: j) (by simp [hj])
  · exact .error _

theorem On.onRows {X x : Arr ℝ} (h : On B b (r + 2) X x)
    (f : ℕ → ℕ → (ℕ → ℕ → ℝ) → ℕ → ℕ → ℝ) (d' : ℕ) :
    On B b (r + 2) (onRows f d' X) (onRows f d' x) := by
  unfold Arrays.onRows
  rw [h.getD (by omega : 0 < r + 2), h.getD (by omega : 1 < r + 2)]
  refine on_of' h.ix ?_ ?_ fun j hj _ => ?_
  · rw [List.length_set, h.rank]
  · rw [h.shape, List.set_append_left _ _ (by rw [h.rank]; omega)]
  · match j, hj with
    | i :: t :: j, hj =>
      simp only [List.cons_append, List.headD_cons, List.getD_cons_succ, List.getD_cons_zero,
        List.drop_succ_cons, List.drop_zero]
      congr 1
      funext p q
      exact h.get (q :: p :: j) (by simpa using hj)

/-! ### A leading axis before the batch axes -/

/-- Both arrays have a leading axis of length `p`; behind it, `x` is the part of `X` at index `b`. -/
structure OnP (B b : List ℕ) (p r : ℕ) (X x : Arr α) : Prop where
  ix : Ix b B
  shape : ∃ s, s.length = r ∧ X.shape = s ++ (B ++ [p]) ∧ x.shape = s ++ [p]
  get : ∀ i < p, ∀ j, j.length = r → X.get (j ++ (b ++ [i])) = x.get (j ++ [i])

theorem OnP.left {p : ℕ} (h : OnP B b p r X x) {i : ℕ} (hi : i < p) :
    On (B ++ [p]) (b ++ [i]) r X (x.part [i]) := by
  obtain ⟨s, h1, h2, h3⟩ := h.shape
  have h4 : On [p] [i] s.length x (x.part [i]) := on_part (.cons hi .nil) h3
  refine ⟨(ix_append h.ix.length_eq).2 ⟨h.ix, .cons hi .nil⟩, ?_, fun j hj => ?_, by rw [h4.rank, h1]⟩
  · have h5 := h4.shape
    rw [h3, List.append_left_inj] at h5
    rw [h2, ← h5]
  · rw [h.get i hi j hj, h4.get j (hj.trans h1.symm)]

theorem OnP.right {p : ℕ} (h : OnP B b p r X x) {i : ℕ} (hi : i < p) :
    On [p] [i] r x (x.part [i]) := by
  obtain ⟨s, h1, h2, h3⟩ := h.shape
  have h4 : On [p] [i] s.length x (x.part [i]) := on_part (.cons hi .nil) h3
  rwa [h1] at h4

theorem OnP.of_parts {p : ℕ} {Y y : Arr β} (hb : Ix b B) (hp : 0 < p)
    (h : ∀ i < p, ∃ z, On (B ++ [p]) (b ++ [i]) r Y z ∧ On [p] [i] r y z) :
    OnP B b p r Y y := by
  refine ⟨hb, ?_, fun i hi j hj => ?_⟩
  · obtain ⟨z, h1, h2⟩ := h 0 hp
    exact ⟨z.shape, h1.rank, h1.shape, h2.shape⟩
  · obtain ⟨z, h1, h2⟩ := h i hi
    rw [h1.get j hj, h2.get j hj]

theorem OnP.lift {p r' : ℕ} (hp : 0 < p) {op : Arr α → Except String (Arr β)}
    (hop : ∀ B b X x, On B b r X x → ERel (On B b r') (op X) (op x)) (h : OnP B b p r X x) :
    ERel (OnP B b p r') (op X) (op x) := by
  have h1 : ∀ i, i < p → ERel (On (B ++ [p]) (b ++ [i]) r') (op X) (op (x.part [i])) :=
    fun i hi => hop _ _ _ _ (h.left hi)
  have h2 : ∀ i, i < p → ERel (On [p] [i] r') (op x) (op (x.part [i])) :=
    fun i hi => hop _ _ _ _ (h.right hi)
  have h3 := h1 0 hp
  have h4 := h2 0 hp
  cases hX : op X with
  | error e =>
    rw [hX] at h3
    cases h5 : op (x.part [0]) with
    | ok a => rw [h5] at h3; cases h3
    | error e' =>
      rw [h5] at h3 h4
      cases h3
      cases h6 : op x with
      | ok a => rw [h6] at h4; cases h4
      | error e'' => rw [h6] at h4; cases h4; exact .error _
  | ok Y =>
    rw [hX] at h3
    cases h5 : op (x.part [0]) with
    | error e => rw [h5] at h3; cases h3
    | ok a =>
      rw [h5] at h4
      cases h6 : op x with
      | error e => rw [h6] at h4; cases h4
      | ok y =>
        refine .ok (OnP.of_parts h.ix hp fun i hi => ?_)
        have h7 := h1 i hi
        have h8 := h2 i hi
        rw [hX] at h7
        rw [h6] at h8
        cases h9 : op (x.part [i]) with
        | error e => rw [h9] at h7; cases h7
        | ok z =>
          rw [h9] at h7 h8
          cases h7 with
          | ok h7 =>
          cases h8 with
          | ok h8 => exact ⟨z, h7, h8⟩

theorem OnP.liftList {p r' : ℕ} (hp : 0 < p) {op : List (Arr α) → Except String (Arr β)}
    (hop : ∀ B b Xs xs, List.Forall₂ (On B b r) Xs xs → ERel (On B b r') (op Xs) (op xs))
    {Xs xs : List (Arr α)} (hb : Ix b B) (h : List.Forall₂ (OnP B b p r) Xs xs) :
    ERel (OnP B b p r') (op Xs) (op xs) := by
  have hl : ∀ i, i < p → List.Forall₂ (On (B ++ [p]) (b ++ [i]) r) Xs (xs.map (·.part [i])) :=
    fun i hi => by
      rw [List.forall₂_map_right_iff]
      exact h.imp fun _ _ h => h.left hi
  have hr : ∀ i, i < p → List.Forall₂ (On [p] [i] r) xs (xs.map (·.part [i])) :=
    fun i hi => by
      clear hl
      induction h with
      | nil => exact .nil
      | cons h _ ih => exact .cons (h.right hi) ih
  have h1 : ∀ i, i < p → ERel (On (B ++ [p]) (b ++ [i]) r') (op Xs) (op (xs.map (·.part [i]))) :=
    fun i hi => hop _ _ _ _ (hl i hi)
  have h2 : ∀ i, i < p → ERel (On [p] [i] r') (op xs) (op (xs.map (·.part [i]))) :=
    fun i hi => hop _ _ _ _ (hr i hi)
  have h3 := h1 0 hp
  have h4 := h2 0 hp
  cases hX : op Xs with
  | error e =>
    rw [hX] at h3
    cases h5 : op (xs.map (·.part [0])) with
    | ok a => rw [h5] at h3; cases h3
    | error e' =>
      rw [h5] at h3 h4
      cases h3
      cases h6 : op xs with
      | ok a => rw [h6] at h4; cases h4
      | error e'' => rw [h6] at h4; cases h4; exact .error _
  | ok Y =>
    rw [hX] at h3
    cases h5 : op (xs.map (·.part [0])) with
    | error e => rw [h5] at h3; cases h3
    | ok a =>
      rw [h5] at h4
      cases h6 : op xs with
      | error e => rw [h6] at h4; cases h4
      | ok y =>
        refine .ok (OnP.of_parts hb hp fun i hi => ?_)
        have h7 := h1 i hi
        have h8 := h2 i hi
        rw [hX] at h7
        rw [h6] at h8
        cases h9 : op (xs.map (·.part [i])) with
        | error e => rw [h9] at h7; cases h7
        | ok z =>
          rw [h9] at h7 h8
          cases h7 with
          | ok h7 =>
          cases h8 with
          | ok h8 => exact ⟨z, h7, h8⟩

theorem On.toFront (h : On B b (r + 1) X x) {q : ℕ} (hq : q < r + 1) :
    OnP B b (x.shape.getD q 0) r (X.toFront q) (x.toFront q) := by
  have h0 : (x.shape.eraseIdx q).length = r := by
    rw [List.length_eraseIdx_of_lt (by rw [h.rank]; exact hq), h.rank]; rfl
  have h1 : X.shape.eraseIdx q ++ [X.shape.getD q 0] =
      x.shape.eraseIdx q ++ (B ++ [x.shape.getD q 0]) := by
    rw [h.getD hq, h.shape, List.eraseIdx_append_of_lt_length (by rw [h.rank]; exact hq),
      List.append_assoc]
  refine ⟨h.ix, ⟨_, h0, h1, rfl⟩, fun i hi j hj => ?_⟩
  have h2 : (Ix (j ++ (b ++ [i])) (X.shape.eraseIdx q ++ [X.shape.getD q 0])) ↔
      Ix (j ++ [i]) (x.shape.eraseIdx q ++ [x.shape.getD q 0]) := by
    rw [h1, ix_append (hj.trans h0.symm), ix_append (hj.trans h0.symm), ix_append h.ix.length_eq]
    simp [h.ix, Ix]
  unfold Arr.toFront Arr.of
  simp only [h2]
  split_ifs
  · have h3 : (j ++ (b ++ [i])).dropLast = j ++ b := by
      rw [← List.append_assoc, List.dropLast_concat]
    have h4 : (j ++ (b ++ [i])).getLastD 0 = i := by
      rw [← List.append_assoc]; simp
    rw [h3, h4, List.dropLast_concat, List.getLastD_concat, insertIdx_append_left (by omega)]
    exact h.get _ (by rw [List.length_insertIdx_of_le_length (by omega), hj])
  · rfl

theorem OnP.toLast {p : ℕ} (h : OnP B b p r X x) : On B b (r + 1) X.toLast x.toLast := by
  obtain ⟨s, h1, h2, h3⟩ := h.shape
  have h4 : X.shape.getLastD 0 = p ∧ X.shape.dropLast = s ++ B := by
    rw [h2, ← List.append_assoc]
    simp
  have h5 : x.shape.getLastD 0 = p ∧ x.shape.dropLast = s := by
    rw [h3]
    simp
  unfold Arr.toLast
  rw [h4.1, h4.2, h5.1, h5.2]
  refine on_of' h.ix (by simp [h1]) rfl fun j hj hx => ?_
  cases hx with
  | @cons i _ j _ hi hj' =>
    simp only [List.cons_append, List.tail_cons, List.headD_cons, List.append_assoc]
    exact h.get i hi j (by simpa using hj)

theorem OnP.reduceFront {p : ℕ} (h : OnP B b p r X x) (f : List α → β) :
    On B b r (X.reduceFront f) (x.reduceFront f) := by
  obtain ⟨s, h1, h2, h3⟩ := h.shape
  have h4 : X.shape.getLastD 0 = p ∧ X.shape.dropLast = s ++ B := by
    rw [h2, ← List.append_assoc]
    simp
  have h5 : x.shape.getLastD 0 = p ∧ x.shape.dropLast = s := by
    rw [h3]
    simp
  unfold Arr.reduceFront
  rw [h4.1, h4.2, h5.1, h5.2]
  refine on_of h.ix h1 fun j hj _ => ?_
  congr 1
  refine List.map_congr_left fun t ht => ?_
  rw [List.append_assoc]
  exact h.get t (List.mem_range.1 ht) j hj

end Verif.Arrays
