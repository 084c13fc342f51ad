import Verif.Lemmas.Batched
import Mathlib.Algebra.BigOperators.Fin

/-!
Arrays with few axes as functions of indices, and the array operations on them.
-/

namespace Verif.Arrays
open Verif.Slog

variable {α β γ : Type} [Inhabited α] [Inhabited β] [Inhabited γ]

theorem arr_ext {X Y : Arr α} (hs : X.shape = Y.shape)
    (hg : ∀ i, Ix i X.shape → X.get i = Y.get i) : X = Y := by
  obtain ⟨s, g, o⟩ := X
  obtain ⟨s', g', o'⟩ := Y
  simp only at hs
  subst hs
  congr
  funext i
  by_cases h : Ix i s
  · exact hg i h
  · rw [o i h, o' i h]

theorem of_get {s : List ℕ} {f : List ℕ → α} {i : List ℕ} (h : Ix i s) : (Arr.of s f).get i = f i := by
  simp only [Arr.of, h, if_true]

@[simp] theorem of_shape (s : List ℕ) (f : List ℕ → α) : (Arr.of s f).shape = s := rfl

/-- A number. -/
noncomputable def A0 (x : α) : Arr α := .of [] fun _ => x

/-- An array with one axis. -/
noncomputable def A1 {a : ℕ} (x : Fin a → α) : Arr α :=
  .of [a] fun i => if h : i.getD 0 0 < a then x ⟨_, h⟩ else default

/-- An array with two axes: `x i j` is the entry in row `i` and column `j`. -/
noncomputable def A2 {a b : ℕ} (x : Fin a → Fin b → α) : Arr α :=
  .of [b, a] fun i => if h : i.getD 1 0 < a ∧ i.getD 0 0 < b then x ⟨_, h.1⟩ ⟨_, h.2⟩ else default

/-- An array with three axes. -/
noncomputable def A3 {a b c : ℕ} (x : Fin a → Fin b → Fin c → α) : Arr α :=
  .of [c, b, a] fun i => if h : i.getD 2 0 < a ∧ i.getD 1 0 < b ∧ i.getD 0 0 < c then
    x ⟨_, h.1⟩ ⟨_, h.2.1⟩ ⟨_, h.2.2⟩ else default

/-- An array with four axes. -/
noncomputable def A4 {a b c d : ℕ} (x : Fin a → Fin b → Fin c → Fin d → α) : Arr α :=
  .of [d, c, b, a] fun i => if h : i.getD 3 0 < a ∧ i.getD 2 0 < b ∧ i.getD 1 0 < c ∧ i.getD 0 0 < d then
    x ⟨_, h.1⟩ ⟨_, h.2.1⟩ ⟨_, h.2.2.1⟩ ⟨_, h.2.2.2⟩ else default

section
variable {a b c d : ℕ}

@[simp] theorem A0_shape (x : α) : (A0 x).shape = [] := rfl
@[simp] theorem A1_shape (x : Fin a → α) : (A1 x).shape = [a] := rfl
@[simp] theorem A2_shape (x : Fin a → Fin b → α) : (A2 x).shape = [b, a] := rfl
@[simp] theorem A3_shape (x : Fin a → Fin b → Fin c → α) : (A3 x).shape = [c, b, a] := rfl
@[simp] theorem A4_shape (x : Fin a → Fin b → Fin c → Fin d → α) : (A4 x).shape = [d, c, b, a] := rfl

theorem A0_get (x : α) : (A0 x).get [] = x := of_get .nil

theorem A1_get (x : Fin a → α) {i : ℕ} (hi : i < a) : (A1 x).get [i] = x ⟨i, hi⟩ := by
  unfold A1
  rw [of_get (.cons hi .nil)]
  simp [hi]

theorem A2_get (x : Fin a → Fin b → α) {i j : ℕ} (hi : i < a) (hj : j < b) :
    (A2 x).get [j, i] = x ⟨i, hi⟩ ⟨j, hj⟩ := by
  unfold A2
  rw [of_get (.cons hj (.cons hi .nil))]
  simp [hi, hj]

theorem A3_get (x : Fin a → Fin b → Fin c → α) {i j k : ℕ} (hi : i < a) (hj : j < b) (hk : k < c) :
    (A3 x).get [k, j, i] = x ⟨i, hi⟩ ⟨j, hj⟩ ⟨k, hk⟩ := by
  unfold A3
  rw [of_get (.cons hk (.cons hj (.cons hi .nil)))]
  simp [hi, hj, hk]

theorem A4_get (x : Fin a → Fin b → Fin c → Fin d → α) {i j k l : ℕ} (hi : i < a) (hj : j < b)
    (hk : k < c) (hl : l < d) :
    (A4 x).get [l, k, j, i] = x ⟨i, hi⟩ ⟨j, hj⟩ ⟨k, hk⟩ ⟨l, hl⟩ := by
  unfold A4
  rw [of_get (.cons hl (.cons hk (.cons hj (.cons hi .nil))))]
  simp [hi, hj, hk, hl]

theorem eq_A0 {X : Arr α} {x : α} (hs : X.shape = []) (hg : X.get [] = x) : X = A0 x := by
  refine arr_ext hs fun i hi => ?_
  rw [hs] at hi
  cases hi
  rw [hg, A0_get]

theorem eq_A1 {X : Arr α} {x : Fin a → α} (hs : X.shape = [a])
    (hg : ∀ i : Fin a, X.get [i.val] = x i) : X = A1 x := by
  refine arr_ext hs fun i hi => ?_
  rw [hs] at hi
  match i, hi with
  | [i], .cons h .nil => rw [A1_get x h]; exact hg ⟨i, h⟩

theorem eq_A2 {X : Arr α} {x : Fin a → Fin b → α} (hs : X.shape = [b, a])
    (hg : ∀ (i : Fin a) (j : Fin b), X.get [j.val, i.val] = x i j) : X = A2 x := by
  refine arr_ext hs fun i hi => ?_
  rw [hs] at hi
  match i, hi with
  | [j, i], .cons h (.cons h' .nil) => rw [A2_get x h' h]; exact hg ⟨i, h'⟩ ⟨j, h⟩

theorem eq_A3 {X : Arr α} {x : Fin a → Fin b → Fin c → α} (hs : X.shape = [c, b, a])
    (hg : ∀ (i : Fin a) (j : Fin b) (k : Fin c), X.get [k.val, j.val, i.val] = x i j k) : X = A3 x := by
  refine arr_ext hs fun i hi => ?_
  rw [hs] at hi
  match i, hi with
  | [k, j, i], .cons h (.cons h' (.cons h'' .nil)) =>
    rw [A3_get x h'' h' h]; exact hg ⟨i, h''⟩ ⟨j, h'⟩ ⟨k, h⟩

theorem eq_A4 {X : Arr α} {x : Fin a → Fin b → Fin c → Fin d → α} (hs : X.shape = [d, c, b, a])
    (hg : ∀ (i : Fin a) (j : Fin b) (k : Fin c) (l : Fin d),
      X.get [l.val, k.val, j.val, i.val] = x i j k l) : X = A4 x := by
  refine arr_ext hs fun i hi => ?_
  rw [hs] at hi
  match i, hi with
  | [l, k, j, i], .cons h (.cons h' (.cons h'' (.cons h''' .nil))) =>
    rw [A4_get x h''' h'' h' h]; exact hg ⟨i, h'''⟩ ⟨j, h''⟩ ⟨k, h'⟩ ⟨l, h⟩

theorem ix2 {i : Fin a} {j : Fin b} : Ix [j.val, i.val] [b, a] := .cons j.2 (.cons i.2 .nil)
theorem ix3 {i : Fin a} {j : Fin b} {k : Fin c} : Ix [k.val, j.val, i.val] [c, b, a] :=
  .cons k.2 (.cons j.2 (.cons i.2 .nil))
theorem ix4 {i : Fin a} {j : Fin b} {k : Fin c} {l : Fin d} :
    Ix [l.val, k.val, j.val, i.val] [d, c, b, a] :=
  .cons l.2 (.cons k.2 (.cons j.2 (.cons i.2 .nil)))

/-- The entry of a broadcast array along one axis. -/
theorem proj_cons (i k : ℕ) (is s : List ℕ) :
    proj (i :: is) (k :: s) = (if k = 1 then 0 else i) :: proj is s := rfl

theorem proj_id {i s : List ℕ} (h : Ix i s) : proj i s = i := by
  induction h with
  | nil => rfl
  | @cons i k is s hi _ ih =>
    rw [proj_cons, ih]
    split_ifs with h1
    · congr 1; omega
    · rfl

/-! ### Elementwise operations -/

theorem map_A0 (f : α → β) (x : α) : (A0 x).map f = A0 (f x) :=
  eq_A0 rfl (by unfold Arr.map; rw [of_get (by exact .nil), A0_get])

theorem map_A2 (f : α → β) (x : Fin a → Fin b → α) : (A2 x).map f = A2 fun i j => f (x i j) :=
  eq_A2 rfl fun i j => by unfold Arr.map; rw [of_get (by exact ix2), A2_get x i.2 j.2]

theorem map_A3 (f : α → β) (x : Fin a → Fin b → Fin c → α) :
    (A3 x).map f = A3 fun i j k => f (x i j k) :=
  eq_A3 rfl fun i j k => by unfold Arr.map; rw [of_get (by exact ix3), A3_get x i.2 j.2 k.2]

theorem zip_of_eq (f : α → β → γ) {X : Arr α} {Y : Arr β} {s : List ℕ}
    (h : bshape X.shape Y.shape = some s) :
    X.zip f Y = .ok (.of s fun i => f (X.get (proj i X.shape)) (Y.get (proj i Y.shape))) := by
  unfold Arr.zip
  rw [h]

theorem zip_same (f : α → β → γ) {X : Arr α} {Y : Arr β} (h : X.shape = Y.shape) :
    X.zip f Y = .ok (.of X.shape fun i => f (X.get i) (Y.get i)) := by
  rw [zip_of_eq f (s := X.shape) (by rw [← h, bshape_self])]
  congr 1
  refine arr_ext rfl fun i hi => ?_
  rw [of_shape] at hi
  rw [of_get hi, of_get hi, ← h, proj_id hi]

theorem zip_A2 (f : α → β → γ) (x : Fin a → Fin b → α) (y : Fin a → Fin b → β) :
    (A2 x).zip f (A2 y) = .ok (A2 fun i j => f (x i j) (y i j)) := by
  rw [zip_same f rfl]
  congr 1
  exact eq_A2 rfl fun i j => by
    rw [of_get (by exact ix2), A2_get x i.2 j.2, A2_get y i.2 j.2]

theorem zip_A3 (f : α → β → γ) (x : Fin a → Fin b → Fin c → α) (y : Fin a → Fin b → Fin c → β) :
    (A3 x).zip f (A3 y) = .ok (A3 fun i j k => f (x i j k) (y i j k)) := by
  rw [zip_same f rfl]
  congr 1
  exact eq_A3 rfl fun i j k => by
    rw [of_get (by exact ix3), A3_get x i.2 j.2 k.2, A3_get y i.2 j.2 k.2]

/-- A row is added to all rows. -/
theorem zip_row (f : α → β → γ) (x : Fin a → Fin b → α) (y : Fin 1 → Fin b → β) :
    (A2 x).zip f (A2 y) = .ok (A2 fun i j => f (x i j) (y 0 j)) := by
  rw [zip_of_eq f (s := [b, a]) (by simp [bshape])]
  congr 1
  refine eq_A2 rfl fun i j => ?_
  rw [of_get ix2, A2_shape, proj_id ix2, A2_get x i.2 j.2]
  have : proj [j.val, i.val] [b, 1] = [j.val, 0] := by
    rw [proj_cons, proj_cons]
    have : (if b = 1 then 0 else j.val) = j.val := by
      split_ifs
      · have := j.2; omega
      · rfl
    simp [this, proj]
  rw [A2_shape, this, A2_get y (by omega) j.2]
  rfl

/-! ### Reductions -/

omit [Inhabited α] in
theorem map_range_eq_ofFn {n : ℕ} (f : ℕ → α) (g : Fin n → α) (h : ∀ i : Fin n, f i = g i) :
    (List.range n).map f = List.ofFn g := by
  refine List.ext_getElem (by simp) fun i h1 h2 => ?_
  simp at h1
  simp [h ⟨i, h1⟩]

theorem reduce_last_A3 (f : List α → β) (x : Fin a → Fin b → Fin c → α) :
    (A3 x).reduce f 0 false = A2 fun i j => f (List.ofFn (x i j)) := by
  refine eq_A2 rfl fun i j => ?_
  simp only [Arr.reduce, Bool.false_eq_true, if_false]
  rw [of_get (by exact ix2)]
  congr 1
  exact map_range_eq_ofFn _ _ fun k => A3_get x i.2 j.2 k.2

theorem reduce_last_A3_keep (f : List α → β) (x : Fin a → Fin b → Fin c → α) :
    (A3 x).reduce f 0 true = A3 fun i j (_ : Fin 1) => f (List.ofFn (x i j)) := by
  refine eq_A3 rfl fun i j k => ?_
  simp only [Arr.reduce, if_true]
  rw [of_get (by exact ix3)]
  congr 1
  exact map_range_eq_ofFn _ _ fun k => A3_get x i.2 j.2 k.2

theorem reduce_rows_A2_keep (f : List α → β) (x : Fin a → Fin b → α) :
    (A2 x).reduce f 1 true = A2 fun (_ : Fin 1) j => f (List.ofFn fun i => x i j) := by
  refine eq_A2 rfl fun i j => ?_
  simp only [Arr.reduce, if_true]
  rw [of_get (by exact ix2)]
  congr 1
  exact map_range_eq_ofFn _ _ fun k => A2_get x k.2 j.2

theorem reduce_mid_A3 (f : List α → β) (x : Fin a → Fin b → Fin c → α) :
    (A3 x).reduce f 1 false = A2 fun i k => f (List.ofFn fun j => x i j k) := by
  refine eq_A2 rfl fun i j => ?_
  simp only [Arr.reduce, Bool.false_eq_true, if_false]
  rw [of_get (by exact ix2)]
  congr 1
  exact map_range_eq_ofFn _ _ fun k => A3_get x i.2 k.2 j.2

theorem reduce_last_A4 (f : List α → β) (x : Fin a → Fin b → Fin c → Fin d → α) :
    (A4 x).reduce f 0 false = A3 fun i j k => f (List.ofFn (x i j k)) := by
  refine eq_A3 rfl fun i j k => ?_
  simp only [Arr.reduce, Bool.false_eq_true, if_false]
  rw [of_get (by exact ix3)]
  congr 1
  exact map_range_eq_ofFn _ _ fun l => A4_get x i.2 j.2 k.2 l.2

theorem norm_ofFn (v : Fin a → ℝ) : norm (List.ofFn v) = Net.norm2 v := by
  unfold norm Net.norm2
  rw [List.map_ofFn, List.sum_ofFn]
  rfl

theorem mean_ofFn (v : Fin a → ℝ) : mean (List.ofFn v) = (∑ i, v i) / a := by
  unfold mean
  rw [List.sum_ofFn, List.length_ofFn]

/-! ### Dense layers -/

/-- The parameters of a dense layer as functions of natural numbers. -/
noncomputable def toDense (kernel : Fin a → Fin b → ℝ) (bias : Fin b → ℝ) : DenseA where
  kernel i j := if h : i < a ∧ j < b then kernel ⟨i, h.1⟩ ⟨j, h.2⟩ else 0
  bias j := if h : j < b then bias ⟨j, h⟩ else 0

theorem dense_sum (useBias : Bool) (kernel : Fin b → Fin c → ℝ) (bias : Fin c → ℝ) (f : ℕ → ℝ)
    (x : Fin b → ℝ) (hf : ∀ j : Fin b, f j = x j) (j : Fin c) :
    ((∑ k ∈ Finset.range b, f k * (toDense kernel bias).kernel k j) +
      if useBias then (toDense kernel bias).bias j else 0) = Net.dense useBias kernel bias x j := by
  unfold Net.dense
  rw [Finset.sum_range]
  congr 1
  · exact Finset.sum_congr rfl fun k _ => by rw [hf]; simp [toDense]
  · simp [toDense]

theorem dense_A2 (useBias : Bool) (kernel : Fin b → Fin c → ℝ) (bias : Fin c → ℝ)
    (x : Fin a → Fin b → ℝ) :
    dense useBias (toDense kernel bias) c (A2 x) =
      A2 fun i => Net.dense useBias kernel bias (x i) := by
  refine eq_A2 rfl fun i j => ?_
  unfold dense
  rw [of_get (by exact ix2)]
  exact dense_sum useBias kernel bias (fun k => (A2 x).get [k, i.val]) (x i)
    (fun k => A2_get x i.2 k.2) j

theorem dense_A3 (useBias : Bool) (kernel : Fin c → Fin d → ℝ) (bias : Fin d → ℝ)
    (x : Fin a → Fin b → Fin c → ℝ) :
    dense useBias (toDense kernel bias) d (A3 x) =
      A3 fun i j => Net.dense useBias kernel bias (x i j) := by
  refine eq_A3 rfl fun i j k => ?_
  unfold dense
  rw [of_get (by exact ix3)]
  exact dense_sum useBias kernel bias (fun l => (A3 x).get [l, j.val, i.val]) (x i j)
    (fun l => A3_get x i.2 j.2 l.2) k

end

/-! ### Lists -/

theorem ok_bind {δ ε : Type} (x : δ) (f : δ → Except String ε) : ((Except.ok x : Except String δ) >>= f) = f x := rfl

theorem mapM_ofFn {S : ℕ} {δ ε : Type} {f : δ → Except String ε} {A : Fin S → δ} {C : Fin S → ε}
    (h : ∀ s, f (A s) = .ok (C s)) : (List.ofFn A).mapM f = .ok (List.ofFn C) := by
  induction S with
  | zero => rfl
  | succ S ih =>
    rw [List.ofFn_succ, List.ofFn_succ, List.mapM_cons, h, ih fun s => h s.succ]
    rfl

theorem treeMap2_ofFn {S : ℕ} {δ ε ζ : Type} {f : δ → ε → Except String ζ} {A : Fin S → δ}
    {B : Fin S → ε} {C : Fin S → ζ} (h : ∀ s, f (A s) (B s) = .ok (C s)) :
    treeMap2 f (List.ofFn A) (List.ofFn B) = .ok (List.ofFn C) := by
  induction S with
  | zero => rfl
  | succ S ih =>
    rw [List.ofFn_succ, List.ofFn_succ, List.ofFn_succ, treeMap2, h, ih fun s => h s.succ]
    rfl

theorem denseParts_ofFn {S : ℕ} (useBias : Bool) (P : ℕ → DenseA) (s : ℕ) (A : Fin S → Arr ℝ)
    (m : Fin S → ℕ) : denseParts useBias P s (List.ofFn A) (List.ofFn m) =
      List.ofFn fun t : Fin S => dense useBias (P (s + t)) (m t) (A t) := by
  induction S generalizing s with
  | zero => rfl
  | succ S ih =>
    rw [List.ofFn_succ, List.ofFn_succ, List.ofFn_succ, denseParts, ih]
    congr 2
    funext t
    congr 2
    simp; omega

/-! ### Splits and concatenations along the axis of the electrons -/

/-- Where the particles of a species start. -/
def start {S : ℕ} (n : Fin S → ℕ) (s : Fin S) : ℕ := ∑ i : Fin s, n (Fin.castLE s.2.le i)

theorem start_zero {S : ℕ} (n : Fin (S + 1) → ℕ) : start n 0 = 0 := by
  unfold start
  exact Fin.sum_univ_zero _

theorem start_succ {S : ℕ} (n : Fin (S + 1) → ℕ) (s : Fin S) :
    start n s.succ = n 0 + start (fun t => n t.succ) s := by
  unfold start
  exact Fin.sum_univ_succ (n := s.val) fun i => n (Fin.castLE s.succ.2.le i)

theorem sigma_val {S : ℕ} (n : Fin S → ℕ) (s : Fin S) (i : Fin (n s)) :
    (finSigmaFinEquiv ⟨s, i⟩ : Fin (∑ s, n s)).val = start n s + i := by
  rw [finSigmaFinEquiv_apply]
  rfl

theorem splitFrom_cons {p lo k : ℕ} {X : Arr α} {ks : List ℕ} :
    splitFrom p X lo (k :: ks) = X.slice p lo k :: splitFrom p X k ks := rfl

/-- The places at which the particles of `S` species are split. -/
def ends {S : ℕ} (n : Fin (S + 1) → ℕ) : List ℕ :=
  List.ofFn fun s : Fin S => start n s.succ

theorem splitFrom_ofFn {S : ℕ} (p : ℕ) (X : Arr α) (n : Fin (S + 1) → ℕ) (lo : ℕ)
    (hX : X.shape.getD p 0 = lo + ∑ s, n s) :
    splitFrom p X lo (List.ofFn fun s : Fin S => lo + start n s.succ) =
      List.ofFn fun s => X.slice p (lo + start n s) (lo + start n s + n s) := by
  induction S generalizing lo with
  | zero =>
    simp only [List.ofFn_zero, splitFrom, List.ofFn_succ, start_zero, hX]
    simp
  | succ S ih =>
    rw [List.ofFn_succ, splitFrom_cons, List.ofFn_succ]
    have h1 : start n (Fin.succ 0) = n 0 := by rw [start_succ, start_zero]; rfl
    rw [h1, start_zero]
    simp only [Nat.add_zero]
    have h2 := ih (fun t => n t.succ) (lo + n 0) (by rw [hX, Fin.sum_univ_succ]; omega)
    have h3 : (fun s : Fin S => lo + start n s.succ.succ) =
        fun s : Fin S => lo + n 0 + start (fun t => n t.succ) s.succ := by
      funext s; rw [start_succ n s.succ]; omega
    rw [h3, h2]
    congr 2
    funext s
    rw [start_succ, Nat.add_assoc lo]

theorem start_add_le {S : ℕ} (n : Fin S → ℕ) (s : Fin S) : start n s + n s ≤ ∑ s, n s := by
  induction S with
  | zero => exact s.elim0
  | succ S ih =>
    rw [Fin.sum_univ_succ]
    refine Fin.cases ?_ (fun s => ?_) s
    · rw [start_zero]; omega
    · rw [start_succ]
      have := ih (fun t => n t.succ) s
      omega

theorem start_mono {S : ℕ} (n : Fin S → ℕ) {s t : Fin S} (h : s ≤ t) : start n s ≤ start n t := by
  induction S with
  | zero => exact s.elim0
  | succ S ih =>
    revert h
    refine Fin.cases ?_ (fun s => ?_) s
    · intro; rw [start_zero]; omega
    · refine Fin.cases ?_ (fun t => ?_) t
      · intro h; exact absurd h (by simp)
      · intro h
        rw [start_succ, start_succ]
        have := ih (fun t => n t.succ) (Fin.succ_le_succ_iff.1 h)
        omega

theorem split_ends {S : ℕ} (p : ℕ) (X : Arr α) (n : Fin (S + 1) → ℕ)
    (hX : X.shape.getD p 0 = ∑ s, n s) :
    split p (ends n) X = .ok (List.ofFn fun s => X.slice p (start n s) (start n s + n s)) := by
  unfold split
  rw [if_pos]
  · have h := splitFrom_ofFn p X n 0 (by rw [hX, Nat.zero_add])
    simp only [Nat.zero_add] at h
    rw [ends, h]
  · rw [List.cons_append, List.pairwise_cons]
    refine ⟨fun _ _ => Nat.zero_le _, ?_⟩
    rw [List.pairwise_append]
    refine ⟨?_, by simp, ?_⟩
    · unfold ends
      rw [List.pairwise_ofFn]
      exact fun i j h => start_mono n (Fin.succ_le_succ_iff.2 h.le)
    · intro x hx y hy
      simp only [List.mem_singleton] at hy
      unfold ends at hx
      rw [List.mem_ofFn] at hx
      obtain ⟨s, rfl⟩ := hx
      have := start_add_le n s.succ
      rw [hy, hX]
      omega

theorem pick_ofFn {S : ℕ} (p : ℕ) (A : Fin S → Arr α) (n : Fin S → ℕ)
    (hA : ∀ s, (A s).shape.getD p 0 = n s) (s : Fin S) (i : Fin (n s)) (idx : List ℕ)
    (hp : p < idx.length) (h : idx.getD p 0 = start n s + i) :
    pick p (List.ofFn A) idx = (A s).get (idx.set p i) := by
  induction S generalizing idx with
  | zero => exact s.elim0
  | succ S ih =>
    rw [List.ofFn_succ, pick, hA]
    revert h i
    refine Fin.cases ?_ (fun s => ?_) s
    · intro i h
      rw [start_zero, Nat.zero_add] at h
      rw [if_pos (by rw [h]; exact i.2)]
      congr 1
      have h' : i.val = idx[p] := by rw [← h]; simp [hp]
      rw [h', List.set_getElem_self]
    · intro i h
      rw [start_succ] at h
      rw [if_neg (by rw [h]; omega)]
      have hm : p < (idx.modify p (· - n 0)).length := by rw [List.length_modify]; exact hp
      rw [ih (fun t => A t.succ) (fun t => n t.succ) (fun t => hA t.succ) s i _ hm ?_]
      · congr 1
        refine List.ext_getElem (by simp) fun k h1 h2 => ?_
        rw [List.getElem_set, List.getElem_set]
        split_ifs with hk
        · rfl
        · rw [List.getElem_modify, if_neg hk]
      · rw [List.getD_eq_getElem _ _ hm, List.getElem_modify, if_pos rfl]
        rw [List.getD_eq_getElem _ _ hp] at h
        omega

theorem concat_ofFn {S : ℕ} (p : ℕ) (A : Fin (S + 1) → Arr α) (n : Fin (S + 1) → ℕ) {sh : List ℕ}
    (hA : ∀ s, (A s).shape = sh.set p (n s)) (hp : p < sh.length) :
    concat p (List.ofFn A) = .ok (.of (sh.set p (∑ s, n s)) (pick p (List.ofFn A))) := by
  have hn : ∀ s, (A s).shape.getD p 0 = n s := fun s => by
    rw [hA, List.getD_eq_getElem _ _ (by simpa using hp), List.getElem_set_self]
  have h1 : List.ofFn A = A 0 :: List.ofFn fun s => A s.succ := List.ofFn_succ
  have h2 : ((List.ofFn A).map fun c => c.shape.getD p 0).sum = ∑ s, n s := by
    rw [List.map_ofFn, List.sum_ofFn]
    exact Finset.sum_congr rfl fun s _ => hn s
  rw [h1] at h2 ⊢
  simp only [concat]
  rw [if_pos, h2, hA 0, List.set_set]
  intro c hc
  rw [List.mem_ofFn] at hc
  obtain ⟨s, rfl⟩ := hc
  rw [hA, hA, List.set_set, List.set_set]

end Verif.Arrays
