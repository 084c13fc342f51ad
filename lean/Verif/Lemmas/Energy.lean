import Verif.Model.Energy
import Verif.Spec.Energy
import Mathlib.Data.List.Sort
import Mathlib.Tactic

namespace Verif
open Spec Energy

namespace XR

theorem div_add {c : ℝ} (hc : 0 < c) (a b : XR) :
    (a + b) / fin c = a / fin c + b / fin c := by
  show div (add a b) (fin c) = add (div a (fin c)) (div b (fin c))
  cases a <;> cases b <;> simp [add, div, hc.ne', hc.le, add_div]

theorem div_div {c d : ℝ} (hc : 0 < c) (hd : 0 < d) (a : XR) :
    a / fin c / fin d = a / fin (c * d) := by
  show div (div a (fin c)) (fin d) = div a (fin (c * d))
  cases a <;> simp [div, hc.ne', hd.ne', hc.le, hd.le, mul_nonneg, _root_.div_div]

theorem zero_div' {c : ℝ} (hc : 0 < c) : (0 : XR) / fin c = 0 := by
  show div (fin 0) (fin c) = fin 0
  simp [div, hc.ne']

theorem div_one' (a : XR) : a / fin 1 = a := by
  show div a (fin 1) = a
  cases a <;> simp [div]

theorem sum_div {c : ℝ} (hc : 0 < c) (l : List XR) :
    (l.map (· / fin c)).sum = l.sum / fin c := by
  induction l with
  | nil => exact (zero_div' hc).symm
  | cons a l ih => rw [List.map_cons, List.sum_cons, ih, List.sum_cons, div_add hc]

theorem lsum_fin (l : List ℝ) : (l.map fin).sum = fin l.sum := by
  induction l with
  | nil => rfl
  | cons a l ih => rw [List.map_cons, List.sum_cons, ih, List.sum_cons, fin_add]

theorem lsum_nan {l : List XR} (h : nan ∈ l) : l.sum = nan := by
  induction l with
  | nil => simp at h
  | cons a l ih =>
    rcases List.mem_cons.mp h with h | h
    · rw [List.sum_cons, ← h, nan_add]
    · rw [List.sum_cons, ih h, add_nan]

@[simp] theorem not_isNan_fin (a : ℝ) : ¬ (fin a).isNan := id

theorem isNan_iff {x : XR} : x.isNan ↔ x = nan := by
  cases x <;> simp [isNan]

theorem maximum_fin (a b : ℝ) : maximum (fin a) (fin b) = fin (max a b) := by
  unfold maximum
  simp only [isNan, or_self, if_false, fin_lt]
  split_ifs with h
  · simp [max_eq_left h.le]
  · simp [max_eq_right (not_lt.mp h)]

theorem maximum_nan_left (x : XR) : maximum nan x = nan := by simp [maximum, isNan]
theorem maximum_nan_right (x : XR) : maximum x nan = nan := by simp [maximum, isNan]

end XR

namespace Energy

theorem mean_fin (l : List ℝ) (h : l ≠ []) : mean (l.map XR.fin) = .fin (avgL l) := by
  unfold mean avgL
  rw [XR.lsum_fin, List.length_map, XR.ofNat, XR.fin_div]
  have : l.length ≠ 0 := by simpa using h
  exact_mod_cast this

theorem mean_nan {l : List XR} (h : XR.nan ∈ l) : mean l = .nan := by
  unfold mean
  rw [XR.lsum_nan h, XR.nan_div]

/-- Running without pmap: the mean over one device is the identity. -/
theorem pmean_single (x : XR) : pmean [x] = x := by
  unfold pmean mean
  simp only [List.sum_cons, List.sum_nil, add_zero, List.length_singleton, XR.ofNat, Nat.cast_one]
  exact XR.div_one' x

theorem count_fin (l : List ℝ) :
    (l.map XR.fin).countP (fun x => decide (¬ x.isNan)) =
      l.length := by
  rw [List.countP_eq_length.mpr, List.length_map]
  intro x hx
  obtain ⟨r, -, rfl⟩ := List.mem_map.mp hx
  simp

theorem nanmean_fin (l : List ℝ) : nanmean (l.map XR.fin) = mean (l.map XR.fin) := by
  unfold nanmean mean
  rw [List.length_map, count_fin]
  have : (l.map XR.fin).map (fun x => if x.isNan then XR.fin 0 else x) = l.map XR.fin := by
    rw [List.map_map]
    exact List.map_congr_left fun x _ => by simp
  rw [this]

theorem sum_flatten (rows : List (List XR)) :
    rows.flatten.sum = (rows.map List.sum).sum := by
  induction rows with
  | nil => rfl
  | cons a l ih => rw [List.flatten_cons, List.sum_append, ih, List.map_cons, List.sum_cons]

theorem length_flatten_uniform {α : Type*} {rows : List (List α)} {n : ℕ}
    (h : ∀ r ∈ rows, r.length = n) : rows.flatten.length = rows.length * n := by
  induction rows with
  | nil => simp
  | cons a l ih =>
    rw [List.flatten_cons, List.length_append, h a (by simp), ih fun r hr => h r (by simp [hr]),
      List.length_cons]
    ring

/-- mean over devices of sums divided by a common count -/
theorem pmean_div {β : Type*} (rows : List β) (S : β → XR) (k : ℕ) (hk : 0 < k)
    (hne : rows ≠ []) :
    pmean (rows.map fun r => S r / XR.ofNat k) =
      (rows.map S).sum / XR.ofNat (rows.length * k) := by
  have hk' : (0 : ℝ) < k := by exact_mod_cast hk
  have hl : (0 : ℝ) < rows.length := by
    have : 0 < rows.length := List.length_pos_of_ne_nil hne
    exact_mod_cast this
  unfold pmean mean
  rw [List.length_map]
  have : (rows.map fun r => S r / XR.ofNat k) = (rows.map S).map (· / XR.fin (k : ℝ)) := by
    rw [List.map_map]; rfl
  rw [this, XR.sum_div hk', XR.ofNat, XR.div_div hk' hl, XR.ofNat]
  push_cast
  rw [mul_comm]

theorem mean_uniform {rows : List (List XR)} {n : ℕ} (hn : 0 < n) (hne : rows ≠ [])
    (h : ∀ r ∈ rows, r.length = n) : pmean (rows.map mean) = mean rows.flatten := by
  have : rows.map mean = rows.map fun r => r.sum / XR.ofNat n :=
    List.map_congr_left fun r hr => by unfold mean; rw [h r hr]
  rw [this, pmean_div rows List.sum n hn hne]
  unfold mean
  rw [sum_flatten, length_flatten_uniform h]

theorem allreduce_fin (b : Bool) {rows : List (List ℝ)} {n : ℕ} (hn : 0 < n) (hne : rows ≠ [])
    (h : ∀ r ∈ rows, r.length = n) :
    allreduceMean b (rows.map fun r => r.map XR.fin) = .fin (avgL rows.flatten) := by
  have h1 : pmean ((rows.map fun r => r.map XR.fin).map mean) = .fin (avgL rows.flatten) := by
    rw [mean_uniform hn (by simpa using hne) (by simpa using h)]
    have : (rows.map fun r => r.map XR.fin).flatten = rows.flatten.map XR.fin := by
      rw [List.map_flatten]
    rw [this, mean_fin]
    intro h0
    have := length_flatten_uniform h
    rw [h0] at this
    have h2 : 0 < rows.length := List.length_pos_of_ne_nil hne
    have h3 : 0 < rows.length * n := Nat.mul_pos h2 hn
    rw [List.length_nil] at this
    omega
  unfold allreduceMean
  cases b
  · simpa using h1
  · simp only [if_true]
    rw [← h1]
    congr 1
    rw [List.map_map, List.map_map]
    exact List.map_congr_left fun r _ => nanmean_fin r

theorem insertX_map (a : ℝ) (l : List ℝ) :
    insertX (.fin a) (l.map XR.fin) = (l.orderedInsert (· ≤ ·) a).map XR.fin := by
  induction l with
  | nil => rfl
  | cons b l ih =>
    simp only [List.map_cons, insertX, List.orderedInsert, XR.fin_le]
    split_ifs <;> simp [ih]

theorem sortX_map (l : List ℝ) :
    sortX (l.map XR.fin) = (l.insertionSort (· ≤ ·)).map XR.fin := by
  induction l with
  | nil => rfl
  | cons a l ih =>
    simp only [List.map_cons, sortX, List.insertionSort_cons, ih, insertX_map]

theorem filter_fin (l : List ℝ) :
    (l.map XR.fin).filter (fun x => decide (¬ x.isNan)) =
      l.map XR.fin := by
  rw [List.filter_eq_self]
  intro x hx
  obtain ⟨r, -, rfl⟩ := List.mem_map.mp hx
  simp

/-- real median as computed -/
noncomputable def med (l : List ℝ) : ℝ :=
  let s := l.insertionSort (· ≤ ·)
  (s.getD ((s.length - 1) / 2) 0 + s.getD (s.length / 2) 0) / 2

theorem getD_map_fin (s : List ℝ) (i : ℕ) (h : i < s.length) :
    (s.map XR.fin).getD i .nan = .fin (s.getD i 0) := by
  simp [List.getD, h]

theorem nanmedian_fin (l : List ℝ) (h : l ≠ []) :
    nanmedian (l.map XR.fin) = .fin (med l) := by
  have hl : (l.insertionSort (· ≤ ·)).length = l.length := List.length_insertionSort _ _
  have hpos : 0 < l.length := List.length_pos_of_ne_nil h
  unfold nanmedian med
  simp only
  rw [filter_fin, sortX_map, List.length_map, if_neg (by omega),
    getD_map_fin _ _ (by omega), getD_map_fin _ _ (by omega), XR.fin_add,
    XR.fin_div (by norm_num)]

theorem orderedInsert_shift (a c : ℝ) (l : List ℝ) :
    (l.map (· + c)).orderedInsert (· ≤ ·) (a + c) =
      (l.orderedInsert (· ≤ ·) a).map (· + c) := by
  induction l with
  | nil => rfl
  | cons b l ih =>
    simp only [List.map_cons, List.orderedInsert, add_le_add_iff_right]
    split_ifs <;> simp [ih]

theorem insertionSort_shift (c : ℝ) (l : List ℝ) :
    (l.map (· + c)).insertionSort (· ≤ ·) = (l.insertionSort (· ≤ ·)).map (· + c) := by
  induction l with
  | nil => rfl
  | cons a l ih =>
    simp only [List.map_cons, List.insertionSort_cons, ih, orderedInsert_shift]

theorem med_shift (c : ℝ) (l : List ℝ) (h : l ≠ []) : med (l.map (· + c)) = med l + c := by
  have hl : (l.insertionSort (· ≤ ·)).length = l.length := List.length_insertionSort _ _
  have hpos : 0 < l.length := List.length_pos_of_ne_nil h
  unfold med
  simp only
  rw [insertionSort_shift, List.length_map]
  have e : ∀ i, i < (l.insertionSort (· ≤ ·)).length →
      ((l.insertionSort (· ≤ ·)).map (· + c)).getD i 0 =
        (l.insertionSort (· ≤ ·)).getD i 0 + c := by
    intro i hi
    simp only [List.getD, List.getElem?_map, List.getElem?_eq_getElem hi, Option.map_some,
      Option.getD_some]
  rw [e _ (by omega), e _ (by omega)]
  ring

theorem sorted_getD_le {s : List ℝ} (hs : s.Pairwise (· ≤ ·)) {i j : ℕ} (hij : i ≤ j)
    (hj : j < s.length) : s.getD i 0 ≤ s.getD j 0 := by
  have hi : i < s.length := by omega
  simp only [List.getD, List.getElem?_eq_getElem hi, List.getElem?_eq_getElem hj,
    Option.getD_some]
  rcases hij.lt_or_eq with h | h
  · exact List.pairwise_iff_getElem.mp hs i j hi hj h
  · subst h; exact le_rfl

theorem filter_length_ge_take {s : List ℝ} (p : ℝ → Bool) (m : ℕ) (hm : m ≤ s.length)
    (h : ∀ i < m, p (s.getD i 0) = true) : m ≤ (s.filter p).length := by
  have h1 : (s.take m).filter p = s.take m := by
    rw [List.filter_eq_self]
    intro x hx
    obtain ⟨i, hi, rfl⟩ := List.mem_iff_getElem.mp hx
    have hi' : i < m := by simp at hi; omega
    have := h i hi'
    simp only [List.getD, List.getElem?_eq_getElem (show i < s.length by omega),
      Option.getD_some] at this
    simpa using this
  have h2 : ((s.take m).filter p).Sublist (s.filter p) := (List.take_sublist m s).filter p
  have := h2.length_le
  rw [h1, List.length_take] at this
  omega

theorem filter_length_ge_drop {s : List ℝ} (p : ℝ → Bool) (m : ℕ)
    (h : ∀ i, m ≤ i → i < s.length → p (s.getD i 0) = true) :
    s.length - m ≤ (s.filter p).length := by
  have h1 : (s.drop m).filter p = s.drop m := by
    rw [List.filter_eq_self]
    intro x hx
    obtain ⟨i, hi, rfl⟩ := List.mem_iff_getElem.mp hx
    rw [List.length_drop] at hi
    have := h (m + i) (by omega) (by omega)
    simp only [List.getD, List.getElem?_eq_getElem (show m + i < s.length by omega),
      Option.getD_some] at this
    simpa using this
  have h2 : ((s.drop m).filter p).Sublist (s.filter p) := (List.drop_sublist m s).filter p
  have := h2.length_le
  rw [h1, List.length_drop] at this
  exact this

theorem med_isMedian (l : List ℝ) (h : l ≠ []) : IsMedian l (med l) := by
  have hperm : (l.insertionSort (· ≤ ·)).Perm l := List.perm_insertionSort _ l
  have hs : (l.insertionSort (· ≤ ·)).Pairwise (· ≤ ·) := List.pairwise_insertionSort _ l
  have hpos : 0 < l.length := List.length_pos_of_ne_nil h
  unfold IsMedian med
  simp only
  generalize l.insertionSort (· ≤ ·) = s at *
  have hl : s.length = l.length := hperm.length_eq
  have hmid : s.getD ((s.length - 1) / 2) 0 ≤ s.getD (s.length / 2) 0 :=
    sorted_getD_le hs (by omega) (by omega)
  constructor
  · have h1 := filter_length_ge_take (s := s) (fun x => decide (x ≤
      (s.getD ((s.length - 1) / 2) 0 + s.getD (s.length / 2) 0) / 2))
      ((s.length - 1) / 2 + 1) (by omega) (by
        intro i hi
        have := sorted_getD_le hs (show i ≤ (s.length - 1) / 2 by omega) (by omega)
        simp only [decide_eq_true_eq]
        linarith)
    rw [(hperm.filter _).length_eq] at h1
    omega
  · have h1 := filter_length_ge_drop (s := s) (fun x => decide (
      (s.getD ((s.length - 1) / 2) 0 + s.getD (s.length / 2) 0) / 2 ≤ x))
      (s.length / 2) (by
        intro i hi hlt
        have := sorted_getD_le hs hi hlt
        simp only [decide_eq_true_eq]
        linarith)
    rw [(hperm.filter _).length_eq] at h1
    omega

end Energy
end Verif
