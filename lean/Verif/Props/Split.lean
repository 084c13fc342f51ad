import Verif.Model.Split
import Mathlib.Tactic

/-! C49: the spin-split helpers are inverse to each other. -/

namespace Verif.Props
open Verif.Split

theorem diff_cumsum (a acc : ℤ) (l : List ℤ) : diff (acc :: cumsumFrom acc (a :: l)) =
    a :: diff (cumsumFrom acc (a :: l)) := by
  simp [cumsumFrom, diff]

theorem diff_cumsumFrom (acc : ℤ) (l : List ℤ) : diff (acc :: cumsumFrom acc l) = l := by
  induction l generalizing acc with
  | nil => rfl
  | cons a l ih =>
    rw [diff_cumsum]
    congr 1
    show diff ((acc + a) :: cumsumFrom (acc + a) l) = l
    exact ih _

theorem getLast_cumsumFrom (acc : ℤ) (l : List ℤ) :
    (acc :: cumsumFrom acc l).getLast? = some (acc + l.sum) := by
  induction l generalizing acc with
  | nil => simp [cumsumFrom]
  | cons a l ih =>
    rw [cumsumFrom, List.getLast?_cons_cons, ih, List.sum_cons, add_assoc]

theorem length_cumsumFrom (acc : ℤ) (l : List ℤ) : (cumsumFrom acc l).length = l.length := by
  induction l generalizing acc with
  | nil => rfl
  | cons a l ih => simp [cumsumFrom, ih]

/-- C49, two or more species: the split indices recover the electron counts.  (For a single
species see `single_species_split_fails`.) -/
theorem split_roundtrip_partial (counts : List ℤ) (h : 2 ≤ counts.length) :
    getNelecPerSplit (.indices (getSpinSplit counts)) counts.sum = .ok counts := by
  obtain ⟨a, l, rfl⟩ : ∃ a l, counts = a :: l := by
    cases counts with
    | nil => simp at h
    | cons a l => exact ⟨a, l, rfl⟩
  have hl : l ≠ [] := by rintro rfl; simp at h
  have hdrop : (a :: l).dropLast = a :: l.dropLast := by
    rw [List.dropLast_cons_of_ne_nil hl]
  unfold getNelecPerSplit getSpinSplit
  rw [hdrop]
  have h1 : cumsumFrom 0 (a :: l.dropLast) = a :: cumsumFrom a l.dropLast := by
    simp [cumsumFrom]
  rw [h1]
  simp only [List.head?_cons, getLast_cumsumFrom, diff_cumsumFrom]
  congr 2
  have h2 := List.dropLast_concat_getLast hl
  have h3 : l.sum = l.dropLast.sum + l.getLast hl := by
    conv_lhs => rw [← h2]
    simp
  rw [List.sum_cons, h3]
  conv_rhs => rw [← h2]
  congr 2
  ring

/-- C49: the number of species is recovered from the split indices, for any non-empty counts. -/
theorem nsplits_of_spin_split (counts : List ℤ) (h : counts ≠ []) :
    getNsplits (.indices (getSpinSplit counts)) = counts.length := by
  show (cumsumFrom 0 counts.dropLast).length + 1 = _
  rw [length_cumsumFrom, List.length_dropLast]
  have := List.length_pos_of_ne_nil h
  omega

/-- C49, integer splits: `k` equal counts are recovered from the integer `k`. -/
theorem int_split_roundtrip (k : ℕ) (hk : 0 < k) (m : ℤ) :
    getNelecPerSplit (.int k) (List.replicate k m).sum = .ok (List.replicate k m) ∧
      getNsplits (.int k) = (List.replicate k m).length := by
  constructor
  · unfold getNelecPerSplit
    simp only
    rw [if_neg hk.ne', List.sum_replicate, nsmul_eq_mul, Int.mul_ediv_cancel_left]
    exact_mod_cast hk.ne'
  · simp [getNsplits]

/-- C49 is false for a single species: the split of one count is the empty tuple, and reading
its first entry raises. -/
theorem single_species_split_fails :
    ¬ ∀ counts : List ℤ, counts ≠ [] →
      getNelecPerSplit (.indices (getSpinSplit counts)) counts.sum = .ok counts := by
  intro h
  have := h [3] (by simp)
  simp [getNelecPerSplit, getSpinSplit, cumsumFrom] at this

/-- C49: for one species the code raises an index error. -/
theorem single_species_raises (m total : ℤ) :
    getNelecPerSplit (.indices (getSpinSplit [m])) total = .error .indexError := rfl

theorem splitAtIndices_cumsum {α : Type*} (x : List α) (start : ℕ) (l : List ℕ) (last : ℕ)
    (hx : x.length = start + l.sum + last) :
    (splitAtIndices x start ((cumsumFrom start (l.map Int.ofNat)).map Int.toNat)).map List.length
      = l ++ [last] := by
  induction l generalizing start with
  | nil => simp [cumsumFrom, splitAtIndices]; simp at hx; omega
  | cons a l ih =>
    simp only [List.map_cons, cumsumFrom, splitAtIndices, List.cons_append]
    have h1 : ((start : ℤ) + Int.ofNat a).toNat = start + a := by
      simp only [Int.ofNat_eq_natCast]; omega
    have h2 : (start : ℤ) + Int.ofNat a = ((start + a : ℕ) : ℤ) := by
      simp
    rw [h1, h2, ih (start + a) (by rw [hx, List.sum_cons]; omega)]
    congr 1
    rw [List.length_take, List.length_drop, hx, List.sum_cons]
    omega

/-- C49: splitting an electron axis at the spin-split indices gives pieces with exactly the
given counts. -/
theorem split_pieces_have_counts {α : Type*} (x : List α) (counts : List ℕ) (h : counts ≠ [])
    (hx : x.length = counts.sum) :
    ∃ pieces, split x (.indices (getSpinSplit (counts.map Int.ofNat))) = .ok pieces ∧
      pieces.map List.length = counts := by
  refine ⟨_, rfl, ?_⟩
  unfold getSpinSplit
  rw [← List.map_dropLast]
  have h2 := List.dropLast_concat_getLast h
  have h3 : counts.sum = counts.dropLast.sum + counts.getLast h := by
    conv_lhs => rw [← h2]
    simp
  have := splitAtIndices_cumsum x 0 counts.dropLast (counts.getLast h) (by omega)
  rw [h2] at this
  exact_mod_cast this

theorem splitAtIndices_flatten {α : Type*} (x : List α) (start : ℕ) (l : List ℕ)
    (hl : (start :: l).Pairwise (· ≤ ·)) :
    (splitAtIndices x start l).flatten = x.drop start := by
  induction l generalizing start with
  | nil => simp [splitAtIndices]
  | cons a l ih =>
    rw [splitAtIndices, List.flatten_cons, ih a (List.pairwise_cons.mp hl).2]
    have ha : start ≤ a := (List.pairwise_cons.mp hl).1 a (by simp)
    conv_rhs => rw [← List.take_append_drop (a - start) (x.drop start)]
    rw [List.drop_drop]
    congr 2
    omega

/-- C49: no electron is lost or reordered by splitting at increasing indices. -/
theorem split_concat {α : Type*} (x : List α) (l : List ℕ) (hl : l.Pairwise (· ≤ ·)) :
    ∃ pieces, split x (.indices (l.map Int.ofNat)) = .ok pieces ∧ pieces.flatten = x := by
  refine ⟨_, rfl, ?_⟩
  have : (l.map Int.ofNat).map Int.toNat = l := by
    rw [List.map_map]
    exact (List.map_congr_left fun a _ => rfl).trans (List.map_id l)
  rw [this, splitAtIndices_flatten _ _ _ (List.pairwise_cons.mpr ⟨fun _ _ => Nat.zero_le _, hl⟩)]
  rfl

example : getNelecPerSplit (.indices (getSpinSplit [3, 0, 4])) 7 = .ok [3, 0, 4] :=
  split_roundtrip_partial [3, 0, 4] (by simp)

example : ∃ pieces, split [10, 11, 12, 13, 14] (.indices (getSpinSplit [3, 2])) = .ok pieces ∧
    pieces = [[10, 11, 12], [13, 14]] := ⟨_, rfl, by decide⟩

end Verif.Props
