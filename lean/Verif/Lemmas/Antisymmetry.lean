import Verif.Model.Antisymmetry
import Verif.Props.Slog
import Mathlib.GroupTheory.Perm.Fin
import Mathlib.Data.List.NodupEquivFin
import Mathlib.Tactic

/-! The permutations in lexicographic order as elements of the symmetric group, with signs. -/

namespace Verif.Antisym
open Equiv

/-- the permutation with first value `i` whose remaining values are ordered as in `e` -/
def consPerm {n : ℕ} (i : Fin (n + 1)) (e : Perm (Fin n)) : Perm (Fin (n + 1)) :=
  i.cycleRange.symm * Perm.decomposeFin.symm (0, e)

theorem consPerm_zero {n : ℕ} (i : Fin (n + 1)) (e : Perm (Fin n)) : consPerm i e 0 = i := by
  simp [consPerm, Perm.mul_apply]

theorem consPerm_succ {n : ℕ} (i : Fin (n + 1)) (e : Perm (Fin n)) (j : Fin n) :
    consPerm i e j.succ = i.succAbove (e j) := by
  simp [consPerm, Perm.mul_apply]

theorem consPerm_sign {n : ℕ} (i : Fin (n + 1)) (e : Perm (Fin n)) :
    Perm.sign (consPerm i e) = (-1) ^ (i : ℕ) * Perm.sign e := by
  rw [consPerm, Perm.sign_mul, Perm.sign_symm, Fin.sign_cycleRange]
  congr 1
  simp [Perm.decomposeFin.symm_sign]

theorem consPerm_injective {n : ℕ} {i i' : Fin (n + 1)} {e e' : Perm (Fin n)}
    (h : consPerm i e = consPerm i' e') : i = i' ∧ e = e' := by
  have hi : i = i' := by rw [← consPerm_zero i e, h, consPerm_zero]
  subst hi
  refine ⟨rfl, Equiv.ext fun j => ?_⟩
  have := congrArg (fun p : Perm (Fin (n + 1)) => p j.succ) h
  simp only [consPerm_succ] at this
  exact Fin.succAbove_right_injective this

/-- all permutations in lexicographic order -/
def lexPerms : (n : ℕ) → List (Perm (Fin n))
  | 0 => [1]
  | n + 1 => (List.finRange (n + 1)).flatMap fun i => (lexPerms n).map (consPerm i)

theorem lexPerms_length (n : ℕ) : (lexPerms n).length = n.factorial := by
  induction n with
  | zero => rfl
  | succ n ih => simp [lexPerms, List.length_flatMap, ih, Nat.factorial_succ]

theorem lexPerms_nodup (n : ℕ) : (lexPerms n).Nodup := by
  induction n with
  | zero => simp [lexPerms]
  | succ n ih =>
    rw [lexPerms, List.nodup_flatMap]
    refine ⟨fun i _ => ih.map fun e e' h => (consPerm_injective h).2, ?_⟩
    refine (List.nodup_finRange (n + 1)).imp fun {i j} hij => ?_
    intro σ h1 h2
    obtain ⟨e, _, rfl⟩ := List.mem_map.mp h1
    obtain ⟨e', _, h⟩ := List.mem_map.mp h2
    exact hij (consPerm_injective h).1.symm

theorem mem_lexPerms {n : ℕ} (σ : Perm (Fin n)) : σ ∈ lexPerms n := by
  have h1 : (lexPerms n).toFinset.card = Fintype.card (Perm (Fin n)) := by
    rw [List.toFinset_card_of_nodup (lexPerms_nodup n), lexPerms_length, Fintype.card_perm,
      Fintype.card_fin]
  have := (Finset.card_eq_iff_eq_univ _).mp h1
  rw [← List.mem_toFinset, this]
  exact Finset.mem_univ σ

theorem getElem_eraseIdx_succAbove {α : Type*} (l : List α) {n : ℕ} (hl : l.length = n + 1)
    (i : Fin (n + 1)) (j : Fin n) :
    (l.eraseIdx i)[(j : ℕ)]'(by rw [List.length_eraseIdx]; split <;> omega) =
      l[(i.succAbove j : ℕ)]'(by omega) := by
  rw [List.getElem_eraseIdx]
  by_cases h : (j : ℕ) < i
  · rw [dif_pos h]
    congr 1
    rw [Fin.succAbove_of_castSucc_lt _ _ h]
    rfl
  · rw [dif_neg h]
    congr 1
    rw [Fin.succAbove_of_le_castSucc _ _ (by simpa [Fin.le_def] using h)]
    rfl

theorem itertools_eq {α : Type*} (n : ℕ) (l : List α) (hl : l.length = n) :
    itertoolsPermutations n l =
      (lexPerms n).map fun σ => List.ofFn fun j => l[(σ j : ℕ)]'(by omega) := by
  induction n generalizing l with
  | zero => simp [itertoolsPermutations, lexPerms]
  | succ n ih =>
    rw [itertoolsPermutations, lexPerms, List.map_flatMap]
    have hfr : List.finRange l.length = (List.finRange (n + 1)).map (Fin.cast hl.symm) := by
      apply List.ext_getElem
      · simp [hl]
      · intro i h1 h2
        simp
    rw [hfr, List.flatMap_map]
    refine List.flatMap_congr fun i _ => ?_
    have hlen : (l.eraseIdx (i : ℕ)).length = n := by
      rw [List.length_eraseIdx, if_pos (by omega)]
      omega
    have := ih (l.eraseIdx (i : ℕ)) hlen
    show (itertoolsPermutations n (l.eraseIdx (i : ℕ))).map _ = _
    rw [this, List.map_map, List.map_map]
    refine List.map_congr_left fun e _ => ?_
    simp only [Function.comp_apply]
    rw [List.ofFn_succ]
    congr 1
    · simp [consPerm_zero]
    · congr 1
      funext j
      rw [getElem_eraseIdx_succAbove l hl i (e j)]
      simp only [consPerm_succ]

/-- a permutation of `0, ..., n-1` written as a list -/
def permToList {n : ℕ} (σ : Perm (Fin n)) : List ℕ := List.ofFn fun i => (σ i : ℕ)

theorem permutationList_eq (n : ℕ) : permutationList n = (lexPerms n).map permToList := by
  rw [permutationList, itertools_eq n _ List.length_range]
  refine List.map_congr_left fun σ _ => ?_
  unfold permToList
  congr 1
  funext j
  simp

theorem signs_eq (n : ℕ) :
    getLexicographicSigns n = (lexPerms n).map fun σ => ((Perm.sign σ : ℤ) : ℝ) := by
  induction n with
  | zero => simp [getLexicographicSigns, lexPerms]
  | succ n ih =>
    have hstep : getLexicographicSigns (n + 1) = ((getAlternatingSigns (n + 1)).map fun sign =>
        (getLexicographicSigns n).map fun s => sign * s).flatten := by
      cases n with
      | zero => simp [getLexicographicSigns, getAlternatingSigns]
      | succ m =>
        unfold getLexicographicSigns
        rw [show m + 1 + 1 - 1 = (m + 1 - 1) + 1 by omega, List.range'_concat, List.foldl_append]
        simp only [List.foldl_cons, List.foldl_nil, one_mul]
        rw [show 2 + (m + 1 - 1) = m + 1 + 1 by omega]
    rw [hstep, ih, lexPerms, List.map_flatMap, List.flatMap_def]
    congr 1
    unfold getAlternatingSigns
    rw [List.map_map, ← List.map_coe_finRange_eq_range, List.map_map]
    refine List.map_congr_left fun i _ => ?_
    simp only [Function.comp_apply, List.map_map]
    refine List.map_congr_left fun e _ => ?_
    simp only [Function.comp_apply, consPerm_sign]
    push_cast
    congr 1
    rcases Nat.mod_two_eq_zero_or_one (i : ℕ) with h | h
    · rw [h, if_neg (by norm_num), Even.neg_one_pow (Nat.even_iff.mpr h)]
    · rw [h, if_pos rfl, Odd.neg_one_pow (Nat.odd_iff.mpr h)]

theorem takeRows_permToList {n : ℕ} {β : Type*} (x : Fin n → β) (σ : Perm (Fin n)) :
    takeRows x (permToList σ) = fun i => x (σ i) := by
  funext i
  unfold takeRows permToList
  have : (List.ofFn fun i => (σ i : ℕ)).getD i 0 = σ i := by
    rw [List.getD_eq_getElem?_getD]
    simp
  congr 1
  rw [dif_pos (by rw [this]; exact (σ i).2)]
  exact Fin.ext this

/-- sums over the permutation list are sums over the symmetric group -/
theorem sum_lexPerms {n : ℕ} {M : Type*} [AddCommMonoid M] (f : Perm (Fin n) → M) :
    ((lexPerms n).map f).sum = ∑ σ, f σ := by
  rw [← List.sum_toFinset f (lexPerms_nodup n)]
  congr 1
  ext σ
  simp [mem_lexPerms]

theorem factorizedLeaf_eq {n d dout : ℕ} (fn : List ℝ → Fin dout → ℝ) (x : Fin n → Fin d → ℝ)
    (c : Fin dout) :
    factorizedLeaf fn x c =
      ∑ σ : Perm (Fin n), ((Perm.sign σ : ℤ) : ℝ) * fn (reshapeRow fun i => x (σ i)) c := by
  unfold factorizedLeaf parallelPermutations
  simp only
  rw [signs_eq, permutationList_eq, List.map_map, List.zipWith_map, List.zipWith_self,
    ← sum_lexPerms]
  congr 2
  funext σ
  simp only [Function.comp_apply, takeRows_permToList]

theorem length_permutationList (n : ℕ) : (permutationList n).length = (lexPerms n).length := by
  rw [permutationList_eq, List.length_map]

/-- indices of the permutation list correspond to permutations -/
def permIndex (n : ℕ) : Fin (permutationList n).length ≃ Perm (Fin n) :=
  (finCongr (by rw [permutationList_eq, List.length_map])).trans
    (List.Nodup.getEquivOfForallMemList (lexPerms n) (lexPerms_nodup n) mem_lexPerms)

theorem get_permutationList {n : ℕ} (i : Fin (permutationList n).length) :
    (permutationList n).get i = permToList (permIndex n i) := by
  have h : i.val < (lexPerms n).length := by
    have := i.2
    have := length_permutationList n
    omega
  have h2 : permIndex n i = (lexPerms n)[i.val] := rfl
  rw [h2, List.get_eq_getElem]
  simp only [permutationList_eq, List.getElem_map]

theorem get_signs {n : ℕ} (i : Fin (permutationList n).length) :
    (getLexicographicSigns n).getD i 0 = ((Perm.sign (permIndex n i) : ℤ) : ℝ) := by
  have h : i.val < (lexPerms n).length := by
    have := i.2
    have := length_permutationList n
    omega
  have h2 : permIndex n i = (lexPerms n)[i.val] := rfl
  rw [h2, signs_eq, List.getD_eq_getElem?_getD]
  simp [h]

theorem foldl_mul_ofFn {k : ℕ} (f : Fin k → ℝ) (a : ℝ) :
    (List.ofFn f).foldl (· * ·) a = a * ∏ i, f i := by
  induction k generalizing a with
  | zero => simp
  | succ k ih => rw [List.ofFn_succ, List.foldl_cons, ih, Fin.prod_univ_succ, mul_assoc]

theorem reduceLeaves_mul {k : ℕ} (f : Fin (k + 1) → ℝ) :
    reduceLeaves (· * ·) f = ∏ i, f i := by
  unfold reduceLeaves
  rw [foldl_mul_ofFn, Fin.prod_univ_succ]

theorem genericAntisymmetrize_eq {k dout : ℕ} {n d : Fin (k + 1) → ℕ}
    (fn : List ℝ → Fin dout → ℝ) (xs : ∀ s, Fin (n s) → Fin (d s) → ℝ) :
    genericAntisymmetrize fn xs = ∑ σ : ∀ s, Perm (Fin (n s)),
      (∏ s, ((Perm.sign (σ s) : ℤ) : ℝ)) *
        ∑ c, fn (List.ofFn fun s => reshapeRow fun i => xs s (σ s i)).flatten c := by
  unfold genericAntisymmetrize
  refine Fintype.sum_equiv (Equiv.piCongrRight fun s => permIndex (n s)) _ _ fun κ => ?_
  rw [Finset.mul_sum]
  refine Finset.sum_congr rfl fun c _ => ?_
  simp only [foldl_mul_ofFn, parallelPermutations, get_signs, get_permutationList,
    takeRows_permToList, Equiv.piCongrRight_apply, Pi.map_apply]
  rw [mul_comm]

theorem slogMultiply_represents {p q : XR × XR} {a b : ℝ} (hp : Spec.Represents p a)
    (hq : Spec.Represents q b) : Spec.Represents (Slog.slogMultiply p q) (a * b) :=
  Props.slog_multiply_represents hp hq

theorem foldl_slogMultiply {k : ℕ} (f : Fin k → XR × XR) (r : Fin k → ℝ)
    (h : ∀ i, Spec.Represents (f i) (r i)) {p : XR × XR} {a : ℝ} (hp : Spec.Represents p a) :
    Spec.Represents ((List.ofFn f).foldl Slog.slogMultiply p) (a * ∏ i, r i) := by
  induction k generalizing p a with
  | zero => simpa using hp
  | succ k ih =>
    rw [List.ofFn_succ, List.foldl_cons, Fin.prod_univ_succ, ← mul_assoc]
    exact ih _ _ (fun i => h i.succ) (slogMultiply_represents hp (h 0))

theorem reduceLeaves_represents {k : ℕ} (f : Fin (k + 1) → XR × XR) (r : Fin (k + 1) → ℝ)
    (h : ∀ i, Spec.Represents (f i) (r i)) :
    Spec.Represents (reduceLeaves Slog.slogMultiply f) (∏ i, r i) := by
  unfold reduceLeaves
  rw [Fin.prod_univ_succ]
  exact foldl_slogMultiply _ _ (fun i => h i.succ) (h 0)

end Verif.Antisym
