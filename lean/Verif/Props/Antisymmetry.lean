import Verif.Lemmas.Antisymmetry

/-!
C44 (signs of the lexicographic permutations) and C45 (explicit antisymmetrizers).
-/

namespace Verif.Props
open Verif.Spec Verif.Slog Verif.Antisym Equiv

/-- the one-line notation of a permutation of `0, ..., n-1` -/
def oneLine {n : ℕ} (σ : Perm (Fin n)) : List ℕ := List.ofFn fun i => (σ i : ℕ)

/-- the parity of a permutation as a real number -/
def parity {n : ℕ} (σ : Perm (Fin n)) : ℝ := ((Perm.sign σ : ℤ) : ℝ)

theorem parity_mul {n : ℕ} (σ τ : Perm (Fin n)) : parity (σ * τ) = parity σ * parity τ := by
  simp [parity]

theorem parity_sq {n : ℕ} (σ : Perm (Fin n)) : parity σ * parity σ = 1 := by
  unfold parity
  rcases Int.units_eq_one_or (Perm.sign σ) with h | h <;> rw [h] <;> norm_num

/-- C44: there is one sign per permutation, `n!` in all, and each is the parity of the
permutation at the same place. -/
theorem lexicographic_signs_are_parities (n : ℕ) :
    (permutationList n).length = n.factorial ∧
    (getLexicographicSigns n).length = n.factorial ∧
    ∀ k (hk : k < (permutationList n).length) (hk' : k < (getLexicographicSigns n).length),
      ∃ σ : Perm (Fin n), (permutationList n)[k] = oneLine σ ∧
        (getLexicographicSigns n)[k] = parity σ := by
  refine ⟨by rw [length_permutationList, lexPerms_length],
    by rw [signs_eq, List.length_map, lexPerms_length], fun k hk hk' => ?_⟩
  have h : k < (lexPerms n).length := by rwa [length_permutationList] at hk
  refine ⟨(lexPerms n)[k], ?_, ?_⟩
  · simp only [permutationList_eq, List.getElem_map]; rfl
  · simp only [signs_eq, List.getElem_map]; rfl

/-- C44: every permutation occurs exactly once in the list. -/
theorem permutation_list_complete (n : ℕ) :
    (permutationList n).Nodup ∧ ∀ σ : Perm (Fin n), oneLine σ ∈ permutationList n := by
  constructor
  · rw [permutationList_eq]
    refine (lexPerms_nodup n).map fun σ τ h => Equiv.ext fun i => ?_
    have := List.ofFn_injective h
    exact Fin.ext (congrFun this i)
  · intro σ
    rw [permutationList_eq]
    exact List.mem_map.mpr ⟨σ, mem_lexPerms σ, rfl⟩

theorem itertools_sorted (n : ℕ) (l : List ℕ) (hl : l.length = n) (hs : l.Pairwise (· < ·)) :
    (itertoolsPermutations n l).Pairwise (List.Lex (· < ·)) := by
  induction n generalizing l with
  | zero => simp [itertoolsPermutations]
  | succ n ih =>
    rw [itertoolsPermutations, List.flatMap_def, List.pairwise_flatten]
    constructor
    · intro L hL
      obtain ⟨i, _, rfl⟩ := List.mem_map.mp hL
      rw [List.pairwise_map]
      refine (ih (l.eraseIdx i) ?_ (hs.sublist (List.eraseIdx_sublist _ _))).imp
        fun h => List.Lex.cons h
      rw [List.length_eraseIdx, if_pos i.2]
      omega
    · rw [List.pairwise_map]
      refine (List.pairwise_lt_finRange l.length).imp fun {i j} hij a ha b hb => ?_
      obtain ⟨a', _, rfl⟩ := List.mem_map.mp ha
      obtain ⟨b', _, rfl⟩ := List.mem_map.mp hb
      exact List.Lex.rel (List.pairwise_iff_get.mp hs i j hij)

/-- C44: the permutations are in strictly increasing lexicographic order. -/
theorem permutation_list_lexicographic (n : ℕ) :
    (permutationList n).Pairwise (List.Lex (· < ·)) :=
  itertools_sorted n _ List.length_range List.pairwise_lt_range

/-- The six permutations of three particles and their signs. -/
example : permutationList 3 = [[0, 1, 2], [0, 2, 1], [1, 0, 2], [1, 2, 0], [2, 0, 1], [2, 1, 0]] ∧
    getLexicographicSigns 3 = [1, -1, -1, 1, 1, -1] := by
  constructor
  · decide
  · simp [getLexicographicSigns, getAlternatingSigns, List.range'_succ, List.range_succ]

variable {k dout : ℕ} {n d : Fin (k + 1) → ℕ}

/-- C45: one leaf of the factorized antisymmetrizer changes by the parity. -/
theorem leaf_antisymmetric {n d : ℕ} (fn : List ℝ → Fin dout → ℝ) (x : Fin n → Fin d → ℝ)
    (τ : Perm (Fin n)) (c : Fin dout) :
    factorizedLeaf fn (fun i => x (τ i)) c = parity τ * factorizedLeaf fn x c := by
  rw [factorizedLeaf_eq, factorizedLeaf_eq, Finset.mul_sum]
  refine Fintype.sum_equiv (Equiv.mulLeft τ) _ _ fun σ => ?_
  have h := parity_mul τ σ
  have h2 := parity_sq τ
  show parity σ * _ = parity τ * (parity (τ * σ) * _)
  rw [h, ← mul_assoc, ← mul_assoc, h2, one_mul]
  rfl

/-- C45: the factorized antisymmetrizer of any functions changes by the product of the parities
when the particles of every spin are permuted. -/
theorem factorized_antisymmetric (fns : Fin (k + 1) → List ℝ → Fin dout → ℝ)
    (xs : ∀ s, Fin (n s) → Fin (d s) → ℝ) (τ : ∀ s, Perm (Fin (n s))) (c : Fin dout) :
    factorizedAntisymmetrize fns (fun s i => xs s (τ s i)) c =
      (∏ s, parity (τ s)) * factorizedAntisymmetrize fns xs c := by
  unfold factorizedAntisymmetrize
  rw [reduceLeaves_mul, reduceLeaves_mul, ← Finset.prod_mul_distrib]
  exact Finset.prod_congr rfl fun s _ => leaf_antisymmetric (fns s) (xs s) (τ s) c

/-- C45: the (sign, log) output of the factorized antisymmetrizer stands for its plain output;
with `factorized_antisymmetric` the permuted output stands for the plain output times the
parities. -/
theorem factorized_slog_represents (fns : Fin (k + 1) → List ℝ → Fin dout → ℝ)
    (xs : ∀ s, Fin (n s) → Fin (d s) → ℝ) (τ : ∀ s, Perm (Fin (n s))) (c : Fin dout) :
    Represents (factorizedAntisymmetrizeSlog fns xs c) (factorizedAntisymmetrize fns xs c) ∧
    Represents (factorizedAntisymmetrizeSlog fns (fun s i => xs s (τ s i)) c)
      ((∏ s, parity (τ s)) * factorizedAntisymmetrize fns xs c) := by
  have key : ∀ ys : (∀ s, Fin (n s) → Fin (d s) → ℝ),
      Represents (factorizedAntisymmetrizeSlog fns ys c) (factorizedAntisymmetrize fns ys c) := by
    intro ys
    unfold factorizedAntisymmetrizeSlog factorizedAntisymmetrize
    rw [reduceLeaves_mul]
    exact reduceLeaves_represents _ _ fun s => slog_of_array _
  refine ⟨key xs, ?_⟩
  rw [← factorized_antisymmetric]
  exact key _

/-- C45: the generic antisymmetrizer of any function of all particles changes by the product of
the parities. -/
theorem generic_antisymmetric (fn : List ℝ → Fin dout → ℝ)
    (xs : ∀ s, Fin (n s) → Fin (d s) → ℝ) (τ : ∀ s, Perm (Fin (n s))) :
    genericAntisymmetrize fn (fun s i => xs s (τ s i)) =
      (∏ s, parity (τ s)) * genericAntisymmetrize fn xs := by
  rw [genericAntisymmetrize_eq, genericAntisymmetrize_eq, Finset.mul_sum]
  refine Fintype.sum_equiv (Equiv.piCongrRight fun s => Equiv.mulLeft (τ s)) _ _ fun σ => ?_
  have h : (∏ s, parity (σ s)) = (∏ s, parity (τ s)) * ∏ s, parity (τ s * σ s) := by
    rw [← Finset.prod_mul_distrib]
    refine Finset.prod_congr rfl fun s _ => ?_
    rw [parity_mul, ← mul_assoc, parity_sq, one_mul]
  show (∏ s, parity (σ s)) * _ = (∏ s, parity (τ s)) * ((∏ s, parity (τ s * σ s)) * _)
  rw [h, mul_assoc]
  rfl

/-- C45: the (sign, log) output of the generic antisymmetrizer. -/
theorem generic_slog_represents (fn : List ℝ → Fin dout → ℝ)
    (xs : ∀ s, Fin (n s) → Fin (d s) → ℝ) (τ : ∀ s, Perm (Fin (n s))) :
    Represents (genericAntisymmetrizeSlog fn xs) (genericAntisymmetrize fn xs) ∧
    Represents (genericAntisymmetrizeSlog fn (fun s i => xs s (τ s i)))
      ((∏ s, parity (τ s)) * genericAntisymmetrize fn xs) := by
  refine ⟨slog_of_array _, ?_⟩
  rw [← generic_antisymmetric]
  exact slog_of_array _

/-- C45: the antisymmetrizers are the full alternating sums (so they are not identically zero):
every permutation of every spin enters once with its parity. -/
theorem generic_is_alternating_sum (fn : List ℝ → Fin dout → ℝ)
    (xs : ∀ s, Fin (n s) → Fin (d s) → ℝ) :
    genericAntisymmetrize fn xs = ∑ σ : ∀ s, Perm (Fin (n s)), (∏ s, parity (σ s)) *
      ∑ c, fn (List.ofFn fun s => reshapeRow fun i => xs s (σ s i)).flatten c :=
  genericAntisymmetrize_eq fn xs

/-- C45: the same for one leaf of the factorized antisymmetrizer. -/
theorem leaf_is_alternating_sum {n d : ℕ} (fn : List ℝ → Fin dout → ℝ) (x : Fin n → Fin d → ℝ)
    (c : Fin dout) :
    factorizedLeaf fn x c = ∑ σ, parity σ * fn (reshapeRow fun i => x (σ i)) c :=
  factorizedLeaf_eq fn x c

/-- Antisymmetrizing "first particle's coordinate" over two particles gives `x₀ - x₁`. -/
example (x : Fin 2 → Fin 1 → ℝ) :
    factorizedLeaf (dout := 1) (fun l _ => l.getD 0 0) x 0 = x 0 0 - x 1 0 := by
  rw [leaf_is_alternating_sum]
  have h : (Finset.univ : Finset (Perm (Fin 2))) = {1, Equiv.swap 0 1} := by decide
  rw [h, Finset.sum_pair (by decide)]
  simp [parity, reshapeRow, sub_eq_add_neg]

end Verif.Props
