import Verif.Lemmas.BatchedNets
import Verif.Lemmas.ArrayViewsNet

namespace Verif.Arrays
open Verif.Slog Verif.Construct Verif.Net

variable {K M a b c d e : ℕ} {n : Fin (K + 1) → ℕ}

/-! ### Invariances -/

theorem dense_A1 (useBias : Bool) (kernel : Fin b → Fin c → ℝ) (bias : Fin c → ℝ) (x : Fin b → ℝ) :
    dense useBias (toDense kernel bias) c (A1 x) = A1 (Net.dense useBias kernel bias x) := by
  refine eq_A1 rfl fun j => ?_
  unfold dense
  rw [of_get (by exact .cons j.2 .nil)]
  exact dense_sum useBias kernel bias _ x (fun k => A1_get x k.2) j

theorem unflatten_A1 {α : Type} [Inhabited α] (x : Fin (d * e) → α) :
    unflatten d e (A1 x) = .ok (A2 fun k l => x (finProdFinEquiv (k, l))) := by
  simp only [unflatten, A1_shape]
  rw [if_pos (by simp only [List.prod_cons]; ring)]
  congr 1
  refine eq_A2 rfl fun k l => ?_
  rw [of_get (by exact ix2)]
  have h : k.val * e + l.val = (finProdFinEquiv (k, l)).val := by
    rw [finProdFinEquiv_apply_val]; ring
  show (A1 x).get [k.val * e + l.val] = _
  rw [h, A1_get x (Fin.isLt _)]

/-- The parameters of the dense layers of an invariance. -/
noncomputable def invariantA {S d1 : ℕ} {rows cols : Fin S → ℕ} (I : InvariantDense S d1 rows cols) (s : ℕ) :
    DenseA :=
  if h : s < S then toDense (I.kernel ⟨s, h⟩) (I.bias ⟨s, h⟩) else zeroDense

theorem reshapeAll_ofFn {S : ℕ} {A C : Fin S → Arr ℝ} {rows cols : Fin S → ℕ}
    (h : ∀ s, unflatten (rows s) (cols s) (A s) = .ok (C s)) :
    reshapeAll (List.ofFn A) (List.ofFn fun s => (rows s, cols s)) = .ok (List.ofFn C) := by
  induction S with
  | zero => rfl
  | succ S ih =>
    rw [List.ofFn_succ, List.ofFn_succ, List.ofFn_succ]
    unfold reshapeAll
    rw [h 0, ok_bind, ih fun s => h s.succ]
    rfl

theorem invariantTensor_S1 {ss : List ℤ} (hs : places ss = ends n) (inv : InvarianceDesc) {d1 : ℕ}
    {rows cols : Fin (K + 1) → ℕ} (I : InvariantDense (K + 1) d1 rows cols) (x : Stream1 n d1) :
    invariantTensorA inv.useBias (invariantA I) ss (List.ofFn fun s => (rows s, cols s)) (S1 x) =
      .ok (List.ofFn fun s => A2 ((inv.layers I).apply x s)) := by
  have hl : ss.length = K := by
    have := congrArg List.length hs
    simpa [places, ends] using this
  unfold invariantTensorA splitMeanDenseA splitMeanA
  rw [if_neg (by simp [hl]), hs, split_rows2]
  simp only [ok_bind, List.map_ofFn, Function.comp_def, reduce_rows_A2, mean_ofFn]
  show (Except.ok (denseParts _ _ _ (List.ofFn _) (List.ofFn _)) >>= fun flat => reshapeAll flat _) = _
  rw [ok_bind, denseParts_ofFn]
  refine reshapeAll_ofFn fun s => ?_
  have hd : invariantA I (0 + s) = toDense (I.kernel s) (I.bias s) := by
    rw [Nat.zero_add]
    exact dif_pos s.2
  rw [hd, dense_A1, unflatten_A1]
  rfl

/-! ### Particles of both kinds -/

theorem pick_interleave {S : ℕ} {m h : Fin S → ℕ} (v : ∀ s, Fin (m s) → Fin b → ℝ)
    (w : ∀ s, Fin (h s) → Fin b → ℝ) (k : Fin b) (i : ℕ) :
    pick 1 (interleave (List.ofFn fun s => A2 (v s)) (List.ofFn fun s => A2 (w s))) [k.val, i] =
      pick 1 (List.ofFn fun s => A2 (Fin.append (v s) (w s))) [k.val, i] := by
  induction S generalizing i with
  | zero => rfl
  | succ S ih =>
    rw [List.ofFn_succ, List.ofFn_succ, List.ofFn_succ]
    simp only [interleave, pick, A2_shape, List.getD_cons_succ, List.getD_cons_zero]
    by_cases h1 : i < m 0
    · rw [if_pos h1, if_pos (by omega), A2_get _ h1 k.2, A2_get _ (by omega) k.2]
      exact (congrFun (Fin.append_left (v 0) (w 0) ⟨i, h1⟩) k).symm
    · rw [if_neg h1]
      have e1 : [k.val, i].modify 1 (· - m 0) = [k.val, i - m 0] := rfl
      have e2 : [k.val, i].modify 1 (· - (m 0 + h 0)) = [k.val, i - (m 0 + h 0)] := rfl
      rw [e1, e2]
      simp only [List.getD_cons_succ, List.getD_cons_zero]
      by_cases h2 : i - m 0 < h 0
      · rw [if_pos h2, if_pos (by omega), A2_get _ h2 k.2, A2_get _ (by omega) k.2]
        refine (congrFun (Fin.append_right (v 0) (w 0) ⟨i - m 0, h2⟩) k).symm.trans ?_
        refine congrFun (congrArg (Fin.append (v 0) (w 0)) (Fin.ext ?_)) k
        show m 0 + (i - m 0) = i
        omega
      · rw [if_neg h2, if_neg (by omega)]
        have e3 : [k.val, i - m 0].modify 1 (· - h 0) = [k.val, i - (m 0 + h 0)] := by
          rw [← Nat.sub_sub]; rfl
        rw [e3]
        exact ih _ _ _

theorem interleave_shapes {S : ℕ} {m h : Fin S → ℕ} (v : ∀ s, Fin (m s) → Fin b → ℝ)
    (w : ∀ s, Fin (h s) → Fin b → ℝ) :
    (∀ X ∈ interleave (List.ofFn fun s => A2 (v s)) (List.ofFn fun s => A2 (w s)),
      X.shape.set 1 0 = [b, 0]) ∧
    ((interleave (List.ofFn fun s => A2 (v s)) (List.ofFn fun s => A2 (w s))).map
      fun X => X.shape.getD 1 0).sum = ∑ s, (m s + h s) := by
  induction S with
  | zero => exact ⟨fun X hX => by simp [interleave] at hX, rfl⟩
  | succ S ih =>
    obtain ⟨h1, h2⟩ := ih (fun s => v s.succ) fun s => w s.succ
    rw [List.ofFn_succ, List.ofFn_succ]
    simp only [interleave, List.mem_cons, List.map_cons, List.sum_cons]
    constructor
    · rintro X (rfl | rfl | hX)
      · rfl
      · rfl
      · exact h1 X hX
    · rw [h2, Fin.sum_univ_succ]
      simp only [A2_shape, List.getD_cons_succ, List.getD_cons_zero]
      omega

theorem concat_interleave {h : Fin (K + 1) → ℕ} (v : ∀ s, Fin (n s) → Fin b → ℝ)
    (w : ∀ s, Fin (h s) → Fin b → ℝ) :
    concat 1 (interleave (List.ofFn fun s => A2 (v s)) (List.ofFn fun s => A2 (w s))) =
      concat 1 (List.ofFn fun s => A2 (Fin.append (v s) (w s))) := by
  obtain ⟨h1, h2⟩ := interleave_shapes v w
  have h3 := pick_interleave v w
  rw [concat_ofFn 1 _ (fun s => n s + h s) (sh := [b, 0]) (fun _ => rfl) (by simp)]
  generalize hl : interleave (List.ofFn fun s => A2 (v s)) (List.ofFn fun s => A2 (w s)) = l at h1 h2 h3 ⊢
  cases l with
  | nil => rw [List.ofFn_succ, List.ofFn_succ] at hl; cases hl
  | cons X l =>
    have hX : X.shape = [b, n 0] := by
      rw [List.ofFn_succ, List.ofFn_succ] at hl
      cases hl
      rfl
    simp only [concat]
    rw [if_pos fun c hc => by rw [h1 c (List.mem_cons_of_mem _ hc), h1 X List.mem_cons_self], h2, hX]
    congr 1
    refine arr_ext rfl fun i hi => ?_
    have hi' : Ix i [b, ∑ s, (n s + h s)] := hi
    obtain ⟨k, j, rfl⟩ : ∃ k j, i = [k, j] := by
      cases hi' with
      | cons _ t => cases t with
        | cons _ t => cases t; exact ⟨_, _, rfl⟩
    rw [of_get (by exact hi'), of_get (by exact hi')]
    cases hi' with
    | cons hk _ => exact h3 ⟨k, hk⟩ j

/-- Parameters of the invariance of an embedded-particle FermiNet. -/
noncomputable def embeddedInvarianceA {nion : ℕ} (h : Fin (K + 1) → ℕ) (s : StreamsDesc) (bs : List BlockDesc)
    (P : Params (K + 1) nion d) : InvarianceA where
  backflow := blocksA P.invBackflow 0 bs (inWidths nion d s.includeEeNorm)
  dense := invariantA (P.invariance (outWidths bs (inWidths nion d s.includeEeNorm)).1 h fun _ => d)

theorem hidden_ofFn (nh : List ℕ) (hl : nh.length = K + 1) : nh = List.ofFn (hiddenOf K nh) := by
  refine List.ext_getElem (by simp [hl]) fun i h1 h2 => ?_
  rw [List.getElem_ofFn]
  simp [hiddenOf, h1]

theorem allParticles_one (f : FermiDesc) (nh : List ℕ) (s : StreamsDesc) (bs : List BlockDesc)
    (inv : InvarianceDesc) (P : Params (K + 1) (M + 1) d) (hl : nh.length = K + 1)
    (hs : f.spinSplit = Split.getSpinSplit (counts n)) (hb : BlocksMatch (counts n) bs)
    (hei : s.includeEiNorm = true) (hN : ∑ s, n s ≠ 0) (ions : Fin (M + 1) → Fin d → ℝ)
    (pos : Stream1 n d) :
    allParticles f.spinSplit nh s bs inv (embeddedInvarianceA (hiddenOf K nh) s bs P) (A2 ions) (S1 pos) =
      .ok (S1 (embeddedPositions (h := hiddenOf K nh)
        (ionStreams ions s.include2e s.eiSoftening s.includeEeNorm s.eeSoftening)
        (blocks P.invBackflow 0 bs (inWidths (M + 1) d s.includeEeNorm))
        (inv.layers (P.invariance _ _ _)) pos)) := by
  obtain ⟨ree, hin⟩ := inputStreams_S1 s hei hN ions pos
  have hpl : places f.spinSplit = ends n := by rw [hs, places_counts]
  unfold allParticles
  rw [hpl, split_rows2, ok_bind, hin, ok_bind]
  simp only
  rw [backflow_S P.invBackflow (embeddedInvarianceA (hiddenOf K nh) s bs P).backflow 0 bs
    (inWidths (M + 1) d s.includeEeNorm) (fun _ _ => rfl)
    (fun b hb' => by rw [hb b hb', places_counts]), ok_bind]
  have hsh : (nh.map fun h => (h, (S1 pos).shape.getD 0 0)) =
      List.ofFn fun s => (hiddenOf K nh s, (fun _ => d) s) := by
    conv_lhs => rw [hidden_ofFn nh hl]
    rw [List.map_ofFn]
    rfl
  rw [hsh, show (embeddedInvarianceA (hiddenOf K nh) s bs P).dense = invariantA _ from rfl,
    invariantTensor_S1 hpl, ok_bind, concat_interleave, concat_rows2]
  rfl

/-- The array code of the embedded-particle FermiNet on one walker. -/
theorem embedded_one (f : FermiDesc) (nh : List ℕ) (s : StreamsDesc) (bs : List BlockDesc)
    (inv : InvarianceDesc) (P : Params (K + 1) (M + 1) d)
    (hs : f.spinSplit = Split.getSpinSplit (counts n)) (hb : BlocksMatch (counts n) bs)
    (hb' : nh.length = K + 1 → BlocksMatch (counts fun s => n s + hiddenOf K nh s) f.backflow)
    (hei : s.includeEiNorm = true) (hei' : f.streams.includeEiNorm = true) (hdet : f.ndeterminants ≠ 0)
    (hN : ∑ s, n s ≠ 0) (ions : Fin (M + 1) → Fin d → ℝ) (pos : Stream1 n d) :
    embeddedA f nh s bs inv (fermiA f P fun s => n s + hiddenOf K nh s)
      (embeddedInvarianceA (hiddenOf K nh) s bs P) (A2 ions) (S1 pos) =
      A0 <$> applyEmbedded f nh s bs inv P ions pos := by
  unfold embeddedA applyEmbedded
  have hn : (((S1 pos).shape.getD 1 0 : ℕ) : ℤ) = (counts n).sum := by rw [counts_sum]; rfl
  rw [hn, hs, Props.nelecPerSplit_counts]
  by_cases hK : K = 0
  · rw [if_pos hK]
    rfl
  · rw [if_neg hK, ok_bind, ok_bind]
    have hc : (counts n).length = K + 1 := by simp [counts]
    rw [hc]
    by_cases hl : nh.length ≠ K + 1
    · rw [if_pos hl, if_pos hl]
      rfl
    · rw [if_neg hl, if_neg hl]
      have hl : nh.length = K + 1 := by omega
      rw [← hs, allParticles_one f nh s bs inv P hl hs hb hei hN, ok_bind]
      have ht : List.zipWith (· + ·) (counts n) (nh.map Int.ofNat) =
          counts fun s => n s + hiddenOf K nh s := by
        conv_lhs => rw [hidden_ofFn nh hl]
        unfold counts
        refine List.ext_getElem (by simp) fun i h1 h2 => ?_
        rw [List.getElem_zipWith, List.getElem_map, List.getElem_ofFn, List.getElem_ofFn, List.getElem_ofFn]
        exact (Nat.cast_add _ _).symm
      simp only [ht]
      have hN' : ∑ s, (n s + hiddenOf K nh s) ≠ 0 := by
        rw [Finset.sum_add_distrib]; omega
      refine (fermiNet_one { f with
        spinSplit := Split.getSpinSplit (counts fun s => n s + hiddenOf K nh s) } P rfl (hb' hl) hei' hdet hN' ions _).trans ?_
      congr 1
      unfold FermiDesc.apply
      cases hf : f.fullDet
      · simp only [Bool.false_eq_true, if_false]
        rw [Props.nelecPerSplit_counts, if_neg hK, ok_bind]
        rfl
      · rfl

end Verif.Arrays
