import Verif.Model.BatchedNets
import Verif.Lemmas.Batched

namespace Verif.Arrays
open Verif.Slog Verif.Construct Verif.Net

variable {B b : List ℕ} {r : ℕ} {X x : Arr ℝ}

theorem on_splitMeanDense (useBias : Bool) (P : ℕ → DenseA) (ks : List ℤ) (ms : List ℕ)
    (h : On B b 2 X x) :
    ERel (List.Forall₂ (On B b 1)) (splitMeanDenseA useBias P ks ms X)
      (splitMeanDenseA useBias P ks ms x) := by
  unfold splitMeanDenseA
  exact (on_splitMean h (by omega) ks).bind fun _ _ hM => .pure (on_denseParts _ _ hM _ _)

theorem on_reshapeAll {Xs xs : List (Arr ℝ)} (h : List.Forall₂ (On B b (r + 1)) Xs xs)
    (shapes : List (ℕ × ℕ)) :
    ERel (List.Forall₂ (On B b (r + 2))) (reshapeAll Xs shapes) (reshapeAll xs shapes) := by
  induction h generalizing shapes with
  | nil => exact .ok .nil
  | cons h _ ih =>
    obtain _ | ⟨⟨p, q⟩, shapes⟩ := shapes
    · exact .ok .nil
    · exact (h.unflatten p q).bind fun _ _ hY => (ih shapes).bind fun _ _ hYs => .pure (.cons hY hYs)

theorem on_invariantTensor (useBias : Bool) (P : ℕ → DenseA) (ks : List ℤ) (shapes : List (ℕ × ℕ))
    (h : On B b 2 X x) :
    ERel (List.Forall₂ (On B b 2)) (invariantTensorA useBias P ks shapes X)
      (invariantTensorA useBias P ks shapes x) := by
  unfold invariantTensorA
  split_ifs
  · exact .error _
  · exact (on_splitMeanDense _ _ _ _ h).bind fun _ _ hF => on_reshapeAll hF _

theorem on_interleave {Xs xs : List (Arr ℝ)} (h : List.Forall₂ (On B b r) Xs xs)
    {Ys ys : List (Arr ℝ)} (h' : List.Forall₂ (On B b r) Ys ys) :
    List.Forall₂ (On B b r) (interleave Xs Ys) (interleave xs ys) := by
  induction h generalizing Ys ys with
  | nil => exact .nil
  | cons h _ ih =>
    cases h' with
    | nil => exact .nil
    | cons h1 h2 => exact .cons h (.cons h1 (ih h2))

theorem on_allParticles {ions : Arr ℝ} (hi : ions.shape.length = 2) (ks : List ℤ) (nh : List ℕ)
    (s : StreamsDesc) (hs : s.includeEiNorm = true) (ds : List BlockDesc) (inv : InvarianceDesc)
    (I : InvarianceA) (h : On B b 2 X x) :
    ERel (On B b 2) (allParticles ks nh s ds inv I ions X) (allParticles ks nh s ds inv I ions x) := by
  unfold allParticles
  refine (h.split (by omega) _).bind fun V v hV => ?_
  refine (on_inputStreams hi _ hs h).bind fun S s hS => ?_
  obtain ⟨S1, S2, S3, S4⟩ := S
  obtain ⟨s1, s2, s3, s4⟩ := s
  simp only
  refine (on_backflow _ _ _ hS.in1e hS.in2e).bind fun T t hT => ?_
  rw [h.getD (by omega : 0 < 2)]
  exact (on_invariantTensor _ _ _ _ hT).bind fun _ _ hH => On.concat (on_interleave hV hH) (by omega)

theorem erel_eq {δ : Type} (m : Except String δ) : ERel Eq m m := by
  cases m with
  | ok a => exact .ok rfl
  | error e => exact .error e

theorem on_embedded {ions : Arr ℝ} (hi : ions.shape.length = 2) (f : FermiDesc)
    (hf : f.streams.includeEiNorm = true) (nh : List ℕ) (s : StreamsDesc)
    (hs : s.includeEiNorm = true) (ds : List BlockDesc) (inv : InvarianceDesc) (P : FermiA)
    (I : InvarianceA) (h : On B b 2 X x) :
    ERel (On B b 0) (embeddedA f nh s ds inv P I ions X) (embeddedA f nh s ds inv P I ions x) := by
  unfold embeddedA
  rw [h.getD (by omega : 1 < 2)]
  refine (erel_eq _).bind fun m _ e => ?_
  subst e
  split_ifs
  · exact .error _
  · exact (on_allParticles hi _ _ _ hs _ _ _ h).bind fun _ _ hA =>
      on_fermiNet hi
        { f with spinSplit := Split.getSpinSplit (List.zipWith (· + ·) m (nh.map Int.ofNat)) } hf P hA

theorem on_invarianceStream (ds : Option (List BlockDesc)) (I : InvarianceA) {Y y : Option (Arr ℝ)}
    {T t : Arr ℝ} (h : On B b 2 X x) (hy : OnO B b 3 Y y) (ht : On B b 2 T t) :
    ERel (On B b 2) (invarianceStream ds I X Y T) (invarianceStream ds I x y t) := by
  cases ds with
  | none => exact .ok ht
  | some ds => exact on_backflow _ _ _ h hy

theorem on_stackRows {p : ℕ} (hp : 0 < p) (hb : Ix b B) {Xs xs : List (Arr ℝ)}
    (h : List.Forall₂ (OnP B b p 2) Xs xs) {Ys ys : List (Arr ℝ)}
    (h' : List.Forall₂ (OnP B b p 2) Ys ys) :
    ERel (List.Forall₂ (OnP B b p 2)) (stackRows Xs Ys) (stackRows xs ys) := by
  induction h generalizing Ys ys with
  | nil => exact .ok .nil
  | cons h _ ih =>
    cases h' with
    | nil => exact .ok .nil
    | cons h1 h2 =>
      exact (OnP.liftList hp (fun _ _ _ _ hX => On.concat hX (by omega)) hb
        (.cons h (.cons h1 .nil))).bind fun _ _ hZ => (ih h2).bind fun _ _ hZs => .pure (.cons hZ hZs)

theorem on_extended {ions : Arr ℝ} (hi : ions.shape.length = 2) (f : FermiDesc)
    (hf : f.streams.includeEiNorm = true) (hd : f.ndeterminants ≠ 0) (nh : List ℕ)
    (ds : Option (List BlockDesc)) (inv : InvarianceDesc) (P : FermiA)
    (I : InvarianceA) (h : On B b 2 X x) :
    ERel (On B b 0) (extendedA f nh ds inv P I ions X) (extendedA f nh ds inv P I ions x) := by
  unfold extendedA
  refine (on_inputStreams hi _ hf h).bind fun S s hS => ?_
  obtain ⟨S1, S2, S3, S4⟩ := S
  obtain ⟨s1, s2, s3, s4⟩ := s
  simp only
  refine (on_backflow _ _ _ hS.in1e hS.in2e).bind fun T t hT => ?_
  have hn : extendedNorbitals f nh X = extendedNorbitals f nh x := by
    unfold extendedNorbitals
    rw [h.getD (by omega : 1 < 2)]
  rw [hn]
  refine (erel_eq _).bind fun m _ e => ?_
  subst e
  refine (on_orbitalLayer _ _ _ _ _ hT hS.rei).bind fun O o hO => ?_
  refine (ERel.mapM hO fun _ _ ha => on_reshapeRaw _ ha).bind fun E e hE => ?_
  refine ERel.bind (R := List.Forall₂ (OnP B b f.ndeterminants 2)) ?_ fun I' i' hI => ?_
  · unfold invarianceRows
    split_ifs
    · exact .error _
    · exact (on_invarianceStream ds I hS.in1e hS.in2e hT).bind fun _ _ hT' =>
        (on_invariantTensor _ _ _ _ hT').bind fun _ _ hR => ERel.mapM hR fun _ _ ha => on_reshapeRaw _ ha
  · exact (on_stackRows (by omega) h.ix hE hI).bind fun _ _ hZ => on_combine f P h.ix (by omega) hZ

end Verif.Arrays
