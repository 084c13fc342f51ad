import Verif.Model.Network
import Mathlib.GroupTheory.Perm.Sign
import Mathlib.Tactic

/-! C43: the input streams and the residual blocks are permutation equivariant. -/

namespace Verif.Props
open Verif.Net Equiv

variable {S : ℕ} {n : Fin S → ℕ}

/-- a permutation of the electrons which only moves electrons within their species -/
def permE (π : ∀ s, Perm (Fin (n s))) : Perm (Elec n) := Equiv.sigmaCongrRight π

theorem permE_apply (π : ∀ s, Perm (Fin (n s))) (s : Fin S) (i : Fin (n s)) :
    permE π ⟨s, i⟩ = ⟨s, π s i⟩ := rfl

/-- permuted one-electron data (any data with one electron axis) -/
def permute1 {β : Type*} (π : ∀ s, Perm (Fin (n s))) (x : Elec n → β) : Elec n → β :=
  fun e => x (permE π e)

/-- permuted two-electron data: both particle indices -/
def permute2 {β : Type*} (π : ∀ s, Perm (Fin (n s))) (y : Elec n → Elec n → β) :
    Elec n → Elec n → β := fun e e' => y (permE π e) (permE π e')

/-- permuted output of the electron-ion part -/
def permuteInput1 {nion d : ℕ} (π : ∀ s, Perm (Fin (n s))) : Input1 n nion d → Input1 n nion d
  | .positions x => .positions (permute1 π x)
  | .flattened x => .flattened (permute1 π x)
  | .unflattened x => .unflattened (permute1 π x)

theorem eeNorm_perm {d : ℕ} (π : ∀ s, Perm (Fin (n s))) (c : ℝ) (r : Stream2 n d) (e e' : Elec n) :
    eeNormSafeDiag c (permute2 π r) e e' = eeNormSafeDiag c r (permE π e) (permE π e') := by
  have : (e = e') ↔ (permE π e = permE π e') := (permE π).apply_eq_iff_eq.symm
  unfold eeNormSafeDiag permute2
  simp only [this]

theorem computeEE_perm {d : ℕ} (π : ∀ s, Perm (Fin (n s))) (pos : Stream1 n d) (b : Bool) (c : ℝ) :
    (computeElectronElectron (permute1 π pos) b c).1 =
      permute2 π (computeElectronElectron pos b c).1 ∧
    (computeElectronElectron (permute1 π pos) b c).2 =
      permute2 π (computeElectronElectron pos b c).2 := by
  cases b with
  | false => exact ⟨rfl, rfl⟩
  | true =>
    refine ⟨?_, rfl⟩
    funext e e'
    show eeInputWithNorm c (permute1 π pos) e e' = eeInputWithNorm c pos (permE π e) (permE π e')
    have h := eeNorm_perm π c (displacements pos pos) e e'
    unfold eeInputWithNorm
    rw [← h]
    rfl

/-- C43: permuting electrons within species permutes all input streams: the one-electron input
and the electron-ion displacements in their electron index, the two-electron input and the
electron-electron displacements in both, for every choice of options. -/
theorem input_streams_equivariant {nion d : ℕ} (π : ∀ s, Perm (Fin (n s)))
    (ionPos : Option (Fin nion → Fin d → ℝ)) (include2e includeEiNorm : Bool) (c : ℝ)
    (includeEeNorm : Bool) (c' : ℝ) (pos : Stream1 n d) :
    computeInputStreams ionPos include2e includeEiNorm c includeEeNorm c' (permute1 π pos) =
      let out := computeInputStreams ionPos include2e includeEiNorm c includeEeNorm c' pos
      (permuteInput1 π out.1, out.2.1.map (permute2 π), out.2.2.1.map (permute1 π),
        out.2.2.2.map (permute2 π)) := by
  obtain ⟨h1, h2⟩ := computeEE_perm π pos includeEeNorm c'
  unfold computeInputStreams computeElectronIon
  cases ionPos <;> cases include2e <;> cases includeEiNorm <;>
    simp [permuteInput1, h1, h2] <;> first | rfl | exact ⟨rfl, rfl⟩

theorem splitMean_perm {ι : Type*} (π : ∀ s, Perm (Fin (n s))) (x : Elec n → ι → ℝ) :
    splitMean (permute1 π x) = splitMean x := by
  funext s k
  unfold splitMean permute1
  congr 1
  exact Fintype.sum_equiv (π s) _ _ fun i => rfl

theorem attention_perm {d H d' m : ℕ} (A : Attention d H d') (σ : Perm (Fin m))
    (x : Fin m → Fin d → ℝ) (i : Fin m) :
    A.apply (fun j => x (σ j)) i = A.apply x (σ i) := by
  funext c
  unfold Attention.apply
  simp only
  congr 1
  refine Finset.sum_congr rfl fun h _ => Finset.sum_congr rfl fun a _ => ?_
  congr 1
  refine Fintype.sum_equiv σ _ _ fun j => ?_
  congr 2
  exact Fintype.sum_equiv σ _ _ fun j' => rfl

theorem one_electron_perm {d1 d2 d' : ℕ} (L : OneElectronLayer S d1 d2 d')
    (π : ∀ s, Perm (Fin (n s))) (x : Stream1 n d1) (y : Option (Stream2 n d2)) :
    L.apply (permute1 π x) (y.map (permute2 π)) = permute1 π (L.apply x y) := by
  have hm : mixed L (permute1 π x) = permute1 π (mixed L x) := by
    funext e
    unfold mixed
    show _ = mixed L x (permE π e)
    unfold mixed
    cases L.mixing with
    | transformer A => exact attention_perm A (π e.1) (fun j => x ⟨e.1, j⟩) e.2
    | means K => rw [splitMean_perm]; rfl
  have ht : ∀ y, transformed2e L (permute2 π y) = permute1 π (transformed2e L y) := by
    intro y
    funext e
    show dense _ _ _ (concatMeans _ _ (splitMean (permute2 π y e))) =
      dense _ _ _ (concatMeans _ _ (splitMean (y (permE π e))))
    have : splitMean (permute2 π y e) = splitMean (y (permE π e)) :=
      splitMean_perm π (y (permE π e))
    rw [this]
    rfl
  funext e
  unfold OneElectronLayer.apply
  rw [hm]
  cases y with
  | none => rfl
  | some y =>
    simp only [Option.map_some, ht]
    rfl

/-- C43: a residual block commutes with permutations of the electrons within species, for all
kernels, biases, activations and options. -/
theorem residual_block_equivariant {w w' : ℕ × ℕ} (b : Block S w w') (π : ∀ s, Perm (Fin (n s)))
    (x : Stream1 n w.1) (y : Option (Stream2 n w.2)) :
    b.apply (permute1 π x, y.map (permute2 π)) =
      (permute1 π (b.apply (x, y)).1, (b.apply (x, y)).2.map (permute2 π)) := by
  cases b with
  | both one two =>
    unfold Block.apply
    simp only [one_electron_perm]
    congr 1
    cases y <;> rfl
  | oneOnly one =>
    unfold Block.apply
    simp only [one_electron_perm]

/-- C43: in the two-electron stream the blocks act on each pair of electrons alone, in the same way
for all pairs: no information flows from other pairs or from the one-electron stream. -/
theorem two_electron_stream_local {w w' : ℕ × ℕ} (bs : Blocks S w w') :
    ∃ f : (Fin w.2 → ℝ) → Fin w'.2 → ℝ, ∀ (n : Fin S → ℕ) (x : Stream1 n w.1)
      (y : Stream2 n w.2), (bs.run (x, some y)).2 = some fun e e' => f (y e e') := by
  induction bs with
  | nil => exact ⟨id, fun _ _ _ => rfl⟩
  | cons b bs ih =>
    obtain ⟨f, hf⟩ := ih
    cases b with
    | both one two =>
      refine ⟨fun v => f (two.apply (n := fun _ : Fin 1 => 1) (fun _ _ => v) ⟨0, 0⟩ ⟨0, 0⟩), fun n x y => ?_⟩
      exact hf n _ _
    | oneOnly one => exact ⟨f, fun n x y => hf n _ _⟩

/-- C43: any number of residual blocks commutes with permutations of the electrons within
species, in both streams. -/
theorem residual_blocks_equivariant {w w' : ℕ × ℕ} (bs : Blocks S w w')
    (π : ∀ s, Perm (Fin (n s))) (x : Stream1 n w.1) (y : Option (Stream2 n w.2)) :
    bs.run (permute1 π x, y.map (permute2 π)) =
      (permute1 π (bs.run (x, y)).1, (bs.run (x, y)).2.map (permute2 π)) := by
  induction bs with
  | nil => rfl
  | cons b bs ih =>
    unfold Blocks.run
    rw [residual_block_equivariant]
    exact ih _ _

/-- C43: the backflow output is permuted like the electrons. -/
theorem backflow_equivariant {w w' : ℕ × ℕ} (bs : Blocks S w w') (π : ∀ s, Perm (Fin (n s)))
    (x : Stream1 n w.1) (y : Option (Stream2 n w.2)) :
    bs.backflow (permute1 π x, y.map (permute2 π)) = permute1 π (bs.backflow (x, y)) := by
  unfold Blocks.backflow
  rw [residual_blocks_equivariant]

/-- The typed streams are what `computeInputStreams` returns. -/
theorem ion_streams_are_input_streams {nion d : ℕ} (ions : Fin nion → Fin d → ℝ) (i2 : Bool) (c : ℝ)
    (ie : Bool) (c' : ℝ) (pos : Stream1 n d) :
    (computeInputStreams (some ions) i2 true c ie c' pos).1 =
      .flattened (ionStreams ions i2 c ie c' pos).1.1 ∧
    (computeInputStreams (some ions) i2 true c ie c' pos).2.1 =
      (ionStreams ions i2 c ie c' pos).1.2 ∧
    (computeInputStreams (some ions) i2 true c ie c' pos).2.2.1 =
      (ionStreams ions i2 c ie c' pos).2 := by
  cases i2 <;> exact ⟨rfl, rfl, rfl⟩

theorem plain_streams_are_input_streams {nion d : ℕ} (i2 : Bool) (ei : Bool) (c : ℝ)
    (ie : Bool) (c' : ℝ) (pos : Stream1 n d) :
    (computeInputStreams (nion := nion) none i2 ei c ie c' pos).1 =
      .positions (plainStreams (nion := nion) i2 ie c' pos).1.1 ∧
    (computeInputStreams (nion := nion) none i2 ei c ie c' pos).2.1 =
      (plainStreams (nion := nion) i2 ie c' pos).1.2 ∧
    (computeInputStreams (nion := nion) none i2 ei c ie c' pos).2.2.1 =
      (plainStreams (nion := nion) i2 ie c' pos).2 := by
  cases i2 <;> exact ⟨rfl, rfl, rfl⟩

/-- Equivariance of a function computing typed streams. -/
def StreamsEquivariant {nion d : ℕ} {w : ℕ × ℕ}
    (streams : Stream1 n d → Streams n w × Option (Elec n → Fin nion → Fin d → ℝ)) : Prop :=
  ∀ (π : ∀ s, Perm (Fin (n s))) (pos : Stream1 n d),
    streams (permute1 π pos) = ((permute1 π (streams pos).1.1,
      (streams pos).1.2.map (permute2 π)), (streams pos).2.map (permute1 π))

theorem ion_streams_equivariant {nion d : ℕ} (ions : Fin nion → Fin d → ℝ) (i2 : Bool) (c : ℝ)
    (ie : Bool) (c' : ℝ) : StreamsEquivariant (n := n) (ionStreams ions i2 c ie c') := by
  intro π pos
  obtain ⟨h1, _⟩ := computeEE_perm π pos ie c'
  unfold ionStreams
  cases i2 <;> simp [h1] <;> first | rfl | exact ⟨rfl, rfl⟩

theorem plain_streams_equivariant {nion d : ℕ} (i2 : Bool) (ie : Bool) (c' : ℝ) :
    StreamsEquivariant (n := n) (d := d) (plainStreams (nion := nion) i2 ie c') := by
  intro π pos
  obtain ⟨h1, _⟩ := computeEE_perm π pos ie c'
  unfold plainStreams
  cases i2 <;> simp [h1]

/-! ### What the streams contain -/

/-- C43: electron-electron distances: zero on the diagonal, the softened distance off it (so the
ones added on the diagonal to keep gradients finite never show). -/
theorem ee_norm_values {d : ℕ} (c : ℝ) (pos : Stream1 n d) (e e' : Elec n) :
    eeNormSafeDiag c (displacements pos pos) e e' =
      if e = e' then 0
      else Real.sqrt ((∑ k, (pos e k - pos e' k) ^ 2) + c ^ 2) - c := by
  unfold eeNormSafeDiag
  by_cases h : e = e'
  · simp [h]
  · simp only [h, if_false, add_zero, sub_zero, mul_one, softened, norm2, displacements]
    rw [Real.sq_sqrt (Finset.sum_nonneg fun k _ => sq_nonneg _)]

/-- C43: the flattened electron-ion input holds, ion by ion, the displacement and after it the
softened distance. -/
theorem ei_input_values {nion d : ℕ} (c : ℝ) (pos : Stream1 n d) (ions : Fin nion → Fin d → ℝ)
    (e : Elec n) (j : Fin nion) (k : Fin d) :
    eiInput c (displacements pos ions) e (finProdFinEquiv (j, k.castSucc)) = pos e k - ions j k ∧
    eiInput c (displacements pos ions) e (finProdFinEquiv (j, Fin.last d)) =
      Real.sqrt ((∑ k, (pos e k - ions j k) ^ 2) + c ^ 2) - c := by
  unfold eiInput
  simp only [Equiv.symm_apply_apply, Fin.snoc_castSucc, Fin.snoc_last, softened, norm2,
    displacements, true_and]
  rw [Real.sq_sqrt (Finset.sum_nonneg fun k _ => sq_nonneg _)]

/-! ### C62: cyclic spin sharing -/

/-- relabelling of species by a cyclic shift, all species having `m` electrons -/
def shiftE {K m : ℕ} (r : Fin (K + 1)) (e : Elec fun _ : Fin (K + 1) => m) :
    Elec fun _ : Fin (K + 1) => m := ⟨e.1 + r, e.2⟩

/-- whether a block shares its weights cyclically between the spins -/
def Block.Cyclic {S : ℕ} {w w' : ℕ × ℕ} : Block S w w' → Prop
  | .both one _ => one.cyclic = true
  | .oneOnly one => one.cyclic = true

/-- whether all blocks do -/
def Blocks.Cyclic {S : ℕ} {w w' : ℕ × ℕ} : Blocks S w w' → Prop
  | .nil => True
  | .cons b bs => Block.Cyclic b ∧ Blocks.Cyclic bs

/-- both streams with species relabelled -/
def shiftStreams {K m : ℕ} {w : ℕ × ℕ} (r : Fin (K + 1))
    (xs : Streams (fun _ : Fin (K + 1) => m) w) : Streams (fun _ : Fin (K + 1) => m) w :=
  (fun e => xs.1 (shiftE r e), xs.2.map fun y e e' => y (shiftE r e) (shiftE r e'))

theorem rolled_eq {K : ℕ} (s p : Fin (K + 1)) : rolled s p = s + p := by
  apply Fin.ext
  simp [rolled, Fin.val_add]

theorem concatMeans_shift {K m d : ℕ} (x : Stream1 (fun _ : Fin (K + 1) => m) d)
    (r s : Fin (K + 1)) :
    concatMeans true s (splitMean fun e => x (shiftE r e)) =
      concatMeans true (s + r) (splitMean x) := by
  funext p
  simp only [concatMeans, if_true, rolled_eq]
  have h : s + p.1 + r = s + r + p.1 := add_right_comm _ _ _
  show (∑ i, x ⟨s + p.1 + r, i⟩ p.2) / _ = (∑ i, x ⟨s + r + p.1, i⟩ p.2) / _
  rw [h]

theorem one_electron_shift {K m d1 d2 d' : ℕ} (L : OneElectronLayer (K + 1) d1 d2 d')
    (hL : L.cyclic = true) (r : Fin (K + 1)) (x : Stream1 (fun _ : Fin (K + 1) => m) d1)
    (y : Option (Stream2 (fun _ : Fin (K + 1) => m) d2)) :
    L.apply (fun e => x (shiftE r e)) (y.map fun y e e' => y (shiftE r e) (shiftE r e')) =
      fun e => L.apply x y (shiftE r e) := by
  funext e
  have hmix : mixed L (fun e => x (shiftE r e)) e = mixed L x (shiftE r e) := by
    unfold mixed
    cases L.mixing with
    | transformer A => rfl
    | means K =>
      simp only [hL]
      rw [concatMeans_shift]
      rfl
  unfold OneElectronLayer.apply
  cases y with
  | none =>
    simp only [Option.map_none, hmix]
  | some y =>
    have h2 : transformed2e L (fun e e' => y (shiftE r e) (shiftE r e')) e =
        transformed2e L y (shiftE r e) := by
      unfold transformed2e
      rw [hL, concatMeans_shift (fun e' => y (shiftE r e) e')]
      rfl
    simp only [Option.map_some, hmix, h2]

/-- C62: with cyclic weight sharing and equally many electrons of each species, relabelling the
species by a cyclic shift only relabels the streams. -/
theorem cyclic_blocks_equivariant {K m : ℕ} {w w' : ℕ × ℕ} (bs : Blocks (K + 1) w w')
    (hb : Blocks.Cyclic bs) (r : Fin (K + 1)) (xs : Streams (fun _ : Fin (K + 1) => m) w) :
    bs.run (shiftStreams r xs) = shiftStreams r (bs.run xs) := by
  induction bs with
  | nil => rfl
  | cons b bs ih =>
    obtain ⟨h1, h2⟩ := hb
    have hstep : b.apply (shiftStreams r xs) = shiftStreams r (b.apply xs) := by
      cases b with
      | both one two =>
        refine Prod.ext (one_electron_shift one h1 r xs.1 xs.2) ?_
        show (xs.2.map _).map _ = (xs.2.map _).map _
        rw [Option.map_map, Option.map_map]
        rfl
      | oneOnly one => exact Prod.ext (one_electron_shift one h1 r xs.1 xs.2) rfl
    show bs.run (b.apply (shiftStreams r xs)) = _
    rw [hstep, ih h2]
    rfl

/-- C62: the same for the output of the backflow: exchanging spin up and spin down wholesale
exchanges the spin-up and spin-down features. -/
theorem cyclic_backflow_equivariant {K m : ℕ} {w w' : ℕ × ℕ} (bs : Blocks (K + 1) w w')
    (hb : Blocks.Cyclic bs) (r : Fin (K + 1)) (xs : Streams (fun _ : Fin (K + 1) => m) w)
    (e : Elec fun _ : Fin (K + 1) => m) :
    bs.backflow (shiftStreams r xs) e = bs.backflow xs (shiftE r e) := by
  unfold Blocks.backflow
  rw [cyclic_blocks_equivariant bs hb]
  rfl

/-- a layer on one feature which returns the mean of its own species plus ten times the mean of
the next one (cyclic), or the mean of the first species plus ten times that of the second -/
def meanLayer (cyclic : Bool) : OneElectronLayer 2 1 1 1 where
  unmixedKernel := fun _ _ => 0
  bias := fun _ => 0
  useBias := false
  mixing := .means fun p _ => if p.1 = 0 then 1 else 10
  kernel2e := fun _ _ => 0
  activation := id
  skip := false
  skipScale := 1
  cyclic := cyclic

/-- The cyclic sharing is needed: without it this layer sends features 1 (up) and 2 (down) to 21
for both species, and with the species exchanged to 12 for both. -/
theorem uncyclic_layer_not_equivariant :
    ∃ x : Stream1 (fun _ : Fin 2 => 1) 1,
      (meanLayer false).apply (fun e => x (shiftE 1 e)) none ≠
        fun e => (meanLayer false).apply x none (shiftE 1 e) := by
  refine ⟨fun e _ => if e.1 = 0 then 1 else 2, fun h => ?_⟩
  have := congrFun (congrFun h ⟨0, 0⟩) 0
  simp [OneElectronLayer.apply, meanLayer, mixed, dense, skipConnect, concatMeans, splitMean, shiftE,
    Fintype.sum_prod_type, Fin.sum_univ_two] at this
  norm_num at this

/-- Two spin-up electrons and one spin-down electron on a line.  The layer sees the means 2 (of 1
and 3) and 5, mixed to 52 up and 25 down; swapping the two spin-up electrons permutes the
streams without changing these. -/
example : let x : Stream1 (![2, 1]) 1 := fun e _ => if e.1 = 1 then 5 else if e.2.val = 0 then 1 else 3
    (meanLayer true).apply x none ⟨0, ⟨0, by decide⟩⟩ 0 = 52 ∧
      (meanLayer true).apply x none ⟨1, ⟨0, by decide⟩⟩ 0 = 25 := by
  intro x
  have h0 : splitMean x 0 0 = 2 := by
    show (∑ i : Fin 2, x ⟨0, i⟩ 0) / ((2 : ℕ) : ℝ) = 2
    simp [Fin.sum_univ_two, x]
    norm_num
  have h1 : splitMean x 1 0 = 5 := by
    show (∑ i : Fin 1, x ⟨1, i⟩ 0) / ((1 : ℕ) : ℝ) = 5
    simp [x]
  constructor <;>
    simp [OneElectronLayer.apply, meanLayer, mixed, dense, skipConnect, concatMeans,
      Fintype.sum_prod_type, Fin.sum_univ_two, rolled_eq, h0, h1] <;> norm_num

end Verif.Props
