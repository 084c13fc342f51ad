import Verif.Model.Nets
import Verif.Props.FermiNet
import Verif.Props.Antiequivariance
import Verif.Props.Jastrow
import Mathlib.Tactic

/-! C63 - C65: the other wavefunction models. -/

namespace Verif.Props
open Verif.Net Verif.Slog Verif.Antisym Verif.SignSym Equiv

variable {S : ℕ} {n : Fin S → ℕ}

/-! ### C64: hidden fermions -/

/-- C64: the invariant tensor does not change when electrons are permuted within species. -/
theorem invariant_tensor_invariant {d1 : ℕ} {rows cols : Fin S → ℕ}
    (I : InvariantDense S d1 rows cols) (π : ∀ s, Perm (Fin (n s))) (x : Stream1 n d1) :
    I.apply (permute1 π x) = I.apply x := by
  funext s a b
  unfold InvariantDense.apply splitMeanDense
  rw [splitMean_perm]

/-- a permutation of the first `m` of `m + h` places -/
def extendPerm {m : ℕ} (h : ℕ) (σ : Perm (Fin m)) : Perm (Fin (m + h)) :=
  (finSumFinEquiv.symm.trans (Equiv.sumCongr σ (Equiv.refl (Fin h)))).trans finSumFinEquiv

theorem extendPerm_castAdd {m : ℕ} (h : ℕ) (σ : Perm (Fin m)) (i : Fin m) :
    extendPerm h σ (Fin.castAdd h i) = Fin.castAdd h (σ i) := by
  simp [extendPerm]

theorem extendPerm_natAdd {m : ℕ} (h : ℕ) (σ : Perm (Fin m)) (j : Fin h) :
    extendPerm h σ (Fin.natAdd m j) = Fin.natAdd m j := by
  simp [extendPerm]

theorem extendPerm_parity {m : ℕ} (h : ℕ) (σ : Perm (Fin m)) :
    parity (extendPerm h σ) = parity σ := by
  unfold parity extendPerm
  rw [Perm.sign_symm_trans_trans]
  have : (Equiv.sumCongr σ (Equiv.refl (Fin h)) : Perm (Fin m ⊕ Fin h)) =
      Equiv.Perm.sumCongr σ 1 := rfl
  rw [this, Perm.sign_sumCongr]
  simp

theorem append_perm {m h : ℕ} {β : Type*} (σ : Perm (Fin m)) (f : Fin m → β) (g : Fin h → β)
    (a : Fin (m + h)) :
    Fin.append (fun i => f (σ i)) g a = Fin.append f g (extendPerm h σ a) := by
  refine Fin.addCases (fun i => ?_) (fun j => ?_) a
  · rw [extendPerm_castAdd, Fin.append_left, Fin.append_left]
  · rw [extendPerm_natAdd, Fin.append_right, Fin.append_right]

theorem embedded_positions_perm {h : Fin S → ℕ} {nion d : ℕ} {v v' : ℕ × ℕ}
    (invStreams : Stream1 n d → Streams n v × Option (Elec n → Fin nion → Fin d → ℝ))
    (hinv : StreamsEquivariant invStreams) (invBackflow : Blocks S v v')
    (I : InvariantDense S v'.1 h fun _ => d) (π : ∀ s, Perm (Fin (n s))) (pos : Stream1 n d) :
    embeddedPositions invStreams invBackflow I (permute1 π pos) =
      permute1 (fun s => extendPerm (h s) (π s)) (embeddedPositions invStreams invBackflow I pos) := by
  unfold embeddedPositions
  rw [hinv π pos]
  simp only [backflow_equivariant, invariant_tensor_invariant]
  funext e
  exact append_perm (π e.1) (fun i => pos ⟨e.1, i⟩) _ e.2

theorem totalParity_extend (h : Fin S → ℕ) (π : ∀ s, Perm (Fin (n s))) :
    totalParity (fun s => extendPerm (h s) (π s)) = totalParity π :=
  Finset.prod_congr rfl fun s _ => extendPerm_parity (h s) (π s)

/-- C64: the FermiNet with embedded hidden particles is antisymmetric in the visible electrons of
each species. -/
theorem embedded_ferminet_antisymmetric {K ndet nion d : ℕ} {n h : Fin (K + 1) → ℕ}
    {v v' w w' : ℕ × ℕ}
    (invStreams : Stream1 n d → Streams n v × Option (Elec n → Fin nion → Fin d → ℝ))
    (hinv : StreamsEquivariant invStreams)
    (invBackflow : Blocks (K + 1) v v') (I : InvariantDense (K + 1) v'.1 h fun _ => d)
    (streams : Stream1 (fun s => n s + h s) d → Streams (fun s => n s + h s) w ×
      Option (Elec (fun s => n s + h s) → Fin nion → Fin d → ℝ))
    (hstreams : StreamsEquivariant streams) (backflow : Blocks (K + 1) w w')
    (L : OrbitalLayer (K + 1) w'.1 nion d fun s => ndet * (n s + h s))
    (detFn : Option (((dout : ℕ) → (Fin (K + 1) → Fin ndet → ℝ) → Fin dout → ℝ) × DetFnMode))
    (π : ∀ s, Perm (Fin (n s))) (pos : Stream1 n d) :
    embeddedFermiNet invStreams invBackflow I streams backflow L detFn (permute1 π pos) =
      (embeddedFermiNet invStreams invBackflow I streams backflow L detFn pos).map
        (signTimes (totalParity π)) := by
  unfold embeddedFermiNet
  rw [embedded_positions_perm invStreams hinv, ferminet_antisymmetric streams hstreams,
    totalParity_extend]

/-- C64 for the full-determinant form. -/
theorem embedded_ferminet_full_antisymmetric {ndet nion d : ℕ} {h : Fin S → ℕ} {v v' w w' : ℕ × ℕ}
    (invStreams : Stream1 n d → Streams n v × Option (Elec n → Fin nion → Fin d → ℝ))
    (hinv : StreamsEquivariant invStreams)
    (invBackflow : Blocks S v v') (I : InvariantDense S v'.1 h fun _ => d)
    (streams : Stream1 (fun s => n s + h s) d → Streams (fun s => n s + h s) w ×
      Option (Elec (fun s => n s + h s) → Fin nion → Fin d → ℝ))
    (hstreams : StreamsEquivariant streams) (backflow : Blocks S w w')
    (L : OrbitalLayer S w'.1 nion d fun _ => ndet * ∑ s, (n s + h s))
    (detFn : Option (((dout : ℕ) → (Fin 1 → Fin ndet → ℝ) → Fin dout → ℝ) × DetFnMode))
    (π : ∀ s, Perm (Fin (n s))) (pos : Stream1 n d) :
    embeddedFermiNetFull invStreams invBackflow I streams backflow L detFn (permute1 π pos) =
      (embeddedFermiNetFull invStreams invBackflow I streams backflow L detFn pos).map
        (signTimes (totalParity π)) := by
  unfold embeddedFermiNetFull
  rw [embedded_positions_perm invStreams hinv, ferminet_full_det_antisymmetric streams hstreams,
    totalParity_extend]

theorem extended_rows_perm {nion d ndet : ℕ} {h norb : Fin S → ℕ} {w w' v : ℕ × ℕ}
    (L : OrbitalLayer S w'.1 nion d fun s => ndet * norb s)
    (inv : (Blocks S w v × InvariantDense S v.1 h fun s => ndet * norb s) ⊕
      InvariantDense S w'.1 h fun s => ndet * norb s) (π : ∀ s, Perm (Fin (n s)))
    (inputs : Streams n w) (stream : Stream1 n w'.1)
    (rei : Option (Elec n → Fin nion → Fin d → ℝ)) (i : Fin ndet) (s : Fin S)
    (a : Fin (n s + h s)) :
    extendedRows L inv (permute1 π inputs.1, inputs.2.map (permute2 π)) (permute1 π stream)
      (rei.map (permute1 π)) i s a =
      extendedRows L inv inputs stream rei i s (extendPerm (h s) (π s) a) := by
  unfold extendedRows
  rw [← append_perm]
  cases inv with
  | inl p => simp only [backflow_equivariant, invariant_tensor_invariant, orbitals_perm]
  | inr I => simp only [invariant_tensor_invariant, orbitals_perm]

/-- C64: the FermiNet with orbital matrices padded by invariant rows is antisymmetric in the
electrons of each species. -/
theorem extended_ferminet_antisymmetric {K ndet nion d : ℕ} {n h : Fin (K + 1) → ℕ}
    {w w' v : ℕ × ℕ}
    (streams : Stream1 n d → Streams n w × Option (Elec n → Fin nion → Fin d → ℝ))
    (hstreams : StreamsEquivariant streams) (backflow : Blocks (K + 1) w w')
    (L : OrbitalLayer (K + 1) w'.1 nion d fun s => ndet * (n s + h s))
    (inv : (Blocks (K + 1) w v × InvariantDense (K + 1) v.1 h fun s => ndet * (n s + h s)) ⊕
      InvariantDense (K + 1) w'.1 h fun s => ndet * (n s + h s))
    (detFn : Option (((dout : ℕ) → (Fin (K + 1) → Fin ndet → ℝ) → Fin dout → ℝ) × DetFnMode))
    (π : ∀ s, Perm (Fin (n s))) (pos : Stream1 n d) :
    extendedFermiNet streams backflow L inv detFn (permute1 π pos) =
      (extendedFermiNet streams backflow L inv detFn pos).map (signTimes (totalParity π)) := by
  rw [← totalParity_extend h π]
  unfold extendedFermiNet
  rw [hstreams π pos, ← combine_perm]
  congr 1
  funext i s
  ext a o
  simp only [backflow_equivariant, Matrix.of_apply, Matrix.submatrix_apply, id]
  rw [extended_rows_perm]

/-- C64 for the full-determinant form. -/
theorem extended_ferminet_full_antisymmetric {ndet nion d : ℕ} {h : Fin S → ℕ} {w w' v : ℕ × ℕ}
    (streams : Stream1 n d → Streams n w × Option (Elec n → Fin nion → Fin d → ℝ))
    (hstreams : StreamsEquivariant streams) (backflow : Blocks S w w')
    (L : OrbitalLayer S w'.1 nion d fun _ => ndet * ∑ s, (n s + h s))
    (inv : (Blocks S w v × InvariantDense S v.1 h fun _ => ndet * ∑ s, (n s + h s)) ⊕
      InvariantDense S w'.1 h fun _ => ndet * ∑ s, (n s + h s))
    (detFn : Option (((dout : ℕ) → (Fin 1 → Fin ndet → ℝ) → Fin dout → ℝ) × DetFnMode))
    (π : ∀ s, Perm (Fin (n s))) (pos : Stream1 n d) :
    extendedFermiNetFull streams backflow L inv detFn (permute1 π pos) =
      (extendedFermiNetFull streams backflow L inv detFn pos).map (signTimes (totalParity π)) := by
  let π' : ∀ s, Perm (Fin (n s + h s)) := fun s => extendPerm (h s) (π s)
  have hpar : totalParity π = totalParity (S := 1) (n := fun _ => ∑ s, (n s + h s))
      (fun _ => (finSigmaFinEquiv.symm.trans (permE π')).trans finSigmaFinEquiv) := by
    rw [← totalParity_extend h π]
    unfold totalParity
    rw [Fin.prod_univ_one]
    unfold parity
    have h2 : Perm.sign ((finSigmaFinEquiv.symm.trans (permE π')).trans finSigmaFinEquiv) =
        Perm.sign (permE π') := Perm.sign_symm_trans_trans _ _
    rw [h2, sign_permE]
    push_cast
    rfl
  unfold extendedFermiNetFull
  rw [hstreams π pos, hpar, ← combine_perm]
  congr 1
  funext i s
  ext a o
  simp only [concatRows, Matrix.of_apply, Matrix.submatrix_apply, id, backflow_equivariant]
  have h3 : finSigmaFinEquiv.symm
      (((finSigmaFinEquiv.symm.trans (permE π')).trans finSigmaFinEquiv) a) =
      permE π' (finSigmaFinEquiv.symm a) := by simp
  rw [h3, extended_rows_perm]
  rfl

/-- C64: the padded network is the sum over determinants of the products over species of the
determinants of the matrices whose first rows are the electrons' orbitals and whose last rows are
the invariant rows (here with the invariance on the backflow's output). -/
theorem extended_ferminet_is_sum_of_determinants {K ndet nion d : ℕ} {n h : Fin (K + 1) → ℕ}
    {w w' v : ℕ × ℕ}
    (streams : Stream1 n d → Streams n w × Option (Elec n → Fin nion → Fin d → ℝ))
    (backflow : Blocks (K + 1) w w')
    (L : OrbitalLayer (K + 1) w'.1 nion d fun s => ndet * (n s + h s))
    (I : InvariantDense (K + 1) w'.1 h fun s => ndet * (n s + h s)) (pos : Stream1 n d)
    (M : ∀ (_ : Fin ndet) s, Matrix (Fin (n s + h s)) (Fin (n s + h s)) ℝ)
    (hvisible : ∀ i s (a : Fin (n s)) o, M i s (Fin.castAdd (h s) a) o =
      L.apply (backflow.backflow (streams pos).1) (streams pos).2 s a (finProdFinEquiv (i, o)))
    (hhidden : ∀ i s (b : Fin (h s)) o, M i s (Fin.natAdd (n s) b) o =
      I.apply (backflow.backflow (streams pos).1) s b (finProdFinEquiv (i, o)))
    (hne : ∃ i, ∏ s, (M i s).det ≠ 0) :
    ∃ p, extendedFermiNet (v := v) streams backflow L (.inr I) none pos = .ok p ∧
      Spec.Represents p (∑ i, ∏ s, (M i s).det) := by
  refine ⟨_, rfl, ?_⟩
  refine slog_sum_over_axis_represents _ _ (fun i => ?_) hne
  refine reduceLeaves_represents _ _ fun s => ?_
  have : M i s = Matrix.of (extendedRows (v := v) (norb := fun s => n s + h s) L (.inr I)
      (streams pos).1 (backflow.backflow (streams pos).1) (streams pos).2 i s) := by
    ext a o
    refine Fin.addCases (fun a => ?_) (fun b => ?_) a
    · rw [hvisible]
      simp [extendedRows, reshapeRaw]
    · rw [hhidden]
      simp [extendedRows, reshapeRaw]
  rw [this]
  exact slog_of_array _

/-- Orbitals `x`, `y` and `1` for one species in the plane. -/
noncomputable def planeOrbitals : OrbitalLayer 1 2 0 2 fun _ => 1 * (2 + 1) where
  kernel := fun _ k o => if o.val = k.val then 1 else 0
  bias := fun _ o => if o.val = 2 then 1 else 0
  isoKernel := fun _ _ => 1
  anisoKernel := fun _ _ _ _ _ => 1
  ionKernel := fun _ _ _ => 1
  envelopeSoftening := 0
  useBias := true
  isotropicDecay := false

/-- One hidden particle, always at (5, 5). -/
def hiddenAtFive : InvariantDense 1 2 (fun _ => 1) fun _ => 2 where
  kernel := fun _ _ _ => 0
  bias := fun _ _ => 5
  useBias := true

/-- Electrons at (1, 0) and (0, 1) and a hidden particle at (5, 5): the embedded-particle network
is det [[1, 0, 1], [0, 1, 1], [5, 5, 1]] = -9, and 9 after exchanging the electrons. -/
example : ∃ p, embeddedFermiNet (K := 0) (ndet := 1) (n := fun _ => 2) (h := fun _ => 1)
      (plainStreams (nion := 0) false true 0) Blocks.nil hiddenAtFive
      (plainStreams (nion := 0) false true 0) Blocks.nil planeOrbitals none
      (fun e k => if e.2.val = k.val then 1 else 0) = .ok p ∧ Spec.Represents p (-9) ∧
    embeddedFermiNet (K := 0) (ndet := 1) (n := fun _ => 2) (h := fun _ => 1)
      (plainStreams (nion := 0) false true 0) Blocks.nil hiddenAtFive
      (plainStreams (nion := 0) false true 0) Blocks.nil planeOrbitals none
      (permute1 (fun _ => Equiv.swap 0 1) fun e k => if e.2.val = k.val then 1 else 0) =
      .ok (signTimes (-1) p) := by
  obtain ⟨p, hp, hr⟩ := ferminet_is_sum_of_determinants (K := 0) (ndet := 1) (n := fun _ => 2 + 1)
    (plainStreams (nion := 0) false true 0) Blocks.nil planeOrbitals
    (embeddedPositions (n := fun _ => 2) (h := fun _ => 1) (plainStreams (nion := 0) false true 0)
      Blocks.nil hiddenAtFive fun e k => if e.2.val = k.val then 1 else 0) (fun _ _ => -9)
    (by
      intro i s
      show _ = Matrix.det (Matrix.of fun (a o : Fin 3) => _)
      rw [Matrix.det_fin_three]
      simp [OrbitalLayer.apply, plainStreams, Blocks.backflow, Blocks.run, planeOrbitals, dense,
        finProdFinEquiv, Subsingleton.elim i 0, embeddedPositions, embedParticles, Fin.append,
        Fin.addCases, hiddenAtFive, InvariantDense.apply, splitMeanDense]
      norm_num) ⟨0, by norm_num⟩
  refine ⟨p, hp, by simpa using hr, ?_⟩
  rw [embedded_ferminet_antisymmetric _ (plain_streams_equivariant _ _ _) _ _ _
    (plain_streams_equivariant _ _ _)]
  unfold embeddedFermiNet
  rw [hp]
  simp [Except.map, totalParity, parity]

/-- The invariant row (5, 5, 1). -/
def invariantRow : InvariantDense 1 2 (fun _ => 1) fun _ => 1 * (2 + 1) where
  kernel := fun _ _ _ => 0
  bias := fun _ o => if o.val = 2 then 1 else 5
  useBias := true

/-- The same matrix from the network with extended orbital matrices. -/
example : ∃ p, extendedFermiNet (K := 0) (ndet := 1) (n := fun _ => 2) (h := fun _ => 1)
      (v := (2, 2)) (plainStreams (nion := 0) false true 0) Blocks.nil planeOrbitals
      (.inr invariantRow) none
      (fun e k => if e.2.val = k.val then 1 else 0) = .ok p ∧ Spec.Represents p (-9) ∧
    extendedFermiNet (K := 0) (ndet := 1) (n := fun _ => 2) (h := fun _ => 1)
      (v := (2, 2)) (plainStreams (nion := 0) false true 0) Blocks.nil planeOrbitals
      (.inr invariantRow) none
      (permute1 (fun _ => Equiv.swap 0 1) fun e k => if e.2.val = k.val then 1 else 0) =
      .ok (signTimes (-1) p) := by
  have hdet : (!![1, 0, 1; 0, 1, 1; 5, 5, 1] : Matrix (Fin 3) (Fin 3) ℝ).det = -9 := by
    rw [Matrix.det_fin_three]
    simp
    norm_num
  obtain ⟨p, hp, hr⟩ := extended_ferminet_is_sum_of_determinants (K := 0) (ndet := 1)
    (n := fun _ => 2) (h := fun _ => 1) (v := (2, 2))
    (plainStreams (nion := 0) false true 0) Blocks.nil planeOrbitals invariantRow
    (fun e k => if e.2.val = k.val then 1 else 0)
    (fun _ _ => (!![1, 0, 1; 0, 1, 1; 5, 5, 1] : Matrix (Fin 3) (Fin 3) ℝ))
    (by
      intro i s a o
      rw [Subsingleton.elim i 0]
      fin_cases a <;> fin_cases o <;>
        simp [OrbitalLayer.apply, plainStreams, Blocks.backflow, Blocks.run, planeOrbitals, dense,
          finProdFinEquiv])
    (by
      intro i s b o
      rw [Subsingleton.elim i 0]
      fin_cases b
      fin_cases o <;>
        simp [InvariantDense.apply, splitMeanDense, invariantRow, dense, finProdFinEquiv])
    ⟨0, by
      rw [Fin.prod_univ_one, hdet]
      norm_num⟩
  refine ⟨p, hp, by simpa [hdet] using hr, ?_⟩
  rw [extended_ferminet_antisymmetric _ (plain_streams_equivariant _ _ _), hp]
  simp [Except.map, totalParity, parity]

/-! ### C63: AntiequivarianceNet -/

theorem sequence_map {S : ℕ} {α : Fin S → Type} (f : ∀ s, Except String (α s))
    (g : ∀ s, α s → α s) :
    Net.sequence (fun s => (f s).map (g s)) = (Net.sequence f).map fun c s => g s (c s) := by
  induction S with
  | zero => exact congrArg Except.ok (funext fun s => s.elim0)
  | succ S ih =>
    have h := ih (fun s => f s.succ) fun s => g s.succ
    unfold Net.sequence
    rw [h]
    beta_reduce
    generalize f 0 = a
    generalize (Net.sequence fun s : Fin S => f s.succ) = r
    cases a with
    | error e => rfl
    | ok a =>
      cases r with
      | error e => rfl
      | ok r =>
        show Except.ok _ = Except.ok _
        congr 1
        funext s
        refine Fin.cases ?_ (fun s => ?_) s <;> rfl

theorem sequence_ok {S : ℕ} {α : Fin S → Type} (f : ∀ s, Except String (α s)) (g : ∀ s, α s)
    (h : ∀ s, f s = .ok (g s)) : Net.sequence f = .ok g := by
  induction S with
  | zero => exact congrArg Except.ok (funext fun s => s.elim0)
  | succ S ih =>
    unfold Net.sequence
    rw [h 0, ih (fun s => f s.succ) (fun s => g s.succ) fun s => h s.succ]
    show Except.ok _ = Except.ok _
    congr 1
    funext s
    refine Fin.cases ?_ (fun s => ?_) s <;> rfl

/-- a layer which is antiequivariant in every species -/
def LayerAntiequivariant {nion d d1 : ℕ}
    (layer : Stream1 n d1 → Option (Elec n → Fin nion → Fin d → ℝ) →
      ∀ s, Except String (Fin (n s) → Fin 1 → ℝ)) : Prop :=
  ∀ (π : ∀ s, Perm (Fin (n s))) x rei s, layer (permute1 π x) (rei.map (permute1 π)) s =
    (layer x rei s).map fun c i a => parity (π s) * c (π s i) a

theorem cofactor_net_layer_antiequivariant {d1 nion d : ℕ} (P : OrbitalLayer S d1 nion d n)
    (useBias iso : Bool) : LayerAntiequivariant (cofactorNetLayer P useBias iso) :=
  fun π x rei s => cofactor_layer_antiequivariant P useBias iso π x rei s

theorem per_particle_net_layer_antiequivariant {d1 nion d : ℕ} (P : Antieq.DoublyLayer S d1 nion d n)
    (useBias iso : Bool) : LayerAntiequivariant (perParticleNetLayer P useBias iso) := by
  intro π x rei s
  refine congrArg Except.ok ?_
  funext p a
  exact per_particle_det_antiequivariant P useBias iso π x rei s p a

/-- a sign covariance without weights for individual pairs of electrons -/
def Covariance.Unweighted {da : ℕ} : Covariance S da → Prop
  | .products => True
  | .weightedProducts _ => False
  | .backflow _ => True

theorem totalParity_cases (π : ∀ s, Perm (Fin (n s))) : totalParity π = 1 ∨ totalParity π = -1 :=
  prod_cases _ _ fun s => parity_cases (π s)

theorem covariance_perm {da : ℕ} (C : Covariance S da) (hC : Covariance.Unweighted C)
    (π : ∀ s, Perm (Fin (n s))) (x : ∀ s, Fin (n s) → Fin da → ℝ) :
    C.apply (fun s i k => parity (π s) * x s (π s i) k) =
      (C.apply x).map fun r => totalParity π * r := by
  cases C with
  | weightedProducts kernel => exact hC.elim
  | products =>
    unfold Covariance.apply
    by_cases h : S = 2
    · subst h
      simp only [dif_pos, Except.map]
      congr 1
      have h0 : totalParity π = parity (π 0) * parity (π 1) := by
        unfold totalParity
        rw [Fin.prod_univ_two]
      rw [h0]
      unfold productsCovariance pairwiseDots
      show ∑ i, ∑ j, ∑ k, parity (π 0) * x 0 (π 0 i) k * (parity (π 1) * x 1 (π 1 j) k) = 
        _ * ∑ i, ∑ j, ∑ k, x 0 i k * x 1 j k
      rw [← Equiv.sum_comp (π 0) fun i => ∑ j, ∑ k, x 0 i k * x 1 j k, Finset.mul_sum]
      refine Finset.sum_congr rfl fun i _ => ?_
      rw [← Equiv.sum_comp (π 1) fun j => ∑ k, x 0 (π 0 i) k * x 1 j k, Finset.mul_sum]
      refine Finset.sum_congr rfl fun j _ => ?_
      rw [Finset.mul_sum]
      exact Finset.sum_congr rfl fun k _ => by ring
    · simp only [dif_neg h]
      rfl
  | @backflow w2 w' bs =>
    unfold Covariance.apply
    simp only [Except.map]
    congr 1
    rw [Finset.mul_sum]
    refine Finset.sum_congr rfl fun c _ => ?_
    refine Eq.trans ?_ (congrArg (totalParity π * ·) (Equiv.sum_comp (permE π) _))
    rw [Finset.mul_sum]
    refine Finset.sum_congr rfl fun e _ => ?_
    rw [(sign_covariant_scaled (ι := fun s => Fin (n s) × Fin da) _
      (fun s p => x s (π s p.1) p.2) (fun s => parity (π s)) (fun s => parity_cases _) _).1]
    congr 1
    unfold arrayListSignCovariant
    refine Finset.sum_congr rfl fun t _ => ?_
    congr 1
    have h := backflow_equivariant (n := n) bs π
      (fun (e : Elec n) (k : Fin da) =>
        orbitSingleArray (fun p : Fin (n e.1) × Fin da => x e.1 p.1 p.2) e.1 t (e.2, k)) none
    have h2 := congrFun (congrFun h e) c
    exact h2

/-- C63, the part that holds: the antiequivariance networks (cofactor or per-particle layers, with
or without multiplication by the features) are antisymmetric within each species for the
unweighted products covariance and for the backflow-based one.  Missing: the weighted products
covariance, for which it is false (`weighted_products_net_not_antisymmetric`). -/
theorem antiequivariance_net_antisymmetric_partial {nion d da : ℕ} {w w' : ℕ × ℕ}
    (streams : Stream1 n d → Streams n w × Option (Elec n → Fin nion → Fin d → ℝ))
    (hstreams : StreamsEquivariant streams) (backflow : Blocks S w w')
    (layer : Stream1 n w'.1 → Option (Elec n → Fin nion → Fin d → ℝ) →
      ∀ s, Except String (Fin (n s) → Fin 1 → ℝ)) (hlayer : LayerAntiequivariant layer)
    (multiply : Multiply w'.1 da) (C : Covariance S da) (hC : Covariance.Unweighted C)
    (π : ∀ s, Perm (Fin (n s))) (pos : Stream1 n d) :
    antiequivarianceNet streams backflow layer multiply C (permute1 π pos) =
      (antiequivarianceNet streams backflow layer multiply C pos).map
        (signTimes (totalParity π)) := by
  unfold antiequivarianceNet
  rw [hstreams π pos]
  simp only [backflow_equivariant]
  have h : Net.sequence (layer (permute1 π (backflow.backflow (streams pos).1))
      ((streams pos).2.map (permute1 π))) =
      (Net.sequence (layer (backflow.backflow (streams pos).1) (streams pos).2)).map
        fun c s i a => parity (π s) * c s (π s i) a := by
    rw [← sequence_map (layer (backflow.backflow (streams pos).1) (streams pos).2)
      fun s c i a => parity (π s) * c (π s i) a]
    congr 1
    funext s
    exact hlayer π _ _ s
  rw [h]
  cases Net.sequence (layer (backflow.backflow (streams pos).1) (streams pos).2) with
  | error e => rfl
  | ok a =>
    have hm : multiply.apply (fun s i b => parity (π s) * a s (π s i) b)
        (permute1 π (backflow.backflow (streams pos).1)) =
        fun s i k => parity (π s) * multiply.apply a (backflow.backflow (streams pos).1) s (π s i) k := by
      cases multiply with
      | no => rfl
      | yes =>
        funext s i k
        exact multiplied_features_antiequivariant a _ π (fun s i b => rfl) _ s i k
    show (Covariance.apply C (multiply.apply (fun s i b => parity (π s) * a s (π s i) b)
        (permute1 π (backflow.backflow (streams pos).1)))).map _ =
      ((Covariance.apply C (multiply.apply a (backflow.backflow (streams pos).1))).map _).map _
    rw [hm, covariance_perm C hC]
    cases Covariance.apply C (multiply.apply a (backflow.backflow (streams pos).1)) with
    | error e => rfl
    | ok r =>
      simp only [Except.map]
      rw [arrayToSlog_sign _ (totalParity_cases π)]

/-- Orbitals `x` and `1` for each of two species, as many as there are electrons (2 up, 1
down). -/
noncomputable def twoSpinOrbitals : OrbitalLayer 2 1 0 1 fun s => 2 - s.val where
  kernel := fun _ _ o => if o.val = 0 then 1 else 0
  bias := fun _ o => if o.val = 0 then 0 else 1
  isoKernel := fun _ _ => 1
  anisoKernel := fun _ _ _ _ _ => 1
  ionKernel := fun _ _ _ => 1
  envelopeSoftening := 0
  useBias := true
  isotropicDecay := false

/-- The network with cofactors of `twoSpinOrbitals` (bias switched on through the misplaced
option) and a products covariance. -/
noncomputable def lineNet (C : Covariance 2 1) : Stream1 (fun s : Fin 2 => 2 - s.val) 1 → Except String SL :=
  antiequivarianceNet (plainStreams (nion := 0) false true 0) Blocks.nil
    (cofactorNetLayer twoSpinOrbitals true true) .no C

/-- what the cofactors of `lineNet` are -/
def lineValues (pos : Stream1 (fun s : Fin 2 => 2 - s.val) 1) (s : Fin 2) (i : Fin (2 - s.val))
    (_ : Fin 1) : ℝ :=
  if s = 0 then
    if i.val = 0 then pos ⟨0, ⟨0, by decide⟩⟩ 0 else -pos ⟨0, ⟨1, by decide⟩⟩ 0
  else pos ⟨1, ⟨0, by decide⟩⟩ 0

theorem line_net_value (C : Covariance 2 1) (pos : Stream1 (fun s : Fin 2 => 2 - s.val) 1) :
    lineNet C pos = (C.apply (lineValues pos)).map fun r => arrayToSlog (.fin r) := by
  unfold lineNet antiequivarianceNet
  have hs : Net.sequence (cofactorNetLayer twoSpinOrbitals true true
      (Blocks.nil.backflow (plainStreams (nion := 0) false true 0 pos).1)
      (plainStreams (nion := 0) false true 0 pos).2) = .ok (lineValues pos) := by
    apply sequence_ok
    intro s
    fin_cases s
    · unfold cofactorNetLayer Antieq.cofactorLayer
      have := cofactor_ok (k := 1) ((Antieq.cofactorOrbitalLayer twoSpinOrbitals true true).apply
        (Blocks.nil.backflow (plainStreams (nion := 0) false true 0 pos).1)
        (plainStreams (nion := 0) false true 0 pos).2 0)
      refine (congrArg (Except.map _) this).trans ?_
      simp only [Except.map]
      refine congrArg Except.ok ?_
      funext i a
      fin_cases i
      · simp [OrbitalLayer.apply, Antieq.cofactorOrbitalLayer, twoSpinOrbitals, dense, plainStreams,
          Blocks.backflow, Blocks.run, Matrix.submatrix, lineValues]
      · simp [OrbitalLayer.apply, Antieq.cofactorOrbitalLayer, twoSpinOrbitals, dense, plainStreams,
          Blocks.backflow, Blocks.run, Matrix.submatrix, lineValues]
    · unfold cofactorNetLayer Antieq.cofactorLayer
      have := cofactor_ok (k := 0) ((Antieq.cofactorOrbitalLayer twoSpinOrbitals true true).apply
        (Blocks.nil.backflow (plainStreams (nion := 0) false true 0 pos).1)
        (plainStreams (nion := 0) false true 0 pos).2 1)
      refine (congrArg (Except.map _) this).trans ?_
      simp only [Except.map]
      refine congrArg Except.ok ?_
      funext i a
      fin_cases i
      simp [OrbitalLayer.apply, Antieq.cofactorOrbitalLayer, twoSpinOrbitals, dense, plainStreams,
          Blocks.backflow, Blocks.run, Matrix.submatrix, lineValues]
  simp only [hs]
  rfl

/-- C63 fails for the weighted products covariance: with weights 1 and 0 for the two spin-up
electrons and positions 3, 1 (up) and 1 (down) the network is 3; exchanging the two spin-up
electrons gives 1, not -3. -/
theorem weighted_products_net_not_antisymmetric :
    ∃ (C : Covariance 2 1) (π : ∀ s : Fin 2, Perm (Fin (2 - s.val)))
      (pos : Stream1 (fun s : Fin 2 => 2 - s.val) 1),
      lineNet C pos = .ok (arrayToSlog (.fin 3)) ∧ totalParity π = -1 ∧
      lineNet C (permute1 π pos) = .ok (arrayToSlog (.fin 1)) ∧
      lineNet C (permute1 π pos) ≠ (lineNet C pos).map (signTimes (totalParity π)) := by
  let π : ∀ s : Fin 2, Perm (Fin (2 - s.val)) := fun s =>
    match s with
    | 0 => (Equiv.swap 0 1 : Perm (Fin 2))
    | 1 => 1
  let pos : Stream1 (fun s : Fin 2 => 2 - s.val) 1 := fun e _ =>
    if e.1 = 0 ∧ e.2.val = 0 then 3 else 1
  let C : Covariance 2 1 := .weightedProducts fun i _ => if i = 0 then 1 else 0
  have hpar : totalParity π = -1 := by
    unfold totalParity
    rw [Fin.prod_univ_two]
    simp [π, parity]
  have hv : ∀ x : Stream1 (fun s : Fin 2 => 2 - s.val) 1, lineNet C x =
      .ok (arrayToSlog (.fin (x ⟨0, ⟨0, by decide⟩⟩ 0 * x ⟨1, ⟨0, by decide⟩⟩ 0))) := by
    intro x
    rw [line_net_value]
    simp only [C, Covariance.apply, dif_pos, Except.map]
    congr 3
    rw [Fin.sum_univ_one]
    unfold productsCovarianceWeighted pairwiseDots
    refine (Fin.sum_univ_two (M := ℝ) _).trans ?_
    simp [lineValues]
  have h1 : lineNet C pos = .ok (arrayToSlog (.fin 3)) := by
    rw [hv]
    simp [pos]
  have h2 : lineNet C (permute1 π pos) = .ok (arrayToSlog (.fin 1)) := by
    rw [hv]
    have e1 : permute1 π pos ⟨0, ⟨0, by decide⟩⟩ 0 = 1 := by
      simp [permute1, permE, π, pos]
    have e2 : permute1 π pos ⟨1, ⟨0, by decide⟩⟩ 0 = 1 := by
      simp [permute1, permE, π, pos]
    rw [e1, e2, one_mul]
  refine ⟨C, π, pos, h1, hpar, h2, ?_⟩
  rw [h1, h2, hpar]
  intro h
  have h3 := Except.ok.inj h
  rw [← arrayToSlog_sign _ (Or.inr rfl)] at h3
  have h4 : Spec.Represents (arrayToSlog (.fin 1)) (-1 * 3 : ℝ) := by
    rw [h3]
    exact slog_of_array _
  have h5 := slog_unique (slog_of_array 1) h4
  norm_num at h5

/-- The same network with unweighted products is `(x_0 - x_1) y`: here 2, and -2 after exchanging
the two spin-up electrons. -/
example (π : ∀ s : Fin 2, Perm (Fin (2 - s.val))) :
    let pos : Stream1 (fun s : Fin 2 => 2 - s.val) 1 := fun e _ =>
      if e.1 = 0 ∧ e.2.val = 0 then 3 else 1
    lineNet .products pos = .ok (arrayToSlog (.fin 2)) ∧
    lineNet .products (permute1 π pos) =
      .ok (signTimes (totalParity π) (arrayToSlog (.fin 2))) := by
  intro pos
  have h1 : lineNet .products pos = .ok (arrayToSlog (.fin 2)) := by
    rw [line_net_value]
    simp only [Covariance.apply, dif_pos, Except.map]
    congr 3
    unfold productsCovariance pairwiseDots
    refine (Fin.sum_univ_two (M := ℝ) _).trans ?_
    simp [lineValues, pos]
    norm_num
  refine ⟨h1, ?_⟩
  unfold lineNet at h1 ⊢
  rw [antiequivariance_net_antisymmetric_partial _ (plain_streams_equivariant _ _ _) _ _
    (cofactor_net_layer_antiequivariant _ _ _) _ .products trivial, h1]
  rfl

/-! ### C65: explicitly antisymmetrized networks -/

theorem flat_permute {β : Type*} (π : ∀ s, Perm (Fin (n s))) (x : Elec n → β) :
    flat (permute1 π x) =
      fun a => flat x (((finSigmaFinEquiv.symm.trans (permE π)).trans finSigmaFinEquiv) a) := by
  funext a
  simp [flat, permute1]

/-- The Jastrow factors of the networks do not change when electrons are permuted within
species; a configuration for which the code raises does so for all arrangements. -/
theorem jastrow_model_symmetric {nion d d1 : ℕ} {w : ℕ × ℕ} (J : JastrowModel S nion w)
    (π : ∀ s, Perm (Fin (n s))) (inputs : Streams n w) (stream : Stream1 n d1)
    (ions : Fin nion → Fin d → ℝ) (i2 : Bool) (pos : Stream1 n d) :
    J.apply (permute1 π inputs.1, inputs.2.map (permute2 π)) (permute1 π stream)
      (some (displacements (permute1 π pos) ions)) (eeDisplacements i2 (permute1 π pos)) =
      J.apply inputs stream (some (displacements pos ions)) (eeDisplacements i2 pos) := by
  have hflat : ∀ pos : Stream1 n d, flat (displacements pos ions) = displacements (flat pos) ions :=
    fun _ => rfl
  have hflat2 : ∀ pos : Stream1 n d, (fun a => flat (flat (displacements pos pos) a)) =
      displacements (flat pos) (flat pos) := fun _ => rfl
  induction J with
  | oneBody kernel =>
    unfold JastrowModel.apply
    simp only [hflat, flat_permute]
    rw [one_body_symmetric]
  | twoBody z q c =>
    unfold JastrowModel.apply
    cases i2 with
    | false => rfl
    | true =>
      simp only [eeDisplacements, if_true, hflat, hflat2, flat_permute]
      rw [two_body_symmetric]
  | backflowBased =>
    unfold JastrowModel.apply
    rw [flat_permute, backflow_jastrow_symmetric]
  | separateBackflow bs =>
    unfold JastrowModel.apply
    rw [backflow_equivariant, flat_permute, backflow_jastrow_symmetric]
  | added a b iha ihb =>
    unfold JastrowModel.apply
    rw [iha, ihb]

/-- C65: the factorized explicitly antisymmetrized network with any of the Jastrow factors is
antisymmetric within each species. -/
theorem factorized_net_antisymmetric {K nion d rank : ℕ} {n : Fin (K + 1) → ℕ}
    (ions : Fin nion → Fin d → ℝ) (i2 : Bool) (c : ℝ) (ie : Bool) (c' : ℝ) {w' : ℕ × ℕ}
    (backflow : Blocks (K + 1) (nion * (d + 1), if ie then d + 1 else d) w')
    (jastrow : JastrowModel (K + 1) nion (nion * (d + 1), if ie then d + 1 else d))
    (resnets : Fin (K + 1) → List ℝ → Fin rank → ℝ) (π : ∀ s, Perm (Fin (n s)))
    (pos : Stream1 n d) :
    factorizedNet ions i2 c ie c' backflow jastrow resnets (permute1 π pos) =
      (factorizedNet ions i2 c ie c' backflow jastrow resnets pos).map
        (signTimes (totalParity π)) := by
  unfold factorizedNet
  have hs := ion_streams_equivariant (n := n) ions i2 c ie c' π pos
  simp only [hs]
  have hb := backflow_equivariant backflow π (ionStreams ions i2 c ie c' pos).1.1
    (ionStreams ions i2 c ie c' pos).1.2
  simp only [hb]
  have hj := jastrow_model_symmetric jastrow π (ionStreams ions i2 c ie c' pos).1
    (backflow.backflow (ionStreams ions i2 c ie c' pos).1) ions i2 pos
  have h2 : (ionStreams ions i2 c ie c' pos).2.map (permute1 π) =
      some (displacements (permute1 π pos) ions) := rfl
  rw [h2, hj]
  have h3 : (fun a => factorizedAntisymmetrizeSlog (k := K) (n := n) (d := fun _ => w'.1) resnets
      (fun s i => permute1 π (backflow.backflow (ionStreams ions i2 c ie c' pos).1) ⟨s, i⟩) a) =
      fun a => signTimes (totalParity π) (factorizedAntisymmetrizeSlog (k := K) (n := n)
        (d := fun _ => w'.1) resnets
        (fun s i => backflow.backflow (ionStreams ions i2 c ie c' pos).1 ⟨s, i⟩) a) := by
    funext a
    have h4 := factorized_slog_represents (n := n) (d := fun _ => w'.1) resnets
      (fun s i => backflow.backflow (ionStreams ions i2 c ie c' pos).1 ⟨s, i⟩) π a
    have h5 := h4.1
    have h6 := h4.2
    have h7 := (represents_iff _ _).1 (slog_of_array (factorizedAntisymmetrize (k := K) (n := n)
      (d := fun _ => w'.1) resnets
      (fun s i => backflow.backflow (ionStreams ions i2 c ie c' pos).1 ⟨s, i⟩) a))
    have h8 := (represents_iff _ _).1 (slog_of_array (totalParity π * factorizedAntisymmetrize
      (k := K) (n := n) (d := fun _ => w'.1) resnets
      (fun s i => backflow.backflow (ionStreams ions i2 c ie c' pos).1 ⟨s, i⟩) a))
    rw [represents_iff] at h5 h6
    rw [h5, ← h7, ← arrayToSlog_sign _ (totalParity_cases π), h8]
    exact h6
  have h3' := slogSum_signTimes _ (totalParity_cases π) (factorizedAntisymmetrizeSlog (k := K)
    (n := n) (d := fun _ => w'.1) resnets
        (fun s i => backflow.backflow (ionStreams ions i2 c ie c' pos).1 ⟨s, i⟩))
  rw [← h3] at h3'
  show Except.map _ (jastrow.apply _ _ (some (displacements pos ions)) _) = 
    Except.map _ (Except.map _ (jastrow.apply _ _ (some (displacements pos ions)) _))
  cases jastrow.apply (ionStreams ions i2 c ie c' pos).1
    (backflow.backflow (ionStreams ions i2 c ie c' pos).1) (some (displacements pos ions))
    (eeDisplacements i2 pos) with
  | error e => rfl
  | ok j =>
    simp only [Except.map]
    rw [h3']
    rfl

/-- C65: the generic explicitly antisymmetrized network. -/
theorem generic_net_antisymmetric {K nion d : ℕ} {n : Fin (K + 1) → ℕ}
    (ions : Fin nion → Fin d → ℝ) (i2 : Bool) (c : ℝ) (ie : Bool) (c' : ℝ) {w' : ℕ × ℕ}
    (backflow : Blocks (K + 1) (nion * (d + 1), if ie then d + 1 else d) w')
    (jastrow : JastrowModel (K + 1) nion (nion * (d + 1), if ie then d + 1 else d))
    (resnet : List ℝ → Fin 1 → ℝ) (π : ∀ s, Perm (Fin (n s))) (pos : Stream1 n d) :
    genericNet ions i2 c ie c' backflow jastrow resnet (permute1 π pos) =
      (genericNet ions i2 c ie c' backflow jastrow resnet pos).map (signTimes (totalParity π)) := by
  unfold genericNet
  have hs := ion_streams_equivariant (n := n) ions i2 c ie c' π pos
  simp only [hs]
  have hb := backflow_equivariant backflow π (ionStreams ions i2 c ie c' pos).1.1
    (ionStreams ions i2 c ie c' pos).1.2
  simp only [hb]
  have hj := jastrow_model_symmetric jastrow π (ionStreams ions i2 c ie c' pos).1
    (backflow.backflow (ionStreams ions i2 c ie c' pos).1) ions i2 pos
  have h2 : (ionStreams ions i2 c ie c' pos).2.map (permute1 π) =
      some (displacements (permute1 π pos) ions) := rfl
  rw [h2, hj]
  have h3 : genericAntisymmetrizeSlog (k := K) (n := n) (d := fun _ => w'.1) resnet
      (fun s i => permute1 π (backflow.backflow (ionStreams ions i2 c ie c' pos).1) ⟨s, i⟩) =
      signTimes (totalParity π) (genericAntisymmetrizeSlog (k := K) (n := n)
        (d := fun _ => w'.1) resnet
        (fun s i => backflow.backflow (ionStreams ions i2 c ie c' pos).1 ⟨s, i⟩)) := by
    have h4 := generic_antisymmetric (n := n) (d := fun _ => w'.1) resnet
      (fun s i => backflow.backflow (ionStreams ions i2 c ie c' pos).1 ⟨s, i⟩) π
    unfold genericAntisymmetrizeSlog
    rw [← arrayToSlog_sign _ (totalParity_cases π)]
    exact congrArg (fun r => arrayToSlog (.fin r)) h4
  rw [h3]
  show Except.map _ (jastrow.apply _ _ (some (displacements pos ions)) _) = 
    Except.map _ (Except.map _ (jastrow.apply _ _ (some (displacements pos ions)) _))
  cases jastrow.apply (ionStreams ions i2 c ie c' pos).1
    (backflow.backflow (ionStreams ions i2 c ie c' pos).1) (some (displacements pos ions))
    (eeDisplacements i2 pos) with
  | error e => rfl
  | ok j => rfl

/-- Adding `j` to the logarithm multiplies by `exp j`. -/
theorem represents_shift {p : SL} {r : ℝ} (h : Spec.Represents p r) (j : ℝ) :
    Spec.Represents (p.1, p.2 + .fin j) (Real.exp j * r) := by
  have hj := Real.exp_pos j
  rcases h with ⟨h, rfl⟩ | ⟨h, rfl⟩ | ⟨rfl, rfl⟩
  · left
    refine ⟨mul_pos hj h, ?_⟩
    rw [Real.log_mul hj.ne' h.ne', Real.log_exp, add_comm j]
    rfl
  · right; left
    refine ⟨mul_neg_of_pos_of_neg hj h, ?_⟩
    rw [← mul_neg, Real.log_mul hj.ne' (neg_pos.2 h).ne', Real.log_exp, add_comm j]
    rfl
  · right; right
    exact ⟨by simp, rfl⟩

/-- C65: the factorized network represents `exp(Jastrow)` times the sum over the rank of the
antisymmetrized products, whenever one of these does not vanish. -/
theorem factorized_net_represents {K nion d rank : ℕ} {n : Fin (K + 1) → ℕ}
    (ions : Fin nion → Fin d → ℝ) (i2 : Bool) (c : ℝ) (ie : Bool) (c' : ℝ) {w' : ℕ × ℕ}
    (backflow : Blocks (K + 1) (nion * (d + 1), if ie then d + 1 else d) w')
    (jastrow : JastrowModel (K + 1) nion (nion * (d + 1), if ie then d + 1 else d))
    (resnets : Fin (K + 1) → List ℝ → Fin rank → ℝ) (pos : Stream1 n d) (j : ℝ)
    (hj : jastrow.apply (ionStreams ions i2 c ie c' pos).1
      (backflow.backflow (ionStreams ions i2 c ie c' pos).1) (ionStreams ions i2 c ie c' pos).2
      (eeDisplacements i2 pos) = .ok j)
    (hne : ∃ a, factorizedAntisymmetrize (d := fun _ => w'.1) resnets
      (fun s i => backflow.backflow (ionStreams ions i2 c ie c' pos).1 ⟨s, i⟩) a ≠ 0) :
    ∃ p, factorizedNet ions i2 c ie c' backflow jastrow resnets pos = .ok p ∧
      Spec.Represents p (Real.exp j * ∑ a, ∏ s, ∑ σ : Perm (Fin (n s)), parity σ *
        resnets s (reshapeRow fun i =>
          backflow.backflow (ionStreams ions i2 c ie c' pos).1 ⟨s, σ i⟩) a) := by
  unfold factorizedNet
  simp only [hj, Except.map]
  refine ⟨_, rfl, represents_shift ?_ j⟩
  have h := slog_sum_over_axis_represents _ _ (fun a => (factorized_slog_represents (n := n)
    (d := fun _ => w'.1) resnets
    (fun s i => backflow.backflow (ionStreams ions i2 c ie c' pos).1 ⟨s, i⟩) (fun _ => 1) a).1) hne
  have h2 : ∀ a, factorizedAntisymmetrize (d := fun _ => w'.1) resnets
      (fun s i => backflow.backflow (ionStreams ions i2 c ie c' pos).1 ⟨s, i⟩) a =
      ∏ s, ∑ σ : Perm (Fin (n s)), parity σ * resnets s (reshapeRow fun i =>
          backflow.backflow (ionStreams ions i2 c ie c' pos).1 ⟨s, σ i⟩) a := by
    intro a
    unfold factorizedAntisymmetrize
    rw [reduceLeaves_mul]
    exact Finset.prod_congr rfl fun s _ => leaf_is_alternating_sum _ _ _
  simp only [h2] at h
  exact h

/-- C65: the generic network represents `exp(Jastrow)` times the antisymmetrized function. -/
theorem generic_net_represents {K nion d : ℕ} {n : Fin (K + 1) → ℕ}
    (ions : Fin nion → Fin d → ℝ) (i2 : Bool) (c : ℝ) (ie : Bool) (c' : ℝ) {w' : ℕ × ℕ}
    (backflow : Blocks (K + 1) (nion * (d + 1), if ie then d + 1 else d) w')
    (jastrow : JastrowModel (K + 1) nion (nion * (d + 1), if ie then d + 1 else d))
    (resnet : List ℝ → Fin 1 → ℝ) (pos : Stream1 n d) (j : ℝ)
    (hj : jastrow.apply (ionStreams ions i2 c ie c' pos).1
      (backflow.backflow (ionStreams ions i2 c ie c' pos).1) (ionStreams ions i2 c ie c' pos).2
      (eeDisplacements i2 pos) = .ok j) :
    ∃ p, genericNet ions i2 c ie c' backflow jastrow resnet pos = .ok p ∧
      Spec.Represents p (Real.exp j * ∑ σ : ∀ s, Perm (Fin (n s)), (∏ s, parity (σ s)) *
        resnet (List.ofFn fun s => reshapeRow fun i =>
          backflow.backflow (ionStreams ions i2 c ie c' pos).1 ⟨s, σ s i⟩).flatten 0) := by
  unfold genericNet
  simp only [hj, Except.map]
  refine ⟨_, rfl, represents_shift ?_ j⟩
  have h := (generic_slog_represents (n := n) (d := fun _ => w'.1) resnet
    (fun s i => backflow.backflow (ionStreams ions i2 c ie c' pos).1 ⟨s, i⟩) (fun _ => 1)).1
  rw [generic_is_alternating_sum] at h
  simpa using h

/-- Two electrons at 3 and 1 on a line with one ion at 0, the function picking the first feature
and a one-body Jastrow: `exp(-|3| - |1|) (3 - 1)`, and its negative after exchange. -/
example : ∃ p, factorizedNet (K := 0) (rank := 1) (n := fun _ => 2) (fun (_ : Fin 1) (_ : Fin 1) => 0)
      true 0 true 0 Blocks.nil (.oneBody fun _ => 1) (fun _ l _ => l.getD 0 0)
      (fun e _ => if e.2 = 0 then 3 else 1) = .ok p ∧
    Spec.Represents p (Real.exp (-4) * 2) ∧
    factorizedNet (K := 0) (rank := 1) (n := fun _ => 2) (fun (_ : Fin 1) (_ : Fin 1) => 0)
      true 0 true 0 Blocks.nil (.oneBody fun _ => 1) (fun _ l _ => l.getD 0 0)
      (permute1 (fun _ => Equiv.swap 0 1) fun e _ => if e.2 = 0 then 3 else 1) =
      .ok (signTimes (-1) p) := by
  have hu : (Finset.univ : Finset (Perm (Fin 2))) = {1, Equiv.swap 0 1} := by decide
  have hleaf : ∀ a : Fin 1, ∏ s : Fin 1, ∑ σ : Perm (Fin 2), parity σ *
      (reshapeRow fun i => (Blocks.nil (S := 1)).backflow (ionStreams (n := fun _ : Fin 1 => 2)
        (fun (_ : Fin 1) (_ : Fin 1) => 0) true 0 true 0
        fun e _ => if e.2 = 0 then 3 else 1).1 ⟨s, σ i⟩).getD 0 0 = 2 := by
    intro a
    rw [Fin.prod_univ_one, hu, Finset.sum_pair (by decide)]
    have h0 : finProdFinEquiv.symm (0 : Fin (1 * (1 + 1))) = ((0 : Fin 1), (0 : Fin (1 + 1))) := rfl
    simp [parity, reshapeRow, Blocks.backflow, Blocks.run, ionStreams, eiInput]
    rw [h0]
    simp [Fin.snoc, displacements]
    norm_num
  obtain ⟨p, hp, hr⟩ := factorized_net_represents (K := 0) (rank := 1) (n := fun _ => 2)
    (fun (_ : Fin 1) (_ : Fin 1) => 0) true 0 true 0 Blocks.nil (.oneBody fun _ => 1)
    (fun _ l _ => l.getD 0 0) (fun e _ => if e.2 = 0 then 3 else 1) (-4)
    (by
      unfold JastrowModel.apply
      simp only [ionStreams]
      congr 1
      refine (one_body_formula (fun _ => 1) (flat (n := fun _ : Fin 1 => 2)
        fun e (_ : Fin 1) => if e.2 = 0 then 3 else 1) fun (_ : Fin 1) _ => 0).1.trans ?_
      have h2 : ∀ (f : Fin (∑ _ : Fin 1, 2) → ℝ), ∑ i, f i = f ⟨0, by decide⟩ + f ⟨1, by decide⟩ :=
        fun f => Fin.sum_univ_two (M := ℝ) f
      rw [h2]
      have e0 : (finSigmaFinEquiv (n := fun _ : Fin 1 => 2)).symm ⟨0, by decide⟩ = ⟨0, 0⟩ := by
        rw [Equiv.symm_apply_eq]; rfl
      have e1 : (finSigmaFinEquiv (n := fun _ : Fin 1 => 2)).symm ⟨1, by decide⟩ = ⟨0, 1⟩ := by
        rw [Equiv.symm_apply_eq]; rfl
      simp [flat, e0, e1, dist2]
      norm_num)
    ⟨0, by
      unfold factorizedAntisymmetrize
      rw [reduceLeaves_mul, Finset.prod_congr rfl fun s _ => leaf_is_alternating_sum _ _ _]
      exact (hleaf 0).trans_ne (by norm_num)⟩
  refine ⟨p, hp, ?_, ?_⟩
  · have := Fin.sum_univ_one (fun a : Fin 1 => ∏ s : Fin 1, ∑ σ : Perm (Fin 2), parity σ *
      (reshapeRow fun i => (Blocks.nil (S := 1)).backflow (ionStreams (n := fun _ : Fin 1 => 2)
        (fun (_ : Fin 1) (_ : Fin 1) => 0) true 0 true 0
        fun e _ => if e.2 = 0 then 3 else 1).1 ⟨s, σ i⟩).getD 0 0)
    have h2 := this.trans (hleaf 0)
    rw [← h2]
    exact hr
  · rw [factorized_net_antisymmetric, hp]
    simp [Except.map, totalParity, parity]

end Verif.Props
