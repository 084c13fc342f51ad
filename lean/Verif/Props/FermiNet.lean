import Verif.Props.Equivariance
import Verif.Props.SignSymmetry
import Verif.Props.Antisymmetry
import Mathlib.GroupTheory.Perm.Sign
import Mathlib.Algebra.Group.Pi.Lemmas
import Mathlib.Tactic

/-! C42: FermiNet is antisymmetric under exchange of electrons within a species. -/

namespace Verif.Props
open Verif.Net Verif.Slog Verif.Antisym Verif.SignSym Equiv

/-- the product of the parities of the permutations of all species -/
def totalParity {S : ℕ} {n : Fin S → ℕ} (π : ∀ s, Perm (Fin (n s))) : ℝ := ∏ s, parity (π s)

/-- a (sign, log) value multiplied by a real sign: the log is unchanged -/
noncomputable def signTimes (c : ℝ) (p : SL) : SL := (.fin c * p.1, p.2)

theorem parity_cases {m : ℕ} (σ : Perm (Fin m)) : parity σ = 1 ∨ parity σ = -1 :=
  mul_self_eq_one_iff.mp (parity_sq σ)

theorem prod_cases {ι : Type*} (t : Finset ι) (c : ι → ℝ) (h : ∀ i, c i = 1 ∨ c i = -1) :
    ∏ i ∈ t, c i = 1 ∨ ∏ i ∈ t, c i = -1 := by
  refine mul_self_eq_one_iff.mp ?_
  rw [← Finset.prod_mul_distrib]
  refine Finset.prod_eq_one fun i _ => ?_
  rcases h i with h | h <;> rw [h] <;> norm_num

theorem fin_one_mul (t : XR) : XR.fin 1 * t = t := by
  show XR.mul (.fin 1) t = t
  cases t <;> simp [XR.mul, XR.infMul]

theorem fin_neg_one_mul (t : XR) : XR.fin (-1) * t = -t := by
  rw [← XR.fin_neg, neg_mul', fin_one_mul]

theorem signTimes_one (p : SL) : signTimes 1 p = p := by
  unfold signTimes
  rw [fin_one_mul]

theorem signTimes_neg_one (p : SL) : signTimes (-1) p = (-p.1, p.2) := by
  unfold signTimes
  rw [fin_neg_one_mul]

theorem slogSum_signTimes {d : ℕ} (c : ℝ) (hc : c = 1 ∨ c = -1) (x : Fin d → SL) :
    slogSumOverAxis (fun i => signTimes c (x i)) = signTimes c (slogSumOverAxis x) := by
  rcases hc with rfl | rfl
  · simp only [signTimes_one]
  · simp only [signTimes_neg_one]
    exact slogSum_neg_perm (Equiv.refl _) x _ fun s => rfl

theorem arrayToSlog_sign (c : ℝ) (hc : c = 1 ∨ c = -1) (r : ℝ) :
    arrayToSlog (.fin (c * r)) = signTimes c (arrayToSlog (.fin r)) := by
  have hrep : Spec.Represents (XR.fin c, XR.fin 0) c := by
    rcases hc with rfl | rfl
    · left; norm_num
    · right; left; norm_num
  have h := slog_multiply_represents hrep (slog_of_array r)
  have h2 := slog_of_array (c * r)
  rw [represents_iff] at h h2
  rw [h2, ← h]
  unfold slogMultiply signTimes
  ext1
  · rfl
  · exact zero_add (M := XR) _

/-- Scaling by signs commutes with the covariant symmetrization: the signs come out as a
product. -/
theorem sign_covariant_scaled {N : ℕ} {ι : Fin N → Type*} {o : Type*}
    (fn : (∀ i, ι i → ℝ) → o → ℝ) (x : ∀ i, ι i → ℝ) (e : Fin N → ℝ)
    (he : ∀ i, e i = 1 ∨ e i = -1) (c : o) :
    arrayListSignCovariant fn (fun i a => e i * x i a) c =
      (∏ i, e i) * arrayListSignCovariant fn x c ∧
    arrayListSignInvariant fn (fun i a => e i * x i a) c = arrayListSignInvariant fn x c := by
  classical
  have key : ∀ t : Finset (Fin N),
      arrayListSignCovariant fn (fun i a => (if i ∈ t then e i else 1) * x i a) c =
        (∏ i ∈ t, e i) * arrayListSignCovariant fn x c ∧
      arrayListSignInvariant fn (fun i a => (if i ∈ t then e i else 1) * x i a) c =
        arrayListSignInvariant fn x c := by
    intro t
    induction t using Finset.induction_on with
    | empty => simp
    | insert j t hj ih =>
      rw [Finset.prod_insert hj, mul_assoc, ← ih.1, ← ih.2]
      rcases he j with h | h
      · have : (fun i a => (if i ∈ insert j t then e i else 1) * x i a) =
            fun i a => (if i ∈ t then e i else 1) * x i a := by
          funext i a
          by_cases hi : i = j
          · subst hi; simp [hj, h]
          · simp [Finset.mem_insert, hi]
        rw [this, h, one_mul]
        exact ⟨rfl, rfl⟩
      · have : (fun i a => (if i ∈ insert j t then e i else 1) * x i a) =
            negateAt j fun i a => (if i ∈ t then e i else 1) * x i a := by
          funext i a
          unfold negateAt
          by_cases hi : i = j
          · subst hi; simp [hj, h]
          · rw [Function.update_of_ne hi]
            simp [Finset.mem_insert, hi]
        rw [this, h, neg_one_mul]
        exact ⟨sign_covariant_odd _ _ j c, sign_invariant_even _ _ j c⟩
  simpa using key Finset.univ

/-- Permuting the rows of the orbital matrices multiplies the final value by the parities, for
every determinant function mode; if the code raises, it raises for the permuted input too. -/
theorem combine_perm {K ndet : ℕ} {m : Fin (K + 1) → ℕ}
    (detFn : Option (((dout : ℕ) → (Fin (K + 1) → Fin ndet → ℝ) → Fin dout → ℝ) × DetFnMode))
    (M : Fin ndet → ∀ s, Matrix (Fin (m s)) (Fin (m s)) ℝ) (σ : ∀ s, Perm (Fin (m s))) :
    combine detFn (fun i s => (M i s).submatrix (σ s) id) =
      (combine detFn M).map (signTimes (totalParity σ)) := by
  have hpar : totalParity σ = 1 ∨ totalParity σ = -1 :=
    prod_cases _ _ fun s => parity_cases (σ s)
  have hdet : ∀ i s, ((M i s).submatrix (σ s) id).det = parity (σ s) * (M i s).det :=
    fun i s => Matrix.det_permute (σ s) (M i s)
  have hscaled := fun (dout : ℕ) (fn : (Fin (K + 1) → Fin ndet → ℝ) → Fin dout → ℝ) =>
    sign_covariant_scaled (ι := fun _ => Fin ndet) fn (fun s i => (M i s).det)
      (fun s => parity (σ s)) fun s => parity_cases (σ s)
  unfold combine
  cases detFn with
  | none =>
    simp only [Except.map]
    rw [← slogSum_signTimes _ hpar]
    congr 2
    funext i
    have h1 := reduceLeaves_represents (fun s => slogdet ((M i s).submatrix (σ s) id))
      (fun s => ((M i s).submatrix (σ s) id).det) fun s => slog_of_array _
    have h2 := reduceLeaves_represents (fun s => slogdet (M i s))
      (fun s => (M i s).det) fun s => slog_of_array _
    have h3 : slogdetProduct (fun s => (M i s).submatrix (σ s) id) =
        arrayToSlog (.fin (∏ s, ((M i s).submatrix (σ s) id).det)) := by
      rw [represents_iff] at h1
      exact h1
    have h4 : slogdetProduct (M i) = arrayToSlog (.fin (∏ s, (M i s).det)) := by
      rw [represents_iff] at h2
      exact h2
    rw [h3, h4, ← arrayToSlog_sign _ hpar]
    congr 2
    rw [Finset.prod_congr rfl fun s _ => hdet i s, Finset.prod_mul_distrib]
    rfl
  | some p =>
    obtain ⟨fn, mode⟩ := p
    simp only [hdet]
    cases mode with
    | signCovariance =>
      simp only [Except.map]
      rw [← arrayToSlog_sign _ hpar, (hscaled 1 (fn 1) 0).1]
      rfl
    | parallelEven =>
      simp only [Except.map]
      rw [← arrayToSlog_sign _ hpar, Finset.mul_sum]
      congr 3
      refine Finset.sum_congr rfl fun i _ => ?_
      rw [(hscaled ndet (fn ndet) i).2, Finset.prod_mul_distrib, mul_assoc]
      rfl
    | pairwiseEven =>
      simp only
      by_cases h : K = 1
      · rw [dif_pos h, dif_pos h]
        simp only [Except.map]
        rw [← arrayToSlog_sign _ hpar, Finset.mul_sum]
        congr 3
        refine Finset.sum_congr rfl fun a _ => ?_
        rw [(hscaled _ (fn (ndet * ndet)) a).2]
        have htp : totalParity σ = parity (σ ⟨0, by omega⟩) * parity (σ ⟨1, by omega⟩) := by
          subst h
          unfold totalParity
          rw [Fin.prod_univ_two]
          rfl
        rw [htp]
        ring
      · rw [dif_neg h, dif_neg h]
        rfl

/-- The sign of a permutation acting within species is the product of the signs. -/
theorem sign_permE {S : ℕ} {n : Fin S → ℕ} (π : ∀ s, Perm (Fin (n s))) :
    Perm.sign (permE π) = ∏ s, Perm.sign (π s) := by
  classical
  let f : (∀ s, Perm (Fin (n s))) →* ℤˣ :=
    Perm.sign.comp (Perm.sigmaCongrRightHom fun s => Fin (n s))
  let g : (∀ s, Perm (Fin (n s))) →* ℤˣ :=
    { toFun := fun π => ∏ s, Perm.sign (π s)
      map_one' := by simp
      map_mul' := fun a b => by simp [Finset.prod_mul_distrib] }
  have : f = g := by
    refine MonoidHom.pi_ext fun s σ => ?_
    let τ : ∀ t, Perm (Fin (n t)) := Pi.mulSingle s σ
    have hτ : τ s = σ := by simp [τ]
    have hτ' : ∀ t, t ≠ s → τ t = 1 := fun t ht => by simp [τ, ht]
    have hg : g τ = Perm.sign σ := by
      show ∏ t, Perm.sign (τ t) = _
      rw [Finset.prod_eq_single s]
      · rw [hτ]
      · intro t _ ht
        rw [hτ' t ht]
        simp
      · simp
    show f τ = g τ
    rw [hg]
    show Perm.sign (permE τ) = _
    let e : Fin (n s) ≃ {x : Elec n // x.1 = s} :=
      { toFun := fun i => ⟨⟨s, i⟩, rfl⟩
        invFun := fun x => Fin.cast (by rw [x.2]) x.1.2
        left_inv := fun i => rfl
        right_inv := fun x => by
          obtain ⟨⟨t, i⟩, h⟩ := x
          simp only at h
          subst h
          rfl }
    rw [← Perm.sign_extendDomain σ e]
    congr 1
    ext1 x
    obtain ⟨t, i⟩ := x
    by_cases h : t = s
    · subst h
      have h1 : Perm.extendDomain σ e (e i) = e (σ i) := Perm.extendDomain_apply_image σ e i
      show (⟨t, τ t i⟩ : Elec n) = Perm.extendDomain σ e ⟨t, i⟩
      rw [hτ]
      exact h1.symm
    · rw [Perm.extendDomain_apply_not_subtype σ e h]
      show (⟨t, τ t i⟩ : Elec n) = ⟨t, i⟩
      rw [hτ' t h]
      rfl
  exact DFunLike.congr_fun this π

theorem orbitals_perm {S d1 nion d : ℕ} {n norb : Fin S → ℕ} (L : OrbitalLayer S d1 nion d norb)
    (π : ∀ s, Perm (Fin (n s))) (x : Stream1 n d1)
    (rei : Option (Elec n → Fin nion → Fin d → ℝ)) (s : Fin S) (i : Fin (n s)) :
    L.apply (permute1 π x) (rei.map (permute1 π)) s i = L.apply x rei s (π s i) := by
  funext o
  cases rei <;> rfl

/-- C42: the FermiNet with one determinant per species: permuting electrons within species
multiplies the wavefunction by the product of the parities and leaves log|psi| unchanged, for all
determinant functions and modes, all parameter values and all equivariant input streams.  (An
error is an error for all arrangements.) -/
theorem ferminet_antisymmetric {K ndet nion d : ℕ} {n : Fin (K + 1) → ℕ} {w w' : ℕ × ℕ}
    (streams : Stream1 n d → Streams n w × Option (Elec n → Fin nion → Fin d → ℝ))
    (hstreams : StreamsEquivariant streams) (backflow : Blocks (K + 1) w w')
    (L : OrbitalLayer (K + 1) w'.1 nion d fun s => ndet * n s)
    (detFn : Option (((dout : ℕ) → (Fin (K + 1) → Fin ndet → ℝ) → Fin dout → ℝ) × DetFnMode))
    (π : ∀ s, Perm (Fin (n s))) (pos : Stream1 n d) :
    fermiNet streams backflow L detFn (permute1 π pos) =
      (fermiNet streams backflow L detFn pos).map (signTimes (totalParity π)) := by
  unfold fermiNet fermiNetSplitDet
  rw [hstreams π pos, ← combine_perm]
  simp only [backflow_equivariant, orbitals_perm]
  rfl

/-- C42 for the full-determinant FermiNet. -/
theorem ferminet_full_det_antisymmetric {S ndet nion d : ℕ} {n : Fin S → ℕ} {w w' : ℕ × ℕ}
    (streams : Stream1 n d → Streams n w × Option (Elec n → Fin nion → Fin d → ℝ))
    (hstreams : StreamsEquivariant streams) (backflow : Blocks S w w')
    (L : OrbitalLayer S w'.1 nion d fun _ => ndet * ∑ s, n s)
    (detFn : Option (((dout : ℕ) → (Fin 1 → Fin ndet → ℝ) → Fin dout → ℝ) × DetFnMode))
    (π : ∀ s, Perm (Fin (n s))) (pos : Stream1 n d) :
    fermiNetFull streams backflow L detFn (permute1 π pos) =
      (fermiNetFull streams backflow L detFn pos).map (signTimes (totalParity π)) := by
  have hpar : totalParity π = totalParity (S := 1) (n := fun _ => ∑ s, n s)
      (fun _ => (finSigmaFinEquiv.symm.trans (permE π)).trans finSigmaFinEquiv) := by
    unfold totalParity
    rw [Fin.prod_univ_one]
    unfold parity
    have h : Perm.sign ((finSigmaFinEquiv.symm.trans (permE π)).trans finSigmaFinEquiv) =
        Perm.sign (permE π) := Perm.sign_symm_trans_trans _ _
    rw [h, sign_permE]
    push_cast
    rfl
  unfold fermiNetFull fermiNetFullDet
  rw [hstreams π pos, hpar, ← combine_perm]
  simp only [backflow_equivariant, orbitals_perm]
  congr 1
  funext i s
  ext a o
  simp only [concatRows, Matrix.of_apply, Matrix.submatrix_apply, id]
  have : finSigmaFinEquiv.symm (((finSigmaFinEquiv.symm.trans (permE π)).trans finSigmaFinEquiv) a) =
      permE π (finSigmaFinEquiv.symm a) := by simp
  rw [this]
  rfl

/-- The concrete networks with ions (and norms) are antisymmetric for every option of the input
streams. -/
theorem ferminet_with_ions_antisymmetric {K ndet nion d : ℕ} {n : Fin (K + 1) → ℕ}
    (ions : Fin nion → Fin d → ℝ) (i2 : Bool) (c : ℝ) (ie : Bool) (c' : ℝ) {w' : ℕ × ℕ}
    (backflow : Blocks (K + 1) (nion * (d + 1), if ie then d + 1 else d) w')
    (L : OrbitalLayer (K + 1) w'.1 nion d fun s => ndet * n s)
    (detFn : Option (((dout : ℕ) → (Fin (K + 1) → Fin ndet → ℝ) → Fin dout → ℝ) × DetFnMode))
    (π : ∀ s, Perm (Fin (n s))) (pos : Stream1 n d) :
    fermiNet (ionStreams ions i2 c ie c') backflow L detFn (permute1 π pos) =
      (fermiNet (ionStreams ions i2 c ie c') backflow L detFn pos).map
        (signTimes (totalParity π)) :=
  ferminet_antisymmetric _ (ion_streams_equivariant ions i2 c ie c') backflow L detFn π pos

/-- C42: without a determinant function the network is the sum over determinants of the products
of the species' determinants, whenever one of these products does not vanish. -/
theorem ferminet_is_sum_of_determinants {K ndet nion d : ℕ} {n : Fin (K + 1) → ℕ} {w w' : ℕ × ℕ}
    (streams : Stream1 n d → Streams n w × Option (Elec n → Fin nion → Fin d → ℝ))
    (backflow : Blocks (K + 1) w w') (L : OrbitalLayer (K + 1) w'.1 nion d fun s => ndet * n s)
    (pos : Stream1 n d) (D : Fin ndet → Fin (K + 1) → ℝ)
    (hD : ∀ i s, D i s = Matrix.det (Matrix.of fun (a o : Fin (n s)) =>
      L.apply (backflow.backflow (streams pos).1) (streams pos).2 s a (finProdFinEquiv (i, o))))
    (hne : ∃ i, ∏ s, D i s ≠ 0) :
    ∃ p, fermiNet streams backflow L none pos = .ok p ∧ Spec.Represents p (∑ i, ∏ s, D i s) := by
  refine ⟨_, rfl, ?_⟩
  refine slog_sum_over_axis_represents _ _ (fun i => ?_) hne
  refine reduceLeaves_represents _ _ fun s => ?_
  rw [hD]
  exact slog_of_array _

/-- Two electrons of the same species at the same place: the network's sign is 0 or nan. -/
theorem ferminet_pauli {K ndet nion d : ℕ} {n : Fin (K + 1) → ℕ} {w w' : ℕ × ℕ}
    (streams : Stream1 n d → Streams n w × Option (Elec n → Fin nion → Fin d → ℝ))
    (hstreams : StreamsEquivariant streams) (backflow : Blocks (K + 1) w w')
    (L : OrbitalLayer (K + 1) w'.1 nion d fun s => ndet * n s)
    (detFn : Option (((dout : ℕ) → (Fin (K + 1) → Fin ndet → ℝ) → Fin dout → ℝ) × DetFnMode))
    (pos : Stream1 n d) (s : Fin (K + 1)) (i j : Fin (n s)) (hij : i ≠ j)
    (hpos : pos ⟨s, i⟩ = pos ⟨s, j⟩) (p : SL)
    (hp : fermiNet streams backflow L detFn pos = .ok p) : p.1 = .fin 0 ∨ p.1 = .nan := by
  classical
  let π : ∀ t, Perm (Fin (n t)) := Function.update (fun _ => 1) s (Equiv.swap i j)
  have hfix : permute1 π pos = pos := by
    funext e
    obtain ⟨t, a⟩ := e
    show pos ⟨t, π t a⟩ = pos ⟨t, a⟩
    by_cases h : t = s
    · subst h
      have : π t = Equiv.swap i j := Function.update_self t _ _
      rw [this]
      by_cases h1 : a = i
      · subst h1; rw [Equiv.swap_apply_left, hpos]
      · by_cases h2 : a = j
        · subst h2; rw [Equiv.swap_apply_right, hpos]
        · rw [Equiv.swap_apply_of_ne_of_ne h1 h2]
    · have : π t = 1 := Function.update_of_ne h _ _
      rw [this]
      rfl
  have hpar : totalParity π = -1 := by
    unfold totalParity
    rw [Finset.prod_eq_single s]
    · have : π s = Equiv.swap i j := Function.update_self s _ _
      rw [this]
      unfold parity
      rw [Perm.sign_swap hij]
      norm_num
    · intro t _ ht
      have : π t = 1 := Function.update_of_ne ht _ _
      rw [this]
      simp [parity]
    · simp
  have h := ferminet_antisymmetric streams hstreams backflow L detFn π pos
  rw [hfix, hp, hpar] at h
  have h2 : p = signTimes (-1) p := Except.ok.inj h
  rw [signTimes_neg_one] at h2
  have h3 : p.1 = -p.1 := congrArg Prod.fst h2
  generalize p.1 = t at h3
  cases t with
  | nan => right; rfl
  | fin r =>
    left
    have : r = -r := XR.fin_inj.mp h3
    rw [show r = 0 by linarith]
  | pinf => cases h3
  | ninf => cases h3

/-- The network with two spin-up electrons on a line, one determinant, no backflow, and orbitals
`x` and `1`. -/
noncomputable def lineOrbitals : OrbitalLayer 1 1 0 1 fun _ => 1 * 2 where
  kernel := fun _ _ o => if o = 0 then 1 else 0
  bias := fun _ o => if o = 0 then 0 else 1
  isoKernel := fun _ _ => 1
  anisoKernel := fun _ _ _ _ _ => 1
  ionKernel := fun _ _ _ => 1
  envelopeSoftening := 0
  useBias := true
  isotropicDecay := false

/-- It represents `x_0 - x_1` (here 3 - 1 = 2), and -2 after the exchange. -/
example : ∃ p, fermiNet (K := 0) (ndet := 1) (n := fun _ => 2) (plainStreams (nion := 0) false true 0)
      Blocks.nil lineOrbitals none (fun e _ => if e.2 = 0 then 3 else 1) = .ok p ∧
    Spec.Represents p 2 ∧
    fermiNet (K := 0) (ndet := 1) (n := fun _ => 2) (plainStreams (nion := 0) false true 0)
      Blocks.nil lineOrbitals none (permute1 (fun _ => Equiv.swap 0 1)
        (fun e _ => if e.2 = 0 then 3 else 1)) = .ok (signTimes (-1) p) := by
  obtain ⟨p, hp, hr⟩ := ferminet_is_sum_of_determinants (K := 0) (ndet := 1) (n := fun _ => 2)
    (plainStreams (nion := 0) false true 0) Blocks.nil lineOrbitals
    (fun e _ => if e.2 = 0 then 3 else 1) (fun _ _ => 2)
    (by
      intro i s
      rw [Matrix.det_fin_two]
      simp [OrbitalLayer.apply, plainStreams, Blocks.backflow, Blocks.run, lineOrbitals, dense,
        finProdFinEquiv, Subsingleton.elim i 0]
      norm_num) ⟨0, by norm_num⟩
  refine ⟨p, hp, by simpa using hr, ?_⟩
  rw [ferminet_antisymmetric _ (plain_streams_equivariant _ _ _), hp]
  simp [Except.map, totalParity, parity]

/-! ### The logarithm of a product of determinants -/

theorem reduceLeaves_snd {k : ℕ} {α β : Type*} (f : α → α → α) (g : β → β → β) (p : α → β)
    (h : ∀ a b, p (f a b) = g (p a) (p b)) (x : Fin (k + 1) → α) :
    p (reduceLeaves f x) = reduceLeaves g fun s => p (x s) := by
  unfold reduceLeaves
  have : ∀ (l : List α) (a : α), p (l.foldl f a) = (l.map p).foldl g (p a) := by
    intro l
    induction l with
    | nil => intro a; rfl
    | cons b l ih => intro a; rw [List.foldl_cons, ih, h]; rfl
  rw [this, List.map_ofFn]
  rfl

/-- The logarithm of the absolute value of the product of the determinants of all leaves: the sign is dropped, and
nothing else. -/
theorem logdet_product_value {k : ℕ} {n : Fin (k + 1) → ℕ} (xs : ∀ s, Matrix (Fin (n s)) (Fin (n s)) ℝ) :
    logdetProduct xs = (slogdetProduct xs).2 ∧
      ((∀ s, (xs s).det ≠ 0) → logdetProduct xs = .fin (Real.log |∏ s, (xs s).det|)) := by
  have h1 : logdetProduct xs = (slogdetProduct xs).2 := by
    unfold logdetProduct slogdetProduct
    exact (reduceLeaves_snd _ _ Prod.snd (fun _ _ => rfl) _).symm
  refine ⟨h1, fun h => ?_⟩
  have h2 := reduceLeaves_represents (fun s => slogdet (xs s)) (fun s => (xs s).det) fun s => slog_of_array _
  rw [represents_iff] at h2
  have h3 : (∏ s, (xs s).det) ≠ 0 := Finset.prod_ne_zero_iff.mpr fun s _ => h s
  rw [h1, show slogdetProduct xs = arrayToSlog (.fin (∏ s, (xs s).det)) from h2]
  unfold arrayToSlog
  simp only [XR.abs, XR.log]
  rw [if_neg (not_lt.mpr (abs_nonneg _)), if_neg (abs_ne_zero.mpr h3)]

/-- Determinants 2 and -3: the logarithm of 6. -/
example : logdetProduct (k := 1) (n := fun _ => 1) (fun s => Matrix.of fun _ _ => if s = 0 then 2 else -3) =
    .fin (Real.log 6) := by
  rw [(logdet_product_value _).2 fun s => by rw [Matrix.det_fin_one]; fin_cases s <;> norm_num]
  norm_num [Fin.prod_univ_succ, Matrix.det_fin_one]

end Verif.Props
