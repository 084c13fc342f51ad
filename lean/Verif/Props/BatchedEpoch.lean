import Verif.Model.BatchedEpoch
import Verif.Props.BatchedSampling
import Verif.Props.Energy

/-!
What an epoch computes from the arrays of all walkers.
-/

namespace Verif.Spec
open Verif.Arrays Verif.Slog Verif.Net Verif.Phys Verif.Construct

/-- `Hψ/ψ` of a wave function of all electrons. -/
noncomputable def localEnergyOf {S m d : ℕ} {n : Fin S → ℕ} (ψ : Stream1 n d → ℝ) (ions : Pos m d)
    (charges : Fin m → ℝ) (eiSoft eeSoft : ℝ) (x : Pos (∑ s, n s) d) : ℝ :=
  (-(1 / 2) * (∑ i, ∑ l, partial2 (fun y : Pos (∑ s, n s) d => ψ fun e => y (finSigmaFinEquiv e)) i l x) +
    (coulombEI 1 eiSoft ions charges x + coulombEE 1 eeSoft x + coulombII ions charges) *
      ψ fun e => x (finSigmaFinEquiv e)) / ψ fun e => x (finSigmaFinEquiv e)

end Verif.Spec

namespace Verif.Props
open Verif.Arrays Verif.MCMC Verif.Phys Verif.Spec Verif.Construct Verif.Net Verif.Energy Verif.Slog

variable {κ M : Type} {W d : ℕ}

theorem entries_of {α : Type} [Inhabited α] {Y : Arr α} (hY : Y.shape = [W]) {f : Fin W → α}
    (h : ∀ t : Fin W, Y.get [t.val] = f t) : entriesA Y = List.ofFn f := by
  unfold entriesA
  rw [hY, List.ofFn_eq_map, ← List.map_coe_finRange_eq_range, List.map_map]
  exact List.map_congr_left fun t _ => h t

section configured

variable {S m₀ : ℕ} {n : Fin (S + 1) → ℕ} (c : ModelCfg) (ions : Fin (m₀ + 1) → Fin d → ℝ)
  (charges : Fin (m₀ + 1) → ℝ) (dtype : ℕ) (m : Model (m₀ + 1))
  (hm : getModelFromConfig c (counts n) ions charges dtype = .ok m) (hu : Spec.UsesNorms c)
  (hdet : c.ndeterminants ≠ 0) (hn : ∀ s, 0 < n s) (hc : Spec.Callable c (S + 1))

include hm hu hdet hn hc

/-- Energies of a batch none of whose walkers is at a node or a kink. -/
theorem local_energies_finite (Q : Params (S + 1) (m₀ + 1) d) (nonzero : Stream1 n d → Prop)
    (ψ : Stream1 n d → ℝ) (hψ : ∀ q, Spec.ModelValue c Q ions charges q (nonzero q) (ψ q))
    (eiSoft eeSoft : ℝ) (hR : Distinct ions) (hW : 0 < W) {X : Arr ℝ} (hX : X.shape = [d, ∑ s, n s, W])
    (h0 : ∀ t < W, ψ (splitPositions (Spec.positionsOf X [t])) ≠ 0)
    (hs : ∀ t < W, SmoothPlace c Q ions (splitPositions (Spec.positionsOf X [t]) : Stream1 n d)) :
    ∃ Y, vmapA (localEnergyA (logPsiA (m.onBatch n Q ions)) (A2 ions) (A1 charges) eiSoft eeSoft) X = .ok Y ∧
      Y.shape = [W] ∧ ∀ t : Fin W, Y.get [t.val] =
        .fin (localEnergyOf ψ ions charges eiSoft eeSoft (Spec.positionsOf X [t.val])) := by
  obtain ⟨Y, h1, h2, h3⟩ := vmapped_local_energies c ions charges dtype m hm hu hdet hn Q hc nonzero ψ hψ eiSoft
    eeSoft hR hW hX
  exact ⟨Y, h1, h2, fun t => h3 t t.2 _ rfl (h0 t t.2) (hs t t.2)⟩

/-- C116: an epoch of an evaluation, on arrays which hold at least two walkers.  It returns the parameters
unchanged, the walkers at which it arrived with their amplitudes, and if none of them is at a node or a kink, the
mean and the unbiased sample variance of `Hψ/ψ` at these walkers, and one recorded energy per walker. -/
theorem evaluation_epoch (Q : Params (S + 1) (m₀ + 1) d) (nonzero : Stream1 n d → Prop)
    (ψ : Stream1 n d → ℝ) (hψ : ∀ q, Spec.ModelValue c Q ions charges q (nonzero q) (ψ q))
    (eiSoft eeSoft : ℝ) (hR : Distinct ions) (hW : 2 ≤ W) (split : κ → κ × κ)
    (uniform normal : κ → List ℕ → Arr ℝ) (meanFn : Arr XR → XR) (getStd : PADataA M → ℝ)
    (updateMeta : Option (M → Arr Bool → M)) (logabs : Bool) (hun : ∀ k s, (uniform k s).shape = s)
    (hnorm : ∀ k s, (normal k s).shape = s) (nsteps : ℕ) (nanSafe record : Bool) (D : PADataA M)
    (hX : D.position.shape = [d, ∑ s, n s, W])
    (hA : logPsiA (m.onBatch n Q ions) D.position = .ok D.amplitude) (key : κ) :
    let model := fun Q X => logPsiA (m.onBatch n Q ions) X
    let step := paStepA split uniform normal meanFn model getStd updateMeta logabs
    let energy := fun Q => localEnergyA (model Q) (A2 ions) (A1 charges) eiSoft eeSoft
    ∃ D' : PADataA M, D'.position.shape = [d, ∑ s, n s, W] ∧ model Q D'.position = .ok D'.amplitude ∧
      ∃ stats es, evalEpochA step nsteps energy W nanSafe record Q D key = .ok (Q, D', stats, es) ∧
        ((∀ t < W, ψ (splitPositions (Spec.positionsOf D'.position [t])) ≠ 0) →
          (∀ t < W, SmoothPlace c Q ions (splitPositions (Spec.positionsOf D'.position [t]) : Stream1 n d)) →
          ∀ E : Fin W → ℝ, (∀ t, E t =
              localEnergyOf ψ ions charges eiSoft eeSoft (Spec.positionsOf D'.position [t.val])) →
            stats = (.fin ((∑ t, E t) / W), .fin ((∑ t, (E t - (∑ u, E u) / W) ^ 2) / ((W : ℝ) - 1))) ∧
            (record = true → ∃ Y, es = some Y ∧ Y.shape = [W] ∧ ∀ t : Fin W, Y.get [t.val] = .fin (E t)) ∧
            (record = false → es = none)) := by
  intro model step energy
  have hW0 : 0 < W := by omega
  obtain ⟨D₀, D₁, r, h1, h2, h3, h4, -, h6⟩ := walked_amplitudes_match c ions charges dtype m hm hu hdet hn hc Q split
    uniform normal meanFn getStd updateMeta logabs hun hnorm hW0 D.position D.amplitude D.moveMetadata hX 0 nsteps key
  have hD : D₀ = D := by
    have : updateDataA model ⟨D.position, D.amplitude, D.moveMetadata⟩ Q = .ok D := by
      unfold updateDataA
      rw [show model Q D.position = .ok D.amplitude from hA]
      rfl
    exact Except.ok.inj (h1.symm.trans this)
  have hD1 : D₁ = (D, key) := by
    rw [hD] at h2
    exact (Except.ok.inj h2).symm
  rw [hD1] at h3
  obtain ⟨Y, h7, h8, -⟩ := vmapped_local_energies c ions charges dtype m hm hu hdet hn Q hc nonzero ψ hψ eiSoft
    eeSoft hR hW0 h4
  refine ⟨r.2.1, h4, h6, getStatistics [entriesA Y] W nanSafe, if record then some Y else none, ?_, ?_⟩
  · unfold evalEpochA
    rw [show walkDataA step nsteps Q D key = .ok r from h3, ok_bind]
    unfold evalUpdateA
    rw [show vmapA (energy Q) r.2.1.position = .ok Y from h7, ok_bind]
    rfl
  · intro h0 hs E hE
    obtain ⟨Y', h9, h10, h11⟩ := local_energies_finite c ions charges dtype m hm hu hdet hn hc Q nonzero ψ hψ eiSoft
      eeSoft hR hW0 h4 h0 hs
    obtain rfl : Y' = Y := Except.ok.inj (h9.symm.trans h7)
    have h12 : ∀ t : Fin W, Y'.get [t.val] = .fin (E t) := fun t => by rw [h11, hE]
    refine ⟨?_, fun hr => ⟨Y', by rw [if_pos hr], h8, h12⟩, fun hr => by rw [if_neg (by simp [hr])]⟩
    rw [entries_of h8 h12]
    have h13 := energy_statistics (List.ofFn E) [List.ofFn E] W nanSafe
      ⟨by simp, by simp, hW0, by simp⟩ (by simpa using hW)
    rw [List.length_ofFn] at h13
    simp only [List.map_cons, List.map_nil, List.map_ofFn] at h13
    refine h13.trans ?_
    unfold sampleVar avgL
    simp only [List.map_ofFn, List.sum_ofFn, List.length_ofFn, Function.comp]

omit hdet in
/-- The log amplitude of a walker which is not at a node. -/
theorem log_amplitude_value (Q : Params (S + 1) (m₀ + 1) d) {nonzero : Prop} {r : ℝ} (x : Pos (∑ s, n s) d)
    (hψ : Spec.ModelValue c Q ions charges (splitPositions x : Stream1 n d) nonzero r) (h0 : r ≠ 0) :
    logAmplitude (n := n) m ions Q x = .fin (Real.log |r|) := by
  obtain ⟨v, hv⟩ := (configured_model_callable_iff c ions charges dtype m hm hu hn Q
    (splitPositions x : Stream1 n d)).mpr hc
  have hr := configured_model_computes_partial c ions charges dtype m hm Q _ _ hv _ _ hψ
    (model_value_nonzero hψ h0)
  unfold logAmplitude
  rw [hv]
  rcases hr with ⟨h, h'⟩ | ⟨h, h'⟩ | ⟨h, -⟩
  · rw [h', abs_of_pos h]
  · rw [h', abs_of_neg h]
  · exact absurd h h0

/-- C116: the function which the gradient differentiates, for centred local energies which are numbers. -/
theorem forward_value (Q : Params (S + 1) (m₀ + 1) d) (hW : 2 ≤ W) (x : Fin W → Pos (∑ s, n s) d)
    (nonzero : Fin W → Prop) (r : Fin W → ℝ)
    (hψ : ∀ w, Spec.ModelValue c Q ions charges (splitPositions (x w) : Stream1 n d) (nonzero w) (r w))
    (h0 : ∀ w, r w ≠ 0) (nanSafe : Bool) (C : Fin W → ℝ) :
    forwardA (fun Q X => logPsiA (m.onBatch n Q ions) X) W nanSafe Q (A3 x) (A1 fun w => .fin (C w)) =
      .ok (.fin (2 * W / ((W : ℝ) - 1) * ((∑ w, C w * Real.log |r w|) / W))) := by
  have hW0 : 0 < W := by omega
  have hl : logPsiA (m.onBatch n Q ions) (A3 x) = .ok (A1 fun w => .fin (Real.log |r w|)) := by
    rw [configured_walkers c ions charges dtype m hm hu hdet hn hc Q hW0]
    congr 2
    funext w
    exact log_amplitude_value c ions charges dtype m hm hu hn hc Q _ (hψ w) (h0 w)
  unfold forwardA
  beta_reduce
  rw [hl, ok_bind, zip_A1, ok_bind]
  refine congrArg Except.ok ?_
  rw [entries_of (W := W) rfl fun t => A1_get _ t.2]
  have h1 := allreduce_fin nanSafe (rows := [List.ofFn fun w => C w * Real.log |r w|]) hW0 (by simp) (by simp)
  simp only [List.map_cons, List.map_nil, List.map_ofFn] at h1
  have h2 : (W : ℝ) - 1 ≠ 0 := by
    have : (2 : ℝ) ≤ W := by exact_mod_cast hW
    linarith
  have h3 : (List.ofFn fun w : Fin W => XR.fin (C w) * XR.fin (Real.log |r w|)) =
      List.ofFn (XR.fin ∘ fun w => C w * Real.log |r w|) := by
    congr 1
  simp only [h3]
  rw [h1]
  unfold gradFactor XR.ofNat avgL
  rw [XR.fin_mul, XR.fin_div h2, XR.fin_mul]
  simp [List.sum_ofFn]

/-- C116: hence the gradient along a path of parameters is `2 N/(N-1)` times the mean over the walkers of centred
local energy times derivative of `log |ψ|` of the same walker. -/
theorem forward_derivative (Q : ℝ → Params (S + 1) (m₀ + 1) d) (hW : 2 ≤ W) (x : Fin W → Pos (∑ s, n s) d)
    (nonzero : ℝ → Fin W → Prop) (r : ℝ → Fin W → ℝ)
    (hψ : ∀ t w, Spec.ModelValue c (Q t) ions charges (splitPositions (x w) : Stream1 n d) (nonzero t w) (r t w))
    (t₀ : ℝ) (h0 : ∀ w, r t₀ w ≠ 0) (r' : Fin W → ℝ) (hr : ∀ w, HasDerivAt (fun t => r t w) (r' w) t₀)
    (nanSafe : Bool) (C : Fin W → ℝ) :
    HasDerivAt (fun t => numberOf (forwardA (fun Q X => logPsiA (m.onBatch n Q ions) X) W nanSafe (Q t) (A3 x)
        (A1 fun w => .fin (C w))))
      (2 * W / ((W : ℝ) - 1) * ((∑ w, C w * (r' w / r t₀ w)) / W)) t₀ := by
  have hev : ∀ᶠ t in nhds t₀, ∀ w, r t w ≠ 0 :=
    Filter.eventually_all.mpr fun w => (hr w).continuousAt.eventually_ne (h0 w)
  have h1 : HasDerivAt (fun t => 2 * W / ((W : ℝ) - 1) * ((∑ w, C w * Real.log |r t w|) / W))
      (2 * W / ((W : ℝ) - 1) * ((∑ w, C w * (r' w / r t₀ w)) / W)) t₀ := by
    refine HasDerivAt.const_mul _ (HasDerivAt.div_const ?_ _)
    refine HasDerivAt.fun_sum fun w _ => HasDerivAt.const_mul _ ?_
    simp only [Real.log_abs]
    exact (hr w).log (h0 w)
  refine h1.congr_of_eventuallyEq (hev.mono fun t ht => ?_)
  simp only []
  rw [forward_value c ions charges dtype m hm hu hdet hn hc (Q t) hW x (nonzero t) (r t) (hψ t) ht nanSafe C]
  rfl

/-- C116: the estimates of an epoch of training from the array of positions of at least two walkers, none of which
is at a node or a kink.  `E'` are the local energies after clipping.  The energy is their mean, the energy without
clipping is the mean of the local energies, and the gradient along any path of parameters is `2 N/(N-1)` times the
mean over the walkers of `(E' - mean) ∂ log |ψ|`. -/
theorem training_estimates (Q : ℝ → Params (S + 1) (m₀ + 1) d) (nonzero : ℝ → Stream1 n d → Prop)
    (ψ : ℝ → Stream1 n d → ℝ) (hψ : ∀ t q, Spec.ModelValue c (Q t) ions charges q (nonzero t q) (ψ t q))
    (eiSoft eeSoft : ℝ) (hR : Distinct ions) (hW : 2 ≤ W) {X : Arr ℝ} (hX : X.shape = [d, ∑ s, n s, W])
    (x : Fin W → Pos (∑ s, n s) d) (hx : ∀ w, x w = Spec.positionsOf X [w.val]) (t₀ : ℝ)
    (h0 : ∀ w, ψ t₀ (splitPositions (x w)) ≠ 0)
    (hs : ∀ w, SmoothPlace c (Q t₀) ions (splitPositions (x w) : Stream1 n d))
    (E : Fin W → ℝ) (hE : ∀ w, E w = localEnergyOf (ψ t₀) ions charges eiSoft eeSoft (x w))
    (clipping : Option (List XR → XR → List XR)) (E' : Fin W → ℝ)
    (hnone : clipping = none → E' = E)
    (hsome : ∀ f, clipping = some f → f (List.ofFn fun w => .fin (E w)) (.fin ((∑ w, E w) / W)) =
      List.ofFn fun w => .fin (E' w)) (nanSafe : Bool) :
    let model := fun Q X => logPsiA (m.onBatch n Q ions) X
    ∃ energy aux forward, valueAndForwardA (fun Q => localEnergyA (model Q) (A2 ions) (A1 charges) eiSoft eeSoft)
        model W clipping nanSafe (Q t₀) X = .ok (energy, aux, forward) ∧
      energy = .fin ((∑ w, E' w) / W) ∧ aux.energyNoclip = .fin ((∑ w, E w) / W) ∧
      aux.variance = .fin ((∑ w, (E' w - (∑ u, E' u) / W) ^ 2) / ((W : ℝ) - 1)) ∧
      aux.varianceNoclip = .fin ((∑ w, (E w - (∑ u, E u) / W) ^ 2) / ((W : ℝ) - 1)) ∧
      ∀ r' : Fin W → ℝ, (∀ w, HasDerivAt (fun t => ψ t (splitPositions (x w))) (r' w) t₀) →
        HasDerivAt (fun t => numberOf (forward (Q t))) (2 * W / ((W : ℝ) - 1) *
          ((∑ w, (E' w - (∑ u, E' u) / W) * (r' w / ψ t₀ (splitPositions (x w)))) / W)) t₀ := by
  intro model
  have hW0 : 0 < W := by omega
  have hXx : X = A3 x := by
    rw [funext hx]
    exact eq_A3' hX
  obtain ⟨Y, h1, h2, h3⟩ := local_energies_finite c ions charges dtype m hm hu hdet hn hc (Q t₀) (nonzero t₀) (ψ t₀)
    (hψ t₀) eiSoft eeSoft hR hW0 hX (fun t ht => hx ⟨t, ht⟩ ▸ h0 ⟨t, ht⟩) (fun t ht => hx ⟨t, ht⟩ ▸ hs ⟨t, ht⟩)
  have h4 : entriesA Y = List.ofFn fun w => .fin (E w) :=
    entries_of h2 fun t => by rw [h3, hE, hx]
  have hstat : ∀ (b : Bool) (F : Fin W → ℝ), getStatistics [List.ofFn fun w => XR.fin (F w)] W b =
      (.fin ((∑ w, F w) / W), .fin ((∑ w, (F w - (∑ u, F u) / W) ^ 2) / ((W : ℝ) - 1))) := by
    intro b F
    have h13 := energy_statistics (List.ofFn F) [List.ofFn F] W b
      ⟨by simp, by simp, hW0, by simp⟩ (by simpa using hW)
    rw [List.length_ofFn] at h13
    simp only [List.map_cons, List.map_nil, List.map_ofFn] at h13
    refine h13.trans ?_
    unfold sampleVar avgL
    simp only [List.map_ofFn, List.sum_ofFn, List.length_ofFn, Function.comp]
  have hclip : getClipped [List.ofFn fun w => XR.fin (E w)] W clipping nanSafe =
      (.fin ((∑ w, E' w) / W), [List.ofFn fun w => XR.fin (E' w)],
        ⟨.fin ((∑ w, (E' w - (∑ u, E' u) / W) ^ 2) / ((W : ℝ) - 1)), .fin ((∑ w, E w) / W),
          .fin ((∑ w, (E w - (∑ u, E u) / W) ^ 2) / ((W : ℝ) - 1)),
          [List.ofFn fun w => XR.fin (E' w)].map fun l => l.map fun e => e - .fin ((∑ w, E' w) / W)⟩) := by
    unfold getClipped
    cases hcl : clipping with
    | none =>
      obtain rfl := hnone hcl
      simp only [hstat]
    | some f => simp only [hstat, List.map_cons, List.map_nil, hsome f hcl]
  refine ⟨_, ⟨_, _, _, [List.ofFn fun w => XR.fin (E' w)].map fun l => l.map fun e => e - .fin ((∑ w, E' w) / W)⟩,
    fun Q' => forwardA model W nanSafe Q' X (A1 fun w => .fin (E' w - (∑ u, E' u) / W)), ?_, rfl, rfl, rfl, rfl, ?_⟩
  · unfold valueAndForwardA
    beta_reduce
    rw [show vmapA (localEnergyA (model (Q t₀)) (A2 ions) (A1 charges) eiSoft eeSoft) X = .ok Y from h1, ok_bind]
    simp only [h4, hclip]
    refine congrArg Except.ok (congrArg (Prod.mk _) (congrArg (Prod.mk _) ?_))
    funext Q'
    congr 1
    refine eq_A1 ?_ fun w => ?_
    · unfold centeredA
      simp
    · unfold centeredA
      rw [A1_get _ (by simp)]
      simp
  · intro r' hr
    have h := forward_derivative c ions charges dtype m hm hu hdet hn hc Q hW x
      (fun t w => nonzero t (splitPositions (x w))) (fun t w => ψ t (splitPositions (x w)))
      (fun t w => hψ t _) t₀ h0 r' hr nanSafe fun w => E' w - (∑ u, E' u) / W
    rw [← hXx] at h
    exact h

end configured

/-! ### Examples -/

/-- Parameters of the default FermiNet for helium with orbitals `a exp (-|r|)` and `3 exp (-|r|)`. -/
noncomputable def scaledHelium (P : Params 2 1 3) (a : ℝ) : Params 2 1 3 :=
  { P with orbitals := fun _ _ => ⟨fun _ _ _ => 0, fun s _ => if s = 0 then a else 3, fun _ _ => 1,
      fun _ _ _ _ _ => 0, fun _ _ _ => 1, 0, true, true⟩ }

theorem scaled_helium_value {P : Params 2 1 3} {a : ℝ} {pos : Stream1 (fun _ : Fin 2 => 1) 3} {nonzero : Prop} {r : ℝ}
    (h : Spec.ModelValue {} (scaledHelium P a) (fun (_ : Fin 1) _ => 0) (fun _ => 2) pos nonzero r) :
    r = a * 3 * Real.exp (-∑ e, Real.sqrt (∑ b, pos e b ^ 2)) := by
  rcases model_value_inv h with ⟨-, N, D, hD, hr⟩ | ⟨h, -⟩ | ⟨h, -⟩ | ⟨h, -⟩ | ⟨h, -⟩
  · rcases fermi_dets_inv hD with ⟨-, _, z, -, hD⟩ | ⟨h, -⟩
    · obtain rfl : N = 1 := congrArg Sigma.fst hD
      obtain rfl := eq_of_heq (Sigma.mk.inj hD).2
      rcases combined_inv hr with ⟨-, h⟩ | ⟨h, -⟩ | ⟨h, -⟩ | ⟨h, -⟩
      · rw [h]
        rw [Fintype.sum_sigma]
        simp [orbitalValue, envelopeValue, scaledHelium, Fin.prod_univ_succ, Fin.sum_univ_succ]
        rw [Real.exp_add]
        ring
      all_goals cases h
    · cases h
  all_goals simp at h

/-- Training the default FermiNet for helium with walkers none of which has electrons or nucleus at the same place:
multiplying one orbital by a factor does not change the energy, and the gradient along this path of parameters is 0,
whatever the number of walkers is. -/
example (P : Params 2 1 3) (hW : 2 ≤ W) (X : Arr ℝ) (hX : X.shape = [3, 2, W])
    (hx : ∀ t < W, Distinct (Spec.positionsOf X [t] : Pos 2 3))
    (hx' : ∀ t < W, Apart (Spec.positionsOf X [t] : Pos 2 3) fun (_ : Fin 1) _ => 0) :
    ∃ m : Model 1, getModelFromConfig {} (counts fun _ : Fin 2 => 1)
        (fun (_ : Fin 1) (_ : Fin 3) => (0 : ℝ)) (fun _ => 2) 32 = .ok m ∧
      let model := fun Q X => logPsiA (m.onBatch (fun _ : Fin 2 => 1) Q fun _ _ => 0) X
      ∃ energy aux forward, valueAndForwardA (fun Q => localEnergyA (model Q)
          (A2 fun (_ : Fin 1) (_ : Fin 3) => (0 : ℝ)) (A1 fun (_ : Fin 1) => (2 : ℝ)) 0 0)
          model W none false (scaledHelium P 2) X = .ok (energy, aux, forward) ∧ energy.isFin ∧
        HasDerivAt (fun t => numberOf (forward (scaledHelium P t))) 0 2 := by
  let n : Fin 2 → ℕ := fun _ => 1
  obtain ⟨m, hm⟩ := (model_config_accepted_iff {} (counts n)
    (fun (_ : Fin 1) (_ : Fin 3) => (0 : ℝ)) (fun _ => 2) 32).mpr
    (by rw [counts_length]; exact default_acceptable "ferminet" (by simp))
  have hu : Spec.UsesNorms ({} : ModelCfg) := ⟨rfl, fun _ => rfl⟩
  have hn : ∀ s, 0 < n s := fun _ => Nat.one_pos
  have hc : Spec.Callable ({} : ModelCfg) 2 := by
    left
    refine ⟨rfl, .inr (by simp), ?_⟩
    simp [Spec.PairsWithoutTwo]
  have hex : ∀ (t : ℝ) (q : Stream1 n 3), ∃ (nz : Prop) (r : ℝ),
      Spec.ModelValue {} (scaledHelium P t) (fun (_ : Fin 1) _ => 0) (fun _ => 2) q nz r := by
    intro t q
    obtain ⟨v, hv⟩ := (configured_model_callable_iff {} (fun (_ : Fin 1) (_ : Fin 3) => (0 : ℝ)) (fun _ => 2) 32 m hm
      hu hn (scaledHelium P t) q).mpr hc
    obtain ⟨nz, r, h, -⟩ := configured_model_value {} _ _ _ m hm (scaledHelium P t) q v hv
    exact ⟨nz, r, h⟩
  choose nz ψ hψ using hex
  let x : Fin W → Pos 2 3 := fun w => Spec.positionsOf X [w.val]
  have h0 : ∀ w, ψ 2 (splitPositions (n := n) (x w)) ≠ 0 := fun w => by
    rw [scaled_helium_value (hψ 2 _)]
    positivity
  obtain ⟨energy, aux, forward, h1, h2, -, -, -, h3⟩ := training_estimates {}
    (fun (_ : Fin 1) (_ : Fin 3) => (0 : ℝ)) (fun _ => 2) 32 m hm hu (by simp) hn hc (scaledHelium P) nz ψ hψ 0 0
    (fun i j hij => absurd (Fin.ext (by omega)) hij) hW (X := X) hX x (fun _ => rfl) 2 h0
    (fun w => ⟨⟨fun e e' he => hx w w.2 _ _ (finSigmaFinEquiv.injective.ne he), fun e j => hx' w w.2 _ j⟩,
      fun h => by simp at h, fun _ _ _ _ _ => .inr (.inl rfl), fun h => by simp at h, fun h => by simp at h⟩)
    _ (fun _ => rfl) none _ (fun _ => rfl) (fun f h => by cases h) false
  refine ⟨m, hm, energy, aux, forward, h1, h2 ▸ trivial, ?_⟩
  have h4 := h3 (fun w => 3 * Real.exp (-∑ e, Real.sqrt (∑ b, splitPositions (n := n) (x w) e b ^ 2))) fun w => by
    have : (fun t => ψ t (splitPositions (n := n) (x w))) = fun t =>
        t * (3 * Real.exp (-∑ e, Real.sqrt (∑ b, splitPositions (n := n) (x w) e b ^ 2))) := by
      funext t
      rw [scaled_helium_value (hψ t _), mul_assoc]
    rw [this]
    simpa using (hasDerivAt_id (2 : ℝ)).mul_const
      (3 * Real.exp (-∑ e, Real.sqrt (∑ b, splitPositions (n := n) (x w) e b ^ 2)))
  convert h4 using 1
  have h5 : ∀ w, 3 * Real.exp (-∑ e, Real.sqrt (∑ b, splitPositions (n := n) (x w) e b ^ 2)) /
      ψ 2 (splitPositions (n := n) (x w)) = 1 / 2 := by
    intro w
    rw [scaled_helium_value (hψ 2 _)]
    field_simp
    rfl
  simp only [h5]
  rw [← Finset.sum_mul, Finset.sum_sub_distrib]
  have : (W : ℝ) ≠ 0 := by
    have : 0 < W := by omega
    positivity
  simp only [Finset.sum_const, Finset.card_univ, Fintype.card_fin, nsmul_eq_mul]
  field_simp
  simp

/-- Evaluating it: starting from any array of positions, an epoch of any number of steps returns the energies of the
walkers at which it arrives. -/
example (P : Params 2 1 3) (hW : 2 ≤ W) (X : Arr ℝ) (hX : X.shape = [3, 2, W])
    (uniform normal : ℕ → List ℕ → Arr ℝ) (hun : ∀ k s, (uniform k s).shape = s)
    (hnorm : ∀ k s, (normal k s).shape = s) (nsteps : ℕ) :
    ∃ m : Model 1, getModelFromConfig {} (counts fun _ : Fin 2 => 1)
        (fun (_ : Fin 1) (_ : Fin 3) => (0 : ℝ)) (fun _ => 2) 32 = .ok m ∧
      let model := fun Q X => logPsiA (m.onBatch (fun _ : Fin 2 => 1) Q fun _ _ => 0) X
      let step := paStepA (K := ℕ) (M := Unit) (fun k => (2 * k, 2 * k + 1)) uniform normal (fun _ => .fin 0) model
        (fun _ => 1 / 4) none true
      let energy := fun Q => localEnergyA (model Q) (A2 fun (_ : Fin 1) (_ : Fin 3) => (0 : ℝ))
        (A1 fun (_ : Fin 1) => (2 : ℝ)) 0 0
      ∃ D D' stats Y, updateDataA model ⟨X, .of [W] fun _ => .fin 0, ()⟩ (scaledHelium P 2) = .ok D ∧
        evalEpochA step nsteps energy W false true (scaledHelium P 2) D 7 =
          .ok (scaledHelium P 2, D', stats, some Y) ∧
        ((∀ t < W, Distinct (Spec.positionsOf D'.position [t] : Pos 2 3)) →
          (∀ t < W, Apart (Spec.positionsOf D'.position [t] : Pos 2 3) fun (_ : Fin 1) _ => 0) →
          ∃ E : Fin W → ℝ, (∀ t : Fin W, Y.get [t.val] = .fin (E t)) ∧ stats.1 = .fin ((∑ t, E t) / W)) := by
  let n : Fin 2 → ℕ := fun _ => 1
  obtain ⟨m, hm⟩ := (model_config_accepted_iff {} (counts n)
    (fun (_ : Fin 1) (_ : Fin 3) => (0 : ℝ)) (fun _ => 2) 32).mpr
    (by rw [counts_length]; exact default_acceptable "ferminet" (by simp))
  have hu : Spec.UsesNorms ({} : ModelCfg) := ⟨rfl, fun _ => rfl⟩
  have hn : ∀ s, 0 < n s := fun _ => Nat.one_pos
  have hc : Spec.Callable ({} : ModelCfg) 2 := by
    left
    refine ⟨rfl, .inr (by simp), ?_⟩
    simp [Spec.PairsWithoutTwo]
  have hex : ∀ q : Stream1 n 3, ∃ (nz : Prop) (r : ℝ),
      Spec.ModelValue {} (scaledHelium P 2) (fun (_ : Fin 1) _ => 0) (fun _ => 2) q nz r := by
    intro q
    obtain ⟨v, hv⟩ := (configured_model_callable_iff {} (fun (_ : Fin 1) (_ : Fin 3) => (0 : ℝ)) (fun _ => 2) 32 m hm
      hu hn (scaledHelium P 2) q).mpr hc
    obtain ⟨nz, r, h, -⟩ := configured_model_value {} _ _ _ m hm (scaledHelium P 2) q v hv
    exact ⟨nz, r, h⟩
  choose nz ψ hψ using hex
  obtain ⟨D₀, D₁, r, h1, h2, h3, h4, -, h6⟩ := walked_amplitudes_match {} (fun (_ : Fin 1) (_ : Fin 3) => (0 : ℝ))
    (fun _ => 2) 32 m hm hu (by simp) hn hc (scaledHelium P 2) (fun k : ℕ => (2 * k, 2 * k + 1)) uniform normal
    (fun _ => .fin 0) (fun _ => 1 / 4) none true hun hnorm (by omega) X (.of [W] fun _ => .fin 0) () hX 0 0 7
  have hr : r.2.1 = D₀ := by
    cases h2
    cases h3
    rfl
  rw [hr] at h4 h6
  obtain ⟨D', -, -, stats, es, h7, h8⟩ := evaluation_epoch {} (fun (_ : Fin 1) (_ : Fin 3) => (0 : ℝ))
    (fun _ => 2) 32 m hm hu (by simp) hn hc (scaledHelium P 2) nz ψ hψ 0 0
    (fun i j hij => absurd (Fin.ext (by omega)) hij) hW (fun k : ℕ => (2 * k, 2 * k + 1)) uniform normal
    (fun _ => .fin 0) (fun _ => 1 / 4) none true hun hnorm nsteps false true D₀ h4 h6 7
  have hes : ∃ Y, es = some Y := by
    have h7' := h7
    unfold evalEpochA evalUpdateA at h7'
    generalize walkDataA _ _ _ _ _ = w at h7'
    cases w with
    | error e => cases h7'
    | ok w =>
      rw [ok_bind] at h7'
      generalize vmapA _ _ = v at h7'
      cases v with
      | error e => cases h7'
      | ok v =>
        cases h7'
        exact ⟨v, rfl⟩
  obtain ⟨Y, rfl⟩ := hes
  refine ⟨m, hm, D₀, D', stats, Y, h1, h7, fun hx hx' => ?_⟩
  obtain ⟨h9, h10, -⟩ := h8
    (fun t _ => by
      rw [scaled_helium_value (hψ _)]
      positivity)
    (fun t ht => ⟨⟨fun e e' he => hx t ht _ _ (finSigmaFinEquiv.injective.ne he), fun e j => hx' t ht _ j⟩,
      fun h => by simp at h, fun _ _ _ _ _ => .inr (.inl rfl), fun h => by simp at h, fun h => by simp at h⟩)
    _ (fun _ => rfl)
  obtain ⟨Y', hY, -, hY'⟩ := h10 rfl
  obtain rfl := Option.some.inj hY
  exact ⟨_, hY', by rw [h9]⟩

end Verif.Props
