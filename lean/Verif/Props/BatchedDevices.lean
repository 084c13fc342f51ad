import Verif.Model.BatchedDevices
import Verif.Props.BatchedEpoch

/-!
What an epoch computes on several devices.
-/

namespace Verif.Spec

/-- The walker at place `t` of device `i`. -/
def onDevice {D w : ℕ} (i : Fin D) (t : Fin w) : Fin (D * w) :=
  ⟨i.val * w + t.val, by
    have := Nat.mul_le_mul_right w (Nat.succ_le_of_lt i.2)
    have := t.2
    rw [Nat.succ_mul] at *
    omega⟩

end Verif.Spec

namespace Verif.Props
open Verif.Arrays Verif.MCMC Verif.Phys Verif.Spec Verif.Construct Verif.Net Verif.Energy Verif.Slog

variable {κ M : Type} {D w d N : ℕ}

theorem range_devices {β : Type} (n : ℕ) (f : ℕ → β) : (List.range n).map f = List.ofFn fun i : Fin n => f i.val := by
  rw [List.ofFn_eq_map, ← List.map_coe_finRange_eq_range, List.map_map]
  rfl

theorem mapM_devices {α β : Type} {n : ℕ} {f : α → Except String β} {x : Fin n → α} {y : Fin n → β}
    (h : ∀ i, f (x i) = .ok (y i)) : (List.ofFn x).mapM f = .ok (List.ofFn y) := by
  induction n with
  | zero => rfl
  | succ n ih =>
    rw [List.ofFn_succ, List.mapM_cons, h, ih fun i => h i.succ, List.ofFn_succ]
    rfl

theorem zip_devices {α β : Type} {n : ℕ} (x : Fin n → α) (y : Fin n → β) :
    (List.ofFn x).zip (List.ofFn y) = List.ofFn fun i => (x i, y i) := by
  induction n with
  | zero => rfl
  | succ n ih => rw [List.ofFn_succ, List.ofFn_succ, List.zip_cons_cons, ih, List.ofFn_succ]

/-- C118: distributing positions gives device `i` the walkers `i w, ..., i w + w - 1`. -/
theorem distribute_positions (hD : 0 < D) (x : Fin (D * w) → Pos N d) :
    distributeA D (A3 x) = .ok (List.ofFn fun i : Fin D => A3 fun t : Fin w => x (Spec.onDevice i t)) := by
  unfold distributeA
  have hs : (A3 x).shape = [d, N, D * w] := rfl
  have hl : (A3 x).shape.getLastD 0 = D * w := rfl
  simp only [hl]
  rw [if_neg (by simp), range_devices]
  refine congrArg Except.ok (congrArg List.ofFn (funext fun i => ?_))
  rw [Nat.mul_div_cancel_left _ hD]
  refine eq_A3 rfl fun t e k => ?_
  rw [of_get (by exact .cons k.2 (.cons e.2 (.cons t.2 .nil)))]
  exact A3_get x (Spec.onDevice i t).2 e.2 k.2

theorem distribute_amplitudes (hD : 0 < D) (a : Fin (D * w) → XR) :
    distributeA D (A1 a) = .ok (List.ofFn fun i : Fin D => A1 fun t : Fin w => a (Spec.onDevice i t)) := by
  unfold distributeA
  have hl : (A1 a).shape.getLastD 0 = D * w := rfl
  simp only [hl]
  rw [if_neg (by simp), range_devices]
  refine congrArg Except.ok (congrArg List.ofFn (funext fun i => ?_))
  rw [Nat.mul_div_cancel_left _ hD]
  refine eq_A1 rfl fun t => ?_
  rw [of_get (by exact .cons t.2 .nil)]
  exact A1_get a (Spec.onDevice i t).2

/-- C118: numbers of walkers which the number of devices does not divide are refused. -/
theorem distribute_refuses {α : Type} [Inhabited α] {x : Arr α} {s : List ℕ} {W : ℕ} (hx : x.shape = s ++ [W])
    (h : ¬ D ∣ W) : distributeA D x = .error "Number of chains must be divisible by number of devices" := by
  unfold distributeA
  have hl : x.shape.getLastD 0 = W := by rw [hx]; simp
  simp only [hl]
  rw [if_pos fun h' => h (Nat.dvd_of_mod_eq_zero h')]

theorem sum_devices (E : Fin D → Fin w → ℝ) :
    ((List.ofFn fun i => List.ofFn (E i)).flatten).sum = ∑ i, ∑ t, E i t := by
  rw [List.sum_flatten, List.map_ofFn, List.sum_ofFn]
  refine Finset.sum_congr rfl fun i _ => ?_
  simp [List.sum_ofFn]

theorem layout_devices (hD : 0 < D) (hw : 0 < w) (E : Fin D → Fin w → ℝ) :
    IsLayout (List.ofFn fun i => List.ofFn (E i)).flatten (List.ofFn fun i => List.ofFn (E i)) w := by
  refine ⟨rfl, ?_, hw, fun r hr => ?_⟩
  · intro h
    have := congrArg List.length h
    simp at this
    omega
  · obtain ⟨i, rfl⟩ := List.mem_ofFn.mp hr
    simp

theorem length_devices (E : Fin D → Fin w → ℝ) : (List.ofFn fun i => List.ofFn (E i)).flatten.length = D * w := by
  rw [List.length_flatten, List.map_ofFn, List.sum_ofFn]
  simp

/-- Mean and variance of energies on several devices. -/
theorem device_statistics (hD : 0 < D) (hw : 0 < w) (h2 : 2 ≤ D * w) (E : Fin D → Fin w → ℝ) (nanSafe : Bool) :
    getStatistics (List.ofFn fun i => List.ofFn fun t => XR.fin (E i t)) (D * w) nanSafe =
      (.fin ((∑ i, ∑ t, E i t) / (D * w : ℕ)), .fin ((∑ i, ∑ t, (E i t - (∑ j, ∑ u, E j u) / (D * w : ℕ)) ^ 2) /
        (((D * w : ℕ) : ℝ) - 1))) := by
  have h := energy_statistics _ _ w nanSafe (layout_devices hD hw E) (by rw [length_devices]; exact h2)
  rw [length_devices] at h
  have h' : (List.ofFn fun i => List.ofFn (E i)).map (fun r => r.map XR.fin) =
      List.ofFn fun i => List.ofFn fun t => XR.fin (E i t) := by
    rw [List.map_ofFn]
    congr 1
    funext i
    simp [List.map_ofFn, Function.comp_def]
  rw [h'] at h
  refine h.trans ?_
  have hv := sum_devices fun i t => (E i t - (∑ j, ∑ u, E j u) / (D * w : ℕ)) ^ 2
  unfold sampleVar avgL
  rw [sum_devices, length_devices]
  have hm : ∀ c : ℝ, ((List.ofFn fun i => List.ofFn (E i)).flatten.map fun e => (e - c) ^ 2).sum =
      ∑ i, ∑ t, (E i t - c) ^ 2 := by
    intro c
    rw [← sum_devices, List.map_flatten, List.map_ofFn]
    congr 3
    funext i
    simp [List.map_ofFn, Function.comp_def]
  rw [hm]

section configured

variable {S m₀ : ℕ} {n : Fin (S + 1) → ℕ} (c : ModelCfg) (ions : Fin (m₀ + 1) → Fin d → ℝ)
  (charges : Fin (m₀ + 1) → ℝ) (dtype : ℕ) (m : Model (m₀ + 1))
  (hm : getModelFromConfig c (counts n) ions charges dtype = .ok m) (hu : Spec.UsesNorms c)
  (hdet : c.ndeterminants ≠ 0) (hn : ∀ s, 0 < n s) (hc : Spec.Callable c (S + 1))

include hm hu hdet hn hc

/-- C118: distributing data whose amplitudes are those of the model at the positions gives each device such data. -/
theorem distributed_data (Q : Params (S + 1) (m₀ + 1) d) (hD : 0 < D) (hw : 0 < w) (data : PADataA M)
    (hX : data.position.shape = [d, ∑ s, n s, D * w])
    (hA : logPsiA (m.onBatch n Q ions) data.position = .ok data.amplitude) :
    ∃ parts : Fin D → PADataA M, distributeDataA D data = .ok (List.ofFn parts) ∧
      ∀ i, (parts i).position.shape = [d, ∑ s, n s, w] ∧
        logPsiA (m.onBatch n Q ions) (parts i).position = .ok (parts i).amplitude ∧
        (parts i).moveMetadata = data.moveMetadata ∧
        ∀ t : Fin w, (Spec.positionsOf (parts i).position [t.val] : Pos (∑ s, n s) d) =
          Spec.positionsOf data.position [i.val * w + t.val] := by
  let x : Fin (D * w) → Pos (∑ s, n s) d := fun t => Spec.positionsOf data.position [t.val]
  have hx : data.position = A3 x := eq_A3' hX
  have hW : 0 < D * w := Nat.mul_pos hD hw
  have ha : data.amplitude = A1 fun t => logAmplitude m ions Q (x t) := by
    rw [hx, configured_walkers c ions charges dtype m hm hu hdet hn hc Q hW] at hA
    exact (Except.ok.inj hA).symm
  refine ⟨fun i => ⟨A3 fun t : Fin w => x (Spec.onDevice i t),
    A1 fun t : Fin w => logAmplitude m ions Q (x (Spec.onDevice i t)), data.moveMetadata⟩, ?_, fun i => ⟨rfl, ?_, rfl, ?_⟩⟩
  · unfold distributeDataA
    rw [ha, hx, distribute_positions hD, ok_bind, distribute_amplitudes hD, ok_bind]
    show Except.ok _ = _
    rw [zip_devices, List.map_ofFn]
    rfl
  · exact configured_walkers c ions charges dtype m hm hu hdet hn hc Q hw _
  · intro t
    funext e k
    exact A3_get (fun t : Fin w => x (Spec.onDevice i t)) t.2 e.2 k.2

/-- C118: an epoch of an evaluation on several devices, with steps which do not communicate.  The walkers of each
device walk as they would on one device with the key of this device, and if none of the walkers at which they arrive
is at a node or a kink, all devices report the mean and the unbiased sample variance of `Hψ/ψ` over the walkers of all
devices. -/
theorem evaluation_epoch_on_devices (Q : Params (S + 1) (m₀ + 1) d) (nonzero : Stream1 n d → Prop)
    (ψ : Stream1 n d → ℝ) (hψ : ∀ q, Spec.ModelValue c Q ions charges q (nonzero q) (ψ q))
    (eiSoft eeSoft : ℝ) (hR : Distinct ions) (hD : 0 < D) (hw : 0 < w) (h2 : 2 ≤ D * w) (split : κ → κ × κ)
    (uniform normal : κ → List ℕ → Arr ℝ) (meanFn : Arr XR → XR) (getStd : PADataA M → ℝ) (logabs : Bool)
    (hun : ∀ k s, (uniform k s).shape = s) (hnorm : ∀ k s, (normal k s).shape = s) (nsteps : ℕ) (nanSafe : Bool)
    (data : PADataA M) (hX : data.position.shape = [d, ∑ s, n s, D * w])
    (hA : logPsiA (m.onBatch n Q ions) data.position = .ok data.amplitude) (keys : Fin D → κ) :
    let model := fun Q X => logPsiA (m.onBatch n Q ions) X
    let step := paStepA split uniform normal meanFn model getStd none logabs
    let energy := fun Q => localEnergyA (model Q) (A2 ions) (A1 charges) eiSoft eeSoft
    ∃ (parts walked : Fin D → PADataA M) (stats : XR × XR), distributeDataA D data = .ok (List.ofFn parts) ∧
      evalEpochDevicesA step nsteps energy (D * w) nanSafe Q (List.ofFn parts) (List.ofFn keys) =
        .ok (Q, List.ofFn walked, stats) ∧
      (∀ i, (∃ a k, walkDataA step nsteps Q (parts i) (keys i) = .ok (a, walked i, k)) ∧
        (walked i).position.shape = [d, ∑ s, n s, w] ∧ model Q (walked i).position = .ok (walked i).amplitude ∧
        ∀ t : Fin w, (Spec.positionsOf (parts i).position [t.val] : Pos (∑ s, n s) d) =
          Spec.positionsOf data.position [i.val * w + t.val]) ∧
      ((∀ i, ∀ t < w, ψ (splitPositions (Spec.positionsOf (walked i).position [t])) ≠ 0) →
        (∀ i, ∀ t < w, SmoothPlace c Q ions (splitPositions (Spec.positionsOf (walked i).position [t]) :
          Stream1 n d)) →
        ∀ E : Fin D → Fin w → ℝ, (∀ i t, E i t =
            localEnergyOf ψ ions charges eiSoft eeSoft (Spec.positionsOf (walked i).position [t.val])) →
          stats = (.fin ((∑ i, ∑ t, E i t) / (D * w : ℕ)),
            .fin ((∑ i, ∑ t, (E i t - (∑ j, ∑ u, E j u) / (D * w : ℕ)) ^ 2) / (((D * w : ℕ) : ℝ) - 1)))) := by
  intro model step energy
  obtain ⟨parts, hp, hparts⟩ := distributed_data c ions charges dtype m hm hu hdet hn hc Q hD hw data hX hA
  have hwalk : ∀ i, ∃ r, walkDataA step nsteps Q (parts i) (keys i) = .ok r ∧
      r.2.1.position.shape = [d, ∑ s, n s, w] ∧ model Q r.2.1.position = .ok r.2.1.amplitude := by
    intro i
    obtain ⟨D₀, D₁, r, h1, h2, h3, h4, -, h6⟩ := walked_amplitudes_match c ions charges dtype m hm hu hdet hn hc Q split
      uniform normal meanFn getStd none logabs hun hnorm hw (parts i).position (parts i).amplitude
      (parts i).moveMetadata (hparts i).1 0 nsteps (keys i)
    have hD0 : D₀ = parts i := by
      have : updateDataA model ⟨(parts i).position, (parts i).amplitude, (parts i).moveMetadata⟩ Q = .ok (parts i) := by
        unfold updateDataA
        rw [show model Q (parts i).position = .ok (parts i).amplitude from (hparts i).2.1]
        rfl
      exact Except.ok.inj (h1.symm.trans this)
    have hD1 : D₁ = (parts i, keys i) := by
      rw [hD0] at h2
      exact (Except.ok.inj h2).symm
    rw [hD1] at h3
    exact ⟨r, h3, h4, h6⟩
  choose r hr1 hr2 hr3 using hwalk
  have hen : ∀ i, ∃ Y, vmapA (energy Q) (r i).2.1.position = .ok Y ∧ Y.shape = [w] := by
    intro i
    obtain ⟨Y, h7, h8, -⟩ := vmapped_local_energies c ions charges dtype m hm hu hdet hn Q hc nonzero ψ hψ eiSoft
      eeSoft hR hw (hr2 i)
    exact ⟨Y, h7, h8⟩
  choose Y hY1 hY2 using hen
  refine ⟨parts, fun i => (r i).2.1, getStatistics (List.ofFn fun i => entriesA (Y i)) (D * w) nanSafe, hp, ?_,
    fun i => ⟨⟨(r i).1, (r i).2.2, hr1 i⟩, hr2 i, hr3 i, (hparts i).2.2.2⟩, ?_⟩
  · unfold evalEpochDevicesA walkDevicesA
    rw [zip_devices, mapM_devices (y := r) fun i => hr1 i, ok_bind]
    show (Except.ok _ >>= _) = _
    rw [ok_bind]
    simp only [List.map_ofFn]
    rw [mapM_devices (f := fun q : PADataA M × κ => vmapA (energy Q) q.1.position)
      (x := (fun q : XR × PADataA M × κ => q.2) ∘ r) (y := Y) fun i => hY1 i, ok_bind,
      List.map_ofFn]
    rfl
  · intro h0 hs E hE
    have h3 : (List.ofFn fun i => entriesA (Y i)) = List.ofFn fun i => List.ofFn fun t => XR.fin (E i t) := by
      congr 1
      funext i
      obtain ⟨Y', h4, h5, h6⟩ := local_energies_finite c ions charges dtype m hm hu hdet hn hc Q nonzero ψ hψ eiSoft
        eeSoft hR hw (hr2 i) (h0 i) (hs i)
      obtain rfl : Y' = Y i := Except.ok.inj (h4.symm.trans (hY1 i))
      exact entries_of h5 fun t => by rw [h6, hE]
    rw [h3]
    exact device_statistics hD hw h2 E nanSafe

/-- The function whose derivative is the gradient of a device with `w` of all `W` walkers. -/
theorem forward_device_value {W : ℕ} (Q : Params (S + 1) (m₀ + 1) d) (hw : 0 < w) (hW : 2 ≤ W)
    (x : Fin w → Pos (∑ s, n s) d) (nonzero : Fin w → Prop) (r : Fin w → ℝ)
    (hψ : ∀ t, Spec.ModelValue c Q ions charges (splitPositions (x t) : Stream1 n d) (nonzero t) (r t))
    (h0 : ∀ t, r t ≠ 0) (nanSafe : Bool) (C : Fin w → ℝ) :
    forwardA (fun Q X => logPsiA (m.onBatch n Q ions) X) W nanSafe Q (A3 x) (A1 fun t => .fin (C t)) =
      .ok (.fin (2 * W / ((W : ℝ) - 1) * ((∑ t, C t * Real.log |r t|) / w))) := by
  have hl : logPsiA (m.onBatch n Q ions) (A3 x) = .ok (A1 fun t => .fin (Real.log |r t|)) := by
    rw [configured_walkers c ions charges dtype m hm hu hdet hn hc Q hw]
    congr 2
    funext t
    exact log_amplitude_value c ions charges dtype m hm hu hn hc Q _ (hψ t) (h0 t)
  unfold forwardA
  beta_reduce
  rw [hl, ok_bind, zip_A1, ok_bind]
  refine congrArg Except.ok ?_
  rw [entries_of (W := w) rfl fun t => A1_get _ t.2]
  have h1 := allreduce_fin nanSafe (rows := [List.ofFn fun t => C t * Real.log |r t|]) hw (by simp) (by simp)
  simp only [List.map_cons, List.map_nil, List.map_ofFn] at h1
  have h2 : (W : ℝ) - 1 ≠ 0 := by
    have : (2 : ℝ) ≤ W := by exact_mod_cast hW
    linarith
  have h3 : (List.ofFn fun t : Fin w => XR.fin (C t) * XR.fin (Real.log |r t|)) =
      List.ofFn (XR.fin ∘ fun t => C t * Real.log |r t|) := by
    congr 1
  simp only [h3]
  rw [h1]
  unfold gradFactor XR.ofNat avgL
  rw [XR.fin_mul, XR.fin_div h2, XR.fin_mul]
  simp [List.sum_ofFn]

theorem forward_device_derivative {W : ℕ} (Q : ℝ → Params (S + 1) (m₀ + 1) d) (hw : 0 < w) (hW : 2 ≤ W)
    (x : Fin w → Pos (∑ s, n s) d) (nonzero : ℝ → Fin w → Prop) (r : ℝ → Fin w → ℝ)
    (hψ : ∀ t i, Spec.ModelValue c (Q t) ions charges (splitPositions (x i) : Stream1 n d) (nonzero t i) (r t i))
    (t₀ : ℝ) (h0 : ∀ i, r t₀ i ≠ 0) (r' : Fin w → ℝ) (hr : ∀ i, HasDerivAt (fun t => r t i) (r' i) t₀)
    (nanSafe : Bool) (C : Fin w → ℝ) :
    HasDerivAt (fun t => numberOf (forwardA (fun Q X => logPsiA (m.onBatch n Q ions) X) W nanSafe (Q t) (A3 x)
        (A1 fun i => .fin (C i))))
      (2 * W / ((W : ℝ) - 1) * ((∑ i, C i * (r' i / r t₀ i)) / w)) t₀ := by
  have hev : ∀ᶠ t in nhds t₀, ∀ i, r t i ≠ 0 :=
    Filter.eventually_all.mpr fun i => (hr i).continuousAt.eventually_ne (h0 i)
  have h1 : HasDerivAt (fun t => 2 * W / ((W : ℝ) - 1) * ((∑ i, C i * Real.log |r t i|) / w))
      (2 * W / ((W : ℝ) - 1) * ((∑ i, C i * (r' i / r t₀ i)) / w)) t₀ := by
    refine HasDerivAt.const_mul _ (HasDerivAt.div_const ?_ _)
    refine HasDerivAt.fun_sum fun i _ => HasDerivAt.const_mul _ ?_
    simp only [Real.log_abs]
    exact (hr i).log (h0 i)
  refine h1.congr_of_eventuallyEq (hev.mono fun t ht => ?_)
  simp only []
  rw [forward_device_value c ions charges dtype m hm hu hdet hn hc (Q t) hw hW x (nonzero t) (r t) (hψ t) ht nanSafe C]
  rfl

/-- C118: the estimates of an epoch of training from walkers distributed to several devices, none of which is at a
node or a kink.  `E'` are the local energies after each device has clipped its own.  The energy is the mean over the
walkers of all devices, and the mean over the devices of the gradients along any path of parameters is `2 N/(N-1)`
times the mean over all walkers of `(E' - mean) ∂ log |ψ|`, with `N` the number of all walkers: distributing changes
nothing but the energies which are clipped. -/
theorem training_on_devices (Q : ℝ → Params (S + 1) (m₀ + 1) d) (nonzero : ℝ → Stream1 n d → Prop)
    (ψ : ℝ → Stream1 n d → ℝ) (hψ : ∀ t q, Spec.ModelValue c (Q t) ions charges q (nonzero t q) (ψ t q))
    (eiSoft eeSoft : ℝ) (hR : Distinct ions) (hD : 0 < D) (hw : 0 < w) (h2 : 2 ≤ D * w) {X : Arr ℝ}
    (hX : X.shape = [d, ∑ s, n s, D * w]) (x : Fin D → Fin w → Pos (∑ s, n s) d)
    (hx : ∀ i t, x i t = Spec.positionsOf X [i.val * w + t.val]) (t₀ : ℝ)
    (h0 : ∀ i t, ψ t₀ (splitPositions (x i t)) ≠ 0)
    (hs : ∀ i t, SmoothPlace c (Q t₀) ions (splitPositions (x i t) : Stream1 n d))
    (E : Fin D → Fin w → ℝ) (hE : ∀ i t, E i t = localEnergyOf (ψ t₀) ions charges eiSoft eeSoft (x i t))
    (clipping : Option (List XR → XR → List XR)) (E' : Fin D → Fin w → ℝ) (hnone : clipping = none → E' = E)
    (hsome : ∀ f, clipping = some f → ∀ i, f (List.ofFn fun t => .fin (E i t))
      (.fin ((∑ j, ∑ u, E j u) / (D * w : ℕ))) = List.ofFn fun t => .fin (E' i t)) (nanSafe : Bool) :
    let model := fun Q X => logPsiA (m.onBatch n Q ions) X
    ∃ positions, distributeA D X = .ok positions ∧
      ∃ energy aux, ∃ forward : Fin D → Params (S + 1) (m₀ + 1) d → Except String XR,
        valueAndForwardDevicesA (fun Q => localEnergyA (model Q) (A2 ions) (A1 charges) eiSoft eeSoft) model (D * w)
          clipping nanSafe (Q t₀) positions = .ok (energy, aux, List.ofFn forward) ∧
        energy = .fin ((∑ i, ∑ t, E' i t) / (D * w : ℕ)) ∧
        aux.energyNoclip = .fin ((∑ i, ∑ t, E i t) / (D * w : ℕ)) ∧
        ∀ r' : Fin D → Fin w → ℝ, (∀ i t, HasDerivAt (fun p => ψ p (splitPositions (x i t))) (r' i t) t₀) →
          ∃ g : Fin D → ℝ, (∀ i, HasDerivAt (fun p => numberOf (forward i (Q p))) (g i) t₀) ∧
            (∑ i, g i) / D = 2 * (D * w : ℕ) / (((D * w : ℕ) : ℝ) - 1) *
              ((∑ i, ∑ t, (E' i t - (∑ j, ∑ u, E' j u) / (D * w : ℕ)) * (r' i t / ψ t₀ (splitPositions (x i t)))) /
                (D * w : ℕ)) := by
  intro model
  let y : Fin (D * w) → Pos (∑ s, n s) d := fun t => Spec.positionsOf X [t.val]
  have hy : X = A3 y := eq_A3' hX
  have hxy : ∀ i, (fun t : Fin w => y (Spec.onDevice i t)) = x i := fun i => funext fun t => (hx i t).symm
  refine ⟨List.ofFn fun i : Fin D => A3 (x i), ?_, ?_⟩
  · rw [hy, distribute_positions hD]
    simp only [hxy]
  have hpos : ∀ (i : Fin D) (t : ℕ) (ht : t < w), (Spec.positionsOf (A3 (x i)) [t] : Pos (∑ s, n s) d) = x i ⟨t, ht⟩ := by
    intro i t ht
    funext e k
    exact A3_get (x i) ht e.2 k.2
  have hen : ∀ i, ∃ Y, vmapA (localEnergyA (model (Q t₀)) (A2 ions) (A1 charges) eiSoft eeSoft) (A3 (x i)) = .ok Y ∧
      entriesA Y = List.ofFn fun t => .fin (E i t) := by
    intro i
    obtain ⟨Y, h1, h2, h3⟩ := local_energies_finite c ions charges dtype m hm hu hdet hn hc (Q t₀) (nonzero t₀) (ψ t₀)
      (hψ t₀) eiSoft eeSoft hR hw (X := A3 (x i)) rfl (fun t ht => by rw [hpos i t ht]; exact h0 i _)
      (fun t ht => by rw [hpos i t ht]; exact hs i _)
    exact ⟨Y, h1, entries_of h2 fun t => by rw [h3, hE, hpos i t t.2]⟩
  choose Y hY1 hY2 using hen
  have hclip : ∃ aux : Aux, aux.energyNoclip = .fin ((∑ i, ∑ t, E i t) / (D * w : ℕ)) ∧
      getClipped (List.ofFn fun i => List.ofFn fun t => XR.fin (E i t)) (D * w) clipping nanSafe =
      (.fin ((∑ i, ∑ t, E' i t) / (D * w : ℕ)), (List.ofFn fun i => List.ofFn fun t => XR.fin (E' i t)), aux) := by
    have h1 : (getClipped (List.ofFn fun i => List.ofFn fun t => XR.fin (E i t)) (D * w) clipping nanSafe).2.1 =
        List.ofFn fun i => List.ofFn fun t => XR.fin (E' i t) := by
      unfold getClipped
      cases hcl : clipping with
      | none => simp only [hnone hcl]
      | some f =>
        simp only [device_statistics hD hw h2, List.map_ofFn]
        congr 1
        funext i
        exact hsome f hcl i
    have h3 : (getClipped (List.ofFn fun i => List.ofFn fun t => XR.fin (E i t)) (D * w) clipping nanSafe).1 =
        (getStatistics (getClipped (List.ofFn fun i => List.ofFn fun t => XR.fin (E i t)) (D * w) clipping
          nanSafe).2.1 (D * w) nanSafe).1 := rfl
    refine ⟨(getClipped (List.ofFn fun i => List.ofFn fun t => XR.fin (E i t)) (D * w) clipping nanSafe).2.2, ?_, ?_⟩
    · show (getStatistics _ (D * w) false).1 = _
      rw [device_statistics hD hw h2]
    · rw [h1, device_statistics hD hw h2] at h3
      exact Prod.ext h3 (Prod.ext h1 rfl)
  obtain ⟨aux, haux, hclip⟩ := hclip
  refine ⟨_, aux, fun i Q' => forwardA model (D * w) nanSafe Q' (A3 (x i))
    (A1 fun t => .fin (E' i t - (∑ j, ∑ u, E' j u) / (D * w : ℕ))), ?_, rfl, haux, ?_⟩
  · unfold valueAndForwardDevicesA
    beta_reduce
    rw [mapM_devices (y := Y) fun i => hY1 i, ok_bind, List.map_ofFn]
    have hYE : (List.ofFn (entriesA ∘ Y)) = List.ofFn fun i => List.ofFn fun t => XR.fin (E i t) := by
      congr 1
      funext i
      exact hY2 i
    simp only [hYE, hclip]
    rw [zip_devices, List.map_ofFn]
    refine congrArg Except.ok (congrArg (Prod.mk _) (congrArg (Prod.mk _) (congrArg List.ofFn ?_)))
    funext i Q'
    simp only [Function.comp]
    congr 1
    refine eq_A1 ?_ fun t => ?_
    · unfold centeredA
      simp
    · unfold centeredA
      rw [A1_get _ (by simp)]
      simp
  · intro r' hr
    refine ⟨_, fun i => forward_device_derivative c ions charges dtype m hm hu hdet hn hc Q hw h2 (x i)
      (fun p t => nonzero p (splitPositions (x i t))) (fun p t => ψ p (splitPositions (x i t)))
      (fun p t => hψ p _) t₀ (h0 i) (r' i) (hr i) nanSafe fun t => E' i t - (∑ j, ∑ u, E' j u) / (D * w : ℕ), ?_⟩
    rw [← Finset.mul_sum, ← Finset.sum_div, mul_div_assoc, div_div]
    congr 2
    push_cast
    ring

end configured

/-- The default model of helium on two devices with `w` walkers each. -/
theorem helium_on_devices (P : Params 2 1 3) : ∃ m : Model 1, getModelFromConfig {} (counts fun _ : Fin 2 => 1)
    (fun (_ : Fin 1) (_ : Fin 3) => (0 : ℝ)) (fun _ => 2) 32 = .ok m ∧
    ∃ (nz : ℝ → Stream1 (fun _ : Fin 2 => 1) 3 → Prop) (ψ : ℝ → Stream1 (fun _ : Fin 2 => 1) 3 → ℝ), ∀ t q,
      Spec.ModelValue {} (scaledHelium P t) (fun (_ : Fin 1) _ => 0) (fun _ => 2) q (nz t q) (ψ t q) := by
  let n : Fin 2 → ℕ := fun _ => 1
  obtain ⟨m, hm⟩ := (model_config_accepted_iff {} (counts n)
    (fun (_ : Fin 1) (_ : Fin 3) => (0 : ℝ)) (fun _ => 2) 32).mpr
    (by rw [counts_length]; exact default_acceptable "ferminet" (by simp))
  refine ⟨m, hm, ?_⟩
  have hc : Spec.Callable ({} : ModelCfg) 2 := by
    left
    refine ⟨rfl, .inr (by simp), ?_⟩
    simp [Spec.PairsWithoutTwo]
  have hex : ∀ (t : ℝ) (q : Stream1 n 3), ∃ (nz : Prop) (r : ℝ),
      Spec.ModelValue {} (scaledHelium P t) (fun (_ : Fin 1) _ => 0) (fun _ => 2) q nz r := by
    intro t q
    obtain ⟨v, hv⟩ := (configured_model_callable_iff {} (fun (_ : Fin 1) (_ : Fin 3) => (0 : ℝ)) (fun _ => 2) 32 m hm
      ⟨rfl, fun _ => rfl⟩ (fun _ => Nat.one_pos) (scaledHelium P t) q).mpr hc
    obtain ⟨nz, r, h, -⟩ := configured_model_value {} _ _ _ m hm (scaledHelium P t) q v hv
    exact ⟨nz, r, h⟩
  choose nz ψ hψ using hex
  exact ⟨nz, ψ, hψ⟩

theorem helium_callable : Spec.Callable ({} : ModelCfg) 2 := by
  left
  refine ⟨rfl, .inr (by simp), ?_⟩
  simp [Spec.PairsWithoutTwo]

/-- Evaluating helium on two devices: the walkers `w, ..., 2 w - 1` are on the second device, and the reported energy
is a mean over the walkers of both. -/
example (P : Params 2 1 3) (hw : 0 < w) (x : Fin (2 * w) → Pos 2 3)
    (uniform normal : ℕ → List ℕ → Arr ℝ) (hun : ∀ k s, (uniform k s).shape = s)
    (hnorm : ∀ k s, (normal k s).shape = s) (nsteps : ℕ) :
    ∃ m : Model 1, getModelFromConfig {} (counts fun _ : Fin 2 => 1)
        (fun (_ : Fin 1) (_ : Fin 3) => (0 : ℝ)) (fun _ => 2) 32 = .ok m ∧
      let model := fun Q X => logPsiA (m.onBatch (fun _ : Fin 2 => 1) Q fun _ _ => 0) X
      let step := paStepA (K := ℕ) (M := Unit) (fun k => (2 * k, 2 * k + 1)) uniform normal (fun _ => .fin 0) model
        (fun _ => 1 / 4) none true
      let energy := fun Q => localEnergyA (model Q) (A2 fun (_ : Fin 1) (_ : Fin 3) => (0 : ℝ))
        (A1 fun (_ : Fin 1) => (2 : ℝ)) 0 0
      ∃ (A : Arr XR) (parts walked : Fin 2 → PADataA Unit) (stats : XR × XR), model (scaledHelium P 2) (A3 x) = .ok A ∧
        distributeDataA 2 ⟨A3 x, A, ()⟩ = .ok [parts 0, parts 1] ∧
        (∀ t : Fin w, (Spec.positionsOf (parts 1).position [t.val] : Pos 2 3) = x ⟨w + t.val, by omega⟩) ∧
        evalEpochDevicesA step nsteps energy (2 * w) false (scaledHelium P 2) [parts 0, parts 1] [7, 8] =
          .ok (scaledHelium P 2, [walked 0, walked 1], stats) ∧
        ((∀ i, ∀ t < w, Distinct (Spec.positionsOf (walked i).position [t] : Pos 2 3)) →
          (∀ i, ∀ t < w, Apart (Spec.positionsOf (walked i).position [t] : Pos 2 3) fun (_ : Fin 1) _ => 0) →
          let E : Fin 2 → Fin w → ℝ := fun i t => localEnergyOf
            (fun q : Stream1 (fun _ : Fin 2 => 1) 3 => 2 * 3 * Real.exp (-∑ e, Real.sqrt (∑ b, q e b ^ 2)))
            (fun (_ : Fin 1) _ => 0) (fun _ => 2) 0 0 (Spec.positionsOf (walked i).position [t.val])
          stats.1 = .fin ((∑ t, E 0 t + ∑ t, E 1 t) / (2 * w : ℕ))) := by
  obtain ⟨m, hm, nz, ψ, hψ⟩ := helium_on_devices P
  have hA := configured_walkers {} (fun (_ : Fin 1) (_ : Fin 3) => (0 : ℝ)) (fun _ => 2) 32 m hm ⟨rfl, fun _ => rfl⟩
    (by simp) (fun _ => Nat.one_pos) helium_callable (scaledHelium P 2) (W := 2 * w) (by omega) x
  obtain ⟨parts, walked, stats, h3, h4, h5, h6⟩ := evaluation_epoch_on_devices (D := 2) (w := w) (M := Unit) {}
    (fun (_ : Fin 1) (_ : Fin 3) => (0 : ℝ)) (fun _ => 2) 32 m hm ⟨rfl, fun _ => rfl⟩ (by simp) (fun _ => Nat.one_pos)
    helium_callable (scaledHelium P 2) (nz 2) (ψ 2) (hψ 2) 0 0 (fun i j hij => absurd (Fin.ext (by omega)) hij)
    (by norm_num) hw (by omega) (fun k : ℕ => (2 * k, 2 * k + 1)) uniform normal (fun _ => .fin 0) (fun _ => 1 / 4) true
    hun hnorm nsteps false ⟨A3 x, _, ()⟩ rfl hA ![7, 8]
  refine ⟨m, hm, _, parts, walked, stats, hA, h3, fun t => ?_, h4, fun hx hx' => ?_⟩
  · refine ((h5 1).2.2.2 t).trans ?_
    funext e k
    exact (A3_get x (i := (1 : Fin 2).val * w + t.val) (by simp; omega) e.2 k.2).trans (by simp; rfl)
  · have := h6 (fun i t _ => by
        rw [scaled_helium_value (hψ 2 _)]
        positivity)
      (fun i t ht => ⟨⟨fun e e' he => hx i t ht _ _ (finSigmaFinEquiv.injective.ne he), fun e j => hx' i t ht _ j⟩,
        fun h => by simp at h, fun _ _ _ _ _ => .inr (.inl rfl), fun h => by simp at h, fun h => by simp at h⟩)
      _ (fun _ _ => rfl)
    have hq : ψ 2 = fun q => 2 * 3 * Real.exp (-∑ e, Real.sqrt (∑ b, q e b ^ 2)) :=
      funext fun q => scaled_helium_value (hψ 2 q)
    rw [this, hq]
    simp only [Fin.sum_univ_two]

/-- Training its scale on two devices: each device may see a slope, but their mean vanishes. -/
example (P : Params 2 1 3) (hw : 0 < w) (X : Arr ℝ) (hX : X.shape = [3, 2, 2 * w])
    (hx : ∀ t < 2 * w, Distinct (Spec.positionsOf X [t] : Pos 2 3))
    (hx' : ∀ t < 2 * w, Apart (Spec.positionsOf X [t] : Pos 2 3) fun (_ : Fin 1) _ => 0) :
    ∃ m : Model 1, getModelFromConfig {} (counts fun _ : Fin 2 => 1)
        (fun (_ : Fin 1) (_ : Fin 3) => (0 : ℝ)) (fun _ => 2) 32 = .ok m ∧
      let model := fun Q X => logPsiA (m.onBatch (fun _ : Fin 2 => 1) Q fun _ _ => 0) X
      ∃ positions energy aux, ∃ forward : Fin 2 → Params 2 1 3 → Except String XR,
        distributeA 2 X = .ok positions ∧ valueAndForwardDevicesA (fun Q => localEnergyA (model Q)
          (A2 fun (_ : Fin 1) (_ : Fin 3) => (0 : ℝ)) (A1 fun (_ : Fin 1) => (2 : ℝ)) 0 0)
          model (2 * w) none false (scaledHelium P 2) positions = .ok (energy, aux, [forward 0, forward 1]) ∧
        ∃ g : Fin 2 → ℝ, (∀ i, HasDerivAt (fun t => numberOf (forward i (scaledHelium P t))) (g i) 2) ∧
          (g 0 + g 1) / 2 = 0 := by
  obtain ⟨m, hm, nz, ψ, hψ⟩ := helium_on_devices P
  let n : Fin 2 → ℕ := fun _ => 1
  let x : Fin 2 → Fin w → Pos 2 3 := fun i t => Spec.positionsOf X [i.val * w + t.val]
  have hlt : ∀ (i : Fin 2) (t : Fin w), i.val * w + t.val < 2 * w := fun i t => (Spec.onDevice i t).2
  have h0 : ∀ i t, ψ 2 (splitPositions (n := n) (x i t)) ≠ 0 := fun i t => by
    rw [scaled_helium_value (hψ 2 _)]
    positivity
  obtain ⟨positions, h1, energy, aux, forward, h2, -, -, h3⟩ := training_on_devices (D := 2) (w := w) {}
    (fun (_ : Fin 1) (_ : Fin 3) => (0 : ℝ)) (fun _ => 2) 32 m hm ⟨rfl, fun _ => rfl⟩ (by simp) (fun _ => Nat.one_pos)
    helium_callable (scaledHelium P) nz ψ hψ 0 0 (fun i j hij => absurd (Fin.ext (by omega)) hij) (by norm_num) hw
    (by omega) (X := X) hX x (fun _ _ => rfl) 2 h0
    (fun i t => ⟨⟨fun e e' he => hx _ (hlt i t) _ _ (finSigmaFinEquiv.injective.ne he), fun e j => hx' _ (hlt i t) _ j⟩,
      fun h => by simp at h, fun _ _ _ _ _ => .inr (.inl rfl), fun h => by simp at h, fun h => by simp at h⟩)
    _ (fun _ _ => rfl) none _ (fun _ => rfl) (fun f h => by cases h) false
  obtain ⟨g, h4, h5⟩ := h3
    (fun i t => 3 * Real.exp (-∑ e, Real.sqrt (∑ b, splitPositions (n := n) (x i t) e b ^ 2))) fun i t => by
      have : (fun p => ψ p (splitPositions (n := n) (x i t))) = fun p =>
          p * (3 * Real.exp (-∑ e, Real.sqrt (∑ b, splitPositions (n := n) (x i t) e b ^ 2))) := by
        funext p
        rw [scaled_helium_value (hψ p _), mul_assoc]
      rw [this]
      simpa using (hasDerivAt_id (2 : ℝ)).mul_const
        (3 * Real.exp (-∑ e, Real.sqrt (∑ b, splitPositions (n := n) (x i t) e b ^ 2)))
  refine ⟨m, hm, positions, energy, aux, forward, h1, h2, g, h4, ?_⟩
  have h6 : ∀ i t, 3 * Real.exp (-∑ e, Real.sqrt (∑ b, splitPositions (n := n) (x i t) e b ^ 2)) /
      ψ 2 (splitPositions (n := n) (x i t)) = 1 / 2 := by
    intro i t
    rw [scaled_helium_value (hψ 2 _)]
    field_simp
    rfl
  rw [Fin.sum_univ_two] at h5
  refine (show (g 0 + g 1) / 2 = (g 0 + g 1) / (2 : ℕ) by norm_num).trans (h5.trans ?_)
  simp only [h6]
  have hw' : (w : ℝ) ≠ 0 := by positivity
  simp only [← Finset.sum_mul, Finset.sum_sub_distrib, Fin.sum_univ_two]
  simp only [Finset.sum_const, Finset.card_univ, Fintype.card_fin, nsmul_eq_mul]
  push_cast
  field_simp
  ring_nf

/-- Five walkers cannot be distributed to two devices. -/
example (x : Fin 5 → Pos 2 3) :
    distributeA 2 (A3 x) = .error "Number of chains must be divisible by number of devices" :=
  distribute_refuses (s := [3, 2]) (W := 5) rfl (by decide)

end Verif.Props
