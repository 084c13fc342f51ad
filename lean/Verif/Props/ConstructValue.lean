import Verif.Spec.ConstructValue
import Verif.Props.Translation

/-! Configured models compute the functions which their configurations stand for (C83). -/

namespace Verif.Props
open Verif.Construct Verif.Net Verif.Slog Verif.Spec

variable {K nion d : ℕ} {n : Fin (K + 1) → ℕ}

/-! ### Layers -/

theorem activation_value {name : String} {a : Activation} (h : ActivationMeans name a) (z : ℝ) :
    a.fn z = activationValue name z := by
  cases h with
  | tanh => rfl
  | gelu =>
    rw [activationValue, if_neg (by decide)]
    simp only [Activation.fn]
    ring

theorem skip_value {m m' : ℕ} (wanted : Bool) (scale : ℝ) (x : Fin m → ℝ) (y : Fin m' → ℝ) :
    skipConnect wanted scale x y = skipped wanted scale x y := by
  funext j
  unfold skipConnect skipped
  by_cases h : m' = m
  · cases wanted <;> simp [h]
  · simp [h]

theorem affine_value {m m' : ℕ} (useBias : Bool) (P : DenseParams m m') (x : Fin m → ℝ) :
    dense useBias P.kernel P.bias x = affine useBias P x := by
  funext j
  simp only [dense, affine, mul_comm]

theorem skipSum_value {m m' : ℕ} (x : Fin m → ℝ) (y : Fin m' → ℝ) :
    skipSum x y = skipped true 1 x y := by
  funext j
  unfold skipSum skipped
  by_cases h : m' = m <;> simp [h]

/-- `k` more layers of the same width, the first of which has number `i`. -/
noncomputable def moreLayers (name : String) (useBias : Bool) (P : ResNetParams) (m : ℕ) :
    ℕ → ℕ → (Fin m → ℝ) → Fin m → ℝ
  | _, 0, x => x
  | i, k + 1, x => moreLayers name useBias P m (i + 1) k fun j =>
      activationValue name (affine useBias (P.inner i m m) x j) + x j

theorem moreLayers_succ (name : String) (useBias : Bool) (P : ResNetParams) (m i k : ℕ)
    (x : Fin m → ℝ) : moreLayers name useBias P m i (k + 1) x = fun j =>
      activationValue name (affine useBias (P.inner (i + k) m m)
        (moreLayers name useBias P m i k x) j) + moreLayers name useBias P m i k x j := by
  induction k generalizing i x with
  | zero => rfl
  | succ k ih =>
    rw [moreLayers, ih, show i + (k + 1) = i + 1 + k by omega]
    rfl

theorem hidden_moreLayers (name : String) (useBias : Bool) (P : ResNetParams) (m k : ℕ) {m₀ : ℕ}
    (x : Fin m₀ → ℝ) : moreLayers name useBias P m 1 k (hiddenLayer name useBias P m x 0) =
      hiddenLayer name useBias P m x k := by
  induction k with
  | zero => rfl
  | succ k ih => rw [moreLayers_succ, ih, Nat.add_comm 1 k]; rfl

theorem inner_run_same {name : String} {a : Activation} (h : ActivationMeans name a)
    (useBias : Bool) (P : ResNetParams) (m k i : ℕ) (x : Fin m → ℝ) {α : Type*}
    (F : ∀ e, (Fin e → ℝ) → α) :
    F _ ((innerLayers P m i k m).run useBias (fun _ y j => a.fn (y j)) x) =
      F m (moreLayers name useBias P m i k x) := by
  induction k generalizing i x with
  | zero => rfl
  | succ k ih =>
    refine (ih (i + 1) _).trans ?_
    rw [skipSum_value, affine_value, moreLayers]
    congr 2
    funext j
    simp only [skipped, activation_value h]
    simp

theorem resnet_value {name : String} {a : Activation} (h : ActivationMeans name a)
    (kernel bias : Initializer) (useBias : Bool) (m layers : ℕ) (P : ResNetParams) (out : ℕ) {m₀ : ℕ}
    (x : Fin m₀ → ℝ) : ResNetDesc.apply ⟨m, layers, a, kernel, bias, useBias⟩ P out x =
      resnetValue name useBias m layers P out x := by
  have final : ∀ e (y : Fin e → ℝ), dense false (P.final e out).kernel (P.final e out).bias y =
      fun j => ∑ k, (P.final e out).kernel k j * y k := by
    intro e y
    funext j
    simp [dense, mul_comm]
  unfold ResNetDesc.apply simpleResNet
  rw [final]
  funext j
  unfold resnetValue
  split
  · next hl =>
    obtain rfl | rfl : layers = 0 ∨ layers = 1 := by omega
    · rfl
    · rfl
  · next hl =>
    obtain ⟨k, rfl⟩ : ∃ k, layers = k + 2 := ⟨layers - 2, by omega⟩
    have := inner_run_same h useBias P m k 1
      (skipSum x (fun j => a.fn (dense useBias (P.inner 0 m₀ m).kernel (P.inner 0 m₀ m).bias x j)))
      fun e y => ∑ k, (P.final e out).kernel k j * y k
    refine this.trans ?_
    rw [skipSum_value, affine_value]
    simp only [activation_value h]
    exact congrArg (fun y => ∑ k, (P.final m out).kernel k j * y k)
      (hidden_moreLayers name useBias P m k x)

theorem attention_value {m H m' N : ℕ} (A : Attention m H m') (x : Fin N → Fin m → ℝ)
    (i : Fin N) (c : Fin m') : A.apply x i c = attentionValue A x i c := by
  unfold Attention.apply attentionValue
  rw [add_comm]
  congr 1
  refine Finset.sum_congr rfl fun h _ => Finset.sum_congr rfl fun a _ => ?_
  rw [mul_comm]
  congr 1
  rw [Finset.sum_div]
  refine Finset.sum_congr rfl fun j _ => ?_
  rw [div_mul_eq_mul_div]
  simp only [Finset.sum_div, div_mul_eq_mul_div]

theorem rolled_add (s p : Fin (K + 1)) : rolled s p = s + p := rfl

theorem concat_means_value {m m' : ℕ} (c : BackflowCfg) (s : Fin (K + 1))
    (kernel : Fin (K + 1) × Fin m → Fin m' → ℝ) (x : Elec n → Fin m → ℝ) (j : Fin m') :
    dense false kernel 0 (concatMeans c.cyclicSpins s (splitMean x)) j =
      ∑ p, ∑ k, speciesMean x (seenAt c s p) k * kernel (p, k) j := by
  unfold dense
  rw [Fintype.sum_prod_type]
  simp only [Bool.false_eq_true, if_false, add_zero]
  rfl

theorem one_value {m₁ m₂ : ℕ} {c : BackflowCfg} {split : List ℤ} {dtype width : ℕ} {o : OneDesc}
    (h : OneMeans c split dtype width o) (P : OneParams (K + 1) m₁ m₂ o.ndense o.numHeads)
    (x : Stream1 n m₁) (y : Option (Stream2 n m₂)) :
    (o.layer P).apply x y = oneValue c P x y := by
  obtain ⟨-, -, -, -, -, -, -, -, ha, hb, hs, hss, hc, ht, -⟩ := h
  funext e
  unfold OneElectronLayer.apply oneValue
  rw [skip_value]
  simp only [OneDesc.layer, hs, hss, activation_value ha]
  congr 1
  funext j
  congr 1
  have hm : mixed (o.layer P) x e j = if c.useTransformer = true then
      attentionValue P.attention (fun i => x ⟨e.1, i⟩) e.2 j
      else ∑ p, ∑ k, speciesMean x (seenAt c e.1 p) k * P.mixedKernel (p, k) j := by
    simp only [mixed, OneDesc.layer, ht, hc]
    split
    · exact attention_value ..
    · exact concat_means_value ..
  have hd : dense c.useBias P.unmixedKernel P.bias (x e) j =
      (∑ k, x e k * P.unmixedKernel k j) + if c.useBias = true then P.bias j else 0 := rfl
  cases y with
  | none =>
    simp only [hb, add_zero]
    rw [← hd, ← hm]
    rfl
  | some y =>
    have ht : transformed2e (o.layer P) y e j =
        ∑ p, ∑ k, speciesMean (y e) (seenAt c e.1 p) k * P.kernel2e (p, k) j := by
      simp only [transformed2e, OneDesc.layer, hc]
      exact concat_means_value ..
    simp only [hb]
    rw [← hd, ← hm, ← ht]
    rfl

theorem two_value {m₂ : ℕ} {c : BackflowCfg} {dtype width : ℕ} {t : TwoDesc}
    (h : TwoMeans c dtype width t) (P : DenseParams m₂ t.ndense) (y : Stream2 n m₂) :
    (t.layer P).apply y = twoValue c P y := by
  obtain ⟨-, -, -, ha, hb, hs, hss⟩ := h
  funext e e'
  unfold TwoElectronLayer.apply twoValue
  rw [skip_value]
  simp only [TwoDesc.layer, hs, hss, hb, activation_value ha, affine_value]

theorem one_value_heads {m₁ m₂ m H H' : ℕ} (h : H = H') (c : BackflowCfg)
    (P : ∀ H, OneParams (K + 1) m₁ m₂ m H) (x : Stream1 n m₁) (y : Option (Stream2 n m₂)) :
    oneValue c (P H) x y = oneValue c (P H') x y := by
  subst h
  rfl

theorem backflow_value_aux {c : BackflowCfg} {split : List ℤ} {dtype : ℕ}
    (P : BackflowParams (K + 1)) (bs : List BlockDesc) (ws : List (List ℕ))
    (hl : bs.length = ws.length)
    (hb : ∀ (i : ℕ) t b, ws[i]? = some t → bs[i]? = some b → BlockMeans c split dtype t b)
    (i : ℕ) (w : ℕ × ℕ) (xs : Streams n w) :
    BackflowValue c P i ws xs.1 xs.2 ((blocks P i bs w).backflow xs) := by
  induction bs generalizing ws i w with
  | nil =>
    cases ws with
    | nil => exact .done ..
    | cons => simp at hl
  | cons b bs ih =>
    cases ws with
    | nil => simp at hl
    | cons t ws =>
      have hrest := fun w' xs' => ih ws (by simpa using hl) (fun k t b h h' => hb (k + 1) t b
        (by simpa using h) (by simpa using h')) (i + 1) w' xs'
      obtain ⟨⟨u, hu, ho⟩, htwo⟩ := hb 0 t b rfl rfl
      obtain ⟨o, two⟩ := b
      simp only at ho htwo
      match t, hu, htwo with
      | [u'], hu, htwo =>
        obtain rfl : u' = u := by simpa using hu
        obtain rfl : two = none := by simpa using htwo
        obtain rfl := ho.width
        refine .one _ _ _ ?_
        have h := hrest (BlockDesc.out ⟨o, none⟩ w)
          ((BlockDesc.block P i ⟨o, none⟩ w).apply xs)
        rw [← one_value_heads ho.heads c (P.one i w.1 w.2 _) xs.1 xs.2, ← one_value ho]
        exact h
      | u' :: v :: rest, hu, htwo =>
        obtain rfl : u' = u := by simpa using hu
        obtain ⟨l, rfl, hm⟩ : ∃ l, two = some l ∧ TwoMeans c dtype v l := by simpa using htwo
        obtain rfl := ho.width
        obtain rfl := hm.width
        refine .two _ _ _ ?_
        have h := hrest (BlockDesc.out ⟨o, some l⟩ w)
          ((BlockDesc.block P i ⟨o, some l⟩ w).apply xs)
        rw [← one_value_heads ho.heads c (P.one i w.1 w.2 _) xs.1 xs.2, ← one_value ho,
          show twoValue (n := n) c (P.two i w.2 l.ndense) = (l.layer (P.two i w.2 _)).apply from
            funext fun y => (two_value hm _ y).symm]
        exact h

/-- Backflows compute the layers of their configuration, one after the other. -/
theorem backflow_value {c : BackflowCfg} {split : List ℤ} {dtype : ℕ} {bs : List BlockDesc}
    (h : BackflowMeans c split dtype bs) (P : BackflowParams (K + 1)) (w : ℕ × ℕ)
    (xs : Streams n w) :
    BackflowValue c P 0 c.ndenseList xs.1 xs.2 ((blocks P 0 bs w).backflow xs) :=
  backflow_value_aux P bs _ h.1 h.2 0 w xs

/-! ### Inputs -/

theorem softened_norm_zero (v : Fin d → ℝ) : softened (norm2 v) 0 = Real.sqrt (∑ k, v k ^ 2) :=
  softened_zero _ (Real.sqrt_nonneg _)

theorem one_input (ions : Fin nion → Fin d → ℝ) (pos : Stream1 n d) :
    OneInput ions pos (eiInput 0 (displacements pos ions)) := by
  have key : ∀ (a : Fin (nion * (d + 1))) (j : Fin nion) (k : Fin (d + 1)),
      a.val = j * (d + 1) + k → finProdFinEquiv.symm a = (j, k) := by
    intro a j k h
    rw [Equiv.symm_apply_eq]
    refine Fin.ext ?_
    rw [h, finProdFinEquiv_apply_val]
    ring
  constructor
  · intro e j k a h
    have := key a j k.castSucc h
    simp only [eiInput, this, Fin.snoc_castSucc, displacements]
  · intro e j a h
    have := key a j (Fin.last d) h
    simp only [eiInput, this, Fin.snoc_last, softened_norm_zero]
    rfl

theorem ee_norm_value (pos : Stream1 n d) (e e' : Elec n) :
    eeNormSafeDiag 0 (displacements pos pos) e e' = distance (pos e) (pos e') := by
  unfold eeNormSafeDiag
  by_cases h : e = e'
  · subst h
    simp [distance]
  · simp only [h, if_false, add_zero, sub_zero, mul_one, softened_norm_zero]
    rfl

theorem two_input (c : StreamsCfg) (pos : Stream1 n d) : TwoInput c pos
    (if c.include2eStream = true then some (computeElectronElectron pos c.includeEeNorm 0).1
      else none) := by
  constructor
  · intro h; simp [h]
  · intro h
    rw [if_pos h]
    refine ⟨_, rfl, ?_⟩
    obtain ⟨_, _, _, ie, _⟩ := c
    cases ie with
    | true =>
      constructor
      · intro e e' k a h
        obtain rfl : a = k.castSucc := Fin.ext h
        simp only [computeElectronElectron, eeInputWithNorm]
        exact Fin.snoc_castSucc ..
      · intro e e' a h
        obtain rfl : a = Fin.last d := Fin.ext h
        simp only [computeElectronElectron, eeInputWithNorm]
        exact (Fin.snoc_last ..).trans (ee_norm_value ..)
    | false =>
      constructor
      · intro e e' k a h
        obtain rfl : a = k := Fin.ext h
        rfl
      · intro e e' a h
        exact absurd h (Nat.ne_of_lt a.2)

theorem features_value {s : StreamsCfg} {sd : StreamsDesc} {c : BackflowCfg} {split : List ℤ}
    {dtype : ℕ} {bs : List BlockDesc} (hs : StreamsMeans s sd) (h : BackflowMeans c split dtype bs)
    (P : BackflowParams (K + 1)) (ions : Fin nion → Fin d → ℝ) (pos : Stream1 n d) :
    Features s c P ions pos ((blocks P 0 bs (inWidths nion d sd.includeEeNorm)).backflow
      (ionStreams ions sd.include2e sd.eiSoftening sd.includeEeNorm sd.eeSoftening pos).1) := by
  obtain ⟨i2, iei, es, iee, ees⟩ := sd
  obtain ⟨h2, hei, hee, hs, hs'⟩ := hs
  simp only at h2 hei hee hs hs'
  subst h2 hee hs hs'
  exact ⟨_, _, one_input ions pos, two_input s pos, backflow_value h P _
    (ionStreams ions s.include2eStream 0 s.includeEeNorm 0 pos).1⟩

/-! ### Orbitals and determinants -/

theorem blockEntry_eq {N m : ℕ} (i : Fin N) (o : Fin m) : finProdFinEquiv (i, o) = blockEntry i o :=
  Fin.ext (by rw [finProdFinEquiv_apply_val]; simp only [blockEntry]; ring)

theorem envelope_value {m : ℕ} {norb : Fin (K + 1) → ℕ} (L : OrbitalLayer (K + 1) m nion d norb)
    (ions : Fin nion → Fin d → ℝ) (pos : Stream1 n d) (s : Fin (K + 1)) (e : Elec n)
    (o : Fin (norb s)) : envelope L s (displacements pos ions e) o =
      envelopeValue L.isotropicDecay L.envelopeSoftening (L.isoKernel s o)
        (fun j l k => L.anisoKernel s j l k o) (L.ionKernel s o) ions (pos e) := by
  unfold envelope envelopeValue
  refine Finset.sum_congr rfl fun j _ => ?_
  rw [mul_comm]
  congr 2
  unfold softened norm2
  rw [Real.sq_sqrt (Finset.sum_nonneg fun k _ => sq_nonneg _), neg_sub, add_comm (_ ^ 2)]
  congr 3
  refine Finset.sum_congr rfl fun k _ => ?_
  split <;> simp [isotropyOnLeaf, anisotropyOnLeaf, displacements, mul_comm, mul_pow]

theorem orbital_value {m : ℕ} {norb : Fin (K + 1) → ℕ} (L : OrbitalLayer (K + 1) m nion d norb)
    (ions : Fin nion → Fin d → ℝ) (pos : Stream1 n d) (z : Stream1 n m) (s : Fin (K + 1))
    (i : Fin (n s)) (o : Fin (norb s)) : L.apply z (some (displacements pos ions)) s i o =
      orbitalValue L.useBias L.isotropicDecay L.envelopeSoftening L ions pos z s i o := by
  unfold OrbitalLayer.apply orbitalValue
  simp only [envelope_value, dense, mul_comm]

theorem orbital_layer_value {m : ℕ} {norb : Fin (K + 1) → ℕ} {c : ModelCfg} {f : FermiDesc}
    {dtype : ℕ} (ho : OrbitalsMean c dtype f.orbitals) (hs : f.envelopeSoftening = c.envelopeSoftening)
    (L : OrbitalLayer (K + 1) m nion d norb)
    (ions : Fin nion → Fin d → ℝ) (pos : Stream1 n d) (z : Stream1 n m) (s : Fin (K + 1))
    (i : Fin (n s)) (o : Fin (norb s)) :
    (f.orbitalLayer L).apply z (some (displacements pos ions)) s i o =
      orbitalValue c.orbitalsUseBias c.isotropicDecay c.envelopeSoftening L ions pos z s i o := by
  rw [orbital_value]
  simp only [FermiDesc.orbitalLayer, ho.useBias, ho.isotropic, hs]
  rfl

theorem stacked_value {m : Fin (K + 1) → ℕ} (rows : ∀ s, Fin (m s) → Fin (∑ s, m s) → ℝ) :
    Stacked rows (concatRows rows) := by
  intro s i a h
  have : finSigmaFinEquiv.symm a = ⟨s, i⟩ := by
    rw [Equiv.symm_apply_eq]
    refine Fin.ext ?_
    rw [h, finSigmaFinEquiv_apply]
    rfl
  funext o
  simp only [concatRows, Matrix.of_apply]
  rw [this]

theorem stacked_of_eq {m : Fin (K + 1) → ℕ} {rows rows' : ∀ s, Fin (m s) → Fin (∑ s, m s) → ℝ}
    (h : ∀ s a o, rows s a o = rows' s a o) : Stacked rows' (concatRows rows) := by
  have : rows = rows' := funext fun s => funext fun a => funext fun o => h s a o
  rw [this]
  exact stacked_value rows'

theorem sign_sum {N : ℕ} (f : (Fin N → ℝ) → ℝ) :
    ∑ t : Fin (2 ^ N), f (fun i => SignSym.signArray1d i t) = sumOverSigns N f := by
  have hinj : Function.Injective fun (t : Fin (2 ^ N)) (i : Fin N) => t.val.testBit i := by
    intro t t' h
    refine Fin.ext (Nat.eq_of_testBit_eq fun i => ?_)
    by_cases hi : i < N
    · exact congrFun h ⟨i, hi⟩
    · have hp : 2 ^ N ≤ 2 ^ i := Nat.pow_le_pow_right (by norm_num) (by omega)
      rw [Nat.testBit_lt_two_pow (t.2.trans_le hp), Nat.testBit_lt_two_pow (t'.2.trans_le hp)]
  refine Fintype.sum_bijective _
    ((Fintype.bijective_iff_injective_and_card _).mpr ⟨hinj, by simp⟩) _ _ fun t => ?_
  simp only [signArray1d_eq]

theorem covariant_value {N : ℕ} {ι : Fin N → Type*} {o : Type*} (fn : (∀ i, ι i → ℝ) → o → ℝ)
    (x : ∀ i, ι i → ℝ) (c : o) : SignSym.arrayListSignCovariant fn x c =
      sumOverSigns N fun e => (∏ i, e i) * fn (fun i a => e i * x i a) c := by
  rw [← sign_sum]
  rfl

theorem invariant_value {N : ℕ} {ι : Fin N → Type*} {o : Type*} (fn : (∀ i, ι i → ℝ) → o → ℝ)
    (x : ∀ i, ι i → ℝ) (c : o) : SignSym.arrayListSignInvariant fn x c =
      sumOverSigns N fun e => fn (fun i a => e i * x i a) c := by
  rw [← sign_sum]
  rfl

theorem det_resnet_value {c : ModelCfg} {dtype : ℕ} {r : ResNetDesc}
    (h : DetResnetMeans c.detResnet dtype r) (P : ResNetParams) {N N' : ℕ} (out : ℕ)
    (D : Fin (N + 1) → Fin N' → ℝ) (e : Fin (N + 1) → ℝ) (j : Fin out) :
    r.apply P out (fun a : Fin ((N + 1) * N') =>
      e (finProdFinEquiv.symm a).1 * D (finProdFinEquiv.symm a).1 (finProdFinEquiv.symm a).2) j =
      detResnetValue c.detResnet P out D e j := by
  obtain ⟨w, l, a, k, b, u⟩ := r
  obtain ⟨hw, hl, ha, -, -, hu⟩ := h
  simp only at hw hl ha hu
  subst hw hl hu
  rw [resnet_value ha]
  rfl

theorem combine_value {c : ModelCfg} {mode : DetFnMode} {detFn : Option ResNetDesc} {dtype : ℕ}
    (hmode : mode = (if c.detResnet.mode.toUpper = "SIGN_COVARIANCE" then .signCovariance
      else if c.detResnet.mode.toUpper = "PARALLEL_EVEN" then .parallelEven else .pairwiseEven))
    (hname : ModeName c.detResnet.mode)
    (hres : if c.useDetResnet = true then
      ∃ r, detFn = some r ∧ DetResnetMeans c.detResnet dtype r else detFn = none)
    (P : ResNetParams) {N : ℕ} {m : Fin (N + 1) → ℕ}
    (M : Fin c.ndeterminants → ∀ s, Matrix (Fin (m s)) (Fin (m s)) ℝ) (v : SL)
    (hv : combine (detFnOf P mode detFn) M = .ok v) :
    ∃ r, Combined c P (fun s i => (M i s).det) r ∧
      ((c.useDetResnet = false → ∃ i, ∏ s, (M i s).det ≠ 0) → Represents v r) := by
  split at hres
  · next hu =>
    obtain ⟨r, rfl, hr⟩ := hres
    split at hmode
    · next h1 =>
      subst hmode
      cases hv
      refine ⟨_, .covariance _ hu h1, fun _ => ?_⟩
      rw [covariant_value]
      simp only [← det_resnet_value hr]
      exact slog_of_array _
    split at hmode
    · next h1 =>
      subst hmode
      cases hv
      refine ⟨_, .parallel _ hu h1, fun _ => ?_⟩
      simp only [invariant_value, ← det_resnet_value hr]
      exact slog_of_array _
    · next h1 h2 =>
      have h3 : c.detResnet.mode.toUpper = "PAIRWISE_EVEN" := by
        rcases hname with h | h | h
        · exact absurd h h1
        · exact absurd h h2
        · exact h
      subst hmode
      by_cases hN : N = 1
      · subst hN
        cases hv
        refine ⟨_, .pairwise _ hu h3, fun _ => ?_⟩
        rw [← Fintype.sum_prod_type'
          (f := fun i j => (M i 0).det * (M j 1).det * sumOverSigns 2 fun e =>
            detResnetValue c.detResnet P _ (fun s i => (M i s).det) e (blockEntry i j)),
          ← finProdFinEquiv.symm.sum_comp]
        simp only [invariant_value, ← blockEntry_eq, Prod.mk.eta, Equiv.apply_symm_apply,
          ← det_resnet_value hr]
        exact slog_of_array _
      · simp [combine, detFnOf, hN] at hv
  · next hu =>
    subst hres
    have hu : c.useDetResnet = false := by simpa using hu
    refine ⟨_, .plain _ hu, fun hne => ?_⟩
    obtain ⟨p, hp, hr⟩ := combine_none_represents M (hne hu)
    have : combine (detFnOf P mode none) M = combine none M := rfl
    rw [this, hp] at hv
    cases hv
    exact hr

/-! ### FermiNets -/

theorem fermi_value {c : ModelCfg} {f : FermiDesc} {dtype : ℕ} {nelec seen : List ℤ}
    (h : FermiMeans c nelec seen dtype f) (hname : ModeName c.detResnet.mode)
    (P : Params (K + 1) nion d) (ions : Fin nion → Fin d → ℝ) (pos : Stream1 n d) (v : SL)
    (hv : (if f.fullDet then
        fermiNetFull (ndet := f.ndeterminants) (ionStreams (n := n) ions f.streams.include2e
          f.streams.eiSoftening f.streams.includeEeNorm f.streams.eeSoftening)
          (blocks P.backflow 0 f.backflow (inWidths nion d f.streams.includeEeNorm))
          (f.orbitalLayer (P.orbitals _ _)) (detFnOf P.detFn f.mode f.detFn) pos
      else
        fermiNet (ndet := f.ndeterminants) (ionStreams (n := n) ions f.streams.include2e
          f.streams.eiSoftening f.streams.includeEeNorm f.streams.eeSoftening)
          (blocks P.backflow 0 f.backflow (inWidths nion d f.streams.includeEeNorm))
          (f.orbitalLayer (P.orbitals _ _)) (detFnOf P.detFn f.mode f.detFn) pos) = .ok v) :
    ∃ (N : ℕ) (D : Fin (N + 1) → Fin c.ndeterminants → ℝ) (r : ℝ), FermiDets c P ions pos D ∧
      Combined c P.detFn D r ∧
      ((c.useDetResnet = false → ∃ i, ∏ s, D s i ≠ 0) → Represents v r) := by
  obtain ⟨-, hst, hb, hd, ho, hs, hm, hf, hr⟩ := h
  obtain ⟨sp, st, bs, nd, orb, soft, df, mode, fd⟩ := f
  simp only at hst hb hd ho hs hm hf hr
  subst hd hf
  have hfeat := features_value hst hb P.backflow ions pos
  have horb : ∀ {m : ℕ} {norb : Fin (K + 1) → ℕ} (L : OrbitalLayer (K + 1) m nion d norb) z s i o,
      _ := fun {m norb} L z s i o => orbital_layer_value (n := n)
        (f := ⟨sp, st, bs, c.ndeterminants, orb, soft, df, mode, c.fullDet⟩) ho hs L ions pos z s i o
  simp only at hv
  split at hv
  · next hfd =>
    obtain ⟨r, hc, hrep⟩ := combine_value hm hname hr P.detFn _ v hv
    refine ⟨0, _, r, .full _ _ _ hfd hfeat (fun i => ?_) fun s i => rfl, hc, hrep⟩
    refine stacked_of_eq fun s a o => ?_
    rw [← blockEntry_eq, ← horb]
    rfl
  · next hfd =>
    have hfd : c.fullDet = false := by simpa using hfd
    obtain ⟨r, hc, hrep⟩ := combine_value hm hname hr P.detFn _ v hv
    refine ⟨K, _, r, .split _ _ hfd hfeat fun s i => ?_, hc, hrep⟩
    congr 2
    funext a o
    rw [← blockEntry_eq, ← horb]
    rfl

theorem ferminet_apply_value {c : ModelCfg} {f : FermiDesc} {dtype : ℕ} {nelec seen : List ℤ}
    (h : FermiMeans c nelec seen dtype f) (hname : ModeName c.detResnet.mode)
    (P : Params (K + 1) nion d) (ions : Fin nion → Fin d → ℝ) (pos : Stream1 n d) (v : SL)
    (hv : f.apply P ions pos = .ok v) :
    ∃ (N : ℕ) (D : Fin (N + 1) → Fin c.ndeterminants → ℝ) (r : ℝ), FermiDets c P ions pos D ∧
      Combined c P.detFn D r ∧
      ((c.useDetResnet = false → ∃ i, ∏ s, D s i ≠ 0) → Represents v r) := by
  refine fermi_value h hname P ions pos v ?_
  unfold FermiDesc.apply at hv
  simp only at hv
  split at hv
  · next hf => rw [if_pos hf]; exact hv
  · next hf =>
    rw [if_neg hf]
    simp only [bind_eq_ok] at hv
    exact hv.choose_spec.2

theorem invariance_value {c : InvarianceCfg} {dtype : ℕ} {i : InvarianceDesc}
    (h : InvarianceMeans c dtype i) {m : ℕ} {rows cols : Fin (K + 1) → ℕ}
    (I : InvariantDense (K + 1) m rows cols) (z : Stream1 n m) (s : Fin (K + 1)) (a : Fin (rows s))
    (b : Fin (cols s)) : (i.layers I).apply z s a b = invariantValue c.useBias I z s a b := by
  unfold InvariantDense.apply splitMeanDense dense invariantValue
  rw [blockEntry_eq]
  simp only [InvarianceDesc.layers, h.useBias, mul_comm]
  rfl

theorem embedded_apply_value {c : ModelCfg} {f : FermiDesc} {dtype : ℕ} {nelec seen : List ℤ}
    (h : FermiMeans c nelec seen dtype f) (hname : ModeName c.detResnet.mode) {st : StreamsDesc}
    {bs : List BlockDesc} {split : List ℤ} {i : InvarianceDesc}
    (hs : StreamsMeans c.invariance.inputStreams st)
    (hb : BackflowMeans c.invariance.backflow split dtype bs)
    (hi : InvarianceMeans c.invariance dtype i)
    (P : Params (K + 1) nion d) (ions : Fin nion → Fin d → ℝ) (pos : Stream1 n d) (v : SL)
    (hv : applyEmbedded f c.nhiddenFermionsPerSpin st bs i P ions pos = .ok v) :
    ∃ (N : ℕ) (q : Stream1 (fun s => n s + hiddenCount K c s) d)
      (D : Fin (N + 1) → Fin c.ndeterminants → ℝ) (r : ℝ), HiddenPositions c P ions pos q ∧
      FermiDets c P ions q D ∧ Combined c P.detFn D r ∧
      ((c.useDetResnet = false → ∃ i, ∏ s, D s i ≠ 0) → Represents v r) := by
  unfold applyEmbedded at hv
  simp only [bind_eq_ok] at hv
  obtain ⟨_, -, hv⟩ := hv
  split at hv
  · cases hv
  let z := (blocks P.invBackflow 0 bs (inWidths nion d st.includeEeNorm)).backflow
    (ionStreams (n := n) ions st.include2e st.eiSoftening st.includeEeNorm st.eeSoftening pos).1
  let q : Stream1 (fun s => n s + hiddenCount K c s) d :=
    embedParticles pos ((i.layers (P.invariance _ (hiddenCount K c) fun _ => d)).apply z)
  obtain ⟨N, D, r, h1, h2, h3⟩ := fermi_value h hname P ions q v hv
  refine ⟨N, q, D, r, ⟨_, z, features_value hs hb P.invBackflow ions pos, ?_, ?_⟩, h1, h2, h3⟩
  · intro s i a ha
    obtain rfl : a = Fin.castAdd _ i := Fin.ext ha
    exact Fin.append_left ..
  · intro s i a ha
    obtain rfl : a = Fin.natAdd _ i := Fin.ext ha
    refine (Fin.append_right ..).trans ?_
    funext k
    exact invariance_value hi ..

/-- The additional rows of an extended matrix, all determinants side by side. -/
noncomputable def extraRows {w w' v : ℕ × ℕ} {nh cols : Fin (K + 1) → ℕ} (inputs : Streams n w)
    (z : Stream1 n w'.1) (inv : (Blocks (K + 1) w v × InvariantDense (K + 1) v.1 nh cols) ⊕
      InvariantDense (K + 1) w'.1 nh cols) : ∀ s, Fin (nh s) → Fin (cols s) → ℝ :=
  inv.elim (fun p => p.2.apply (p.1.backflow inputs)) fun I => I.apply z

theorem extended_rows_value {c : ModelCfg} {f : FermiDesc} {dtype : ℕ}
    (ho : OrbitalsMean c dtype f.orbitals) (hs : f.envelopeSoftening = c.envelopeSoftening)
    {i : InvarianceDesc} (hi : InvarianceMeans c.invariance dtype i) (P : Params (K + 1) nion d)
    (ions : Fin nion → Fin d → ℝ) (pos : Stream1 n d) {w w' v : ℕ × ℕ} (inputs : Streams n w)
    (z : Stream1 n w'.1) {norb : Fin (K + 1) → ℕ}
    (inv : (Blocks (K + 1) w v × InvariantDense (K + 1) v.1 (hiddenCount K c)
        fun s => c.ndeterminants * norb s) ⊕
      InvariantDense (K + 1) w'.1 (hiddenCount K c) fun s => c.ndeterminants * norb s)
    {m' : ℕ} (y : Stream1 n m')
    (hy : extraRows inputs z inv = (i.layers (P.invariance m' (hiddenCount K c)
        fun s => c.ndeterminants * norb s)).apply y)
    (k : Fin c.ndeterminants) (s : Fin (K + 1)) :
    ExtendedRows c P ions pos z y norb k s
      (extendedRows (norb := norb) (f.orbitalLayer (P.orbitals _ _)) inv inputs z
        (some (displacements pos ions)) k s) := by
  constructor
  · intro a b hab o
    obtain rfl : b = Fin.castAdd _ a := Fin.ext hab
    unfold extendedRows
    rw [Fin.append_left, ← orbital_layer_value ho hs, ← blockEntry_eq]
    rfl
  · intro a b hab o
    obtain rfl : b = Fin.natAdd _ a := Fin.ext hab
    unfold extendedRows
    rw [Fin.append_right, ← invariance_value hi, ← blockEntry_eq, ← hy]
    cases inv <;> rfl

theorem extended_apply_value {c : ModelCfg} {f : FermiDesc} {dtype : ℕ} {nelec seen : List ℤ}
    (h : FermiMeans c nelec seen dtype f) (hname : ModeName c.detResnet.mode)
    {bs : Option (List BlockDesc)} {split : List ℤ} {i : InvarianceDesc}
    (hb : if c.useSeparateInvarianceBackflow = true then
        ∃ b, bs = some b ∧ BackflowMeans c.invariance.backflow split dtype b
        else bs = none)
    (hi : InvarianceMeans c.invariance dtype i)
    (P : Params (K + 1) nion d) (ions : Fin nion → Fin d → ℝ) (pos : Stream1 n d) (v : SL)
    (hv : applyExtended f c.nhiddenFermionsPerSpin bs i P ions pos = .ok v) :
    ∃ (N : ℕ) (D : Fin (N + 1) → Fin c.ndeterminants → ℝ) (r : ℝ), ExtendedDets c P ions pos D ∧
      Combined c P.detFn D r ∧
      ((c.useDetResnet = false → ∃ i, ∏ s, D s i ≠ 0) → Represents v r) := by
  obtain ⟨-, hst, hbf, hd, ho, hs, hm, hf, hr⟩ := h
  obtain ⟨sp, st, bf, nd, orb, soft, df, mode, fd⟩ := f
  simp only at hst hbf hd ho hs hm hf hr
  subst hd hf
  have hfeat := features_value hst hbf P.backflow ions pos
  -- the features of the additional rows
  obtain ⟨m', y, hy, hrows⟩ : ∃ (m' : ℕ) (y : Stream1 n m'), RowFeatures c P ions pos
      ((blocks P.backflow 0 bf (inWidths nion d st.includeEeNorm)).backflow
        (ionStreams ions st.include2e st.eiSoftening st.includeEeNorm st.eeSoftening pos).1) y ∧
      ∀ cols : Fin (K + 1) → ℕ, extraRows
          (ionStreams ions st.include2e st.eiSoftening st.includeEeNorm st.eeSoftening pos).1
          ((blocks P.backflow 0 bf (inWidths nion d st.includeEeNorm)).backflow
            (ionStreams ions st.include2e st.eiSoftening st.includeEeNorm st.eeSoftening pos).1)
          (extendedInvariance (nion := nion) bs i P (inWidths nion d st.includeEeNorm)
            (outWidths bf (inWidths nion d st.includeEeNorm)) (hiddenCount K c) cols) =
        (i.layers (P.invariance m' (hiddenCount K c) cols)).apply y := by
    split at hb
    · next hu =>
      obtain ⟨b, rfl, hb⟩ := hb
      refine ⟨(outWidths b (inWidths nion d st.includeEeNorm)).1,
        (blocks P.invBackflow 0 b (inWidths nion d st.includeEeNorm)).backflow
          (ionStreams ions st.include2e st.eiSoftening st.includeEeNorm st.eeSoftening pos).1,
        ?_, fun cols => rfl⟩
      rw [RowFeatures, if_pos hu]
      exact features_value hst hb P.invBackflow ions pos
    · next hu =>
      subst hb
      refine ⟨(outWidths bf (inWidths nion d st.includeEeNorm)).1,
        (blocks P.backflow 0 bf (inWidths nion d st.includeEeNorm)).backflow
          (ionStreams ions st.include2e st.eiSoftening st.includeEeNorm st.eeSoftening pos).1,
        ?_, fun cols => rfl⟩
      rw [RowFeatures, if_neg hu]
      exact ⟨rfl, fun _ _ => rfl⟩
  unfold applyExtended at hv
  simp only at hv
  split at hv
  · next hfd =>
    split at hv
    · cases hv
    obtain ⟨r, hc, hrep⟩ := combine_value hm hname hr P.detFn _ v hv
    refine ⟨0, _, r, .full _ y _ _ _ hfd hfeat hy (fun k s => ?_) (fun k => stacked_value _)
      fun s i => rfl, hc, hrep⟩
    exact extended_rows_value (f := ⟨sp, st, bf, c.ndeterminants, orb, soft, df, mode, c.fullDet⟩)
      ho hs hi P ions pos _ _ _ y (hrows _) k s
  · next hfd =>
    have hfd : c.fullDet = false := by simpa using hfd
    simp only [bind_eq_ok] at hv
    obtain ⟨_, -, hv⟩ := hv
    split at hv
    · cases hv
    obtain ⟨r, hc, hrep⟩ := combine_value hm hname hr P.detFn _ v hv
    refine ⟨K, _, r, .split _ y _ _ hfd hfeat hy (fun k s => ?_) fun s i => rfl, hc, hrep⟩
    exact extended_rows_value (f := ⟨sp, st, bf, c.ndeterminants, orb, soft, df, mode, c.fullDet⟩)
      ho hs hi P ions pos _ _ _ y (hrows _) k s

theorem sequence_entries {S : ℕ} {α : Fin S → Type} (f : ∀ s, Except String (α s)) (g : ∀ s, α s)
    (h : Net.sequence f = .ok g) : ∀ s, f s = .ok (g s) := by
  induction S with
  | zero => exact fun s => s.elim0
  | succ S ih =>
    unfold Net.sequence at h
    split at h
    · next a r ha hr =>
      cases h
      exact fun s => Fin.cases ha (fun s => ih (fun s => f s.succ) r hr s) s
    · cases h
    · cases h

theorem cofactor_value {N : ℕ} (x : Fin N → Fin N → ℝ) (a : Fin N → ℝ)
    (h : Antieq.cofactorAntieq x = .ok a) (i : Fin N) :
    a i = Matrix.det (Matrix.of fun b o => if o.val = 0 ∧ b ≠ i then 0 else x b o) := by
  obtain _ | N := N
  · exact i.elim0
  rw [cofactor_ok] at h
  cases h
  refine (cofactor_term (Matrix.of x) i).trans ?_
  congr 1
  ext b o
  rw [Matrix.updateCol_apply]
  by_cases ho : o = 0
  · subst ho
    by_cases hb : b = i
    · subst hb; simp
    · simp [hb]
  · simp [ho]

theorem cofactor_layer_value {c : ModelCfg} {dtype : ℕ} {o : OrbitalDesc}
    (ho : OrbitalsMean c dtype o) (ht : c.type ≠ "per_particle_dets_net") {m : ℕ}
    (P : Params (K + 1) nion d) (ions : Fin nion → Fin d → ℝ) (pos : Stream1 n d)
    (z : Stream1 n m) (a : ∀ s, Fin (n s) → Fin 1 → ℝ)
    (h : Net.sequence (cofactorNetLayer (P.orbitals _ _) o.useBias o.isotropicDecay z
      (some (displacements pos ions))) = .ok a) (s : Fin (K + 1)) (i : Fin (n s)) (j : Fin 1) :
    a s i j = antiValue c P ions pos z s i := by
  have h := sequence_entries _ _ h s
  unfold cofactorNetLayer Antieq.cofactorLayer at h
  obtain ⟨v, hv, ha⟩ : ∃ v, Antieq.cofactorAntieq ((Antieq.cofactorOrbitalLayer (P.orbitals m n)
      o.useBias o.isotropicDecay).apply z (some (displacements pos ions)) s) = .ok v ∧
      a s = fun i _ => v i := by
    revert h
    generalize Antieq.cofactorAntieq ((Antieq.cofactorOrbitalLayer (P.orbitals m n)
      o.useBias o.isotropicDecay).apply z (some (displacements pos ions)) s) = e
    intro h
    cases e with
    | error e => cases h
    | ok v => exact ⟨v, rfl, (Except.ok.inj h).symm⟩
  rw [ha, antiValue, if_neg ht]
  refine (cofactor_value _ _ hv i).trans ?_
  congr 2
  funext b o'
  rw [orbital_value]
  simp only [Antieq.cofactorOrbitalLayer, ho.useBias, ho.isotropic]
  rfl

theorem per_particle_layer_value {c : ModelCfg} {dtype : ℕ} {o : OrbitalDesc}
    (ho : OrbitalsMean c dtype o) (ht : c.type = "per_particle_dets_net") {m : ℕ}
    (P : Params (K + 1) nion d) (ions : Fin nion → Fin d → ℝ) (pos : Stream1 n d)
    (z : Stream1 n m) (a : ∀ s, Fin (n s) → Fin 1 → ℝ)
    (h : Net.sequence (perParticleNetLayer (P.doubly _ _) o.useBias o.isotropicDecay z
      (some (displacements pos ions))) = .ok a) (s : Fin (K + 1)) (i : Fin (n s)) (j : Fin 1) :
    a s i j = antiValue c P ions pos z s i := by
  have h := Except.ok.inj (sequence_entries _ _ h s)
  rw [← h, antiValue, if_pos ht]
  unfold Antieq.perParticleDetLayer
  congr 2
  funext b o'
  unfold Antieq.DoublyLayer.apply
  simp only [envelope_value, dense, Fintype.sum_sum_type, Sum.elim_inl, Sum.elim_inr, ho.useBias,
    ho.isotropic, mul_comm]

theorem multiply_value {c : ModelCfg} {m : ℕ} (z : Stream1 n m) (v : ∀ s, Fin (n s) → ℝ)
    (a : ∀ s, Fin (n s) → Fin 1 → ℝ) (h : ∀ s i j, a s i j = v s i) :
    AntiFeatures c z v fun e => (multiplyOf c.multiplyByEqFeatures m).apply a z e.1 e.2 := by
  have key : ∀ b : Bool, b = c.multiplyByEqFeatures →
      AntiFeatures c z v fun e => (multiplyOf b m).apply a z e.1 e.2 := by
    intro b hb
    cases b with
    | false => exact .own _ hb.symm fun s i j => h s i j
    | true =>
      exact .multiplied _ hb.symm fun s i j => by
        show z ⟨s, i⟩ j * a s i 0 = _
        rw [h, mul_comm]
  exact key _ rfl

theorem paired_value {c : ModelCfg} {split : List ℤ} {dtype : ℕ} {v : CovarianceDesc}
    (h : CovarianceMeans c split dtype v) (P : Params (K + 1) nion d) {m : ℕ} (a : Stream1 n m)
    (C : Covariance (K + 1) m) (hC : v.build P m = .ok C) (r : ℝ)
    (hr : C.apply (fun s i k => a ⟨s, i⟩ k) = .ok r) : Paired c P a r := by
  unfold CovarianceMeans at h
  split at h
  · next hu =>
    obtain ⟨k, rfl, -⟩ := h
    cases hC
    split at hr
    · next hw =>
      unfold Covariance.apply at hr
      simp only at hr
      split at hr
      · next hK =>
        cases hr
        have := Paired.weighted (P := P) (a := a) (by omega : K = 1) hu hw
        simpa [SignSym.productsCovarianceWeighted, SignSym.pairwiseDots] using this
      · cases hr
    · next hw =>
      have hw : c.productsUseWeights = false := by simpa using hw
      unfold Covariance.apply at hr
      simp only at hr
      split at hr
      · next hK =>
        cases hr
        exact .products (by omega) hu hw
      · cases hr
  · next hu =>
    have hu : c.useProductsCovariance = false := by simpa using hu
    subst h
    unfold CovarianceDesc.build at hC
    simp only at hC
    cases hb : getBackflow c.invarianceBackflow split dtype with
    | error e => rw [hb] at hC; cases hC
    | ok bs =>
      rw [hb] at hC
      cases hC
      cases hr
      have := Paired.backflow (c := c) (P := P) (a := a)
        (fun e => (blocks P.covBackflow 0 bs (m, 0)).backflow (fun i k => e i.1 * a i k, none)) hu
        fun e => backflow_value (backflow_means hb) P.covBackflow (m, 0)
          (fun i k => e i.1 * a i k, none)
      convert this using 1
      simp only [covariant_value, sumOverSigns, Finset.mul_sum]
      refine Finset.sum_comm.trans (Eq.trans ?_ Finset.sum_comm)
      exact Finset.sum_congr rfl fun e _ => Finset.sum_comm

theorem antiequivariance_apply_value {c : ModelCfg} {dtype : ℕ} {s : StreamsDesc}
    {bs : List BlockDesc} {pp : Bool} {o : OrbitalDesc} {v : CovarianceDesc} {split split' : List ℤ}
    (ht : c.type = "orbital_cofactor_net" ∧ pp = false ∨ c.type = "per_particle_dets_net" ∧ pp = true)
    (hs : StreamsMeans c.inputStreams s) (hb : BackflowMeans c.backflow split dtype bs)
    (ho : OrbitalsMean c dtype o) (hv : CovarianceMeans c split dtype v)
    (P : Params (K + 1) nion d) (ions : Fin nion → Fin d → ℝ) (pos : Stream1 n d) (p : SL)
    (h : applyAntiequivariance split' s bs pp o v c.multiplyByEqFeatures P ions pos = .ok p) :
    ∃ (m m' : ℕ) (z : Stream1 n m) (a : Stream1 n m') (r : ℝ),
      Features c.inputStreams c.backflow P.backflow ions pos z ∧
      AntiFeatures c z (antiValue c P ions pos z) a ∧ Paired c P a r ∧ Represents p r := by
  unfold applyAntiequivariance at h
  simp only [bind_eq_ok] at h
  obtain ⟨_, -, C, hC, h⟩ := h
  have hfeat := features_value hs hb P.backflow ions pos
  -- both kinds of layers lead to the same last steps
  have last : ∀ layer : Stream1 n (outWidths bs (inWidths nion d s.includeEeNorm)).1 →
      Option (Elec n → Fin nion → Fin d → ℝ) → ∀ s, Except String (Fin (n s) → Fin 1 → ℝ),
      (∀ a, Net.sequence (layer ((blocks P.backflow 0 bs
      (inWidths nion d s.includeEeNorm)).backflow (ionStreams ions s.include2e s.eiSoftening
        s.includeEeNorm s.eeSoftening pos).1) (some (displacements pos ions))) = .ok a →
      ∀ s' i j, a s' i j = antiValue c P ions pos ((blocks P.backflow 0 bs
        (inWidths nion d s.includeEeNorm)).backflow (ionStreams ions s.include2e s.eiSoftening
        s.includeEeNorm s.eeSoftening pos).1) s' i) →
      antiequivarianceNet (ionStreams (n := n) ions s.include2e s.eiSoftening s.includeEeNorm
        s.eeSoftening) (blocks P.backflow 0 bs (inWidths nion d s.includeEeNorm)) layer
        (multiplyOf c.multiplyByEqFeatures _) C pos = .ok p →
      ∃ (m m' : ℕ) (z : Stream1 n m) (a : Stream1 n m') (r : ℝ),
        Features c.inputStreams c.backflow P.backflow ions pos z ∧
        AntiFeatures c z (antiValue c P ions pos z) a ∧ Paired c P a r ∧ Represents p r := by
    intro layer hl hn
    unfold antiequivarianceNet at hn
    simp only at hn
    obtain ⟨a, ha, hn⟩ := (bind_eq_ok _ _ _).mp hn
    cases hr : C.apply ((multiplyOf c.multiplyByEqFeatures _).apply a ((blocks P.backflow 0 bs
        (inWidths nion d s.includeEeNorm)).backflow (ionStreams ions s.include2e s.eiSoftening
        s.includeEeNorm s.eeSoftening pos).1)) with
    | error e => rw [hr] at hn; cases hn
    | ok r =>
      rw [hr] at hn
      cases hn
      refine ⟨_, _, _, _, r, hfeat, multiply_value _ _ a (hl a ha), paired_value hv P _ C hC r hr,
        slog_of_array r⟩
  rcases ht with ⟨ht, rfl⟩ | ⟨ht, rfl⟩
  · rw [if_neg (by simp)] at h
    exact last _ (fun a ha => cofactor_layer_value ho (by rw [ht]; decide) P ions pos _ a ha) h
  · rw [if_pos rfl] at h
    exact last _ (fun a ha => per_particle_layer_value ho ht P ions pos _ a ha) h

theorem length_value {m : ℕ} (z : Stream1 n m) :
    Jastrow.backflowJastrow true (flat z) = lengthValue z := by
  unfold Jastrow.backflowJastrow lengthValue norm2
  simp only [if_true]
  congr 2
  exact Equiv.sum_comp finSigmaFinEquiv.symm fun e => Real.sqrt (∑ k, z e k ^ 2)

theorem one_body_value (a : Fin 1 → ℝ) (ions : Fin nion → Fin d → ℝ) (pos : Stream1 n d) :
    Jastrow.oneBodyExpDecay a true (flat (displacements pos ions)) =
      -(|a 0| * ∑ e, ∑ j, distance (pos e) (ions j)) := by
  refine (one_body_formula a (flat pos) ions).1.trans ?_
  rw [Finset.mul_sum, ← Equiv.sum_comp finSigmaFinEquiv.symm]
  simp only [Finset.mul_sum]
  rfl

theorem two_body_value (z : Fin nion → ℝ) (q : ℝ) (charges : Fin nion → ℝ)
    (ions : Fin nion → Fin d → ℝ) (pos : Stream1 n d) :
    Jastrow.twoBodyExpDecay z q (Jastrow.chargelessScaleFactor ions charges) true
      (flat (displacements pos ions)) (fun a => flat (flat (displacements pos pos) a)) =
      twoBodyValue z q ions charges pos := by
  refine (two_body_formula z q _ (flat pos) ions).1.trans ?_
  have hc : Jastrow.chargelessScaleFactor ions charges =
      (∑ I, ∑ J, charges I * charges J * distance (ions I) (ions J)) / 2 := by
    unfold Jastrow.chargelessScaleFactor
    rw [show (0.5 : ℝ) = 1 / 2 by norm_num, one_div, inv_mul_eq_div]
    congr 1
    exact Finset.sum_congr rfl fun I _ => Finset.sum_congr rfl fun J _ => mul_comm _ _
  have he : ∀ f : Elec n → Elec n → ℝ, ∑ a, ∑ b, f (finSigmaFinEquiv.symm a)
      (finSigmaFinEquiv.symm b) = ∑ e, ∑ e', f e e' := by
    intro f
    rw [← Equiv.sum_comp finSigmaFinEquiv.symm]
    exact Finset.sum_congr rfl fun a _ => Equiv.sum_comp finSigmaFinEquiv.symm _
  rw [hc, twoBodyValue, ← he fun e e' => distance (pos e) (pos e'),
    ← Equiv.sum_comp finSigmaFinEquiv.symm fun e => ∑ j, z j * distance (pos e) (ions j)]
  rfl

theorem two_body_exponent {c : ModelCfg} {charges : Fin nion → ℝ} {ions : Fin nion → Fin d → ℝ}
    {j : JastrowDesc nion} (h : TwoBodyMeans c.jastrow ions charges j) (P : Params (K + 1) nion d)
    (pos : Stream1 n d) {w : ℕ × ℕ} (inputs : Streams n w) (i2 : Bool) {m : ℕ} (z : Stream1 n m)
    (r : ℝ) (hr : (j.build P w).apply inputs z (some (displacements pos ions))
      (eeDisplacements i2 pos) = .ok r) :
    r = twoBodyValue (if c.jastrow.trainable = true then P.eiStrength else charges)
      (if c.jastrow.trainable = true then P.eeStrength else c.jastrow.initEeStrength) ions charges
      pos := by
  subst h
  unfold JastrowDesc.build at hr
  cases i2 with
  | false => split_ifs at hr <;> cases hr
  | true =>
    split_ifs at hr
    · next ht =>
      rw [if_pos ht, if_pos ht, ← two_body_value]
      exact (Except.ok.inj hr).symm
    · next ht =>
      rw [if_neg ht, if_neg ht, ← two_body_value]
      exact (Except.ok.inj hr).symm

theorem backflow_exponent {c : ModelCfg} {split : List ℤ} {dtype : ℕ} {j : JastrowDesc nion}
    (h : BackflowJastrowMeans c.jastrow split dtype j) {s : StreamsDesc}
    (hs : StreamsMeans c.inputStreams s) (P : Params (K + 1) nion d) (ions : Fin nion → Fin d → ℝ)
    (pos : Stream1 n d) {m : ℕ} (z : Stream1 n m) (r : ℝ) (rei ree)
    (hr : (j.build P (inWidths nion d s.includeEeNorm)).apply (d := d) (ionStreams ions s.include2e
      s.eiSoftening s.includeEeNorm s.eeSoftening pos).1 z rei ree = .ok r) :
    BackflowExponent c P ions pos z r := by
  unfold BackflowJastrowMeans at h
  unfold BackflowExponent
  split at h
  · next hu =>
    obtain ⟨bs, rfl, hb⟩ := h
    rw [if_pos hu]
    exact ⟨_, _, features_value hs hb P.jastrowBackflow ions pos,
      (Except.ok.inj hr).symm.trans (length_value _)⟩
  · next hu =>
    subst h
    rw [if_neg hu]
    exact (Except.ok.inj hr).symm.trans (length_value _)

theorem exponent_value {c : ModelCfg} {split : List ℤ} {dtype : ℕ} {charges : Fin nion → ℝ}
    {ions : Fin nion → Fin d → ℝ} {j : JastrowDesc nion}
    (h : JastrowMeans c.jastrow split ions charges dtype j) {s : StreamsDesc}
    (hs : StreamsMeans c.inputStreams s) (P : Params (K + 1) nion d) (pos : Stream1 n d) {m : ℕ}
    (z : Stream1 n m) (i2 : Bool) (r : ℝ)
    (hr : (j.build P (inWidths nion d s.includeEeNorm)).apply (ionStreams ions s.include2e
      s.eiSoftening s.includeEeNorm s.eeSoftening pos).1 z (some (displacements pos ions))
      (eeDisplacements i2 pos) = .ok r) : Exponent c P ions charges pos z r := by
  cases h with
  | one k ht _ => exact .inl ⟨ht, (Except.ok.inj hr).symm.trans (one_body_value _ ions pos)⟩
  | two j ht h => exact .inr (.inl ⟨ht, two_body_exponent h P pos _ i2 z r hr⟩)
  | backflow j ht h => exact .inr (.inr (.inl ⟨ht, backflow_exponent h hs P ions pos z r _ _ hr⟩))
  | both a b ht ha hb =>
    unfold JastrowDesc.build JastrowModel.apply at hr
    split at hr
    · next x y hx hy =>
      cases hr
      refine .inr (.inr (.inr ⟨ht, y, backflow_exponent hb hs P ions pos z y _ _ hy, ?_⟩))
      rw [two_body_exponent ha P pos _ i2 z x hx]
    · cases hr
    · cases hr

theorem factorized_value {k dout : ℕ} {N d : Fin (k + 1) → ℕ}
    (fns : Fin (k + 1) → List ℝ → Fin dout → ℝ) (xs : ∀ s, Fin (N s) → Fin (d s) → ℝ)
    (a : Fin dout) : Antisym.factorizedAntisymmetrize fns xs a =
      ∏ s, ∑ σ : Equiv.Perm (Fin (N s)), parity σ * fns s (Antisym.reshapeRow fun i => xs s (σ i)) a := by
  unfold Antisym.factorizedAntisymmetrize
  rw [Antisym.reduceLeaves_mul]
  exact Finset.prod_congr rfl fun s _ => leaf_is_alternating_sum _ _ _

theorem explicit_apply_value {c : ModelCfg} {split split' : List ℤ} {dtype : ℕ}
    {charges : Fin nion → ℝ} {ions : Fin nion → Fin d → ℝ} {s : StreamsDesc} {bs : List BlockDesc}
    {j : JastrowDesc nion} {a : AntisymDesc} {r : ResNetDesc}
    (ha : c.antisymType = "factorized" ∧ a = .factorized c.rank ∨
      c.antisymType = "generic" ∧ a = .generic)
    (hs : StreamsMeans c.inputStreams s) (hb : BackflowMeans c.backflow split dtype bs)
    (hj : JastrowMeans c.jastrow split' ions charges dtype j) (hr : ResnetMeans c dtype r)
    (P : Params (K + 1) nion d) (pos : Stream1 n d) (p : SL)
    (h : applyExplicit s bs j a r P ions pos = .ok p) :
    ∃ (m N : ℕ) (z : Stream1 n m) (t : Fin N → ℝ) (x : ℝ),
      Features c.inputStreams c.backflow P.backflow ions pos z ∧
      Exponent c P ions charges pos z x ∧ Antisymmetrized c P z t ∧
      ((c.antisymType = "factorized" → ∃ i, t i ≠ 0) →
        Represents p (Real.exp x * ∑ i, t i)) := by
  obtain ⟨ndense, nlayers, act, ker, bia, ub⟩ := r
  obtain ⟨hw, hl, hact, -, -, hub⟩ := hr
  simp only at hw hl hact hub
  subst hw hl hub
  have hfeat := features_value hs hb P.backflow ions pos
  have hres : ∀ s' r' (l : List ℝ), ResNetDesc.apply ⟨c.ndenseResnet, c.nlayersResnet, act, ker,
      bia, c.resnetUseBias⟩ (P.resnets s' r') 1 l.get 0 = antisymResnet c P s' r' l :=
    fun s' r' l => congrFun (resnet_value hact ker bia c.resnetUseBias c.ndenseResnet
      c.nlayersResnet (P.resnets s' r') 1 l.get) 0
  unfold applyExplicit at h
  rcases ha with ⟨ha, rfl⟩ | ⟨ha, rfl⟩
  · simp only at h
    split at h
    · cases h
    unfold factorizedNet at h
    simp only at h
    cases hx : (j.build P (inWidths nion d s.includeEeNorm)).apply (ionStreams ions s.include2e
        s.eiSoftening s.includeEeNorm s.eeSoftening pos).1 ((blocks P.backflow 0 bs
          (inWidths nion d s.includeEeNorm)).backflow (ionStreams ions s.include2e s.eiSoftening
          s.includeEeNorm s.eeSoftening pos).1) (some (displacements pos ions))
        (eeDisplacements s.include2e pos) with
    | error e =>
      have h := (congrArg (Except.map _) hx).symm.trans h
      cases h
    | ok x =>
      have h := Except.ok.inj ((congrArg (Except.map _) hx).symm.trans h)
      refine ⟨_, _, _, fun i : Fin c.rank => ∏ s', ∑ σ : Equiv.Perm (Fin (n s')), sign σ *
        antisymResnet c P s' i (reordered _ s' σ), x, hfeat, exponent_value hj hs P pos _ _ _ hx,
        .factorized _ ha fun r => rfl, fun hne => ?_⟩
      rw [← h]
      refine represents_shift (slog_sum_over_axis_represents _ _ (fun a => ?_) (hne ha)) x
      have := (factorized_slog_represents (n := n)
        (d := fun _ => (outWidths bs (inWidths nion d s.includeEeNorm)).1)
        (fun sp x (i : Fin c.rank) => ResNetDesc.apply ⟨c.ndenseResnet, c.nlayersResnet, act, ker,
          bia, c.resnetUseBias⟩ (P.resnets sp i) 1 x.get 0)
        (fun s' i => (blocks P.backflow 0 bs (inWidths nion d s.includeEeNorm)).backflow
          (ionStreams ions s.include2e s.eiSoftening s.includeEeNorm s.eeSoftening pos).1 ⟨s', i⟩)
        (fun _ => 1) a).1
      rw [factorized_value] at this
      refine Eq.mp (congrArg (Represents _) ?_) this
      simp only [hres]
      rfl
  · simp only at h
    unfold genericNet at h
    simp only at h
    cases hx : (j.build P (inWidths nion d s.includeEeNorm)).apply (ionStreams ions s.include2e
        s.eiSoftening s.includeEeNorm s.eeSoftening pos).1 ((blocks P.backflow 0 bs
          (inWidths nion d s.includeEeNorm)).backflow (ionStreams ions s.include2e s.eiSoftening
          s.includeEeNorm s.eeSoftening pos).1) (some (displacements pos ions))
        (eeDisplacements s.include2e pos) with
    | error e =>
      have h := (congrArg (Except.map _) hx).symm.trans h
      cases h
    | ok x =>
      have h := Except.ok.inj ((congrArg (Except.map _) hx).symm.trans h)
      refine ⟨_, _, _, fun i : Fin 1 => ∑ σ : ∀ s, Equiv.Perm (Fin (n s)), (∏ s, sign (σ s)) *
        antisymResnet c P 0 0 (List.ofFn fun s => reordered _ s (σ s)).flatten, x, hfeat,
        exponent_value hj hs P pos _ _ _ hx, .generic _ ha fun r => rfl, fun _ => ?_⟩
      rw [← h, Fin.sum_univ_one]
      refine represents_shift ?_ x
      have := (generic_slog_represents (n := n)
        (d := fun _ => (outWidths bs (inWidths nion d s.includeEeNorm)).1)
        (fun x => ResNetDesc.apply ⟨c.ndenseResnet, c.nlayersResnet, act, ker,
          bia, c.resnetUseBias⟩ (P.resnets 0 0) 1 x.get)
        (fun s' i => (blocks P.backflow 0 bs (inWidths nion d s.includeEeNorm)).backflow
          (ionStreams ions s.include2e s.eiSoftening s.includeEeNorm s.eeSoftening pos).1 ⟨s', i⟩)
        (fun _ => 1)).1
      rw [generic_is_alternating_sum] at this
      simp only [Fin.sum_univ_one, hres] at this
      exact this

/-- C83: a model built from a configuration computes the function which the configuration stands
for: whenever it returns a value, this value represents the wave function of the configuration
(unless all terms of a sum of determinants or of antisymmetrized products vanish). -/
theorem configured_model_value (c : ModelCfg) (ions : Fin nion → Fin d → ℝ)
    (charges : Fin nion → ℝ) (dtype : ℕ) (m : Model nion)
    (hm : getModelFromConfig c (counts n) ions charges dtype = .ok m) (P : Params (K + 1) nion d)
    (pos : Stream1 n d) (v : SL) (hv : m.apply P ions pos = .ok v) :
    ∃ (nonzero : Prop) (r : ℝ), ModelValue c P ions charges pos nonzero r ∧
      (nonzero → Represents v r) := by
  have hacc := (model_config_accepted_iff c _ ions charges dtype).mp ⟨m, hm⟩
  have hmode : c.type = "ferminet" ∨ c.type = "embedded_particle_ferminet" ∨
      c.type = "extended_orbital_matrix_ferminet" → ModeName c.detResnet.mode := by
    intro ht
    obtain ⟨-, h | h | h | h | h⟩ := hacc
    · exact h.2.2.1
    · exact h.2.1.2.1
    · exact h.2.1.2.1
    · rcases h.1 with h | h <;> simp [h] at ht
    · simp [h.1] at ht
  have hmeans := configured_model_means_partial c _ ions charges dtype m hm
  unfold Model.apply at hv
  split at hv
  · cases hv
  split at hv
  · cases hv
  cases hmeans with
  | fermiNet f ht h =>
    obtain ⟨N, D, r, h1, h2, h3⟩ := ferminet_apply_value h (hmode (.inl ht)) P ions pos v hv
    exact ⟨_, r, .fermiNet D r ht h1 h2, h3⟩
  | embedded f hidden seen s bs i ht hh _ h hs hb hi =>
    subst hh
    obtain ⟨N, q, D, r, h0, h1, h2, h3⟩ :=
      embedded_apply_value h (hmode (.inr (.inl ht))) hs hb hi P ions pos v hv
    exact ⟨_, r, .embedded q D r ht h0 h1 h2, h3⟩
  | extended f hidden bs i ht hh h hb hi =>
    subst hh
    obtain ⟨N, D, r, h1, h2, h3⟩ :=
      extended_apply_value h (hmode (.inr (.inr ht))) hb hi P ions pos v hv
    exact ⟨_, r, .extended D r ht h1 h2, h3⟩
  | antiequivariance s bs pp o w multiply ht hs hb ho hw hmul =>
    subst hmul
    obtain ⟨m, m', z, a, r, h1, h2, h3, h4⟩ :=
      antiequivariance_apply_value ht hs hb ho hw P ions pos v hv
    exact ⟨True, r, .antiequivariance z a r (ht.imp And.left And.left) h1 h2 h3, fun _ => h4⟩
  | explicit s bs j a r ht ha hs hb hj hr =>
    obtain ⟨m, N, z, t, x, h1, h2, h3, h4⟩ := explicit_apply_value ha hs hb hj hr P pos v hv
    exact ⟨_, _, .explicit z t x ht h1 h2 h3, h4⟩

end Verif.Props
