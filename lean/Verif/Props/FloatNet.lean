import Verif.Model.FloatNet
import Verif.Props.ConstructOptions

/-!
C84: features and orbitals of electrons are finite numbers exactly if no species is empty, or if
nothing is averaged over species.
-/

namespace Verif.Props
open Verif.Net Verif.FloatNet Verif.Construct Verif.Spec

variable {S : ℕ} {n : Fin S → ℕ}

/-- `oneLayer` takes means over species: it is no transformer layer, or it sees a two-electron
stream. -/
def TakesMeans {d1 d2 d' : ℕ} (L : OneElectronLayer S d1 d2 d') (has2e : Bool) : Prop :=
  (∃ K, L.mixing = .means K) ∨ has2e = true

/-- Some layer takes means. -/
def SomeMeans (has2e : Bool) : {w w' : ℕ × ℕ} → Blocks S w w' → Prop
  | _, _, .nil => False
  | _, _, .cons (.both one _) bs => TakesMeans one has2e ∨ SomeMeans has2e bs
  | _, _, .cons (.oneOnly one) bs => TakesMeans one has2e ∨ SomeMeans has2e bs

/-- No stream which enters a block has width 0. -/
def Wide : {w w' : ℕ × ℕ} → Blocks S w w' → Prop
  | _, _, .nil => True
  | w, _, .cons _ bs => (0 < w.1 ∧ 0 < w.2) ∧ Wide bs

theorem float_dense_fin {ι : Type*} [Fintype ι] {d' : ℕ} (useBias : Bool)
    (kernel : ι → Fin d' → ℝ) (bias : Fin d' → ℝ) (x : ι → ℝ) (j : Fin d') :
    FloatNet.dense useBias kernel bias (fun i => .fin (x i)) j =
      .fin (Net.dense useBias kernel bias x j) := by
  unfold FloatNet.dense Net.dense
  simp only [XR.fin_mul, XR.sum_fin]
  split <;> simp

theorem float_dense_nan {ι : Type*} [Fintype ι] {d' : ℕ} (useBias : Bool)
    (kernel : ι → Fin d' → ℝ) (bias : Fin d' → ℝ) (x : ι → XR) (i : ι) (h : x i = .nan)
    (j : Fin d') : FloatNet.dense useBias kernel bias x j = .nan := by
  unfold FloatNet.dense
  rw [XR.sum_nan Finset.univ _ (Finset.mem_univ i) (by rw [h, XR.nan_mul])]
  split <;> simp

theorem float_mean_fin {ι : Type*} (x : Elec n → ι → ℝ) (s : Fin S) (k : ι) (h : 0 < n s) :
    FloatNet.splitMean (fun e k => .fin (x e k)) s k = .fin (Net.splitMean x s k) := by
  have : Nonempty (Fin (n s)) := ⟨⟨0, h⟩⟩
  unfold FloatNet.splitMean Net.splitMean
  rw [XR.mean_fin, Fintype.card_fin]

theorem float_mean_nan {ι : Type*} (x : Elec n → ι → XR) (s : Fin S) (k : ι) (h : n s = 0) :
    FloatNet.splitMean x s k = .nan := by
  have : IsEmpty (Fin (n s)) := by rw [h]; infer_instance
  unfold FloatNet.splitMean XR.mean
  rw [Finset.univ_eq_empty, Finset.sum_empty, Fintype.card_fin, h, XR.zero_def]
  show XR.div (.fin 0) (.fin ((0 : ℕ) : ℝ)) = .nan
  simp [XR.div, XR.infMul]

theorem exists_rolled (cyclic : Bool) (s t : Fin S) :
    ∃ p : Fin S, (if cyclic then rolled s p else p) = t := by
  cases cyclic with
  | false => exact ⟨t, rfl⟩
  | true =>
    refine ⟨⟨(t.val + (S - s.val)) % S, Nat.mod_lt _ (Nat.lt_of_le_of_lt (Nat.zero_le _) s.2)⟩, ?_⟩
    apply Fin.ext
    simp only [if_true, rolled]
    rw [Nat.add_mod_mod, show s.val + (t.val + (S - s.val)) = t.val + S by omega,
      Nat.add_mod_right, Nat.mod_eq_of_lt t.2]

theorem float_concat_fin {d : ℕ} (cyclic : Bool) (s : Fin S) (x : Elec n → Fin d → ℝ)
    (h : ∀ s, 0 < n s) :
    FloatNet.concatMeans cyclic s (FloatNet.splitMean fun e k => .fin (x e k)) =
      fun p => .fin (Net.concatMeans cyclic s (Net.splitMean x) p) := by
  funext p
  exact float_mean_fin x _ _ (h _)

theorem float_concat_nan {d : ℕ} (cyclic : Bool) (s t : Fin S) (x : Elec n → Fin d → XR)
    (h : n t = 0) (hd : 0 < d) :
    ∃ p, FloatNet.concatMeans cyclic s (FloatNet.splitMean x) p = .nan := by
  obtain ⟨p, hp⟩ := exists_rolled cyclic s t
  refine ⟨(p, ⟨0, hd⟩), ?_⟩
  unfold FloatNet.concatMeans
  rw [hp]
  exact float_mean_nan x t _ h

theorem float_attention_fin {d H d' m : ℕ} (A : Attention d H d') (x : Fin m → Fin d → ℝ)
    (i : Fin m) (c : Fin d') :
    attention A (fun j k => .fin (x j k)) i c = .fin (A.apply x i c) := by
  have hd : Real.sqrt (d' : ℝ) ≠ 0 :=
    Real.sqrt_ne_zero'.mpr (by exact_mod_cast Nat.lt_of_le_of_lt (Nat.zero_le _) c.2)
  have hs : ∀ f : Fin m → ℝ, (∑ j, Real.exp (f j)) ≠ 0 := fun f =>
    (Finset.sum_pos (fun _ _ => Real.exp_pos _) ⟨i, Finset.mem_univ i⟩).ne'
  unfold attention Attention.apply
  simp only [XR.fin_mul, XR.sum_fin, XR.fin_add, XR.fin_div hd, XR.exp_fin, XR.fin_div (hs _)]

theorem float_skip_fin {d d' : ℕ} (skip : Bool) (scale : ℝ) (x : Fin d → ℝ) (out : Fin d' → ℝ) :
    FloatNet.skipConnect skip scale (fun k => .fin (x k)) (fun k => .fin (out k)) =
      fun k => .fin (Net.skipConnect skip scale x out k) := by
  unfold FloatNet.skipConnect Net.skipConnect
  split
  · cases skip <;> simp
  · rfl

theorem float_skip_nan {d d' : ℕ} (skip : Bool) (scale : ℝ) (x : Fin d → XR) (k : Fin d') :
    FloatNet.skipConnect skip scale x (fun _ => .nan) k = .nan := by
  unfold FloatNet.skipConnect
  split
  · cases skip <;> simp
  · rfl

theorem float_one_fin {d1 d2 d' : ℕ} (L : OneElectronLayer S d1 d2 d') (x : Stream1 n d1)
    (y : Option (Stream2 n d2)) (h : (∀ s, 0 < n s) ∨ ¬ TakesMeans L y.isSome) :
    oneLayer L (fun e k => .fin (x e k)) (y.map fun y e e' k => .fin (y e e' k)) =
      fun e k => .fin (L.apply x y e k) := by
  have hm : FloatNet.mixed L (fun e k => .fin (x e k)) = fun e k => .fin (Net.mixed L x e k) := by
    funext e k
    unfold FloatNet.mixed Net.mixed
    cases hK : L.mixing with
    | transformer A => exact float_attention_fin A _ _ _
    | means K =>
      simp only
      have h : ∀ s, 0 < n s := h.resolve_right fun h => h (.inl ⟨K, hK⟩)
      rw [float_concat_fin _ _ _ h, float_dense_fin]
  funext e k
  unfold oneLayer OneElectronLayer.apply
  rw [hm]
  cases y with
  | none =>
    simp only [Option.map_none, float_dense_fin, XR.fin_add, act]
    exact congrFun (float_skip_fin _ _ _ _) k
  | some y =>
    have h : ∀ s, 0 < n s := h.resolve_right fun h => h (.inr rfl)
    have ht : FloatNet.transformed2e L (fun e e' k => .fin (y e e' k)) =
        fun e k => .fin (Net.transformed2e L y e k) := by
      funext e k
      unfold FloatNet.transformed2e Net.transformed2e
      rw [float_concat_fin _ _ _ h, float_dense_fin]
    simp only [Option.map_some, ht, float_dense_fin, XR.fin_add, act]
    exact congrFun (float_skip_fin _ _ _ _) k

theorem float_one_nan_of {d1 d2 d' : ℕ} (L : OneElectronLayer S d1 d2 d') (x : XStream1 n d1)
    (y : Option (XStream2 n d2)) (e : Elec n)
    (h : ∀ j, FloatNet.dense L.useBias L.unmixedKernel L.bias (x e) j = .nan ∨
      FloatNet.mixed L x e j = .nan ∨ ∃ z, y = some z ∧ FloatNet.transformed2e L z e j = .nan)
    (k : Fin d') : oneLayer L x y e k = .nan := by
  unfold oneLayer
  cases y with
  | none =>
    have : ∀ j, FloatNet.dense L.useBias L.unmixedKernel L.bias (x e) j + FloatNet.mixed L x e j =
        .nan := by
      intro j
      rcases h j with h | h | ⟨z, hz, -⟩
      · simp [h]
      · simp [h]
      · cases hz
    simp only [this, act]
    exact float_skip_nan _ _ _ k
  | some y =>
    have : ∀ j, FloatNet.dense L.useBias L.unmixedKernel L.bias (x e) j + FloatNet.mixed L x e j +
        FloatNet.transformed2e L y e j = .nan := by
      intro j
      rcases h j with h | h | ⟨z, hz, h⟩
      · simp [h]
      · simp [h]
      · cases hz; simp [h]
    simp only [this, act]
    exact float_skip_nan _ _ _ k

/-- A layer which takes means over an empty species returns only nan. -/
theorem float_one_nan {d1 d2 d' : ℕ} (L : OneElectronLayer S d1 d2 d') (x : XStream1 n d1)
    (y : Option (XStream2 n d2)) (t : Fin S) (ht : n t = 0) (h : TakesMeans L y.isSome)
    (h1 : 0 < d1) (h2 : 0 < d2) (e : Elec n) (k : Fin d') : oneLayer L x y e k = .nan := by
  refine float_one_nan_of L x y e (fun j => .inr ?_) k
  rcases h with ⟨K, hK⟩ | h
  · left
    unfold FloatNet.mixed
    rw [hK]
    obtain ⟨p, hp⟩ := float_concat_nan L.cyclic e.1 t x ht h1
    exact float_dense_nan _ _ _ _ p hp j
  · cases y with
    | none => cases h
    | some y =>
      obtain ⟨p, hp⟩ := float_concat_nan L.cyclic e.1 t (y e) ht h2
      exact .inr ⟨y, rfl, float_dense_nan _ _ _ _ p hp j⟩

/-- nan features stay nan. -/
theorem float_one_nan_of_nan {d1 d2 d' : ℕ} (L : OneElectronLayer S d1 d2 d') (x : XStream1 n d1)
    (y : Option (XStream2 n d2)) (h1 : 0 < d1) (hx : ∀ e k, x e k = .nan) (e : Elec n)
    (k : Fin d') : oneLayer L x y e k = .nan :=
  float_one_nan_of L x y e (fun j => .inl (float_dense_nan _ _ _ _ ⟨0, h1⟩ (hx e _) j)) k

theorem float_two_fin {d d' : ℕ} (L : TwoElectronLayer d d') (y : Stream2 n d) :
    twoLayer L (fun e e' k => .fin (y e e' k)) = fun e e' k => .fin (L.apply y e e' k) := by
  funext e e' k
  unfold twoLayer TwoElectronLayer.apply
  simp only [float_dense_fin, act]
  exact congrFun (float_skip_fin _ _ _ _) k

theorem block_has2e {w w' : ℕ × ℕ} (b : Block S w w') (xs : Streams n w) :
    (b.apply xs).2.isSome = xs.2.isSome := by
  cases b <;> simp [Block.apply]

/-- C84: without empty species, or without means, floating point features are the features of the
real model. -/
theorem float_features_partial {w w' : ℕ × ℕ} (bs : Blocks S w w') (xs : Streams n w)
    (h : (∀ s, 0 < n s) ∨ ¬ SomeMeans xs.2.isSome bs) :
    run bs (lift xs) = lift (bs.run xs) := by
  induction bs with
  | nil => rfl
  | @cons w w' w'' b bs ih =>
    have hb : block b (lift xs) = lift (b.apply xs) := by
      cases b with
      | both one two =>
        have h' : (∀ s, 0 < n s) ∨ ¬ TakesMeans one xs.2.isSome :=
          h.imp_right fun h h' => h (.inl h')
        refine Prod.ext (float_one_fin one xs.1 xs.2 h') ?_
        show (xs.2.map _).map _ = (xs.2.map _).map _
        rw [Option.map_map, Option.map_map]
        congr 1
        funext y
        exact float_two_fin two y
      | oneOnly one =>
        have h' : (∀ s, 0 < n s) ∨ ¬ TakesMeans one xs.2.isSome :=
          h.imp_right fun h h' => h (.inl h')
        exact Prod.ext (float_one_fin one xs.1 xs.2 h') rfl
    show run bs (block b (lift xs)) = lift (bs.run (b.apply xs))
    rw [hb]
    refine ih (b.apply xs) (h.imp_right fun h h' => h ?_)
    rw [block_has2e] at h'
    cases b <;> exact .inr h'

theorem float_run_nan {w w' : ℕ × ℕ} (bs : Blocks S w w') (xs : XStreams n w) (hw : Wide bs)
    (hx : ∀ e k, xs.1 e k = .nan) (e : Elec n) (k : Fin w'.1) : (run bs xs).1 e k = .nan := by
  induction bs with
  | nil => exact hx e k
  | cons b bs ih =>
    refine ih (block b xs) hw.2 (fun e k => ?_) k
    cases b with
    | both one two => exact float_one_nan_of_nan one xs.1 xs.2 hw.1.1 hx e k
    | oneOnly one => exact float_one_nan_of_nan one xs.1 xs.2 hw.1.1 hx e k

/-- C84: with an empty species, a backflow which takes means has only nan features. -/
theorem float_features_nan {w w' : ℕ × ℕ} (bs : Blocks S w w') (xs : XStreams n w) (hw : Wide bs)
    (t : Fin S) (ht : n t = 0) (h : SomeMeans xs.2.isSome bs) (e : Elec n) (k : Fin w'.1) :
    backflow bs xs e k = .nan := by
  unfold backflow
  induction bs with
  | nil => exact h.elim
  | cons b bs ih =>
    show (run bs (block b xs)).1 e k = .nan
    have hs : (block b xs).2.isSome = xs.2.isSome := by cases b <;> simp [block]
    cases b with
    | both one two =>
      rcases h with h | h
      · exact float_run_nan bs _ hw.2
          (fun e k => float_one_nan one xs.1 xs.2 t ht h hw.1.1 hw.1.2 e k) e k
      · exact ih _ hw.2 (by rw [hs]; exact h) k
    | oneOnly one =>
      rcases h with h | h
      · exact float_run_nan bs _ hw.2
          (fun e k => float_one_nan one xs.1 xs.2 t ht h hw.1.1 hw.1.2 e k) e k
      · exact ih _ hw.2 (by rw [hs]; exact h) k

/-- C84: the features of electrons are finite exactly if no species is empty or nothing is averaged
over species. -/
theorem float_features_finite_iff {w w' : ℕ × ℕ} (bs : Blocks S w w') (xs : Streams n w)
    (hw : Wide bs) (hw' : 0 < w'.1) (e : Elec n) :
    (∀ k, (backflow bs (lift xs) e k).isFin) ↔ (∀ s, 0 < n s) ∨ ¬ SomeMeans xs.2.isSome bs := by
  constructor
  · intro h
    by_contra hc
    push Not at hc
    obtain ⟨⟨t, ht⟩, hm⟩ := hc
    have := h ⟨0, hw'⟩
    rw [float_features_nan bs (lift xs) hw t (by omega) (by simpa [lift] using hm)] at this
    exact this
  · intro h k
    unfold backflow
    rw [float_features_partial bs xs h]
    trivial

/-- C84: then every orbital is nan at every electron, so that no determinant is a number. -/
theorem float_orbitals_nan {w w' : ℕ × ℕ} {nion d : ℕ} {norb : Fin S → ℕ} (bs : Blocks S w w')
    (xs : XStreams n w) (hw : Wide bs) (hw' : 0 < w'.1) (t : Fin S) (ht : n t = 0)
    (h : SomeMeans xs.2.isSome bs) (L : OrbitalLayer S w'.1 nion d norb)
    (rei : Option (Elec n → Fin nion → Fin d → ℝ)) (s : Fin S) (i : Fin (n s)) (o : Fin (norb s)) :
    orbitals L (backflow bs xs) rei s i o = .nan := by
  have := float_dense_nan L.useBias (L.kernel s) (L.bias s) (backflow bs xs ⟨s, i⟩) ⟨0, hw'⟩
    (float_features_nan bs xs hw t ht h ⟨s, i⟩ _) o
  unfold orbitals
  rw [this]
  cases rei <;> simp

/-- C84: without empty species orbitals are those of the real model. -/
theorem float_orbitals_partial {w w' : ℕ × ℕ} {nion d : ℕ} {norb : Fin S → ℕ} (bs : Blocks S w w')
    (xs : Streams n w) (h : (∀ s, 0 < n s) ∨ ¬ SomeMeans xs.2.isSome bs)
    (L : OrbitalLayer S w'.1 nion d norb) (rei : Option (Elec n → Fin nion → Fin d → ℝ)) (s : Fin S)
    (i : Fin (n s)) (o : Fin (norb s)) :
    orbitals L (backflow bs (lift xs)) rei s i o =
      .fin (OrbitalLayer.apply L (bs.backflow xs) rei s i o) := by
  unfold orbitals OrbitalLayer.apply backflow Blocks.backflow
  rw [float_features_partial bs xs h]
  simp only [lift, float_dense_fin]
  cases rei <;> simp

/-! ### Configured backflows -/

theorem blocks_wide {c : BackflowCfg} {split : List ℤ} {dtype : ℕ} (P : BackflowParams S)
    (bs : List BlockDesc) (ws : List (List ℕ)) (hl : bs.length = ws.length)
    (hb : ∀ (i : ℕ) t b, ws[i]? = some t → bs[i]? = some b → BlockMeans c split dtype t b)
    (hpos : ∀ t ∈ ws, ∀ u ∈ t, 0 < u) (i : ℕ) (w : ℕ × ℕ) (hw : 0 < w.1 ∧ 0 < w.2) :
    Wide (blocks P i bs w) ∧ 0 < (outWidths bs w).1 := by
  induction bs generalizing ws i w with
  | nil => exact ⟨trivial, hw.1⟩
  | cons b bs ih =>
    cases ws with
    | nil => simp at hl
    | cons t ws =>
      obtain ⟨⟨u, hu, ho⟩, htwo⟩ := hb 0 t b rfl rfl
      have hout : 0 < (b.out w).1 ∧ 0 < (b.out w).2 := by
        have ht := hpos t (by simp)
        refine ⟨?_, ?_⟩
        · show 0 < b.one.ndense
          rw [ho.width]
          exact ht u (List.mem_of_getElem? hu)
        · unfold BlockDesc.out
          cases hv : t[1]? with
          | none =>
            rw [hv] at htwo
            simp only at htwo
            simp only [htwo]
            exact hw.2
          | some v =>
            rw [hv] at htwo
            obtain ⟨l, hl, hm⟩ := htwo
            simp only [hl]
            rw [hm.width]
            exact ht v (List.mem_of_getElem? hv)
      have := ih ws (by simpa using hl) (fun k t b h h' => hb (k + 1) t b (by simpa using h)
        (by simpa using h')) (fun t h => hpos t (by simp [h])) (i + 1) (b.out w) hout
      exact ⟨⟨hw, this.1⟩, this.2⟩

theorem one_takes_means {c : BackflowCfg} {split : List ℤ} {dtype u : ℕ} {o : OneDesc}
    (h : OneMeans c split dtype u o) {d1 d2 : ℕ} (P : OneParams S d1 d2 o.ndense o.numHeads)
    (has2e : Bool) : TakesMeans (o.layer P) has2e ↔ c.useTransformer = false ∨ has2e = true := by
  unfold TakesMeans OneDesc.layer
  simp only [h.useTransformer]
  cases c.useTransformer <;> simp

theorem blocks_some_means {c : BackflowCfg} {split : List ℤ} {dtype : ℕ} (P : BackflowParams S)
    (bs : List BlockDesc) (ws : List (List ℕ)) (hl : bs.length = ws.length)
    (hb : ∀ (i : ℕ) t b, ws[i]? = some t → bs[i]? = some b → BlockMeans c split dtype t b)
    (i : ℕ) (w : ℕ × ℕ) (has2e : Bool) :
    SomeMeans has2e (blocks P i bs w) ↔ ws ≠ [] ∧ (c.useTransformer = false ∨ has2e = true) := by
  induction bs generalizing ws i w with
  | nil =>
    cases ws with
    | nil => simp [blocks, SomeMeans]
    | cons => simp at hl
  | cons b bs ih =>
    cases ws with
    | nil => simp at hl
    | cons t ws =>
      obtain ⟨⟨u, hu, ho⟩, -⟩ := hb 0 t b rfl rfl
      have h := ih ws (by simpa using hl) (fun k t b h h' => hb (k + 1) t b (by simpa using h)
        (by simpa using h')) (i + 1) (b.out w)
      obtain ⟨o, two⟩ := b
      cases two with
      | none =>
        show TakesMeans _ _ ∨ SomeMeans has2e (blocks P (i + 1) bs (BlockDesc.out ⟨o, none⟩ w)) ↔ _
        rw [h, one_takes_means ho]
        simp only [ne_eq, reduceCtorEq, not_false_eq_true, true_and]
        tauto
      | some l =>
        show TakesMeans _ _ ∨ SomeMeans has2e (blocks P (i + 1) bs (BlockDesc.out ⟨o, l⟩ w)) ↔ _
        rw [h, one_takes_means ho]
        simp only [ne_eq, reduceCtorEq, not_false_eq_true, true_and]
        tauto

/-- C84: with a configured backflow of at least one block, the features of electrons are finite
exactly if no species is empty, or if transformers are used without a two-electron stream. -/
theorem configured_features_finite_iff (c : BackflowCfg) (split : List ℤ) (dtype : ℕ)
    (bs : List BlockDesc) (hbs : getBackflow c split dtype = .ok bs)
    (hne : c.ndenseList ≠ []) (hpos : ∀ t ∈ c.ndenseList, ∀ u ∈ t, 0 < u) (P : BackflowParams S)
    (w : ℕ × ℕ) (hw : 0 < w.1 ∧ 0 < w.2) (xs : Streams n w) (e : Elec n) :
    (∀ k, (backflow (blocks P 0 bs w) (lift xs) e k).isFin) ↔
      (∀ s, 0 < n s) ∨ (c.useTransformer = true ∧ xs.2 = none) := by
  have hm := backflow_means hbs
  obtain ⟨h1, h2⟩ := blocks_wide P bs _ hm.1 hm.2 hpos 0 w hw
  rw [float_features_finite_iff _ xs h1 h2, blocks_some_means P bs _ hm.1 hm.2]
  have : xs.2 = none ↔ xs.2.isSome = false := by cases xs.2 <;> simp
  rw [this]
  cases c.useTransformer <;> cases xs.2.isSome <;> simp [hne]

/-- The hydrogen atom, with one electron of the first kind and none of the second: with the default
backflow its features are nan for all parameters. -/
example (P : BackflowParams 2) (pos : Stream1 ![1, 0] 3) (bs : List BlockDesc)
    (hbs : getBackflow {} [1] 32 = .ok bs) (e : Elec ![1, 0]) :
    ¬ ∀ k, (backflow (blocks P 0 bs (1 * (3 + 1), 4))
      (lift (ionStreams (fun (_ : Fin 1) _ => 0) true 0 true 0 pos).1) e k).isFin := by
  rw [configured_features_finite_iff {} [1] 32 bs hbs (by simp) (by simp) P _ (by simp)]
  intro h
  rcases h with h | h
  · simpa using h 1
  · simp at h

end Verif.Props
