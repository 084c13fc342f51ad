import Verif.Model.Records
import Verif.Props.Devices

/-! The metric files of a training run (C94). -/

namespace Verif.Props

open Verif.Records Verif.Updates Verif.Spec Verif.Energy

variable {K X Dat Key S : Type} {D n : ℕ}

/-! ### C94 -/

/-- The energies `r` are those of `es` clipped to the window around the centre, which is the mean
`m` of all walkers or a median of the device. -/
def IsClipped (threshold : ℝ) (c : Center) (m : ℝ) (es r : List ℝ) : Prop :=
  ∃ ctr, (c = .mean → ctr = m) ∧ (c = .median → IsMedian es ctr) ∧
    r = es.map fun e => min (ctr + threshold * meanAbsDev es ctr)
      (max (ctr - threshold * meanAbsDev es ctr) e)

/-- The clipped local energies of all devices: no change for the integration-by-parts estimator or
a threshold which is not positive. -/
def ClippedRows (c : TrainingConfig) (es cl : List (List ℝ)) : Prop :=
  if c.energyType = .ibp ∨ c.clipThreshold ≤ 0 then cl = es
  else List.Forall₂ (IsClipped c.clipThreshold c.clipCenter (avgL es.flatten)) es cl

theorem clip_rows (threshold : ℝ) (c : Center) (m : ℝ) (es : List (List ℝ))
    (hne : ∀ e ∈ es, e ≠ []) :
    ∃ cl, List.Forall₂ (IsClipped threshold c m) es cl ∧
      ((es.map fun r => r.map XR.fin).map fun l => totalVariationClip threshold c l (.fin m)) =
        cl.map fun r => r.map XR.fin := by
  induction es with
  | nil => exact ⟨[], .nil, rfl⟩
  | cons e es ih =>
    obtain ⟨cl, h1, h2⟩ := ih fun e he => hne e (List.mem_cons_of_mem _ he)
    obtain ⟨ctr, h3, h4, h5⟩ := clip_center c e m (hne e List.mem_cons_self)
    refine ⟨_ :: cl, .cons ⟨ctr, h4, h5, rfl⟩ h1, ?_⟩
    simp only [List.map_cons, h2, clip_value threshold c e m ctr (hne e List.mem_cons_self) h3]

theorem clippedRows_length {c : TrainingConfig} {es cl : List (List ℝ)} (h : ClippedRows c es cl) :
    cl.map List.length = es.map List.length := by
  unfold ClippedRows at h
  split_ifs at h
  · rw [h]
  · generalize avgL es.flatten = m at h
    induction h with
    | nil => rfl
    | cons h _ ih =>
      obtain ⟨_, _, _, rfl⟩ := h
      simp [ih]

/-- The statistics in the metrics. -/
theorem energy_metrics (c : TrainingConfig) (devs : List (List (RealWalker K)))
    (hD : 0 < devs.length) (hn : 0 < n) (hlen : ∀ l ∈ devs, l.length = n)
    (h2 : 2 ≤ devs.length * n) :
    let es := devs.map fun l => l.map RealWalker.eloc
    let r := valueAndGrad c.energyType (devs.length * n)
      (getClippingFn c.clipThreshold c.clipCenter) c.nanSafe
      (devs.map fun l => l.map RealWalker.toX)
    r.2.1.energyNoclip = .fin (avgL es.flatten) ∧
    r.2.1.varianceNoclip = .fin (sampleVar es.flatten) ∧
    ∃ cl, ClippedRows c es cl ∧ r.1 = .fin (avgL cl.flatten) ∧
      r.2.1.variance = .fin (sampleVar cl.flatten) := by
  intro es r
  have hel : ((devs.map fun l => l.map RealWalker.toX).map fun l => l.map Walker.eloc) =
      es.map fun r => r.map XR.fin := by
    simp only [es, List.map_map]
    refine List.map_congr_left fun l _ => ?_
    simp only [Function.comp, List.map_map]
    rfl
  have stat : ∀ (rows : List (List ℝ)) (b : Bool), rows.map List.length = es.map List.length →
      getStatistics (rows.map fun r => r.map XR.fin) (devs.length * n) b =
        (.fin (avgL rows.flatten), .fin (sampleVar rows.flatten)) := by
    intro rows b hrows
    have hl : ∀ r ∈ rows, r.length = n := by
      intro r hr
      have : r.length ∈ rows.map List.length := List.mem_map_of_mem hr
      rw [hrows] at this
      obtain ⟨e, he, h⟩ := List.mem_map.1 this
      obtain ⟨l, hl, rfl⟩ := List.mem_map.1 he
      rw [← h, List.length_map, hlen l hl]
    have hlenr : rows.length = devs.length := by
      have := congrArg List.length hrows
      simpa [es] using this
    have hfl : rows.flatten.length = devs.length * n := by
      have hrep : rows.map List.length = List.replicate rows.length n :=
        List.eq_replicate_iff.2 ⟨by simp, fun x hx => by
          obtain ⟨r, hr, rfl⟩ := List.mem_map.1 hx
          exact hl r hr⟩
      rw [List.length_flatten, hrep]
      simp [hlenr]
    rw [← hfl]
    refine energy_statistics _ rows n b ⟨rfl, ?_, hn, hl⟩ (by omega)
    rintro rfl
    simp at hlenr
    omega
  have hne : ∀ e ∈ es, e ≠ [] := by
    intro e he h0
    obtain ⟨l, hl, rfl⟩ := List.mem_map.1 he
    have := hlen l hl
    have : l = [] := by simpa using h0
    subst this
    simp at *
    omega
  have key : ∀ clipping : Option (List XR → XR → List XR), (∃ cl, ClippedRows c es cl ∧
      (match clipping with
        | some f => (es.map fun r => r.map XR.fin).map fun l => f l (.fin (avgL es.flatten))
        | none => es.map fun r => r.map XR.fin) = cl.map fun r => r.map XR.fin) →
      let g := getClipped (es.map fun r => r.map XR.fin) (devs.length * n) clipping c.nanSafe
      g.2.2.energyNoclip = .fin (avgL es.flatten) ∧
      g.2.2.varianceNoclip = .fin (sampleVar es.flatten) ∧
      ∃ cl, ClippedRows c es cl ∧ g.1 = .fin (avgL cl.flatten) ∧
        g.2.2.variance = .fin (sampleVar cl.flatten) := by
    rintro clipping ⟨cl, h1, h2⟩ g
    have hs := stat es false rfl
    have hc := stat cl c.nanSafe (clippedRows_length h1)
    refine ⟨by simp only [g, getClipped, hs], by simp only [g, getClipped, hs], cl, h1, ?_⟩
    rw [← h2] at hc
    cases clipping <;> simp only [g, getClipped, hs] <;> simp only at hc <;> rw [hc] <;>
      exact ⟨rfl, rfl⟩
  have hr : r = valueAndGrad c.energyType (devs.length * n)
      (getClippingFn c.clipThreshold c.clipCenter) c.nanSafe
      (devs.map fun l => l.map RealWalker.toX) := rfl
  have nonibp : c.energyType ≠ .ibp →
      ∃ cl, ClippedRows c es cl ∧ (match getClippingFn c.clipThreshold c.clipCenter with
        | some f => (es.map fun r => r.map XR.fin).map fun l => f l (.fin (avgL es.flatten))
        | none => es.map fun r => r.map XR.fin) = cl.map fun r => r.map XR.fin := by
    intro ht
    by_cases h0 : 0 < c.clipThreshold
    · obtain ⟨cl, h1, h2⟩ := clip_rows c.clipThreshold c.clipCenter (avgL es.flatten) es hne
      refine ⟨cl, ?_, ?_⟩
      · unfold ClippedRows
        rwa [if_neg (by simp [ht, h0])]
      · rw [getClippingFn, if_pos h0]
        exact h2
    · refine ⟨es, ?_, ?_⟩
      · unfold ClippedRows
        rw [if_pos (.inr (not_lt.1 h0))]
      · rw [getClippingFn, if_neg h0]
  cases ht : c.energyType with
  | ibp =>
    rw [ht] at hr
    have := key none ⟨es, by unfold ClippedRows; rw [if_pos (.inl ht)], rfl⟩
    rw [← hel] at this
    rw [hr]
    exact this
  | standard =>
    rw [ht] at hr
    have := key _ (nonibp (by simp [ht]))
    rw [← hel] at this
    rw [hr]
    exact this
  | randomParticle =>
    rw [ht] at hr
    have := key _ (nonibp (by simp [ht]))
    rw [← hel] at this
    rw [hr]
    exact this

/-- Data and key after `j` steps of the walk of an epoch. -/
def walked (r : Run D n K X Dat Key S) (s : State D K Dat Key S) (j : ℕ) : Dat × Key :=
  (fun dk : Dat × Key => (r.step s.params dk.1 dk.2).2)^[j] (s.data, s.key)

/-- The acceptance ratio is the mean of the acceptance probabilities over all steps, devices and
walkers. -/
theorem accept_ratio_mean [NeZero D] (hn : 0 < n) (r : Run D n K X Dat Key S)
    (hsteps : 0 < r.nsteps)
    (acc : (Fin D → K → ℝ) → Dat → Key → Fin D → Fin n → ℝ)
    (hacc : ∀ p d k, (r.step p d k).1 = fun g i => .fin (acc p d k g i))
    (s : State D K Dat Key S) :
    walkerFn r.nsteps r.step s.params s.data s.key =
      (.fin ((∑ j ∈ Finset.range r.nsteps, ∑ g, ∑ i,
        acc s.params (walked r s j).1 (walked r s j).2 g i) / (r.nsteps * (D * n))),
        walked r s r.nsteps) := by
  have hn' : (n : ℝ) ≠ 0 := by exact_mod_cast hn.ne'
  have hD' : (D : ℝ) ≠ 0 := by exact_mod_cast NeZero.ne D
  have hs' : (r.nsteps : ℝ) ≠ 0 := by exact_mod_cast hsteps.ne'
  have it : ∀ j, (Records.walkBody r.step s.params)^[j] (fun _ => .fin 0, s.data, s.key) =
      (fun g => .fin (∑ j ∈ Finset.range j, (∑ i,
        acc s.params (walked r s j).1 (walked r s j).2 g i) / n), walked r s j) := by
    intro j
    induction j with
    | zero => simp [walked]
    | succ j ih =>
      rw [Function.iterate_succ_apply', ih]
      simp only [Records.walkBody, hacc]
      refine Prod.ext ?_ ?_
      · funext g
        have : List.ofFn (fun i => XR.fin (acc s.params (walked r s j).1 (walked r s j).2 g i)) =
            (List.ofFn fun i => acc s.params (walked r s j).1 (walked r s j).2 g i).map XR.fin := by
          rw [List.map_ofFn]
          rfl
        simp only
        rw [this, mean_fin _ (by
          intro h
          have := congrArg List.length h
          simp at this
          omega), XR.fin_add, Finset.sum_range_succ]
        simp [avgL, List.sum_ofFn]
      · simp only [walked]
        rw [Function.iterate_succ_apply']
  simp only [walkerFn, it]
  refine Prod.ext ?_ rfl
  simp only [XR.ofNat, XR.fin_div hs']
  have : (List.ofFn fun g : Fin D => XR.fin ((∑ j ∈ Finset.range r.nsteps, (∑ i,
        acc s.params (walked r s j).1 (walked r s j).2 g i) / n) / r.nsteps)) =
      (List.ofFn fun g : Fin D => (∑ j ∈ Finset.range r.nsteps, (∑ i,
        acc s.params (walked r s j).1 (walked r s j).2 g i) / n) / r.nsteps).map XR.fin := by
    rw [List.map_ofFn]
    rfl
  rw [this, Energy.pmean, mean_fin _ (by
    intro h
    have := congrArg List.length h
    simp [NeZero.ne D] at this)]
  simp only [avgL, List.sum_ofFn, List.length_ofFn, XR.fin_inj]
  rw [Finset.sum_comm' (s := Finset.range r.nsteps) (t := fun _ => Finset.univ)
    (t' := Finset.univ) (s' := fun _ => Finset.range r.nsteps) (by simp)]
  rw [← Finset.sum_div, div_div]
  simp only [← Finset.sum_div]
  rw [div_div]
  congr 1
  ring

/-- One nan among the acceptance probabilities makes the acceptance ratio nan. -/
theorem accept_ratio_nan (r : Run D n K X Dat Key S) (s : State D K Dat Key S) {j : ℕ}
    (hj : j < r.nsteps) (g : Fin D) (i : Fin n)
    (h : (r.step s.params (walked r s j).1 (walked r s j).2).1 g i = .nan) :
    (walkerFn r.nsteps r.step s.params s.data s.key).1 = .nan := by
  have hb : ∀ c, (Records.walkBody r.step s.params c).2 = (r.step s.params c.2.1 c.2.2).2 :=
    fun _ => rfl
  have hb1 : ∀ c, (Records.walkBody r.step s.params c).1 g =
      c.1 g + mean (List.ofFn ((r.step s.params c.2.1 c.2.2).1 g)) := fun _ => rfl
  have hsnd : ∀ j, ((Records.walkBody r.step s.params)^[j] (fun _ => .fin 0, s.data, s.key)).2 =
      walked r s j := by
    intro j
    induction j with
    | zero => rfl
    | succ j ih =>
      rw [Function.iterate_succ_apply', hb, ih, walked, walked, Function.iterate_succ_apply']
  have hnan : ∀ m, ((Records.walkBody r.step s.params)^[j + 1 + m]
      (fun _ => .fin 0, s.data, s.key)).1 g = .nan := by
    intro m
    induction m with
    | zero =>
      rw [Nat.add_zero, Function.iterate_succ_apply', hb1, hsnd,
        mean_nan ((List.mem_ofFn' _ _).2 ⟨i, h⟩), XR.add_nan]
    | succ m ih =>
      rw [← Nat.add_assoc, Function.iterate_succ_apply', hb1, ih, XR.nan_add]
  obtain ⟨m, hm⟩ : ∃ m, r.nsteps = j + 1 + m := ⟨r.nsteps - (j + 1), by omega⟩
  unfold walkerFn
  simp only
  refine mean_nan ((List.mem_ofFn' _ _).2 ⟨g, ?_⟩)
  have := hnan m
  rw [← hm] at this
  simp only [this, XR.nan_div]

variable [Fintype K]

/-- State before epoch `k`. -/
noncomputable def stateAt [NeZero D] (r : Run D n K X Dat Key S) (s : State D K Dat Key S) (k : ℕ) :
    State D K Dat Key S := (fun s => (epoch r s).2)^[k] s

theorem writeOut_lookup (m : Dict) (hm : (m.map Prod.fst).Nodup) (files : String → List XR)
    (name : String) : writeOut files m name = files name ++ (m.lookup name).toList := by
  unfold writeOut
  induction m generalizing files with
  | nil => simp
  | cons e m ih =>
    rw [List.foldl_cons, ih (List.nodup_cons.1 hm).2]
    rw [List.lookup_cons]
    by_cases h : name = e.1
    · subst h
      have : m.lookup e.1 = none := by
        rw [List.lookup_eq_none_iff]
        intro p hp
        have : e.1 ∉ m.map Prod.fst := (List.nodup_cons.1 hm).1
        simp only [bne_iff_ne, ne_eq]
        intro h
        exact this (h ▸ List.mem_map_of_mem hp)
      simp [this]
    · have hb : (name == e.1) = false := by simpa using h
      rw [if_neg h, hb]

theorem runFiles_eq [NeZero D] (r : Run D n K X Dat Key S) (name : String)
    (hm : ∀ s, ((epoch r s).1.map Prod.fst).Nodup) (N : ℕ) :
    ∀ (s : State D K Dat Key S) (files : String → List XR), runFiles r N s files name =
      files name ++ (List.range N).flatMap fun k =>
        ((epoch r (stateAt r s k)).1.lookup name).toList := by
  induction N with
  | zero => intro s files; simp [runFiles]
  | succ N ih =>
    intro s files
    rw [runFiles, ih, writeOut_lookup _ (hm s), List.range_succ_eq_map, List.flatMap_cons,
      List.flatMap_map, List.append_assoc]
    rfl

/-- The metrics written in an epoch. -/
theorem epoch_dict [NeZero D] (r : Run D n K X Dat Key S) (s : State D K Dat Key S) :
    let w := walkerFn r.nsteps r.step s.params s.data s.key
    let x := r.inputs w.2.1 (r.split w.2.2).2
    let v := valueAndGrad r.config.energyType (D * n)
      (getClippingFn r.config.clipThreshold r.config.clipCenter) r.config.nanSafe
      (List.ofFn fun d => List.ofFn fun i => r.walker (s.params d) (x d i))
    let s' := (epoch r s).2
    let a := (List.ofFn fun d => List.ofFn (r.amplitudes s'.data d)).flatten
    (epoch r s).1 = [("energy", v.1), ("variance", v.2.1.variance),
      ("energy_noclip", v.2.1.energyNoclip), ("variance_noclip", v.2.1.varianceNoclip)] ++
      (if r.recordL1 then [("param_l1_norm", .fin (∑ k, |s'.params 0 k|))] else []) ++
      [("accept_ratio", w.1)] ++
      (if r.recordAmplitudes then [("amplitude_min", a.foldr XR.minimum .pinf),
        ("amplitude_max", a.foldr XR.maximum .ninf)] else []) := by
  intro w x v s' a
  have hv : v = valueAndGrad r.config.energyType (D * n)
      (getClippingFn r.config.clipThreshold r.config.clipCenter) r.config.nanSafe
      (List.ofFn fun d => List.ofFn fun i => r.walker (s.params d) (x d i)) := rfl
  have e : (epoch r s).1 = addAmplitudes r.recordAmplitudes a
      ((updateMetrics r.config r.recordL1 r.walker s.params s'.params x 0).set "accept_ratio"
        w.1) := rfl
  rw [e, updateMetrics]
  simp only [← hv, treeReduceL1]
  clear_value v a w s'
  cases r.recordL1 <;> cases r.recordAmplitudes <;>
    simp [addAmplitudes, Dict.set, updateMetricsWithNoclip]

theorem epoch_nodup [NeZero D] (r : Run D n K X Dat Key S) (s : State D K Dat Key S) :
    ((epoch r s).1.map Prod.fst).Nodup := by
  rw [epoch_dict]
  cases r.recordL1 <;> cases r.recordAmplitudes <;> simp

theorem epoch_names [NeZero D] (r : Run D n K X Dat Key S) (s : State D K Dat Key S)
    (p : String × XR) (hp : p ∈ (epoch r s).1) : p.1 ∈ ["energy_noclip", "variance_noclip",
      "energy", "variance", "accept_ratio", "param_l1_norm", "amplitude_min", "amplitude_max"] := by
  rw [epoch_dict] at hp
  simp only [List.mem_append, List.mem_cons, List.not_mem_nil, or_false] at hp
  rcases hp with ((((rfl | rfl | rfl | rfl) | hp) | rfl) | hp)
  · simp
  · simp
  · simp
  · simp
  · split_ifs at hp
    · rw [List.mem_singleton.1 hp]
      simp
    · simp at hp
  · simp
  · split_ifs at hp
    · simp only [List.mem_cons, List.not_mem_nil, or_false] at hp
      rcases hp with rfl | rfl <;> simp
    · simp at hp

theorem foldr_minimum (l : List ℝ) (m : ℝ) (hm : m ∈ l) (hle : ∀ a ∈ l, m ≤ a) :
    (l.map XR.fin).foldr XR.minimum .pinf = .fin m := by
  have key : ∀ l : List ℝ, l ≠ [] → ∃ x ∈ l, (∀ a ∈ l, x ≤ a) ∧
      (l.map XR.fin).foldr XR.minimum .pinf = .fin x := by
    intro l
    induction l with
    | nil => intro h; exact absurd rfl h
    | cons a l ih =>
      intro _
      rw [List.map_cons, List.foldr_cons]
      rcases eq_or_ne l [] with rfl | hl
      · exact ⟨a, by simp, by simp, XR.minimum_pinf_right a⟩
      · obtain ⟨x, hx, hxl, h⟩ := ih hl
        rw [h, XR.minimum_fin]
        refine ⟨_, ?_, ?_, rfl⟩
        · rcases min_choice a x with h | h <;> rw [h] <;> simp [hx]
        · intro b hb
          rcases List.mem_cons.1 hb with rfl | hb
          · exact min_le_left _ _
          · exact (min_le_right _ _).trans (hxl b hb)
  obtain ⟨x, hx, hxl, h⟩ := key l (List.ne_nil_of_mem hm)
  rw [h, le_antisymm (hxl m hm) (hle x hx)]

theorem foldr_maximum (l : List ℝ) (m : ℝ) (hm : m ∈ l) (hle : ∀ a ∈ l, a ≤ m) :
    (l.map XR.fin).foldr XR.maximum .ninf = .fin m := by
  have key : ∀ l : List ℝ, l ≠ [] → ∃ x ∈ l, (∀ a ∈ l, a ≤ x) ∧
      (l.map XR.fin).foldr XR.maximum .ninf = .fin x := by
    intro l
    induction l with
    | nil => intro h; exact absurd rfl h
    | cons a l ih =>
      intro _
      rw [List.map_cons, List.foldr_cons]
      rcases eq_or_ne l [] with rfl | hl
      · exact ⟨a, by simp, by simp, by simp [XR.maximum, XR.isNan, XR.lt]⟩
      · obtain ⟨x, hx, hxl, h⟩ := ih hl
        rw [h, XR.maximum_fin]
        refine ⟨_, ?_, ?_, rfl⟩
        · rcases max_choice a x with h | h <;> rw [h] <;> simp [hx]
        · intro b hb
          rcases List.mem_cons.1 hb with rfl | hb
          · exact le_max_left _ _
          · exact (hxl b hb).trans (le_max_right _ _)
  obtain ⟨x, hx, hxl, h⟩ := key l (List.ne_nil_of_mem hm)
  rw [h, le_antisymm (hle x hx) (hxl m hm)]

/-- C94.  The text files of a training run of `N` epochs in an empty directory: one line per epoch
in each of them.  Epoch `k` begins in `stateAt r s k`, walks to `walked r (stateAt r s k) nsteps`,
where the local energies are computed, and ends in `stateAt r s (k + 1)`. -/
theorem metric_files [NeZero D] (r : Run D n K X Dat Key S) (w : (K → ℝ) → X → RealWalker K)
    (hw : r.walker = fun p x => (w p x).toX) (hn : 0 < n) (h2 : 2 ≤ D * n)
    (hsteps : 0 < r.nsteps) (acc : (Fin D → K → ℝ) → Dat → Key → Fin D → Fin n → ℝ)
    (hacc : ∀ p d k, (r.step p d k).1 = fun g i => .fin (acc p d k g i))
    (amp : Dat → Fin D → Fin n → ℝ) (hamp : ∀ d g i, r.amplitudes d g i = .fin (amp d g i))
    (s : State D K Dat Key S) (N : ℕ) :
    let files := runFiles r N s fun _ => []
    let st := stateAt r s
    let es := fun k => List.ofFn fun g => List.ofFn fun i => (w ((st k).params g)
      (r.inputs (walked r (st k) r.nsteps).1 (r.split (walked r (st k) r.nsteps).2).2 g i)).eloc
    files "energy_noclip" = (List.range N).map (fun k => .fin (avgL (es k).flatten)) ∧
    files "variance_noclip" = (List.range N).map (fun k => .fin (sampleVar (es k).flatten)) ∧
    (∃ cl : ℕ → List (List ℝ), (∀ k, ClippedRows r.config (es k) (cl k)) ∧
      files "energy" = (List.range N).map (fun k => .fin (avgL (cl k).flatten)) ∧
      files "variance" = (List.range N).map (fun k => .fin (sampleVar (cl k).flatten))) ∧
    files "accept_ratio" = (List.range N).map (fun k => .fin
      ((∑ j ∈ Finset.range r.nsteps, ∑ g, ∑ i, acc (st k).params (walked r (st k) j).1
        (walked r (st k) j).2 g i) / (r.nsteps * (D * n)))) ∧
    files "param_l1_norm" = (if r.recordL1 then
      (List.range N).map (fun k => .fin (∑ q, |(st (k + 1)).params 0 q|)) else []) ∧
    (∃ lo hi : ℕ → ℝ,
      (∀ k, IsLeast {a | ∃ g i, a = amp (st (k + 1)).data g i} (lo k)) ∧
      (∀ k, IsGreatest {a | ∃ g i, a = amp (st (k + 1)).data g i} (hi k)) ∧
      files "amplitude_min" = (if r.recordAmplitudes then
        (List.range N).map (fun k => .fin (lo k)) else []) ∧
      files "amplitude_max" = (if r.recordAmplitudes then
        (List.range N).map (fun k => .fin (hi k)) else [])) ∧
    ∀ name, name ∉ ["energy_noclip", "variance_noclip", "energy", "variance", "accept_ratio",
      "param_l1_norm", "amplitude_min", "amplitude_max"] → files name = [] := by
  intro files st es
  have hfiles : ∀ name, files name = (List.range N).flatMap fun k =>
      ((epoch r (st k)).1.lookup name).toList := by
    intro name
    exact (runFiles_eq r name (epoch_nodup r) N s _).trans (List.nil_append _)
  have hst : ∀ k, (epoch r (st k)).2 = st (k + 1) := fun k =>
    (Function.iterate_succ_apply' (fun s => (epoch r s).2) k s).symm
  have hdevs : ∀ k, (List.ofFn fun g => List.ofFn fun i => r.walker ((st k).params g)
      (r.inputs (walked r (st k) r.nsteps).1 (r.split (walked r (st k) r.nsteps).2).2 g i)) =
      (List.ofFn fun g => List.ofFn fun i => w ((st k).params g) (r.inputs
        (walked r (st k) r.nsteps).1 (r.split (walked r (st k) r.nsteps).2).2 g i)).map
        fun l => l.map RealWalker.toX := by
    intro k
    rw [hw, List.map_ofFn]
    congr 1
    funext g
    simp [Function.comp, List.map_ofFn]
    rfl
  have hes : ∀ k, (List.ofFn fun g => List.ofFn fun i => w ((st k).params g) (r.inputs
        (walked r (st k) r.nsteps).1 (r.split (walked r (st k) r.nsteps).2).2 g i)).map
        (fun l => l.map RealWalker.eloc) = es k := by
    intro k
    rw [List.map_ofFn]
    congr 1
    funext g
    simp [Function.comp, List.map_ofFn]
    rfl
  have hen := fun k => energy_metrics (n := n) r.config (List.ofFn fun g => List.ofFn fun i =>
      w ((st k).params g) (r.inputs (walked r (st k) r.nsteps).1
        (r.split (walked r (st k) r.nsteps).2).2 g i)) (by simpa using Nat.pos_of_ne_zero (NeZero.ne D))
      hn (by
        intro l hl
        obtain ⟨g, rfl⟩ := (List.mem_ofFn' _ _).1 hl
        simp) (by simpa using h2)
  simp only [hes, List.length_ofFn] at hen
  have hdict := fun k => epoch_dict r (st k)
  simp only [accept_ratio_mean hn r hsteps acc hacc, hst, hdevs] at hdict
  have hset : ∀ k, (Set.range fun g : Fin D × Fin n => amp (st (k + 1)).data g.1 g.2) =
      {a | ∃ g i, a = amp (st (k + 1)).data g i} := by
    intro k
    ext a
    simp only [Set.mem_range, Prod.exists, Set.mem_ofPred_eq, eq_comm]
  have : Nonempty (Fin n) := ⟨⟨0, hn⟩⟩
  have hlo : ∀ k, ∃ lo, IsLeast {a | ∃ g i, a = amp (st (k + 1)).data g i} lo := by
    intro k
    rw [← hset]
    obtain ⟨g, hg⟩ := Finite.exists_min fun g : Fin D × Fin n => amp (st (k + 1)).data g.1 g.2
    exact ⟨_, ⟨g, rfl⟩, by rintro _ ⟨g', rfl⟩; exact hg g'⟩
  have hhi : ∀ k, ∃ hi, IsGreatest {a | ∃ g i, a = amp (st (k + 1)).data g i} hi := by
    intro k
    rw [← hset]
    obtain ⟨g, hg⟩ := Finite.exists_max fun g : Fin D × Fin n => amp (st (k + 1)).data g.1 g.2
    exact ⟨_, ⟨g, rfl⟩, by rintro _ ⟨g', rfl⟩; exact hg g'⟩
  choose lo hlo using hlo
  choose hi hhi using hhi
  choose h1 h3 cl h4 h5 h6 using hen
  have hamps : ∀ k, (List.ofFn fun g => List.ofFn (r.amplitudes (st (k + 1)).data g)).flatten =
      (List.ofFn fun g => List.ofFn (amp (st (k + 1)).data g)).flatten.map XR.fin := by
    intro k
    rw [List.map_flatten, List.map_ofFn]
    congr 2
    funext g
    simp only [Function.comp, List.map_ofFn]
    congr 1
    funext i
    exact hamp _ _ _
  have hmem : ∀ k a, a ∈ (List.ofFn fun g => List.ofFn (amp (st (k + 1)).data g)).flatten ↔
      ∃ g i, a = amp (st (k + 1)).data g i := by
    intro k a
    simp only [List.mem_flatten, List.mem_ofFn', Set.mem_range]
    constructor
    · rintro ⟨_, ⟨g, rfl⟩, h⟩
      obtain ⟨i, rfl⟩ := (List.mem_ofFn' _ _).1 h
      exact ⟨g, i, rfl⟩
    · rintro ⟨g, i, rfl⟩
      exact ⟨_, ⟨g, rfl⟩, (List.mem_ofFn' _ _).2 ⟨i, rfl⟩⟩
  have hmin : ∀ k, (List.ofFn fun g => List.ofFn (r.amplitudes (st (k + 1)).data g)).flatten.foldr
      XR.minimum .pinf = .fin (lo k) := by
    intro k
    rw [hamps]
    exact foldr_minimum _ _ ((hmem k _).2 (hlo k).1) fun a ha => (hlo k).2 ((hmem k a).1 ha)
  have hmax : ∀ k, (List.ofFn fun g => List.ofFn (r.amplitudes (st (k + 1)).data g)).flatten.foldr
      XR.maximum .ninf = .fin (hi k) := by
    intro k
    rw [hamps]
    exact foldr_maximum _ _ ((hmem k _).2 (hhi k).1) fun a ha => (hhi k).2 ((hmem k a).1 ha)
  have hflat : ∀ (name : String) (f : ℕ → XR),
      (∀ k, (epoch r (st k)).1.lookup name = some (f k)) → files name = (List.range N).map f := by
    intro name f hf
    rw [hfiles]
    rw [List.map_eq_flatMap]
    congr 1
    funext k
    rw [hf]
    rfl
  have hnone : ∀ name, (∀ k, (epoch r (st k)).1.lookup name = none) → files name = [] := by
    intro name hf
    rw [hfiles]
    simp only [hf]
    simp
  refine ⟨?_, ?_, ⟨cl, h4, ?_, ?_⟩, ?_, ?_, ⟨lo, hi, hlo, hhi, ?_, ?_⟩, ?_⟩
  · refine hflat _ _ fun k => ?_
    rw [hdict, h1]
    rfl
  · refine hflat _ _ fun k => ?_
    rw [hdict, h3]
    rfl
  · refine hflat _ _ fun k => ?_
    rw [hdict, h5]
    rfl
  · refine hflat _ _ fun k => ?_
    rw [hdict, h6]
    rfl
  · refine hflat _ _ fun k => ?_
    rw [hdict]
    cases r.recordL1 <;> rfl
  · cases hL : r.recordL1
    · refine hnone _ fun k => ?_
      rw [hdict, hL]
      cases r.recordAmplitudes <;> rfl
    · refine hflat _ _ fun k => ?_
      rw [hdict, hL]
      rfl
  · cases hA : r.recordAmplitudes
    · refine hnone _ fun k => ?_
      rw [hdict, hA]
      cases r.recordL1 <;> rfl
    · refine hflat _ _ fun k => ?_
      rw [hdict, hA, hmin]
      cases r.recordL1 <;> rfl
  · cases hA : r.recordAmplitudes
    · refine hnone _ fun k => ?_
      rw [hdict, hA]
      cases r.recordL1 <;> rfl
    · refine hflat _ _ fun k => ?_
      rw [hdict, hA, hmax]
      cases r.recordL1 <;> rfl
  · intro name hname
    refine hnone _ fun k => ?_
    rw [List.lookup_eq_none_iff]
    intro p hp
    simp only [bne_iff_ne, ne_eq]
    rintro rfl
    exact hname (epoch_names r _ p hp)

/-- Two devices with two walkers each, whose coordinates grow by one in every step and are their
local energies. -/
noncomputable def exampleRun : Run 2 2 Unit ℝ (Fin 2 → Fin 2 → ℝ) Unit (DescentState Unit) where
  config := ⟨exampleConfig "sgd" 0, .standard, 5, .median, false⟩
  recordL1 := false
  recordAmplitudes := true
  nsteps := 2
  step := fun _ x k => (fun _ i => .fin ((i : ℕ) / 2), fun g i => x g i + 1, k)
  split := fun k => (k, k)
  inputs := fun x _ => x
  walker := fun _ x => (⟨x, 0, fun _ => x, fun _ => 0⟩ : RealWalker Unit).toX
  apply := plainRuleApply (.sgd (fun _ => 0.1) none false)
  updateData := fun x _ => x
  amplitudes := fun x g i => .fin (x g i)

theorem exampleRun_data (s : State 2 Unit (Fin 2 → Fin 2 → ℝ) Unit (DescentState Unit)) (k : ℕ) :
    (stateAt exampleRun s k).data = fun g i => s.data g i + 2 * k := by
  induction k with
  | zero => simp [stateAt]
  | succ k ih =>
    have h : (stateAt exampleRun s (k + 1)).data =
        fun g i => (stateAt exampleRun s k).data g i + 1 + 1 := by
      rw [stateAt, Function.iterate_succ_apply']
      rfl
    rw [h, ih]
    funext g i
    push_cast
    ring

/-- Two epochs from the coordinates 0, 1, 2 and 3: average energies, acceptance ratios and largest
amplitudes. -/
example : let files := runFiles exampleRun 2 ⟨fun _ _ => 0, fun _ => .sgd (sgdInit none),
      fun g i => 2 * (g : ℕ) + (i : ℕ), ()⟩ fun _ => []
    files "energy_noclip" = [.fin 3.5, .fin 5.5] ∧ files "accept_ratio" = [.fin 0.25, .fin 0.25] ∧
      files "param_l1_norm" = [] ∧ ∃ a b, files "amplitude_max" = [.fin a, .fin b] := by
  intro files
  obtain ⟨h1, -, -, h2, h3, ⟨-, hi, -, -, -, h4⟩, -⟩ := metric_files exampleRun
    (fun _ x => ⟨x, 0, fun _ => x, fun _ => 0⟩) rfl (by norm_num) (by norm_num)
    (by simp [exampleRun]) (fun _ _ _ _ i => (i : ℕ) / 2) (fun _ _ _ => rfl) (fun x g i => x g i)
    (fun _ _ _ => rfl) ⟨fun _ _ => 0, fun _ => .sgd (sgdInit none),
      fun g i => 2 * (g : ℕ) + (i : ℕ), ()⟩ 2
  have hwalk : ∀ s : State 2 Unit (Fin 2 → Fin 2 → ℝ) Unit (DescentState Unit),
      (walked exampleRun s exampleRun.nsteps).1 = fun g i => s.data g i + 1 + 1 := fun _ => rfl
  refine ⟨h1.trans ?_, h2.trans ?_, h3, hi 0, hi 1, h4⟩
  · have hin : ∀ x k, exampleRun.inputs x k = x := fun _ _ => rfl
    simp only [hin, hwalk, exampleRun_data, List.range_succ, List.range_zero]
    norm_num [avgL]
  · simp only [exampleRun, List.range_succ, List.range_zero]
    norm_num

end Verif.Props
