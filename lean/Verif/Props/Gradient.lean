import Verif.Props.Energy

/-!
Property theorems about nan handling in training (C32) and the energy gradient (C33).
-/

namespace Verif.Props
open Spec Energy

/-! ### C32 -/

/-- Clipping settings reachable from the configuration. -/
def IsClipSetting (f : Option (List XR → XR → List XR)) : Prop :=
  ∃ (threshold : ℝ) (c : Center), f = getClippingFn threshold c

theorem clipSetting_cases {f : Option (List XR → XR → List XR)} (h : IsClipSetting f) :
    f = none ∨ ∃ t c, 0 < t ∧ f = some (totalVariationClip t c) := by
  obtain ⟨t, c, rfl⟩ := h
  unfold getClippingFn
  split_ifs with h
  · exact .inr ⟨t, c, h, rfl⟩
  · exact .inl rfl

/-- C32 as stated: with nan_safe, energy and gradient are not nan although some walker's local
energy is nan, as long as every device has a walker with a finite one. -/
def NanSafeTolerates : Prop :=
  ∀ (f : Option (List XR → XR → List XR)), IsClipSetting f →
  ∀ (nchains : ℕ) (devs : List (List (Walker Unit))), 2 ≤ nchains → devs ≠ [] →
    (∀ l ∈ devs, ∃ w ∈ l, ∃ e, w.eloc = .fin e) →
    (∀ l ∈ devs, ∀ w ∈ l, (∃ e, w.eloc = .fin e) ∨ w.eloc = .nan) →
    (∀ l ∈ devs, ∀ w ∈ l, (∃ p, w.logPsi = .fin p) ∧ ∀ k, ∃ g, w.gradLogPsi k = .fin g) →
    (valueAndGrad .standard nchains f true devs).1 ≠ .nan ∧
      meanGrad (valueAndGrad .standard nchains f true devs).2.2 () ≠ .nan

theorem clip_nan (lo hi : XR) : clip .nan lo hi = .nan := by
  unfold clip
  rw [XR.maximum_nan_right, XR.minimum_nan_right]

theorem clip_keeps_nan (t : ℝ) (c : Center) (es : List XR) (m : XR) (i : ℕ)
    (h : es[i]? = some .nan) : (totalVariationClip t c es m)[i]? = some .nan := by
  unfold totalVariationClip
  simp only [List.getElem?_map, h, Option.map_some, clip_nan]

theorem clip_length (t : ℝ) (c : Center) (es : List XR) (m : XR) :
    (totalVariationClip t c es m).length = es.length := by
  simp [totalVariationClip]

/-- A nan centred energy makes the gradient of its device nan, for every parameter. -/
theorem standardGrad_nan {K : Type*} (b : Bool) (n : ℕ) (cw : List (XR × Walker K))
    (w : Walker K) (h : (XR.nan, w) ∈ cw) (k : K) : standardGrad b n cw k = .nan := by
  unfold standardGrad
  refine XR.lsum_nan (List.mem_map.mpr ⟨_, h, ?_⟩)
  simp

/-- C32, gradient part, is false in every case: one walker with a nan local energy makes every
component of the gradient nan, for every clipping setting, with nan_safe on or off: the reverse
pass multiplies the zero cotangent of the masked entry by its nan energy. -/
theorem nan_walker_poisons_gradient {K : Type*} (t : EnergyType)
    (f : Option (List XR → XR → List XR)) (hf : IsClipSetting f) (nchains : ℕ) (nanSafe : Bool)
    (devs : List (List (Walker K))) (l : List (Walker K)) (hl : l ∈ devs) (w : Walker K)
    (hw : w ∈ l) (hnan : w.eloc = .nan) (k : K) :
    meanGrad (valueAndGrad t nchains f nanSafe devs).2.2 k = .nan := by
  obtain ⟨d, hd, rfl⟩ := List.mem_iff_getElem.mp hl
  obtain ⟨i, hi, rfl⟩ := List.mem_iff_getElem.mp hw
  have main : ∀ f, (f = none ∨ ∃ t c, 0 < t ∧ f = some (totalVariationClip t c)) →
      ∃ p ∈ ((getClipped (devs.map fun l => l.map Walker.eloc) nchains f
        nanSafe).2.2.centered.zip devs), (XR.nan, (devs[d])[i]) ∈ p.1.zip p.2 := by
    intro f hf
    -- the (clipped) local energies of device `d` have a nan at position `i`
    obtain ⟨r, hr, hri⟩ : ∃ r, (getClipped (devs.map fun l => l.map Walker.eloc) nchains f
        nanSafe).2.1[d]? = some r ∧ r[i]? = some XR.nan := by
      have h0 : ((devs[d]).map Walker.eloc)[i]? = some .nan := by
        rw [List.getElem?_map, List.getElem?_eq_getElem hi, Option.map_some, hnan]
      rcases hf with rfl | ⟨t, c, -, rfl⟩
      · refine ⟨(devs[d]).map Walker.eloc, ?_, h0⟩
        simp only [getClipped, List.getElem?_map, List.getElem?_eq_getElem hd, Option.map_some]
      · refine ⟨totalVariationClip t c ((devs[d]).map Walker.eloc) (getStatistics
          (devs.map fun l => l.map Walker.eloc) nchains false).1, ?_, clip_keeps_nan _ _ _ _ _ h0⟩
        simp only [getClipped, List.getElem?_map, List.getElem?_eq_getElem hd, Option.map_some]
    generalize hE : (getClipped (devs.map fun l => l.map Walker.eloc) nchains f nanSafe).1 = E
    refine ⟨(r.map fun e => e - E, devs[d]), ?_, ?_⟩
    · rw [List.mem_iff_getElem?]
      refine ⟨d, ?_⟩
      rw [List.getElem?_zip_eq_some]
      refine ⟨?_, List.getElem?_eq_getElem hd⟩
      show (((getClipped (devs.map fun l => l.map Walker.eloc) nchains f nanSafe).2.1.map
        fun l => l.map fun e => e - (getClipped (devs.map fun l => l.map Walker.eloc)
          nchains f nanSafe).1))[d]? = _
      rw [List.getElem?_map, hr, Option.map_some, hE]
    · rw [List.mem_iff_getElem?]
      refine ⟨i, ?_⟩
      rw [List.getElem?_zip_eq_some]
      refine ⟨?_, List.getElem?_eq_getElem hi⟩
      rw [List.getElem?_map, hri, Option.map_some, XR.nan_sub]
  unfold meanGrad pmean
  refine mean_nan ?_
  have std : ∀ f, (f = none ∨ ∃ t c, 0 < t ∧ f = some (totalVariationClip t c)) →
      ∃ p ∈ ((getClipped (devs.map fun l => l.map Walker.eloc) nchains f
        nanSafe).2.2.centered.zip devs), standardGrad nanSafe nchains (p.1.zip p.2) k = .nan := by
    intro f hf
    obtain ⟨p, hp, hnan⟩ := main f hf
    exact ⟨p, hp, standardGrad_nan _ _ _ _ hnan k⟩
  have hfc := clipSetting_cases hf
  cases t with
  | ibp =>
    obtain ⟨p, hp, h⟩ := std none (.inl rfl)
    simp only [valueAndGrad, List.map_map]
    exact List.mem_map.mpr ⟨p, hp, by simp only [Function.comp, h, XR.nan_add]⟩
  | standard =>
    obtain ⟨p, hp, h⟩ := std f hfc
    simp only [valueAndGrad, List.map_map]
    exact List.mem_map.mpr ⟨p, hp, by simp only [Function.comp, h]⟩
  | randomParticle =>
    obtain ⟨p, hp, h⟩ := std f hfc
    simp only [valueAndGrad, List.map_map]
    exact List.mem_map.mpr ⟨p, hp, by simp only [Function.comp, h]⟩

/-- C32, energy part, is also false for the default centre: with centre "mean" one nan walker on
any device makes the energy nan. -/
theorem nan_walker_poisons_energy_mean_center (t : ℝ) (ht : 0 < t) (nchains : ℕ)
    (nanSafe : Bool) (devs : List (List XR)) (l : List XR) (hl : l ∈ devs)
    (hn : XR.nan ∈ l) :
    (getClipped devs nchains (getClippingFn t .mean) nanSafe).1 = .nan := by
  have hf : getClippingFn t .mean = some (totalVariationClip t .mean) := by
    simp [getClippingFn, ht]
  have h0 : (getStatistics devs nchains false).1 = .nan :=
    mean_nan (List.mem_map.mpr ⟨l, hl, mean_nan hn⟩)
  have hz : ∀ es : List XR, totalVariationClip t .mean es .nan = es.map fun _ => .nan := by
    intro es
    unfold totalVariationClip
    simp only [clipCenter, XR.nan_sub, XR.nan_add]
    exact List.map_congr_left fun e _ => by
      unfold clip; rw [XR.maximum_nan_left, XR.minimum_nan_left]
  rw [hf]
  have key : (getClipped devs nchains (some (totalVariationClip t .mean)) nanSafe).1 =
      allreduceMean nanSafe (devs.map fun es => totalVariationClip t .mean es
        (getStatistics devs nchains false).1) := rfl
  rw [key, h0]
  simp_rw [hz]
  cases nanSafe with
  | false =>
    refine mean_nan (List.mem_map.mpr ⟨l.map fun _ => .nan,
      List.mem_map.mpr ⟨l, hl, rfl⟩, mean_nan ?_⟩)
    exact List.mem_map.mpr ⟨_, hn, rfl⟩
  | true =>
    refine nanmean_all_nan_device _ (l.map fun _ => .nan) (List.mem_map.mpr ⟨l, hl, rfl⟩) ?_
    intro x hx
    obtain ⟨_, -, rfl⟩ := List.mem_map.mp hx
    rfl

/-- The walkers used in the refutation: one with a nan local energy, one with energy 1. -/
noncomputable def nanWalkers : List (Walker Unit) :=
  [⟨.nan, .fin 1, fun _ => .fin 1, fun _ => .fin 0⟩,
   ⟨.fin 1, .fin 2, fun _ => .fin 1, fun _ => .fin 0⟩]

/-- C32 is false, already without clipping. -/
theorem nan_safe_tolerates_fails : ¬ NanSafeTolerates := by
  intro h
  refine (h none ⟨0, .mean, by simp [getClippingFn]⟩ 2 [nanWalkers] le_rfl (by simp) ?_ ?_ ?_).2
    (nan_walker_poisons_gradient .standard none ⟨0, .mean, by simp [getClippingFn]⟩ 2 true
      [nanWalkers] nanWalkers (by simp) ⟨.nan, .fin 1, fun _ => .fin 1, fun _ => .fin 0⟩
      (by simp [nanWalkers]) rfl ())
  all_goals simp [nanWalkers]

theorem nansum_fin (l : List XR) (h : ∀ x ∈ l, (∃ e, x = .fin e) ∨ x = .nan) :
    ∃ s : ℝ, (l.map fun x => if x.isNan then XR.fin 0 else x).sum = .fin s := by
  induction l with
  | nil => exact ⟨0, rfl⟩
  | cons a t ih =>
    obtain ⟨s, hs⟩ := ih fun x hx => h x (by simp [hx])
    rcases h a (by simp) with ⟨e, rfl⟩ | rfl
    · exact ⟨e + s, by rw [List.map_cons, List.sum_cons, hs]; simp⟩
    · exact ⟨0 + s, by rw [List.map_cons, List.sum_cons, hs]; simp [XR.isNan]⟩

theorem nanmean_isFin (l : List XR) (h : ∀ x ∈ l, (∃ e, x = .fin e) ∨ x = .nan)
    (hf : ∃ e, XR.fin e ∈ l) : ∃ s : ℝ, nanmean l = .fin s := by
  obtain ⟨s, hs⟩ := nansum_fin l h
  obtain ⟨e, he⟩ := hf
  unfold nanmean
  rw [hs, XR.ofNat, XR.fin_div]
  · exact ⟨_, rfl⟩
  · have : 0 < l.countP fun x => decide (¬ x.isNan) :=
      List.countP_pos_iff.mpr ⟨_, he, by simp⟩
    exact_mod_cast this.ne'

theorem allreduce_isFin (devs : List (List XR)) (hne : devs ≠ [])
    (h : ∀ l ∈ devs, ∀ x ∈ l, (∃ e, x = .fin e) ∨ x = .nan)
    (hf : ∀ l ∈ devs, ∃ e, XR.fin e ∈ l) : ∃ s : ℝ, allreduceMean true devs = .fin s := by
  have key : ∀ ds : List (List XR), (∀ l ∈ ds, ∃ s : ℝ, nanmean l = .fin s) →
      ∃ rs : List ℝ, ds.map nanmean = rs.map XR.fin ∧ rs.length = ds.length := by
    intro ds hds
    induction ds with
    | nil => exact ⟨[], rfl, rfl⟩
    | cons a t ih =>
      obtain ⟨rs, h1, h2⟩ := ih fun l hl => hds l (by simp [hl])
      obtain ⟨s, hs⟩ := hds a (by simp)
      exact ⟨s :: rs, by simp [hs, h1], by simp [h2]⟩
  obtain ⟨rs, h1, h2⟩ := key devs fun l hl => nanmean_isFin l (h l hl) (hf l hl)
  have hrs : rs ≠ [] := by
    intro h0
    rw [h0] at h2
    exact hne (List.eq_nil_of_length_eq_zero h2.symm)
  refine ⟨avgL rs, ?_⟩
  show pmean (devs.map nanmean) = _
  rw [h1]
  exact mean_fin rs hrs

theorem filter_nan_eq (l : List XR) (h : ∀ x ∈ l, (∃ e, x = .fin e) ∨ x = .nan) :
    ∃ r : List ℝ, l.filter (fun x => decide (¬ x.isNan)) = r.map XR.fin := by
  induction l with
  | nil => exact ⟨[], rfl⟩
  | cons a t ih =>
    obtain ⟨r, hr⟩ := ih fun x hx => h x (by simp [hx])
    rcases h a (by simp) with ⟨e, rfl⟩ | rfl
    · exact ⟨e :: r, by rw [List.filter_cons_of_pos (by simp), hr]; rfl⟩
    · exact ⟨r, by rw [List.filter_cons_of_neg (by simp [XR.isNan]), hr]⟩

theorem nanmedian_isFin (l : List XR) (h : ∀ x ∈ l, (∃ e, x = .fin e) ∨ x = .nan)
    (hf : ∃ e, XR.fin e ∈ l) : ∃ s : ℝ, nanmedian l = .fin s := by
  obtain ⟨r, hr⟩ := filter_nan_eq l h
  obtain ⟨e, he⟩ := hf
  have hrne : r ≠ [] := by
    rintro rfl
    have : XR.fin e ∈ l.filter (fun x => decide (¬ x.isNan)) :=
      List.mem_filter.mpr ⟨he, by simp⟩
    rw [hr] at this
    simp at this
  refine ⟨med r, ?_⟩
  rw [← nanmedian_fin r hrne]
  unfold nanmedian
  rw [hr, filter_fin]

/-- C32, the part which holds: with nan_safe, without clipping or with centre "median", the energy
used for training is finite when each device has a finite walker and all others are finite or nan.
Missing: centre "mean" (`nan_walker_poisons_energy_mean_center`) and the gradient
(`nan_walker_poisons_gradient`), where the claim is false. -/
theorem nan_safe_energy_partial (f : Option (List XR → XR → List XR))
    (hf : f = none ∨ ∃ t, 0 < t ∧ f = getClippingFn t .median) (nchains : ℕ)
    (devs : List (List XR)) (hne : devs ≠ [])
    (h : ∀ l ∈ devs, ∀ x ∈ l, (∃ e, x = .fin e) ∨ x = .nan)
    (hfin : ∀ l ∈ devs, ∃ e, XR.fin e ∈ l) :
    ∃ e : ℝ, (getClipped devs nchains f true).1 = .fin e := by
  rcases hf with rfl | ⟨t, ht, rfl⟩
  · exact allreduce_isFin devs hne h hfin
  · have hf : getClippingFn t .median = some (totalVariationClip t .median) := by
      simp [getClippingFn, ht]
    rw [hf]
    generalize hm : (getStatistics devs nchains false).1 = m
    have key : (getClipped devs nchains (some (totalVariationClip t .median)) true).1 =
        allreduceMean true (devs.map fun es => totalVariationClip t .median es m) := by
      rw [← hm]; rfl
    rw [key]
    have val : ∀ es ∈ devs, ∃ lo hi : ℝ, totalVariationClip t .median es m =
        es.map fun e => clip e (.fin lo) (.fin hi) := by
      intro es hes
      obtain ⟨c, hc⟩ := nanmedian_isFin es (h es hes) (hfin es hes)
      obtain ⟨v, hv⟩ : ∃ v : ℝ, nanmean (es.map fun e => XR.abs (e - XR.fin c)) = .fin v := by
        refine nanmean_isFin _ ?_ ?_
        · intro x hx
          obtain ⟨y, hy, rfl⟩ := List.mem_map.mp hx
          rcases h es hes y hy with ⟨e, rfl⟩ | rfl
          · exact .inl ⟨|e - c|, by simp⟩
          · exact .inr (by simp [XR.abs])
        · obtain ⟨e, he⟩ := hfin es hes
          exact ⟨|e - c|, List.mem_map.mpr ⟨_, he, by simp⟩⟩
      refine ⟨c - t * v, c + t * v, ?_⟩
      unfold totalVariationClip
      simp only [clipCenter, hc, hv, XR.fin_mul, XR.fin_sub, XR.fin_add]
    refine allreduce_isFin _ (by simpa using hne) ?_ ?_
    · intro l hl x hx
      obtain ⟨es, hes, rfl⟩ := List.mem_map.mp hl
      obtain ⟨lo, hi, e⟩ := val es hes
      rw [e] at hx
      obtain ⟨y, hy, rfl⟩ := List.mem_map.mp hx
      rcases h es hes y hy with ⟨e, rfl⟩ | rfl
      · exact .inl ⟨_, by unfold clip; rw [XR.maximum_fin, XR.minimum_fin]⟩
      · exact .inr (clip_nan _ _)
    · intro l hl
      obtain ⟨es, hes, rfl⟩ := List.mem_map.mp hl
      obtain ⟨lo, hi, e⟩ := val es hes
      obtain ⟨y, hy⟩ := hfin es hes
      refine ⟨min hi (max lo y), ?_⟩
      rw [e]
      exact List.mem_map.mpr ⟨_, hy, by unfold clip; rw [XR.maximum_fin, XR.minimum_fin]⟩

example : ∀ l ∈ [[XR.nan, .fin 1], [.fin 2, .fin 3]],
    (∀ x ∈ l, (∃ e, x = .fin e) ∨ x = .nan) ∧ ∃ e, XR.fin e ∈ l := by
  intro l hl
  fin_cases hl
  · exact ⟨by simp, 1, by simp⟩
  · exact ⟨by simp, 2, by simp⟩

/-! ### C33 -/

/-- A walker with finite real data. -/
structure RealWalker (K : Type*) where
  eloc : ℝ
  logPsi : ℝ
  gradLogPsi : K → ℝ
  gradEloc : K → ℝ

/-- As seen by the code. -/
noncomputable def RealWalker.toX {K : Type*} (w : RealWalker K) : Walker K :=
  ⟨.fin w.eloc, .fin w.logPsi, fun k => .fin (w.gradLogPsi k), fun k => .fin (w.gradEloc k)⟩

/-- The estimator of C33: `2/(n-1) * sum (e - mean e) * g`, on pairs `(e, g)`. -/
noncomputable def covGrad (l : List (ℝ × ℝ)) : ℝ :=
  2 / ((l.length : ℝ) - 1) * (l.map fun p => (p.1 - avgL (l.map Prod.fst)) * p.2).sum

theorem sum_centered (l : List ℝ) : (l.map fun x => x - avgL l).sum = 0 := by
  rcases eq_or_ne l [] with rfl | hne
  · simp
  have hl : (l.length : ℝ) ≠ 0 := by
    have : l.length ≠ 0 := by simpa using hne
    exact_mod_cast this
  have hs : ∀ (c : ℝ) (l : List ℝ), (l.map (fun x => x - c)).sum = l.sum - l.length * c := by
    intro c l
    induction l with
    | nil => simp
    | cons a t ih =>
      rw [List.map_cons, List.sum_cons, ih]; push_cast [List.sum_cons, List.length_cons]; ring
  rw [hs]
  unfold avgL
  field_simp
  ring

/-- C33: it is twice the unbiased sample covariance. -/
theorem covGrad_eq_cov (l : List (ℝ × ℝ)) : covGrad l = 2 * sampleCov l := by
  unfold covGrad sampleCov
  have h : ∀ (a b : ℝ) (l : List (ℝ × ℝ)), (l.map fun p => (p.1 - a) * (p.2 - b)).sum =
      (l.map fun p => (p.1 - a) * p.2).sum - b * ((l.map Prod.fst).map fun x => x - a).sum := by
    intro a b l
    induction l with
    | nil => simp
    | cons p t ih => simp only [List.map_cons, List.sum_cons, ih]; ring
  rw [h, sum_centered]
  ring

/-- C33: unaffected by adding a constant to all local energies. -/
theorem covGrad_shift (l : List (ℝ × ℝ)) (c : ℝ) :
    covGrad (l.map fun p => (p.1 + c, p.2)) = covGrad l := by
  rcases eq_or_ne l [] with rfl | hne
  · rfl
  have e : (l.map fun p => (p.1 + c, p.2)).map Prod.fst = (l.map Prod.fst).map (· + c) := by
    rw [List.map_map, List.map_map]; rfl
  unfold covGrad
  rw [e, avgL_shift _ c (by simpa using hne), List.length_map, List.map_map]
  congr 2
  exact List.map_congr_left fun p _ => by simp only [Function.comp]; ring

/-- C33: zero when all local energies coincide. -/
theorem covGrad_eigenstate (l : List (ℝ × ℝ)) (a : ℝ) (h : ∀ p ∈ l, p.1 = a) :
    covGrad l = 0 := by
  rcases eq_or_ne l [] with rfl | hne
  · simp [covGrad]
  have : avgL (l.map Prod.fst) = a := avgL_const (by
    intro e he
    obtain ⟨p, hp, rfl⟩ := List.mem_map.mp he
    exact h p hp) (by simpa using hne)
  unfold covGrad
  rw [this]
  have : (l.map fun p => (p.1 - a) * p.2) = l.map fun _ => (0 : ℝ) :=
    List.map_congr_left fun p hp => by rw [h p hp]; ring
  rw [this]
  simp

theorem standardGrad_real {K : Type*} (b : Bool) (N : ℕ) (hN : 2 ≤ N) (E : ℝ)
    (c : List ℝ) (ws : List (RealWalker K)) (n : ℕ) (hn : 0 < n) (hc : c.length = n)
    (hw : ws.length = n) (k : K) :
    standardGrad b N (((c.map XR.fin).map fun e => e - XR.fin E).zip (ws.map RealWalker.toX)) k =
      .fin ((2 * N / ((N : ℝ) - 1)) *
        ((c.zip ws).map fun p => (p.1 - E) * p.2.gradLogPsi k).sum) / XR.ofNat n := by
  have hN1 : ((N : ℝ) - 1) ≠ 0 := by
    have : (2 : ℝ) ≤ N := by exact_mod_cast hN
    linarith
  have hn0 : (n : ℝ) ≠ 0 := by exact_mod_cast hn.ne'
  have hz : (((c.map XR.fin).map fun e => e - XR.fin E).zip (ws.map RealWalker.toX)) =
      (c.zip ws).map fun p => (XR.fin (p.1 - E), p.2.toX) := by
    rw [List.map_map, List.zip_map]
    exact List.map_congr_left fun p _ => by simp [Prod.map]
  have hgf : gradFactor N = .fin (2 * N / ((N : ℝ) - 1)) := by
    unfold gradFactor
    rw [XR.ofNat, XR.fin_mul, XR.fin_div hN1]
  have hlen : (c.zip ws).length = n := by simp [hc, hw]
  unfold standardGrad
  rw [hz]
  simp only [List.map_map]
  have hprod : (c.zip ws).map ((fun p : XR × Walker K => p.1 * p.2.logPsi) ∘
      fun p => (XR.fin (p.1 - E), p.2.toX)) =
      ((c.zip ws).map fun p => (p.1 - E) * p.2.logPsi).map XR.fin := by
    rw [List.map_map]
    exact List.map_congr_left fun p _ => by simp [RealWalker.toX]
  rw [hprod]
  have hct : ∀ x : ℝ, meanCotangent b (gradFactor N)
      (((c.zip ws).map fun p => (p.1 - E) * p.2.logPsi).map XR.fin) (.fin x) =
      .fin (2 * N / ((N : ℝ) - 1) / n) := by
    intro x
    have hd : gradFactor N / XR.ofNat n = .fin (2 * N / ((N : ℝ) - 1) / n) := by
      rw [hgf, XR.ofNat, XR.fin_div hn0]
    unfold meanCotangent
    rw [count_fin, List.length_map, List.length_map, hlen, hd]
    cases b
    · simp only [Bool.false_eq_true, if_false, List.length_map, hlen, hd]
    · rw [if_pos rfl, if_neg (XR.not_isNan_fin x)]
  have : (c.zip ws).map ((fun p : XR × Walker K => meanCotangent b (gradFactor N)
        (((c.zip ws).map fun p => (p.1 - E) * p.2.logPsi).map XR.fin) (p.1 * p.2.logPsi) * p.1 *
      p.2.gradLogPsi k) ∘ fun p => (XR.fin (p.1 - E), p.2.toX)) =
      ((c.zip ws).map fun p => (2 * N / ((N : ℝ) - 1) / n) *
        ((p.1 - E) * p.2.gradLogPsi k)).map XR.fin := by
    rw [List.map_map (f := fun p : ℝ × RealWalker K => (2 * N / ((N : ℝ) - 1) / n) *
        ((p.1 - E) * p.2.gradLogPsi k))]
    refine List.map_congr_left fun p _ => ?_
    simp only [Function.comp, RealWalker.toX, XR.fin_mul, hct]
    congr 1; ring
  rw [this, XR.lsum_fin, List.sum_map_mul_left, XR.ofNat, XR.fin_div hn0]
  congr 1
  ring

theorem zip_flatten_sum {α β : Type*} (n : ℕ) (F : α × β → ℝ) :
    ∀ (A : List (List α)) (B : List (List β)), (∀ r ∈ A, r.length = n) →
    (∀ r ∈ B, r.length = n) → A.length = B.length →
    ((A.zip B).map fun p => ((p.1.zip p.2).map F).sum).sum = ((A.flatten.zip B.flatten).map F).sum
  | [], [], _, _, _ => by simp
  | a :: A, b :: B, hA, hB, h => by
    rw [List.flatten_cons, List.flatten_cons, List.zip_append (by
      rw [hA a (by simp), hB b (by simp)])]
    rw [List.map_append, List.sum_append, ← zip_flatten_sum n F A B
      (fun r hr => hA r (by simp [hr])) (fun r hr => hB r (by simp [hr])) (by simpa using h)]
    simp

/-- Average of the per-device reverse passes. -/
theorem meanGrad_standard {K : Type*} (b : Bool) (N : ℕ) (hN : 2 ≤ N)
    (E : List (List ℝ)) (devs : List (List (RealWalker K))) (n : ℕ) (hn : 0 < n)
    (hdev : ∀ r ∈ devs, r.length = n) (hE : ∀ r ∈ E, r.length = n)
    (hlen : E.length = devs.length) (hne : devs ≠ []) (hNtot : N = devs.flatten.length) (k : K) :
    meanGrad ((((E.map fun r => r.map XR.fin).map fun l => l.map fun e =>
        e - XR.fin (avgL E.flatten)).zip (devs.map fun l => l.map RealWalker.toX)).map fun p =>
        standardGrad b N (p.1.zip p.2)) k =
      .fin (covGrad ((E.flatten.zip devs.flatten).map fun p => (p.1, p.2.gradLogPsi k))) := by
  have hz : (((E.map fun r => r.map XR.fin).map fun l => l.map fun e =>
        e - XR.fin (avgL E.flatten)).zip (devs.map fun l => l.map RealWalker.toX)) =
      (E.zip devs).map fun p => ((p.1.map XR.fin).map fun e => e - XR.fin (avgL E.flatten),
        p.2.map RealWalker.toX) := by
    rw [List.map_map, List.zip_map]
    exact List.map_congr_left fun p _ => by simp [Prod.map]
  have hdl : 0 < devs.length := List.length_pos_of_ne_nil hne
  have hzl : (E.zip devs).length = devs.length := by simp [hlen]
  have hfl := length_flatten_uniform hdev
  have hfE := length_flatten_uniform hE
  unfold meanGrad
  rw [hz, List.map_map, List.map_map]
  have : (E.zip devs).map (((fun g : K → XR => g k) ∘ fun p => standardGrad b N (p.1.zip p.2)) ∘
      fun p => ((p.1.map XR.fin).map fun e => e - XR.fin (avgL E.flatten),
        p.2.map RealWalker.toX)) =
      (E.zip devs).map fun p => XR.fin ((2 * N / ((N : ℝ) - 1)) *
        ((p.1.zip p.2).map fun q => (q.1 - avgL E.flatten) * q.2.gradLogPsi k).sum) /
          XR.ofNat n := by
    refine List.map_congr_left fun p hp => ?_
    simp only [Function.comp]
    exact standardGrad_real b N hN _ p.1 p.2 n hn (hE _ (List.of_mem_zip hp).1)
      (hdev _ (List.of_mem_zip hp).2) k
  rw [this, pmean_div (E.zip devs) (fun p => XR.fin ((2 * N / ((N : ℝ) - 1)) *
        ((p.1.zip p.2).map fun q => (q.1 - avgL E.flatten) * q.2.gradLogPsi k).sum)) n hn (by
      intro h0; rw [h0] at hzl; simp at hzl; omega), hzl, ← hfl, ← hNtot]
  have hN0 : (N : ℝ) ≠ 0 := by
    have : N ≠ 0 := by omega
    exact_mod_cast this
  have hN1 : ((N : ℝ) - 1) ≠ 0 := by
    have : (2 : ℝ) ≤ N := by exact_mod_cast hN
    linarith
  have hmm : (E.zip devs).map (fun p => XR.fin ((2 * N / ((N : ℝ) - 1)) *
        ((p.1.zip p.2).map fun q => (q.1 - avgL E.flatten) * q.2.gradLogPsi k).sum)) =
      ((E.zip devs).map fun p => (2 * N / ((N : ℝ) - 1)) *
        ((p.1.zip p.2).map fun q => (q.1 - avgL E.flatten) * q.2.gradLogPsi k).sum).map
          XR.fin := by
    rw [List.map_map]; rfl
  rw [hmm, XR.lsum_fin, List.sum_map_mul_left, zip_flatten_sum n
    (fun q : ℝ × RealWalker K => (q.1 - avgL E.flatten) * q.2.gradLogPsi k) E devs hE hdev hlen,
    XR.ofNat, XR.fin_div hN0]
  congr 1
  have hfst : ((E.flatten.zip devs.flatten).map fun p => (p.1, p.2.gradLogPsi k)).map Prod.fst =
      E.flatten := by
    rw [List.map_map]
    have : (Prod.fst ∘ fun p : ℝ × RealWalker K => (p.1, p.2.gradLogPsi k)) = Prod.fst := rfl
    rw [this, List.map_fst_zip (by rw [hfl, hfE, hlen])]
  unfold covGrad
  rw [hfst, List.length_map, List.length_zip, hfE, hlen, ← hfl, ← hNtot, Nat.min_self,
    List.map_map]
  have : ((fun p : ℝ × ℝ => (p.1 - avgL E.flatten) * p.2) ∘
      fun p : ℝ × RealWalker K => (p.1, p.2.gradLogPsi k)) =
      fun q => (q.1 - avgL E.flatten) * q.2.gradLogPsi k := rfl
  rw [this]
  field_simp

/-- C33.  Standard (and random-particle) estimator without clipping, every device layout, nan-safe
or not: the gradient given to the optimizer is `2/(n-1) * sum (E_i - mean E) grad_i`.
Missing: with clipping switched on the result depends on the device layout, see
`gradient_layout_independent_fails`; the formula for that case is `gradient_clipped`. -/
theorem gradient_is_covariance_partial {K : Type*} (t : EnergyType) (ht : t ≠ .ibp) (nanSafe : Bool)
    (ws : List (RealWalker K)) (devs : List (List (RealWalker K))) (n : ℕ)
    (h : IsLayout ws devs n) (h2 : 2 ≤ ws.length) (k : K) :
    meanGrad (valueAndGrad t ws.length none nanSafe
        (devs.map fun l => l.map RealWalker.toX)).2.2 k =
      .fin (covGrad (ws.map fun w => (w.eloc, w.gradLogPsi k))) := by
  have hel : ((devs.map fun l => l.map RealWalker.toX).map fun l => l.map Walker.eloc) =
      (devs.map fun l => l.map RealWalker.eloc).map fun r => r.map XR.fin := by
    simp only [List.map_map]
    refine List.map_congr_left fun l _ => ?_
    simp only [Function.comp, List.map_map]
    rfl
  have hflat : (devs.map fun l => l.map RealWalker.eloc).flatten = ws.map RealWalker.eloc := by
    rw [← h.flatten, List.map_flatten]
  have hlay : IsLayout (ws.map RealWalker.eloc) (devs.map fun l => l.map RealWalker.eloc) n :=
    ⟨hflat, by simpa using h.ne, h.pos, by
      intro r hr
      obtain ⟨l, hl, rfl⟩ := List.mem_map.mp hr
      simpa using h.len l hl⟩
  have hst := energy_statistics _ _ n nanSafe hlay (by simpa using h2)
  rw [List.length_map] at hst
  have key : (valueAndGrad t ws.length none nanSafe
      (devs.map fun l => l.map RealWalker.toX)).2.2 =
      ((((devs.map fun l => l.map RealWalker.eloc).map fun r => r.map XR.fin).map fun l =>
        l.map fun e => e - XR.fin (avgL (devs.map fun l => l.map RealWalker.eloc).flatten)).zip
        (devs.map fun l => l.map RealWalker.toX)).map fun p =>
        standardGrad nanSafe ws.length (p.1.zip p.2) := by
    cases t with
    | ibp => exact absurd rfl ht
    | standard => simp only [valueAndGrad, getClipped, hel, hst, hflat]
    | randomParticle => simp only [valueAndGrad, getClipped, hel, hst, hflat]
  rw [key, meanGrad_standard nanSafe ws.length h2 _ devs n h.pos h.len hlay.len (by simp) h.ne
    (by rw [h.flatten]), hflat, h.flatten]
  congr 2
  have hz : (ws.map RealWalker.eloc).zip ws = ws.map fun w => (w.eloc, w) := by
    clear h h2 hflat hlay hst key
    induction ws with
    | nil => rfl
    | cons a t ih => simp [ih]
  rw [hz, List.map_map]
  rfl

/-- C33 with clipping: the same formula with the clipped energies in place of the energies. -/
theorem gradient_clipped {K : Type*} (t : EnergyType) (ht : t ≠ .ibp) (nanSafe : Bool)
    (f : List XR → XR → List XR) (ws : List (RealWalker K)) (devs : List (List (RealWalker K)))
    (n : ℕ) (h : IsLayout ws devs n) (h2 : 2 ≤ ws.length) (E : List (List ℝ))
    (hE : ∀ r ∈ E, r.length = n)
    (hclip : (devs.map fun l => f (l.map fun w => .fin w.eloc) (.fin (avgL (ws.map fun w =>
      w.eloc)))) = E.map fun r => r.map XR.fin) (k : K) :
    meanGrad (valueAndGrad t ws.length (some f) nanSafe
        (devs.map fun l => l.map RealWalker.toX)).2.2 k =
      .fin (covGrad ((E.flatten.zip ws).map fun p => (p.1, p.2.gradLogPsi k))) := by
  have hel : ((devs.map fun l => l.map RealWalker.toX).map fun l => l.map Walker.eloc) =
      (devs.map fun l => l.map RealWalker.eloc).map fun r => r.map XR.fin := by
    simp only [List.map_map]
    refine List.map_congr_left fun l _ => ?_
    simp only [Function.comp, List.map_map]
    rfl
  have hlen : E.length = devs.length := by
    have := congrArg List.length hclip
    simpa using this.symm
  have hflat : (devs.map fun l => l.map RealWalker.eloc).flatten = ws.map RealWalker.eloc := by
    rw [← h.flatten, List.map_flatten]
  have hlay : IsLayout (ws.map RealWalker.eloc) (devs.map fun l => l.map RealWalker.eloc) n :=
    ⟨hflat, by simpa using h.ne, h.pos, by
      intro r hr
      obtain ⟨l, hl, rfl⟩ := List.mem_map.mp hr
      simpa using h.len l hl⟩
  have hst := energy_statistics _ _ n false hlay (by simpa using h2)
  rw [List.length_map] at hst
  have hclip' : (((devs.map fun l => l.map RealWalker.eloc).map fun r => r.map XR.fin).map
      fun l => f l (.fin (avgL (ws.map RealWalker.eloc)))) = E.map fun r => r.map XR.fin := by
    rw [← hclip]
    simp only [List.map_map]
    refine List.map_congr_left fun l _ => ?_
    simp only [Function.comp, List.map_map]
    rfl
  have hEl : E.flatten.length = ws.length := by
    rw [length_flatten_uniform hE, hlen, ← length_flatten_uniform h.len, h.flatten]
  have hEne : E ≠ [] := by
    intro h0
    rw [h0] at hlen
    exact h.ne (List.eq_nil_of_length_eq_zero hlen.symm)
  have hstE := energy_statistics E.flatten E n nanSafe ⟨rfl, hEne, h.pos, hE⟩ (by omega)
  rw [hEl] at hstE
  have key : (valueAndGrad t ws.length (some f) nanSafe
      (devs.map fun l => l.map RealWalker.toX)).2.2 =
      (((E.map fun r => r.map XR.fin).map fun l =>
        l.map fun e => e - XR.fin (avgL E.flatten)).zip
        (devs.map fun l => l.map RealWalker.toX)).map fun p =>
        standardGrad nanSafe ws.length (p.1.zip p.2) := by
    cases t with
    | ibp => exact absurd rfl ht
    | standard => simp only [valueAndGrad, getClipped, hel, hst, hclip', hstE]
    | randomParticle => simp only [valueAndGrad, getClipped, hel, hst, hclip', hstE]
  rw [key, meanGrad_standard nanSafe ws.length h2 E devs n h.pos h.len hE hlen h.ne
    (by rw [h.flatten]), h.flatten]

/-- C33, integration-by-parts estimator: the covariance term (never clipped) plus the mean of the
gradients of the local energy. -/
theorem gradient_generic {K : Type*} (nanSafe : Bool) (f : Option (List XR → XR → List XR))
    (ws : List (RealWalker K)) (devs : List (List (RealWalker K))) (n : ℕ)
    (h : IsLayout ws devs n) (h2 : 2 ≤ ws.length) (k : K) :
    meanGrad (valueAndGrad .ibp ws.length f nanSafe
        (devs.map fun l => l.map RealWalker.toX)).2.2 k =
      .fin (covGrad (ws.map fun w => (w.eloc, w.gradLogPsi k)) +
        avgL (ws.map fun w => w.gradEloc k)) := by
  have hstd := gradient_is_covariance_partial .standard (by simp) nanSafe ws devs n h h2 k
  have hgen : genericGrad nanSafe (devs.map fun l => l.map RealWalker.toX) k =
      .fin (avgL (ws.map fun w => w.gradEloc k)) := by
    unfold genericGrad
    have e : ((devs.map fun l => l.map RealWalker.toX).map fun l =>
        l.map fun w => w.gradEloc k) =
        (devs.map fun l => l.map fun w => w.gradEloc k).map fun r => r.map XR.fin := by
      simp only [List.map_map]
      refine List.map_congr_left fun l _ => ?_
      simp only [Function.comp, List.map_map]
      rfl
    rw [e, allreduce_fin nanSafe h.pos (by simpa using h.ne) (by
      intro r hr
      obtain ⟨l, hl, rfl⟩ := List.mem_map.mp hr
      simpa using h.len l hl)]
    rw [← h.flatten, List.map_flatten]
  have add : ∀ (gs : List (K → XR)) (c : ℝ), gs ≠ [] →
      meanGrad (gs.map fun g k => g k + XR.fin c) k = meanGrad gs k + XR.fin c := by
    intro gs c hne
    have hl : (0 : ℝ) < gs.length := by
      have : 0 < gs.length := List.length_pos_of_ne_nil hne
      exact_mod_cast this
    have hs : ∀ gs : List (K → XR), (gs.map fun g => g k + XR.fin c).sum =
        (gs.map fun g => g k).sum + XR.fin (gs.length * c) := by
      intro gs
      induction gs with
      | nil => simp [XR.zero_def]
      | cons a t ih =>
        rw [List.map_cons, List.sum_cons, ih, List.map_cons, List.sum_cons, List.length_cons,
          add_assoc, add_assoc]
        congr 1
        rw [add_left_comm, XR.fin_add]
        congr 2
        push_cast; ring
    unfold meanGrad pmean mean
    rw [List.map_map]
    have : ((fun g : K → XR => g k) ∘ fun (g : K → XR) k => g k + XR.fin c) =
        fun g => g k + XR.fin c := rfl
    rw [this, hs, List.length_map, List.length_map, XR.ofNat, XR.div_add hl, XR.fin_div hl.ne']
    congr 2
    field_simp
  have key : (valueAndGrad .ibp ws.length f nanSafe
      (devs.map fun l => l.map RealWalker.toX)).2.2 =
      ((valueAndGrad .standard ws.length none nanSafe
      (devs.map fun l => l.map RealWalker.toX)).2.2).map fun g k =>
        g k + genericGrad nanSafe (devs.map fun l => l.map RealWalker.toX) k := by
    simp only [valueAndGrad, List.map_map]
    rfl
  have hmg : ∀ gs : List (K → XR), meanGrad (gs.map fun g k => g k +
      genericGrad nanSafe (devs.map fun l => l.map RealWalker.toX) k) k =
      meanGrad (gs.map fun g k => g k + XR.fin (avgL (ws.map fun w => w.gradEloc k))) k := by
    intro gs
    unfold meanGrad
    simp only [List.map_map]
    congr 1
    refine List.map_congr_left fun g _ => ?_
    simp only [Function.comp, hgen]
  rw [key, hmg]
  have hmg2 : ∀ gs : List (K → XR), meanGrad (gs.map fun g k' => g k' +
      XR.fin (avgL (ws.map fun w => w.gradEloc k'))) k =
      meanGrad (gs.map fun g k' => g k' + XR.fin (avgL (ws.map fun w => w.gradEloc k))) k := by
    intro gs
    unfold meanGrad
    simp only [List.map_map]
    rfl
  rw [hmg2, add _ _ ?_, hstd, XR.fin_add]
  intro h0
  have := congrArg List.length h0
  simp [valueAndGrad, getClipped] at this
  exact h.ne this

/-- The layout part of C33 for every clipping setting. -/
def GradientLayoutIndependent : Prop :=
  ∀ (threshold : ℝ) (c : Center) (ws : List (RealWalker Unit))
    (d1 d2 : List (List (RealWalker Unit))) (n1 n2 : ℕ), IsLayout ws d1 n1 → IsLayout ws d2 n2 →
    2 ≤ ws.length →
    meanGrad (valueAndGrad .standard ws.length (getClippingFn threshold c) true
        (d1.map fun l => l.map RealWalker.toX)).2.2 () =
      meanGrad (valueAndGrad .standard ws.length (getClippingFn threshold c) true
        (d2.map fun l => l.map RealWalker.toX)).2.2 ()

/-- It is false: the clipping window is computed separately on each device. -/
theorem gradient_layout_independent_fails : ¬ GradientLayoutIndependent := by
  intro h
  let a : RealWalker Unit := ⟨0, 0, fun _ => 0, fun _ => 0⟩
  let b : RealWalker Unit := ⟨12, 0, fun _ => 1, fun _ => 0⟩
  have hc : getClippingFn 1 .mean = some (totalVariationClip 1 .mean) := by
    simp [getClippingFn]
  have l1 : IsLayout [a, a, a, b] [[a, a, a, b]] 4 := ⟨rfl, by simp, by norm_num, by simp⟩
  have l2 : IsLayout [a, a, a, b] [[a, a], [a, b]] 2 := ⟨rfl, by simp, by norm_num, by simp⟩
  have h1 := h 1 .mean [a, a, a, b] _ _ 4 2 l1 l2 (by simp)
  rw [hc] at h1
  have ha : avgL ([a, a, a, b].map fun w => w.eloc) = 3 := by norm_num [avgL, a, b]
  have clipv : ∀ es : List ℝ, es ≠ [] → totalVariationClip 1 .mean (es.map XR.fin) (.fin 3) =
      (es.map fun e => min (3 + meanAbsDev es 3) (max (3 - meanAbsDev es 3) e)).map XR.fin := by
    intro es hne
    have := clip_value 1 .mean es 3 3 hne rfl
    simpa using this
  have m1 : meanAbsDev [0, 0, 0, 12] 3 = 9 / 2 := by norm_num [meanAbsDev, avgL]
  have m2 : meanAbsDev [0, 0] 3 = 3 := by norm_num [meanAbsDev, avgL]
  have m3 : meanAbsDev [0, 12] 3 = 6 := by norm_num [meanAbsDev, avgL]
  rw [gradient_clipped .standard (by simp) true (totalVariationClip 1 .mean) [a, a, a, b]
    [[a, a, a, b]] 4 l1 (by simp) [[0, 0, 0, 15 / 2]] (by simp) (by
      rw [ha]
      have e1 := clipv [0, 0, 0, 12] (by simp)
      rw [m1] at e1
      simp only [List.map_cons, List.map_nil] at e1 ⊢
      simp only [a, b]
      rw [e1]
      norm_num),
    gradient_clipped .standard (by simp) true (totalVariationClip 1 .mean) [a, a, a, b]
    [[a, a], [a, b]] 2 l2 (by simp) [[0, 0], [0, 9]] (by simp) (by
      rw [ha]
      have e1 := clipv [0, 0] (by simp)
      have e2 := clipv [0, 12] (by simp)
      rw [m2] at e1
      rw [m3] at e2
      simp only [List.map_cons, List.map_nil] at e1 e2 ⊢
      simp only [a, b]
      rw [e1, e2]
      norm_num), XR.fin_inj] at h1
  norm_num [covGrad, avgL, a, b] at h1

/-- C33: unknown estimator names are rejected. -/
theorem energy_type_unknown (s : String) (h1 : s ≠ "standard") (h2 : s ≠ "ibp")
    (h3 : s ≠ "random_particle") : ∃ e, parseEnergyType s = .error e := by
  unfold parseEnergyType
  split <;> simp_all

/-- Four walkers on two devices with one parameter. -/
example : IsLayout
    [(⟨1, 0, fun _ => 1, fun _ => 0⟩ : RealWalker Unit), ⟨2, 0, fun _ => 3, fun _ => 0⟩,
      ⟨3, 0, fun _ => 0, fun _ => 0⟩, ⟨6, 0, fun _ => 1, fun _ => 0⟩]
    [[⟨1, 0, fun _ => 1, fun _ => 0⟩, ⟨2, 0, fun _ => 3, fun _ => 0⟩],
      [⟨3, 0, fun _ => 0, fun _ => 0⟩, ⟨6, 0, fun _ => 1, fun _ => 0⟩]] 2 :=
  ⟨rfl, by simp, by norm_num, by simp⟩
example : covGrad [(1, 1), (2, 3), (3, 0), (6, 1)] = -4 / 3 := by
  norm_num [covGrad, avgL]

end Verif.Props
