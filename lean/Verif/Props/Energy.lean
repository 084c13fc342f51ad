import Verif.Lemmas.Energy

/-!
Property theorems about cross-device means (C28, C29), energy statistics (C30), clipping (C31),
nan handling (C32) and the gradient estimator (C33).
-/

namespace Verif.Props
open Spec Energy

/-! ### C28 -/

/-- C28.  Mean over devices of the per-device means is the mean over all chains, for every even
layout and all values, nan and infinities included. -/
theorem device_mean_is_global_mean (l : List XR) (rows : List (List XR)) (n : ℕ)
    (h : IsLayout l rows n) : allreduceMean false rows = mean l := by
  have : allreduceMean false rows = pmean (rows.map mean) := rfl
  rw [this, mean_uniform h.pos h.ne h.len, h.flatten]

theorem flatten_chunks {α : Type*} (m : ℕ) : ∀ (k : ℕ) (l : List α), l.length = k * m →
    ((List.range k).map fun i => (l.drop (i * m)).take m).flatten = l
  | 0, l, h => by
    have : l = [] := List.eq_nil_of_length_eq_zero (by simpa using h)
    simp [this]
  | k + 1, l, h => by
    rw [List.range_succ_eq_map, List.map_cons, List.flatten_cons, List.map_map]
    have hf : ((fun i => (l.drop (i * m)).take m) ∘ Nat.succ) =
        fun i => ((l.drop m).drop (i * m)).take m := by
      funext i
      simp only [Function.comp, List.drop_drop]
      congr 2
      rw [Nat.succ_mul, Nat.add_comm]
    rw [hf, flatten_chunks m k (l.drop m) (by rw [List.length_drop, h, Nat.succ_mul]; omega)]
    simp

/-- C28: distributing succeeds exactly when the number of chains is divisible by the number of
devices. -/
theorem distribute_ok_iff {α : Type*} (ndev : ℕ) (leaf : List α) :
    (∃ rows, reshapeForDistribution ndev leaf = .ok rows) ↔ ndev ∣ leaf.length := by
  unfold reshapeForDistribution
  rw [Nat.dvd_iff_mod_eq_zero]
  split_ifs with h
  · simp [h]
  · simp [not_not.mp h]

/-- C28: when it succeeds the order of the chains is preserved and every device gets the same
number of them. -/
theorem distribute_preserves_order {α : Type*} (ndev : ℕ) (leaf : List α)
    (rows : List (List α)) (h : reshapeForDistribution ndev leaf = .ok rows)
    (hdev : 0 < ndev) (hpos : leaf ≠ []) :
    rows.length = ndev ∧ IsLayout leaf rows (leaf.length / ndev) := by
  have hdvd : ndev ∣ leaf.length := (distribute_ok_iff ndev leaf).mp ⟨rows, h⟩
  unfold reshapeForDistribution at h
  rw [if_neg (by rw [not_not]; exact Nat.mod_eq_zero_of_dvd hdvd)] at h
  injection h with h
  obtain ⟨m, hm⟩ := hdvd
  have hl : 0 < leaf.length := List.length_pos_of_ne_nil hpos
  have hdiv : leaf.length / ndev = m := by rw [hm]; exact Nat.mul_div_cancel_left m hdev
  rw [hdiv] at h ⊢
  subst h
  refine ⟨by simp, ⟨flatten_chunks m ndev leaf hm, ?_, ?_, ?_⟩⟩
  · simp; omega
  · rcases Nat.eq_zero_or_pos m with rfl | h
    · rw [Nat.mul_zero] at hm; omega
    · exact h
  · intro r hr
    obtain ⟨i, hi, rfl⟩ := List.mem_map.mp hr
    have hi' := List.mem_range.mp hi
    have : (i + 1) * m ≤ ndev * m := Nat.mul_le_mul_right m hi'
    rw [List.length_take, List.length_drop, hm]
    rw [Nat.succ_mul] at this
    omega

/-- C28: several leaves: an error as soon as one leaf does not divide, otherwise all of them are
laid out. -/
theorem distribute_data_ok_iff {α : Type*} (ndev : ℕ) (leaves : List (List α)) :
    (∃ d, distributeData ndev leaves = .ok d) ↔ ∀ l ∈ leaves, ndev ∣ l.length := by
  unfold distributeData
  induction leaves with
  | nil => simp [pure, Except.pure]
  | cons l ls ih =>
    rw [List.mapM_cons, List.forall_mem_cons, ← ih, ← distribute_ok_iff]
    cases h1 : reshapeForDistribution ndev l with
    | error e => simp [bind, Except.bind]
    | ok r =>
      cases h2 : List.mapM (reshapeForDistribution ndev) ls with
      | error e => simp [bind, Except.bind]
      | ok rs => simp [bind, Except.bind, pure, Except.pure]

example : reshapeForDistribution 2 [1, 2, 3, 4, 5, 6] = .ok [[1, 2, 3], [4, 5, 6]] := rfl
example : IsLayout [1, 2, 3, 4, 5, 6] [[1, 2, 3], [4, 5, 6]] 3 := ⟨rfl, by simp, by simp, by simp⟩
example : ∃ e, reshapeForDistribution 4 [1, 2, 3, 4, 5, 6] = .error e := ⟨_, rfl⟩

/-! ### C29 -/

/-- C29 as stated. -/
def NanMeanIsGlobal : Prop :=
  ∀ (l : List XR) (rows : List (List XR)) (n : ℕ), IsLayout l rows n → (∃ r, XR.fin r ∈ l) →
    allreduceMean true rows = nanmean l

/-- C29 is false: devices with different numbers of nans. -/
theorem nanmean_is_global_fails : ¬ NanMeanIsGlobal := by
  intro h
  have h1 := h [.nan, .fin 1, .fin 2, .fin 3] [[.nan, .fin 1], [.fin 2, .fin 3]] 2
    ⟨rfl, by simp, by norm_num, by simp⟩ ⟨1, by simp⟩
  have hz : ∀ x : XR, x + 0 = x := add_zero
  have hz' : ∀ x : XR, XR.fin 0 + x = x := XR.zero_add'
  simp [allreduceMean, nanmean, pmean, mean, XR.isNan, XR.ofNat, hz, hz', XR.div_one'] at h1
  rw [XR.fin_div (by norm_num), XR.fin_add, XR.fin_div (by norm_num), XR.fin_div (by norm_num)]
    at h1
  rw [XR.fin_inj] at h1
  norm_num at h1

/-- C29 when every device has the same number of non-nan chains.
Missing: devices with different numbers of nans, where the claim is false
(`nanmean_is_global_fails`). -/
theorem nanmean_is_global_partial (l : List XR) (rows : List (List XR)) (n k : ℕ)
    (h : IsLayout l rows n) (hk : 0 < k)
    (hcount : ∀ r ∈ rows, (r.countP fun x => decide (¬ x.isNan)) = k) :
    allreduceMean true rows = nanmean l := by
  have h1 : rows.map nanmean = rows.map fun r =>
      (r.map fun x => if x.isNan then XR.fin 0 else x).sum / XR.ofNat k :=
    List.map_congr_left fun r hr => by unfold nanmean; rw [hcount r hr]
  have h2 : allreduceMean true rows = pmean (rows.map nanmean) := rfl
  rw [h2, h1, pmean_div rows
    (fun r => (r.map fun x => if x.isNan then XR.fin 0 else x).sum) k hk h.ne, ← h.flatten]
  unfold nanmean
  congr 1
  · rw [List.map_flatten, sum_flatten, List.map_map]
    rfl
  · congr 1
    have : ∀ rs : List (List XR), (∀ r ∈ rs, (r.countP fun x => decide (¬ x.isNan)) = k) →
        rs.length * k = rs.flatten.countP fun x => decide (¬ x.isNan) := by
      intro rs hrs
      induction rs with
      | nil => simp
      | cons a t ih =>
        rw [List.flatten_cons, List.countP_append, ← ih fun r hr => hrs r (by simp [hr]),
          hrs a (by simp), List.length_cons]
        ring
    exact this rows hcount

/-- A device all of whose chains are nan makes the nan-safe mean nan. -/
theorem nanmean_all_nan_device (rows : List (List XR)) (r : List XR) (hr : r ∈ rows)
    (hall : ∀ x ∈ r, x = .nan) : allreduceMean true rows = .nan := by
  have h1 : nanmean r = .nan := by
    unfold nanmean
    have hc : (r.countP fun x => decide (¬ x.isNan)) = 0 := by
      rw [List.countP_eq_zero]
      intro x hx
      simp [hall x hx, XR.isNan]
    have hs : (r.map fun x => if x.isNan then XR.fin 0 else x).sum = XR.fin 0 := by
      clear hc hr
      induction r with
      | nil => rfl
      | cons a t ih =>
        rw [List.map_cons, List.sum_cons, ih fun x hx => hall x (by simp [hx]),
          hall a (by simp)]
        simp [XR.isNan]
    rw [hc, hs]
    show XR.div (.fin 0) (.fin _) = .nan
    simp [XR.div, XR.infMul]
  have h2 : allreduceMean true rows = pmean (rows.map nanmean) := rfl
  rw [h2]
  exact mean_nan (List.mem_map.mpr ⟨r, hr, h1⟩)

example : ∀ r ∈ [[XR.nan, .fin 1, .fin 7], [.fin 2, .fin 3, .nan]],
    (r.countP fun x => decide (¬ x.isNan)) = 2 := by simp [XR.isNan]

/-! ### C30 -/

theorem map_fin_flatten (rows : List (List ℝ)) :
    (rows.map fun r => r.map XR.fin).flatten = rows.flatten.map XR.fin := by
  rw [List.map_flatten]

/-- C30.  For every even layout, nan-safe or not: sample mean and unbiased sample variance. -/
theorem energy_statistics (l : List ℝ) (rows : List (List ℝ)) (n : ℕ) (nanSafe : Bool)
    (h : IsLayout l rows n) (h2 : 2 ≤ l.length) :
    getStatistics (rows.map fun r => r.map XR.fin) l.length nanSafe =
      (.fin (avgL l), .fin (sampleVar l)) := by
  have hL : (2 : ℝ) ≤ l.length := by exact_mod_cast h2
  have h1 : ((l.length : ℝ) - 1) ≠ 0 := by linarith
  unfold getStatistics
  simp only
  rw [allreduce_fin nanSafe h.pos h.ne h.len, h.flatten]
  have e : ((rows.map fun r => r.map XR.fin).map fun l' =>
      l'.map fun e => (e - XR.fin (avgL l)) * (e - XR.fin (avgL l))) =
      (rows.map fun r => r.map fun e => (e - avgL l) ^ 2).map fun r => r.map XR.fin := by
    rw [List.map_map, List.map_map]
    refine List.map_congr_left fun r _ => ?_
    simp only [Function.comp, List.map_map]
    exact List.map_congr_left fun x _ => by simp [sq]
  rw [e, allreduce_fin nanSafe h.pos (by simpa using h.ne) (by
    intro r hr
    obtain ⟨r', hr', rfl⟩ := List.mem_map.mp hr
    simpa using h.len r' hr')]
  have f : (rows.map fun r => r.map fun e => (e - avgL l) ^ 2).flatten =
      l.map fun e => (e - avgL l) ^ 2 := by
    rw [← h.flatten, List.map_flatten]
  rw [f, XR.ofNat, XR.fin_mul, XR.fin_div h1]
  congr 2
  unfold sampleVar
  rw [avgL, List.length_map]
  field_simp

/-- With one chain the variance is nan (`n - 1 = 0`). -/
theorem energy_variance_single_chain (e : ℝ) (nanSafe : Bool) :
    (getStatistics [[.fin e]] 1 nanSafe).2 = .nan := by
  have h := allreduce_fin nanSafe (rows := [[e]]) (n := 1) (by norm_num) (by simp) (by simp)
  simp only [List.map_cons, List.map_nil] at h
  unfold getStatistics
  simp only [List.map_cons, List.map_nil]
  rw [h]
  have h' := allreduce_fin nanSafe (rows := [[(e - avgL [e]) * (e - avgL [e])]]) (n := 1)
    (by norm_num) (by simp) (by simp)
  simp only [List.map_cons, List.map_nil] at h'
  simp only [List.flatten_cons, List.flatten_nil, List.append_nil, XR.fin_sub, XR.fin_mul] at *
  rw [h']
  have : avgL [e] = e := by simp [avgL]
  rw [this]
  show XR.div (.fin _) (.fin _) = _
  simp [avgL, XR.div, XR.infMul]

/-- C30: the sample variance is non-negative. -/
theorem sampleVar_nonneg (l : List ℝ) (h2 : 2 ≤ l.length) : 0 ≤ sampleVar l := by
  have hL : (2 : ℝ) ≤ l.length := by exact_mod_cast h2
  refine div_nonneg (List.sum_nonneg ?_) (by linarith)
  intro x hx
  obtain ⟨e, -, rfl⟩ := List.mem_map.mp hx
  exact sq_nonneg _

theorem avgL_const {l : List ℝ} {a : ℝ} (h : ∀ e ∈ l, e = a) (hne : l ≠ []) : avgL l = a := by
  have : l = List.replicate l.length a := List.eq_replicate_of_mem h
  unfold avgL
  have hl : (l.length : ℝ) ≠ 0 := by
    have : l.length ≠ 0 := by simpa using hne
    exact_mod_cast this
  rw [this, List.sum_replicate, List.length_replicate, nsmul_eq_mul]
  field_simp

theorem sum_eq_zero_of_nonneg : ∀ (l : List ℝ), (∀ x ∈ l, 0 ≤ x) → l.sum = 0 → ∀ x ∈ l, x = 0
  | [], _, _ => by simp
  | a :: l, h, hs => by
    have ha := h a (by simp)
    have hl : 0 ≤ l.sum := List.sum_nonneg fun x hx => h x (by simp [hx])
    rw [List.sum_cons] at hs
    intro x hx
    rcases List.mem_cons.mp hx with rfl | hx
    · linarith
    · exact sum_eq_zero_of_nonneg l (fun x hx => h x (by simp [hx])) (by linarith) x hx

/-- C30: it is zero exactly when all energies coincide. -/
theorem sampleVar_eq_zero_iff (l : List ℝ) (h2 : 2 ≤ l.length) :
    sampleVar l = 0 ↔ ∃ a, ∀ e ∈ l, e = a := by
  have hL : (2 : ℝ) ≤ l.length := by exact_mod_cast h2
  have hne : l ≠ [] := by rintro rfl; simp at h2
  constructor
  · intro h
    refine ⟨avgL l, fun e he => ?_⟩
    unfold sampleVar at h
    rcases div_eq_zero_iff.mp h with h | h
    · have := sum_eq_zero_of_nonneg _ (by
        intro x hx
        obtain ⟨e, -, rfl⟩ := List.mem_map.mp hx
        exact sq_nonneg _) h _ (List.mem_map.mpr ⟨e, he, rfl⟩)
      have := pow_eq_zero_iff (two_ne_zero) |>.mp this
      linarith
    · linarith
  · rintro ⟨a, ha⟩
    have hav := avgL_const ha hne
    unfold sampleVar
    rw [hav]
    have : (l.map fun e => (e - a) ^ 2) = l.map fun _ => (0 : ℝ) :=
      List.map_congr_left fun e he => by rw [ha e he]; ring
    rw [this]
    simp

theorem avgL_shift (l : List ℝ) (c : ℝ) (hne : l ≠ []) :
    avgL (l.map (· + c)) = avgL l + c := by
  have hl : (l.length : ℝ) ≠ 0 := by
    have : l.length ≠ 0 := by simpa using hne
    exact_mod_cast this
  have hs : ∀ l : List ℝ, (l.map (· + c)).sum = l.sum + l.length * c := by
    intro l
    induction l with
    | nil => simp
    | cons a t ih => rw [List.map_cons, List.sum_cons, ih]; push_cast [List.sum_cons, List.length_cons]; ring
  unfold avgL
  rw [hs, List.length_map]
  field_simp

/-- C30: unchanged when a constant is added to all energies. -/
theorem sampleVar_shift (l : List ℝ) (c : ℝ) : sampleVar (l.map (· + c)) = sampleVar l := by
  rcases eq_or_ne l [] with rfl | hne
  · rfl
  unfold sampleVar
  rw [avgL_shift l c hne, List.map_map, List.length_map]
  congr 2
  exact List.map_congr_left fun e _ => by simp only [Function.comp]; ring

example : getStatistics [[.fin 1, .fin 2], [.fin 3, .fin 6]] 4 true =
    (.fin 3, .fin (14 / 3)) := by
  have h := energy_statistics [1, 2, 3, 6] [[1, 2], [3, 6]] 2 true
    ⟨rfl, by simp, by norm_num, by simp⟩ (by simp)
  have e1 : avgL [1, 2, 3, 6] = 3 := by norm_num [avgL]
  have e2 : sampleVar [1, 2, 3, 6] = 14 / 3 := by norm_num [sampleVar, e1]
  rw [e1, e2] at h
  exact h

/-! ### C31 -/

/-- Centre chosen for finite energies: the given energy or a median. -/
theorem clip_center (c : Center) (es : List ℝ) (m : ℝ) (hne : es ≠ []) :
    ∃ ctr : ℝ, clipCenter c (es.map XR.fin) (.fin m) = .fin ctr ∧
      (c = .mean → ctr = m) ∧ (c = .median → IsMedian es ctr) := by
  cases c with
  | mean => exact ⟨m, rfl, fun _ => rfl, fun h => by cases h⟩
  | median =>
    exact ⟨med es, nanmedian_fin es hne, fun h => (by cases h), fun _ => med_isMedian es hne⟩

theorem clip_value (threshold : ℝ) (c : Center) (es : List ℝ) (m ctr : ℝ) (hne : es ≠ [])
    (hc : clipCenter c (es.map XR.fin) (.fin m) = .fin ctr) :
    totalVariationClip threshold c (es.map XR.fin) (.fin m) =
      (es.map fun e => min (ctr + threshold * meanAbsDev es ctr)
        (max (ctr - threshold * meanAbsDev es ctr) e)).map XR.fin := by
  unfold totalVariationClip
  simp only
  rw [hc]
  have h1 : (es.map XR.fin).map (fun e => XR.abs (e - XR.fin ctr)) =
      (es.map fun e => |e - ctr|).map XR.fin := by
    rw [List.map_map, List.map_map]
    exact List.map_congr_left fun x _ => by simp
  rw [h1, nanmean_fin, mean_fin _ (by simpa using hne), List.map_map, List.map_map]
  refine List.map_congr_left fun x _ => ?_
  simp only [Function.comp, XR.fin_mul, XR.fin_sub, XR.fin_add, clip, XR.maximum_fin,
    XR.minimum_fin]
  rfl

theorem meanAbsDev_nonneg (es : List ℝ) (c : ℝ) : 0 ≤ meanAbsDev es c := by
  refine div_nonneg (List.sum_nonneg ?_) (by positivity)
  intro x hx
  obtain ⟨e, -, rfl⟩ := List.mem_map.mp hx
  exact abs_nonneg _

/-- C31.  For every non-empty list of finite energies of one device, every threshold > 0 and both
centres: the clipped energies are inside the window, inliers are unchanged and order is kept. -/
theorem clipping_window (threshold : ℝ) (ht : 0 < threshold) (c : Center) (es : List ℝ)
    (m ctr : ℝ) (hne : es ≠ []) (hc : clipCenter c (es.map XR.fin) (.fin m) = .fin ctr) :
    ∃ r : List ℝ, totalVariationClip threshold c (es.map XR.fin) (.fin m) = r.map XR.fin ∧
      r.length = es.length ∧
      (∀ i, i < es.length → |r.getD i 0 - ctr| ≤ threshold * meanAbsDev es ctr) ∧
      (∀ i, i < es.length → |es.getD i 0 - ctr| ≤ threshold * meanAbsDev es ctr →
        r.getD i 0 = es.getD i 0) ∧
      (∀ i j, i < es.length → j < es.length → es.getD i 0 ≤ es.getD j 0 →
        r.getD i 0 ≤ r.getD j 0) := by
  set w := threshold * meanAbsDev es ctr with hw
  have hw0 : 0 ≤ w := mul_nonneg ht.le (meanAbsDev_nonneg es ctr)
  refine ⟨_, clip_value threshold c es m ctr hne hc, by simp, ?_, ?_, ?_⟩
  all_goals
    have e : ∀ i, i < es.length →
        (es.map fun e => min (ctr + w) (max (ctr - w) e)).getD i 0 =
          min (ctr + w) (max (ctr - w) (es.getD i 0)) := by
      intro i hi
      simp only [List.getD, List.getElem?_map, List.getElem?_eq_getElem hi, Option.map_some,
        Option.getD_some]
  · intro i hi
    rw [e i hi, abs_le]
    constructor
    · have : ctr - w ≤ min (ctr + w) (max (ctr - w) (es.getD i 0)) :=
        le_min (by linarith) (le_max_left _ _)
      linarith
    · have := min_le_left (ctr + w) (max (ctr - w) (es.getD i 0))
      linarith
  · intro i hi h
    rw [e i hi]
    obtain ⟨h1, h2⟩ := abs_le.mp h
    rw [max_eq_right (by linarith), min_eq_right (by linarith)]
  · intro i j hi hj h
    rw [e i hi, e j hj]
    exact min_le_min le_rfl (max_le_max le_rfl h)

/-- C31: identity when all energies coincide (the mean centre is then that energy). -/
theorem clipping_identity_when_equal (threshold : ℝ) (c : Center) (es : List ℝ) (a : ℝ)
    (hne : es ≠ []) (h : ∀ e ∈ es, e = a) :
    totalVariationClip threshold c (es.map XR.fin) (.fin a) = es.map XR.fin := by
  have hctr : clipCenter c (es.map XR.fin) (.fin a) = .fin a := by
    cases c with
    | mean => rfl
    | median =>
      show nanmedian _ = _
      rw [nanmedian_fin es hne, XR.fin_inj]
      have hl : (es.insertionSort (· ≤ ·)).length = es.length := List.length_insertionSort _ _
      have hpos : 0 < es.length := List.length_pos_of_ne_nil hne
      have hg : ∀ i, i < (es.insertionSort (· ≤ ·)).length →
          (es.insertionSort (· ≤ ·)).getD i 0 = a := by
        intro i hi
        simp only [List.getD, List.getElem?_eq_getElem hi, Option.getD_some]
        exact h _ ((List.perm_insertionSort (· ≤ ·) es).mem_iff.mp (List.getElem_mem hi))
      unfold med
      simp only
      rw [hg _ (by omega), hg _ (by omega)]
      ring
  rw [clip_value threshold c es a a hne hctr]
  have hm : meanAbsDev es a = 0 := by
    unfold meanAbsDev avgL
    have : (es.map fun e => |e - a|) = es.map fun _ => (0 : ℝ) :=
      List.map_congr_left fun e he => by rw [h e he]; simp
    rw [this]; simp
  rw [hm, List.map_map]
  refine List.map_congr_left fun e he => ?_
  simp [h e he]

/-- C31: shift-equivariance. -/
theorem clipping_shift (threshold : ℝ) (c : Center) (es : List ℝ) (m s : ℝ) (hne : es ≠ []) :
    ∃ r : List ℝ, totalVariationClip threshold c (es.map XR.fin) (.fin m) = r.map XR.fin ∧
      totalVariationClip threshold c ((es.map (· + s)).map XR.fin) (.fin (m + s)) =
        (r.map (· + s)).map XR.fin := by
  have key : ∀ ctr, clipCenter c (es.map XR.fin) (.fin m) = .fin ctr →
      clipCenter c ((es.map (· + s)).map XR.fin) (.fin (m + s)) = .fin (ctr + s) := by
    intro ctr h
    cases c with
    | mean =>
      have : m = ctr := XR.fin_inj.mp h
      rw [this]; rfl
    | median =>
      have h1 : XR.fin (med es) = .fin ctr := by rw [← nanmedian_fin es hne]; exact h
      show nanmedian _ = _
      rw [nanmedian_fin _ (by simpa using hne), med_shift s es hne, XR.fin_inj.mp h1]
  obtain ⟨ctr, hc, -⟩ := clip_center c es m hne
  refine ⟨_, clip_value threshold c es m ctr hne hc, ?_⟩
  rw [clip_value threshold c _ (m + s) (ctr + s) (by simpa using hne) (key ctr hc)]
  have hm : meanAbsDev (es.map (· + s)) (ctr + s) = meanAbsDev es ctr := by
    unfold meanAbsDev
    rw [List.map_map]
    congr 1
    exact List.map_congr_left fun e _ => by simp only [Function.comp]; congr 1; ring
  rw [hm, List.map_map, List.map_map, List.map_map, List.map_map]
  refine List.map_congr_left fun e _ => ?_
  simp only [Function.comp, XR.fin_inj]
  rw [← min_add_add_right, ← max_add_add_right]
  congr 1
  · ring
  · congr 1; ring

/-- C31: the unclipped metrics do not depend on clipping (nor on nan-safety). -/
theorem noclip_metrics_independent (devs : List (List XR)) (nchains : ℕ)
    (f g : Option (List XR → XR → List XR)) (a b : Bool) :
    (getClipped devs nchains f a).2.2.energyNoclip =
      (getClipped devs nchains g b).2.2.energyNoclip ∧
    (getClipped devs nchains f a).2.2.varianceNoclip =
      (getClipped devs nchains g b).2.2.varianceNoclip ∧
    ((getClipped devs nchains f a).2.2.energyNoclip,
      (getClipped devs nchains f a).2.2.varianceNoclip) = getStatistics devs nchains false :=
  ⟨rfl, rfl, rfl⟩

/-- Beyond C31: the window is computed per device, so with clipping the reported energy depends
on how the walkers are spread over devices. -/
theorem clipping_depends_on_layout : ∃ (l : List XR) (r1 r2 : List (List XR)) (n1 n2 : ℕ),
    IsLayout l r1 n1 ∧ IsLayout l r2 n2 ∧
    (getClipped r1 4 (getClippingFn 1 .mean) true).1 ≠
      (getClipped r2 4 (getClippingFn 1 .mean) true).1 := by
  refine ⟨[0, 0, 0, 12].map XR.fin, [[0, 0, 0, 12]].map fun r => r.map XR.fin,
    [[0, 0], [0, 12]].map fun r => r.map XR.fin, 4, 2, ⟨rfl, by simp, by norm_num, by simp⟩,
    ⟨rfl, by simp, by norm_num, by simp⟩, ?_⟩
  have hc : getClippingFn 1 .mean = some (totalVariationClip 1 .mean) := by
    simp [getClippingFn]
  have ha : avgL [0, 0, 0, 12] = 3 := by norm_num [avgL]
  have clipv : ∀ es : List ℝ, es ≠ [] → totalVariationClip 1 .mean (es.map XR.fin) (.fin 3) =
      (es.map fun e => min (3 + meanAbsDev es 3) (max (3 - meanAbsDev es 3) e)).map XR.fin := by
    intro es hne
    have := clip_value 1 .mean es 3 3 hne rfl
    simpa using this
  have s1 := (Prod.ext_iff.mp (energy_statistics [0, 0, 0, 12] [[0, 0, 0, 12]] 4 false
    ⟨rfl, by simp, by norm_num, by simp⟩ (by simp))).1
  have s2 := (Prod.ext_iff.mp (energy_statistics [0, 0, 0, 12] [[0, 0], [0, 12]] 2 false
    ⟨rfl, by simp, by norm_num, by simp⟩ (by simp))).1
  simp only [ha] at s1 s2
  have m1 : meanAbsDev [0, 0, 0, 12] 3 = 9 / 2 := by norm_num [meanAbsDev, avgL]
  have m2 : meanAbsDev [0, 0] 3 = 3 := by norm_num [meanAbsDev, avgL]
  have m3 : meanAbsDev [0, 12] 3 = 6 := by norm_num [meanAbsDev, avgL]
  have l1 : (getClipped ([[0, 0, 0, 12]].map fun r => r.map XR.fin) 4
      (getClippingFn 1 .mean) true).1 = .fin (15 / 8) := by
    unfold getClipped
    rw [hc]
    simp only
    have : (getStatistics ([[0, 0, 0, 12]].map fun r => r.map XR.fin) 4 false).1 = .fin 3 := s1
    rw [this]
    rw [List.map_map]
    have e : List.map ((fun l => totalVariationClip 1 .mean l (.fin 3)) ∘
        fun r => r.map XR.fin) [[0, 0, 0, 12]] =
        [[0, 0, 0, 15 / 2]].map fun r => r.map XR.fin := by
      simp only [List.map_cons, List.map_nil, Function.comp]
      have := clipv [0, 0, 0, 12] (by simp)
      rw [m1] at this
      simp only [List.map_cons, List.map_nil] at this
      rw [this]
      norm_num
    rw [e]
    have := (Prod.ext_iff.mp (energy_statistics [0, 0, 0, 15 / 2] [[0, 0, 0, 15 / 2]] 4 true
      ⟨rfl, by simp, by norm_num, by simp⟩ (by simp))).1
    refine Eq.trans this ?_
    norm_num [avgL]
  have l2 : (getClipped ([[0, 0], [0, 12]].map fun r => r.map XR.fin) 4
      (getClippingFn 1 .mean) true).1 = .fin (9 / 4) := by
    unfold getClipped
    rw [hc]
    simp only
    have : (getStatistics ([[0, 0], [0, 12]].map fun r => r.map XR.fin) 4 false).1 = .fin 3 := s2
    rw [this]
    rw [List.map_map]
    have e : List.map ((fun l => totalVariationClip 1 .mean l (.fin 3)) ∘
        fun r => r.map XR.fin) [[0, 0], [0, 12]] =
        [[0, 0], [0, 9]].map fun r => r.map XR.fin := by
      simp only [List.map_cons, List.map_nil, Function.comp]
      have a1 := clipv [0, 0] (by simp)
      have a2 := clipv [0, 12] (by simp)
      rw [m2] at a1
      rw [m3] at a2
      simp only [List.map_cons, List.map_nil] at a1 a2
      rw [a1, a2]
      norm_num
    rw [e]
    have := (Prod.ext_iff.mp (energy_statistics [0, 0, 0, 9] [[0, 0], [0, 9]] 2 true
      ⟨rfl, by simp, by norm_num, by simp⟩ (by simp))).1
    refine Eq.trans this ?_
    norm_num [avgL]
  rw [l1, l2]
  intro h
  have := XR.fin_inj.mp h
  norm_num at this

/-- A median of an even list, and an outlier outside the window for threshold 1. -/
example : IsMedian [1, 5, 2, 100] 3 ∧ ¬ |(100 : ℝ) - 3| ≤ 1 * meanAbsDev [1, 5, 2, 100] 3 := by
  constructor
  · norm_num [IsMedian, List.filter]
  · norm_num [meanAbsDev, avgL]

end Verif.Props
