import Verif.Props.Devices
import Verif.Props.Records

/-!
# Gradients with clipped local energies

The gradient which `create_value_and_grad_energy_fn` (`vmcnet/physics/core.py`) computes with
`total_variation_clipping_fn` (`vmcnet/train/runners.py`) grows with the product of the energy and the derivative
of a single walker: a window proportional to the mean deviation on a device grows with the largest
energy, so that clipping does not bound it.
-/

namespace Verif.Props
open Verif.Energy Verif.Spec

section clipped

variable {D n : ℕ}

/-- Clipped energies `c` of energies `e` on `D` devices with `n` walkers each: unchanged without
clipping; otherwise moved into windows around the mean of all, or the median of the device. -/
def Clips (threshold : ℝ) (center : Center) (e c : Fin D → Fin n → ℝ) : Prop :=
  if 0 < threshold then
    ∀ d, ∃ m, (center = .mean → m = (∑ d, ∑ b, e d b) / (D * n)) ∧
      (center = .median → m = med (List.ofFn (e d))) ∧
      ∀ b, c d b = min (m + threshold * ((∑ b, |e d b - m|) / n))
        (max (m - threshold * ((∑ b, |e d b - m|) / n)) (e d b))
  else c = e

theorem sum_flatten_ofFn (f : Fin D → Fin n → ℝ) :
    (List.ofFn fun d => List.ofFn (f d)).flatten.sum = ∑ d, ∑ b, f d b := by
  rw [List.sum_flatten, List.map_ofFn, List.sum_ofFn]
  simp [Function.comp, List.sum_ofFn]

theorem length_flatten_ofFn {α : Type*} (f : Fin D → Fin n → α) :
    (List.ofFn fun d => List.ofFn (f d)).flatten.length = D * n := by
  simp [List.length_flatten, List.map_ofFn, Function.comp_def]

theorem map_flatten_ofFn {α β : Type*} (g : α → β) (f : Fin D → Fin n → α) :
    (List.ofFn fun d => List.ofFn (f d)).flatten.map g = (List.ofFn fun d => List.ofFn fun b => g (f d b)).flatten := by
  rw [List.map_flatten, List.map_ofFn]
  congr 2
  funext d
  simp [Function.comp, List.map_ofFn]
  rfl

theorem avg_flatten_ofFn (f : Fin D → Fin n → ℝ) :
    avgL (List.ofFn fun d => List.ofFn (f d)).flatten = (∑ d, ∑ b, f d b) / (D * n) := by
  unfold avgL
  rw [sum_flatten_ofFn, length_flatten_ofFn]
  push_cast
  rfl

theorem zip_ofFn {α β : Type*} : ∀ {k : ℕ} (f : Fin k → α) (g : Fin k → β),
    (List.ofFn f).zip (List.ofFn g) = List.ofFn fun i => (f i, g i)
  | 0, _, _ => by simp
  | k + 1, f, g => by
    rw [List.ofFn_succ, List.ofFn_succ, List.ofFn_succ, List.zip_cons_cons, zip_ofFn]

theorem zip_flatten_ofFn {α β : Type*} : ∀ {D : ℕ} (f : Fin D → Fin n → α) (g : Fin D → Fin n → β),
    (List.ofFn fun d => List.ofFn (f d)).flatten.zip (List.ofFn fun d => List.ofFn (g d)).flatten =
      (List.ofFn fun d => List.ofFn fun b => (f d b, g d b)).flatten
  | 0, _, _ => by simp
  | D + 1, f, g => by
    rw [List.ofFn_succ, List.ofFn_succ, List.ofFn_succ, List.flatten_cons, List.flatten_cons,
      List.flatten_cons, List.zip_append (by simp), zip_ofFn, zip_flatten_ofFn]

/-- The estimator with given (clipped) energies. -/
noncomputable def gradientOf (c g : Fin D → Fin n → ℝ) : ℝ :=
  2 / ((D * n : ℕ) - 1 : ℝ) * ∑ d, ∑ b, (c d b - (∑ d, ∑ b, c d b) / (D * n)) * g d b

theorem covGrad_flatten (c g : Fin D → Fin n → ℝ) :
    covGrad (List.ofFn fun d => List.ofFn fun b => (c d b, g d b)).flatten = gradientOf c g := by
  unfold covGrad gradientOf
  rw [length_flatten_ofFn, map_flatten_ofFn, map_flatten_ofFn, avg_flatten_ofFn, sum_flatten_ofFn]

/-- C33 in terms of sums over devices and walkers. -/
theorem clipped_gradient {K : Type*} (t : EnergyType) (ht : t ≠ .ibp) (nanSafe : Bool) (threshold : ℝ)
    (center : Center) (w : Fin D → Fin n → RealWalker K) (hD : 0 < D) (hn : 0 < n) (h2 : 2 ≤ D * n) (k : K) :
    ∃ c, Clips threshold center (fun d b => (w d b).eloc) c ∧
      meanGrad (valueAndGrad t (D * n) (getClippingFn threshold center) nanSafe
        (List.ofFn fun d => List.ofFn fun b => (w d b).toX)).2.2 k =
        .fin (gradientOf c fun d b => (w d b).gradLogPsi k) := by
  have hx : (List.ofFn fun d => List.ofFn fun b => (w d b).toX) =
      (List.ofFn fun d => List.ofFn (w d)).map fun l => l.map RealWalker.toX := by
    rw [List.map_ofFn]
    congr 1
    funext d
    simp [Function.comp, List.map_ofFn]
    rfl
  have hlay : IsLayout (List.ofFn fun d => List.ofFn (w d)).flatten (List.ofFn fun d => List.ofFn (w d)) n := by
    refine ⟨rfl, by simp; omega, hn, fun r hr => ?_⟩
    obtain ⟨d, rfl⟩ := (List.mem_ofFn' _ _).mp hr
    simp
  have hlen := length_flatten_ofFn w
  by_cases hthr : 0 < threshold
  · -- centres
    have hctr : ∀ d : Fin D, ∃ m, clipCenter center ((List.ofFn fun b => (w d b).eloc).map XR.fin)
        (.fin ((∑ d, ∑ b, (w d b).eloc) / (D * n))) = .fin m ∧
        (center = .mean → m = (∑ d, ∑ b, (w d b).eloc) / (D * n)) ∧
        (center = .median → m = med (List.ofFn fun b => (w d b).eloc)) := by
      intro d
      cases center with
      | mean => exact ⟨_, rfl, fun _ => rfl, fun h => by cases h⟩
      | median =>
        exact ⟨_, nanmedian_fin _ (by simp; omega), ⟨fun h => (by cases h), fun _ => rfl⟩⟩
    choose m hm hm1 hm2 using hctr
    refine ⟨fun d b => min (m d + threshold * ((∑ b, |(w d b).eloc - m d|) / n))
        (max (m d - threshold * ((∑ b, |(w d b).eloc - m d|) / n)) (w d b).eloc), ?_, ?_⟩
    · rw [Clips, if_pos hthr]
      exact fun d => ⟨m d, hm1 d, hm2 d, fun b => rfl⟩
    · rw [getClippingFn, if_pos hthr, hx]
      have := gradient_clipped t ht nanSafe (totalVariationClip threshold center) _ _ n hlay (by omega)
        (List.ofFn fun d => List.ofFn fun b => min (m d + threshold * ((∑ b, |(w d b).eloc - m d|) / n))
          (max (m d - threshold * ((∑ b, |(w d b).eloc - m d|) / n)) (w d b).eloc))
        (by
          intro r hr
          obtain ⟨d, rfl⟩ := (List.mem_ofFn' _ _).mp hr
          simp)
        (by
          rw [map_flatten_ofFn, avg_flatten_ofFn, List.map_ofFn, List.map_ofFn]
          congr 1
          funext d
          have h1 := clip_value threshold center (List.ofFn fun b => (w d b).eloc)
            ((∑ d, ∑ b, (w d b).eloc) / (D * n)) (m d) (by simp; omega) (hm d)
          have h3 : meanAbsDev (List.ofFn fun b => (w d b).eloc) (m d) =
              (∑ b, |(w d b).eloc - m d|) / n := by
            unfold meanAbsDev avgL
            rw [List.map_ofFn, List.sum_ofFn, List.length_ofFn]
            rfl
          rw [h3] at h1
          simp only [Function.comp, List.map_ofFn] at h1 ⊢
          exact h1) k
      rw [hlen] at this
      rw [this, zip_flatten_ofFn, map_flatten_ofFn, covGrad_flatten]
  · refine ⟨_, by rw [Clips, if_neg hthr], ?_⟩
    have := gradient_is_covariance_partial t ht nanSafe _ _ n hlay (by omega) k
    rw [hlen] at this
    rw [getClippingFn, if_neg hthr, hx, this, map_flatten_ofFn, covGrad_flatten]

end clipped


/-! ### One large energy -/

section median

/-- Entries of the sorted list below the last one are bounded if at most one entry is large. -/
theorem sorted_le {u B : ℝ} {t : List ℝ} (ht : ∀ x ∈ t, x ≤ B) {i : ℕ} (hi : i + 1 < t.length + 1) :
    ((u :: t).insertionSort (· ≤ ·)).getD i 0 ≤ B := by
  have hperm := List.perm_insertionSort (· ≤ ·) (u :: t)
  have hs : ((u :: t).insertionSort (· ≤ ·)).Pairwise (· ≤ ·) := List.pairwise_insertionSort _ _
  generalize (u :: t).insertionSort (· ≤ ·) = s at *
  have hl : s.length = t.length + 1 := by rw [hperm.length_eq]; rfl
  by_contra hlt
  push Not at hlt
  have hlt' := hlt.trans_le (sorted_getD_le hs (Nat.le_succ i) (by omega))
  have h1 : (s.filter fun x => decide (B < x)).length ≤ 1 := by
    rw [(hperm.filter _).length_eq, List.filter_cons]
    have : t.filter (fun x => decide (B < x)) = [] := by
      rw [List.filter_eq_nil_iff]
      intro x hx
      simpa using ht x hx
    rw [this]
    split_ifs <;> simp
  have h2 : 2 ≤ (s.filter fun x => decide (B < x)).length := by
    have hsub : [s.getD i 0, s.getD (i + 1) 0].Sublist (s.filter fun x => decide (B < x)) := by
      have e : [s.getD i 0, s.getD (i + 1) 0] =
          [s.getD i 0, s.getD (i + 1) 0].filter fun x => decide (B < x) := by
        rw [eq_comm, List.filter_eq_self]
        intro x hx
        simp only [List.mem_cons, List.not_mem_nil, or_false] at hx
        rcases hx with rfl | rfl
        · simpa using hlt
        · simpa using hlt'
      rw [e]
      refine List.Sublist.filter _ ?_
      have hd : s.drop i = s.getD i 0 :: s.getD (i + 1) 0 :: s.drop (i + 2) := by
        rw [List.drop_eq_getElem_cons (by omega), List.drop_eq_getElem_cons (by omega)]
        simp only [List.getD_eq_getElem?_getD, List.getElem?_eq_getElem (show i < s.length by omega),
          List.getElem?_eq_getElem (show i + 1 < s.length by omega), Option.getD_some]
      have h3 := List.drop_sublist i s
      rw [hd] at h3
      exact ((List.nil_sublist _).cons_cons _ |>.cons_cons _).trans h3
    simpa using hsub.length_le
  omega

theorem neg_sort (l : List ℝ) : (l.map Neg.neg).insertionSort (· ≤ ·) =
    ((l.insertionSort (· ≤ ·)).map Neg.neg).reverse := by
  refine List.Perm.eq_of_pairwise (le := (· ≤ ·)) (fun a b _ _ h1 h2 => le_antisymm h1 h2)
    (List.pairwise_insertionSort _ _) ?_ ?_
  · rw [List.pairwise_reverse, List.pairwise_map]
    exact (List.pairwise_insertionSort _ l).imp fun h => neg_le_neg h
  · exact (List.perm_insertionSort _ _).trans
      (((List.perm_insertionSort _ l).symm.map _).trans (List.reverse_perm _).symm)

theorem med_neg {l : List ℝ} (hl : l ≠ []) : med (l.map Neg.neg) = -med l := by
  have hlen := List.length_insertionSort (· ≤ ·) l
  have hpos := List.length_pos_of_ne_nil hl
  unfold med
  simp only [neg_sort, List.length_reverse, List.length_map]
  generalize l.insertionSort (· ≤ ·) = s at *
  have e : ∀ i, i < s.length → ((s.map Neg.neg).reverse).getD i 0 = -s.getD (s.length - 1 - i) 0 := by
    intro i hi
    have h2 : s.length - 1 - i < s.length := by omega
    simp [List.getD_eq_getElem?_getD, hi, h2]
  rw [e _ (by omega), e _ (by omega)]
  have h1 : s.length - 1 - (s.length - 1) / 2 = s.length / 2 := by omega
  have h2 : s.length - 1 - s.length / 2 = (s.length - 1) / 2 := by omega
  rw [h1, h2]
  ring

theorem sorted_le_all {B : ℝ} {l : List ℝ} (h : ∀ x ∈ l, x ≤ B) {i : ℕ} (hi : i < l.length) :
    (l.insertionSort (· ≤ ·)).getD i 0 ≤ B := by
  have hperm := List.perm_insertionSort (· ≤ ·) l
  have hl := hperm.length_eq
  rw [List.getD_eq_getElem?_getD, List.getElem?_eq_getElem (by omega), Option.getD_some]
  exact h _ (hperm.mem_iff.mp (List.getElem_mem _))

theorem med_le {B : ℝ} {l : List ℝ} (hl : l ≠ []) (h : ∀ x ∈ l, x ≤ B) : med l ≤ B := by
  have hlen := List.length_insertionSort (· ≤ ·) l
  have hpos := List.length_pos_of_ne_nil hl
  unfold med
  have h1 := sorted_le_all h (i := ((l.insertionSort (· ≤ ·)).length - 1) / 2) (by omega)
  have h2 := sorted_le_all h (i := (l.insertionSort (· ≤ ·)).length / 2) (by omega)
  simp only
  linarith

theorem le_med {B : ℝ} {l : List ℝ} (hl : l ≠ []) (h : ∀ x ∈ l, B ≤ x) : B ≤ med l := by
  have := med_le (B := -B) (l := l.map Neg.neg) (by simpa using hl) (by
    intro x hx
    obtain ⟨y, hy, rfl⟩ := List.mem_map.mp hx
    exact neg_le_neg (h y hy))
  rw [med_neg hl] at this
  linarith

/-- The median with one large entry. -/
theorem med_cons_le {u B : ℝ} {t : List ℝ} (hu : B ≤ u) (ht : ∀ x ∈ t, x ≤ B) (h : t ≠ []) :
    med (u :: t) ≤ (u + B) / 2 := by
  have hlen := List.length_insertionSort (· ≤ ·) (u :: t)
  have hpos := List.length_pos_of_ne_nil h
  rw [List.length_cons] at hlen
  unfold med
  have h1 := sorted_le (u := u) ht (i := (((u :: t).insertionSort (· ≤ ·)).length - 1) / 2) (by omega)
  have h2 := sorted_le_all (B := u) (l := u :: t) (by
    intro x hx
    rcases List.mem_cons.mp hx with rfl | hx
    · exact le_rfl
    · exact (ht x hx).trans hu) (i := ((u :: t).insertionSort (· ≤ ·)).length / 2) (by
      rw [List.length_cons]
      omega)
  simp only
  linarith

theorem le_med_cons {u B : ℝ} {t : List ℝ} (hu : u ≤ -B) (ht : ∀ x ∈ t, -B ≤ x) (h : t ≠ []) :
    (u - B) / 2 ≤ med (u :: t) := by
  have := med_cons_le (u := -u) (B := B) (t := t.map Neg.neg) (by linarith)
    (by
      intro x hx
      obtain ⟨y, hy, rfl⟩ := List.mem_map.mp hx
      linarith [ht y hy]) (by simpa using h)
  rw [← List.map_cons, med_neg (by simp)] at this
  linarith

end median

section clip

variable {D n : ℕ} {threshold : ℝ} {center : Center} {e c : Fin D → Fin n → ℝ}

theorem Clips.neg (hn : 0 < n) (h : Clips threshold center e c) :
    Clips threshold center (fun d b => -e d b) fun d b => -c d b := by
  unfold Clips at *
  split_ifs at h ⊢ with ht
  · intro d
    obtain ⟨m, h1, h2, h3⟩ := h d
    refine ⟨-m, fun hc => ?_, fun hc => ?_, fun b => ?_⟩
    · rw [h1 hc]
      simp [neg_div]
    · rw [h2 hc, ← med_neg (by simp; omega), List.map_ofFn]
      rfl
    · have e1 : ∀ b, |-e d b - -m| = |e d b - m| := fun b => by
        rw [← abs_neg]
        congr 1
        ring
      simp only [e1, h3 b]
      have hw : 0 ≤ threshold * ((∑ b, |e d b - m|) / n) :=
        mul_nonneg ht.le (div_nonneg (Finset.sum_nonneg fun _ _ => abs_nonneg _) (Nat.cast_nonneg _))
      generalize threshold * ((∑ b, |e d b - m|) / n) = w at *
      rw [min_def, max_def, min_def, max_def]
      split_ifs <;> linarith
  · subst h
    rfl

/-- Energies are moved towards the centre, but not past it. -/
theorem clip_between {m w x : ℝ} (hw : 0 ≤ w) :
    min m x ≤ min (m + w) (max (m - w) x) ∧ min (m + w) (max (m - w) x) ≤ max m x := by
  constructor
  · rcases le_total m x with h | h
    · rw [min_eq_left h]
      exact le_min (by linarith) (h.trans (le_max_right _ _))
    · rw [min_eq_right h]
      exact le_min (by linarith) (le_max_right _ _)
  · rcases le_total m x with h | h
    · rw [max_eq_right h]
      exact (min_le_right _ _).trans (max_le (by linarith) le_rfl)
    · rw [max_eq_left h]
      exact (min_le_right _ _).trans (max_le (by linarith) h)

/-- The fraction of a large deviation which survives clipping. -/
noncomputable def kept (threshold : ℝ) (n : ℕ) : ℝ := if 0 < threshold then min 1 (threshold / n) else 1

theorem kept_pos (hn : 0 < n) : 0 < kept threshold n := by
  unfold kept
  split_ifs with h
  · have : (0 : ℝ) < n := by exact_mod_cast hn
    positivity
  · exact one_pos

theorem kept_le : kept threshold n ≤ 1 := by
  unfold kept
  split_ifs
  · exact min_le_left _ _
  · exact le_rfl

theorem Clips.abs_le (hn : 0 < n) (h : Clips threshold center e c) {A : ℝ} (he : ∀ d b, |e d b| ≤ A)
    (d : Fin D) (b : Fin n) : |c d b| ≤ A := by
  unfold Clips at h
  split_ifs at h with ht
  · obtain ⟨m, h1, h2, h3⟩ := h d
    have hm : |m| ≤ A := by
      cases center with
      | mean =>
        have hD : (0 : ℝ) < D := by exact_mod_cast (Nat.pos_of_ne_zero (by rintro rfl; exact d.elim0))
        have hn : (0 : ℝ) < n := by exact_mod_cast hn
        rw [h1 rfl, abs_div, abs_of_pos (by positivity : (0 : ℝ) < D * n), div_le_iff₀ (by positivity)]
        calc |∑ d, ∑ b, e d b| ≤ ∑ d : Fin D, ∑ b : Fin n, |e d b| :=
            (Finset.abs_sum_le_sum_abs _ _).trans
              (Finset.sum_le_sum fun _ _ => Finset.abs_sum_le_sum_abs _ _)
          _ ≤ ∑ d : Fin D, ∑ b : Fin n, A :=
            Finset.sum_le_sum fun d _ => Finset.sum_le_sum fun b _ => he d b
          _ = A * (D * n) := by
            simp
            ring
      | median =>
        rw [h2 rfl, _root_.abs_le]
        constructor
        · refine le_med (by simp; omega) fun x hx => ?_
          obtain ⟨b, rfl⟩ := (List.mem_ofFn' _ _).mp hx
          exact (_root_.abs_le.mp (he d b)).1
        · refine med_le (by simp; omega) fun x hx => ?_
          obtain ⟨b, rfl⟩ := (List.mem_ofFn' _ _).mp hx
          exact (_root_.abs_le.mp (he d b)).2
    rw [h3 b]
    have hw : 0 ≤ threshold * ((∑ b, |e d b - m|) / n) :=
      mul_nonneg ht.le (div_nonneg (Finset.sum_nonneg fun _ _ => abs_nonneg _) (Nat.cast_nonneg _))
    obtain ⟨h4, h5⟩ := clip_between (m := m) (x := e d b) hw
    rw [_root_.abs_le] at hm ⊢
    have := _root_.abs_le.mp (he d b)
    exact ⟨(le_min hm.1 this.1).trans h4, h5.trans (max_le hm.2 this.2)⟩
  · rw [h]
    exact he d b

/-- A walker with a large energy stays apart from the others. -/
theorem Clips.gap (hn : 0 < n) (h2 : 2 ≤ D * n) (h : Clips threshold center e c) (d₀ : Fin D) {B : ℝ}
    (he : ∀ d b, (d, b) ≠ (d₀, ⟨0, hn⟩) → |e d b| ≤ B) (hu : B ≤ e d₀ ⟨0, hn⟩) (d : Fin D) (b : Fin n)
    (hdb : (d, b) ≠ (d₀, ⟨0, hn⟩)) :
    kept threshold n * (e d₀ ⟨0, hn⟩ - B) / 2 - 2 * B ≤ c d₀ ⟨0, hn⟩ - c d b := by
  have hB : 0 ≤ B := (abs_nonneg _).trans (he d b hdb)
  have hk0 := kept_pos (threshold := threshold) hn
  have hk1 := kept_le (threshold := threshold) (n := n)
  set u := e d₀ ⟨0, hn⟩ with hu'
  have hlo : ∀ d b, -B ≤ e d b := fun d b => by
    by_cases hdb : (d, b) = (d₀, ⟨0, hn⟩)
    · simp only [Prod.mk.injEq] at hdb
      rw [hdb.1, hdb.2]
      linarith
    · exact (_root_.abs_le.mp (he d b hdb)).1
  have hebu := (_root_.abs_le.mp (he d b hdb)).2
  have hnR : (0 : ℝ) < n := by exact_mod_cast hn
  have hDR : (0 : ℝ) < D := by exact_mod_cast (Nat.pos_of_ne_zero (by rintro rfl; exact d.elim0))
  unfold Clips at h
  split_ifs at h with ht
  · obtain ⟨m₀, h1, h2', h3⟩ := h d₀
    obtain ⟨m, g1, g2, g3⟩ := h d
    -- the walker itself
    have hm₀ : -B ≤ m₀ := by
      cases center with
      | mean =>
        rw [h1 rfl, le_div_iff₀ (by positivity)]
        calc -B * (D * n) = ∑ _ : Fin D, ∑ _ : Fin n, -B := by
              simp
              ring
          _ ≤ _ := Finset.sum_le_sum fun d _ => Finset.sum_le_sum fun b _ => hlo d b
      | median =>
        rw [h2' rfl]
        refine le_med (by simp; omega) fun x hx => ?_
        obtain ⟨b, rfl⟩ := (List.mem_ofFn' _ _).mp hx
        exact hlo _ _
    have hmean : center = .mean → m₀ ≤ (u + B) / 2 := fun hc => by
      have hsum : ∑ d, ∑ b, e d b ≤ D * n * B + (u - B) := by
        calc ∑ d, ∑ b, e d b ≤ ∑ d : Fin D, ∑ b : Fin n,
              (B + if d = d₀ ∧ b = ⟨0, hn⟩ then u - B else 0) := by
              refine Finset.sum_le_sum fun d _ => Finset.sum_le_sum fun b _ => ?_
              split_ifs with hdb
              · rw [hdb.1, hdb.2]
                linarith
              · rw [add_zero]
                exact (_root_.abs_le.mp (he d b (by simpa using hdb))).2
          _ = D * n * B + (u - B) := by
              have : ∀ d, (∑ b : Fin n, if d = d₀ ∧ b = ⟨0, hn⟩ then u - B else 0) =
                  if d = d₀ then u - B else 0 := fun d => by
                by_cases hd : d = d₀ <;> simp [hd]
              simp only [Finset.sum_add_distrib, this]
              simp
              ring
      have hN : (2 : ℝ) ≤ D * n := by exact_mod_cast h2
      rw [h1 hc, div_le_iff₀ (by positivity)]
      nlinarith
    have hmed : center = .median → (n = 1 ∧ m₀ = u) ∨ m₀ ≤ (u + B) / 2 := fun hc => by
      rw [h2' hc]
      obtain ⟨k, rfl⟩ : ∃ k, n = k + 1 := ⟨n - 1, by omega⟩
      rw [List.ofFn_succ]
      rcases Nat.eq_zero_or_pos k with rfl | hk
      · left
        refine ⟨rfl, ?_⟩
        simp [med]
        rfl
      · right
        refine med_cons_le hu (fun x hx => ?_) (by simp; omega)
        obtain ⟨b, rfl⟩ := (List.mem_ofFn' _ _).mp hx
        exact (_root_.abs_le.mp (he d₀ b.succ (by simp [Fin.ext_iff]))).2
    have hmu : m₀ ≤ u := by
      cases center with
      | mean => linarith [hmean rfl]
      | median =>
        rcases hmed rfl with h | h
        · exact h.2.le
        · linarith
    have hc₀ : m₀ + kept threshold n * (u - m₀) ≤ c d₀ ⟨0, hn⟩ := by
      rw [h3]
      have hw : kept threshold n * (u - m₀) ≤ threshold * ((∑ b, |e d₀ b - m₀|) / n) := by
        have h4 : u - m₀ ≤ ∑ b, |e d₀ b - m₀| :=
          (le_abs_self _).trans (Finset.single_le_sum (f := fun b => |e d₀ b - m₀|)
            (fun _ _ => abs_nonneg _) (Finset.mem_univ _))
        have h5 : kept threshold n ≤ threshold / n := by
          unfold kept
          rw [if_pos ht]
          exact min_le_right _ _
        calc kept threshold n * (u - m₀) ≤ threshold / n * (u - m₀) :=
              mul_le_mul_of_nonneg_right h5 (by linarith)
          _ ≤ threshold / n * ∑ b, |e d₀ b - m₀| := by gcongr
          _ = _ := by ring
      refine le_min (by linarith) (le_max_of_le_right ?_)
      nlinarith
    -- the other one
    have hcb : c d b ≤ max m (e d b) := by
      rw [g3 b]
      exact (clip_between (mul_nonneg ht.le (div_nonneg (Finset.sum_nonneg fun _ _ => abs_nonneg _)
        (Nat.cast_nonneg _)))).2
    by_cases hcase : m = m₀ ∧ m₀ ≤ (u + B) / 2
    · have h4 : max m (e d b) ≤ m₀ + 2 * B := max_le (by linarith [hcase.1]) (by linarith)
      nlinarith [hcase.2]
    · have hmB : m ≤ B := by
        cases center with
        | mean => exact absurd ⟨(g1 rfl).trans (h1 rfl).symm, hmean rfl⟩ hcase
        | median =>
          have hd : d ≠ d₀ := by
            rintro rfl
            rcases hmed rfl with h | h
            · obtain ⟨rfl, -⟩ := h
              exact hdb (by rw [Subsingleton.elim b ⟨0, hn⟩])
            · exact hcase ⟨(g2 rfl).trans (h2' rfl).symm, h⟩
          rw [g2 rfl]
          refine med_le (by simp; omega) fun x hx => ?_
          obtain ⟨b, rfl⟩ := (List.mem_ofFn' _ _).mp hx
          exact (_root_.abs_le.mp (he d b (by simp [hd]))).2
      have h4 : max m (e d b) ≤ B := max_le hmB hebu
      nlinarith
  · subst h
    have : kept threshold n = 1 := if_neg ht
    rw [this]
    linarith

end clip

section large

variable {D n : ℕ} {threshold : ℝ} {center : Center} {e c : Fin D → Fin n → ℝ}

/-- The energy of a walker stays away from the mean if it is large. -/
theorem Clips.centered (hn : 0 < n) (h2 : 2 ≤ D * n) (h : Clips threshold center e c) (d₀ : Fin D) {B : ℝ}
    (he : ∀ d b, (d, b) ≠ (d₀, ⟨0, hn⟩) → |e d b| ≤ B) :
    ((D * n : ℝ) - 1) * (kept threshold n * (|e d₀ ⟨0, hn⟩| - B) / 2 - 2 * B) ≤
      D * n * |c d₀ ⟨0, hn⟩ - (∑ d, ∑ b, c d b) / (D * n)| := by
  have hN : (2 : ℝ) ≤ D * n := by exact_mod_cast h2
  have key : ∀ e c : Fin D → Fin n → ℝ, Clips threshold center e c →
      (∀ d b, (d, b) ≠ (d₀, ⟨0, hn⟩) → |e d b| ≤ B) → B ≤ e d₀ ⟨0, hn⟩ →
      ((D * n : ℝ) - 1) * (kept threshold n * (e d₀ ⟨0, hn⟩ - B) / 2 - 2 * B) ≤
        D * n * (c d₀ ⟨0, hn⟩ - (∑ d, ∑ b, c d b) / (D * n)) := by
    intro e c h he hu
    have h1 : D * n * (c d₀ ⟨0, hn⟩ - (∑ d, ∑ b, c d b) / (D * n)) =
        ∑ d, ∑ b, (c d₀ ⟨0, hn⟩ - c d b) := by
      simp only [Finset.sum_sub_distrib]
      rw [mul_sub, mul_div_cancel₀ _ (by linarith : (D * n : ℝ) ≠ 0)]
      simp
      ring
    rw [h1]
    generalize hT : kept threshold n * (e d₀ ⟨0, hn⟩ - B) / 2 - 2 * B = T
    have h3 : ∑ d : Fin D, ∑ b : Fin n, (T - if d = d₀ ∧ b = ⟨0, hn⟩ then T else 0) ≤
        ∑ d, ∑ b, (c d₀ ⟨0, hn⟩ - c d b) := by
      refine Finset.sum_le_sum fun d _ => Finset.sum_le_sum fun b _ => ?_
      split_ifs with hdb
      · rw [hdb.1, hdb.2]
        simp
      · rw [sub_zero, ← hT]
        exact h.gap hn h2 d₀ he hu d b (by simpa using hdb)
    refine le_trans (le_of_eq ?_) h3
    have : ∀ d, (∑ b : Fin n, if d = d₀ ∧ b = ⟨0, hn⟩ then T else 0) = if d = d₀ then T else 0 := fun d => by
      by_cases hd : d = d₀ <;> simp [hd]
    simp only [Finset.sum_sub_distrib, this]
    simp
    ring
  have hB : 0 ≤ B := by
    by_contra hB
    have hall : ∀ d b, (d, b) = (d₀, (⟨0, hn⟩ : Fin n)) := fun d b => by
      by_contra hdb
      exact hB ((abs_nonneg _).trans (he d b hdb))
    have : Fintype.card (Fin D × Fin n) ≤ 1 :=
      Fintype.card_le_one_iff.mpr fun a b => (hall a.1 a.2).trans (hall b.1 b.2).symm
    simp at this
    omega
  have hk0 := kept_pos (threshold := threshold) hn
  rcases le_or_gt B |e d₀ ⟨0, hn⟩| with hu | hu
  · rcases le_total 0 (e d₀ ⟨0, hn⟩) with h0 | h0
    · rw [abs_of_nonneg h0] at hu ⊢
      exact (key e c h he hu).trans (mul_le_mul_of_nonneg_left (le_abs_self _) (by linarith))
    · rw [abs_of_nonpos h0] at hu ⊢
      have := key _ _ (h.neg hn) (fun d b hdb => by rw [abs_neg]; exact he d b hdb) hu
      refine this.trans (mul_le_mul_of_nonneg_left ?_ (by linarith))
      rw [← abs_neg]
      refine le_trans (le_of_eq ?_) (le_abs_self _)
      simp only [Finset.sum_neg_distrib]
      ring
  · refine le_trans ?_ (mul_nonneg (by linarith) (abs_nonneg _))
    refine mul_nonpos_of_nonneg_of_nonpos (by linarith) ?_
    nlinarith

/-- The gradient is at least of the order of the product of a large energy and a large derivative. -/
theorem gradient_large (hn : 0 < n) (h2 : 2 ≤ D * n) (threshold : ℝ) (center : Center) (d₀ : Fin D) (B S : ℝ) :
    ∃ C, 0 ≤ C ∧ ∀ e c g : Fin D → Fin n → ℝ, Clips threshold center e c →
      (∀ d b, (d, b) ≠ (d₀, ⟨0, hn⟩) → |e d b| ≤ B ∧ |g d b| ≤ S) →
      |e d₀ ⟨0, hn⟩ * g d₀ ⟨0, hn⟩| ≤
        C * (|gradientOf c g| + |e d₀ ⟨0, hn⟩| + |g d₀ ⟨0, hn⟩| + 1) := by
  have hN : (2 : ℝ) ≤ D * n := by exact_mod_cast h2
  have hk0 := kept_pos (threshold := threshold) hn
  have hk1 := kept_le (threshold := threshold) (n := n)
  set κ := kept threshold n with hκ
  obtain ⟨N, hNdef⟩ : ∃ N : ℝ, N = D * n := ⟨_, rfl⟩
  refine ⟨2 / κ * (N ^ 2 + 2 * N ^ 2 * |S| + 2 * N ^ 2 * |S| * |B| + N * (3 * |B|)), by
    rw [hNdef]; positivity, fun e c g h hother => ?_⟩
  have hcent := h.centered hn h2 d₀ (fun d b hdb => (hother d b hdb).1)
  have hBS : 0 ≤ B ∧ 0 ≤ S := by
    by_contra hB
    have hall : ∀ d b, (d, b) = (d₀, (⟨0, hn⟩ : Fin n)) := fun d b => by
      by_contra hdb
      exact hB ⟨(abs_nonneg _).trans (hother d b hdb).1, (abs_nonneg _).trans (hother d b hdb).2⟩
    have : Fintype.card (Fin D × Fin n) ≤ 1 :=
      Fintype.card_le_one_iff.mpr fun a b => (hall a.1 a.2).trans (hall b.1 b.2).symm
    simp at this
    omega
  have habs := h.abs_le hn (A := |e d₀ ⟨0, hn⟩| + B) (fun d b => by
    by_cases hdb : (d, b) = (d₀, ⟨0, hn⟩)
    · simp only [Prod.mk.injEq] at hdb
      rw [hdb.1, hdb.2]
      linarith [hBS.1]
    · linarith [(hother d b hdb).1, abs_nonneg (e d₀ ⟨0, hn⟩)])
  rw [abs_of_nonneg hBS.1, abs_of_nonneg hBS.2]
  set u := |e d₀ ⟨0, hn⟩| with hu
  set w := |g d₀ ⟨0, hn⟩| with hw
  set cb := (∑ d, ∑ b, c d b) / (D * n) with hcb
  have hcb_le : |cb| ≤ u + B := by
    rw [hcb, abs_div, abs_of_pos (by linarith : (0 : ℝ) < D * n), div_le_iff₀ (by linarith)]
    calc |∑ d, ∑ b, c d b| ≤ ∑ d : Fin D, ∑ b : Fin n, |c d b| :=
        (Finset.abs_sum_le_sum_abs _ _).trans
          (Finset.sum_le_sum fun _ _ => Finset.abs_sum_le_sum_abs _ _)
      _ ≤ ∑ d : Fin D, ∑ b : Fin n, (u + B) :=
        Finset.sum_le_sum fun d _ => Finset.sum_le_sum fun b _ => habs d b
      _ = (u + B) * (D * n) := by
        simp
        ring
  -- the term of the walker
  have hterm : |c d₀ ⟨0, hn⟩ - cb| * w ≤ (N - 1) / 2 * |gradientOf c g| + N * (2 * (u + B) * S) := by
    have h1 : (c d₀ ⟨0, hn⟩ - cb) * g d₀ ⟨0, hn⟩ = (N - 1) / 2 * gradientOf c g -
        ∑ d, ∑ b, (if d = d₀ ∧ b = ⟨0, hn⟩ then 0 else (c d b - cb) * g d b) := by
      have h3 : (N - 1) / 2 * gradientOf c g = ∑ d, ∑ b, (c d b - cb) * g d b := by
        unfold gradientOf
        rw [← mul_assoc]
        have : (N - 1) / 2 * (2 / (((D * n : ℕ) : ℝ) - 1)) = 1 := by
          rw [hNdef]
          push_cast
          have : (D * n : ℝ) - 1 ≠ 0 := by linarith
          field_simp
        rw [this, one_mul]
      rw [h3, ← Finset.sum_sub_distrib]
      simp only [← Finset.sum_sub_distrib]
      rw [Finset.sum_eq_single d₀, Finset.sum_eq_single ⟨0, hn⟩]
      · simp
      · intro b _ hb
        simp [hb]
      · simp
      · intro d _ hd
        simp [hd]
      · simp
    rw [hw, ← abs_mul, h1]
    refine (abs_sub _ _).trans (add_le_add ?_ ?_)
    · rw [abs_mul, abs_of_nonneg (by rw [hNdef]; linarith)]
    · calc |∑ d, ∑ b, (if d = d₀ ∧ b = ⟨0, hn⟩ then 0 else (c d b - cb) * g d b)|
          ≤ ∑ d : Fin D, ∑ b : Fin n, |if d = d₀ ∧ b = ⟨0, hn⟩ then 0 else (c d b - cb) * g d b| :=
          (Finset.abs_sum_le_sum_abs _ _).trans
            (Finset.sum_le_sum fun _ _ => Finset.abs_sum_le_sum_abs _ _)
        _ ≤ ∑ d : Fin D, ∑ b : Fin n, (2 * (u + B) * S) := by
          refine Finset.sum_le_sum fun d _ => Finset.sum_le_sum fun b _ => ?_
          have hu0 : 0 ≤ u := abs_nonneg _
          split_ifs with hdb
          · rw [abs_zero]
            have := hBS.1
            have := hBS.2
            positivity
          · rw [abs_mul]
            refine mul_le_mul ?_ (hother d b (by simpa using hdb)).2 (abs_nonneg _) (by linarith [hBS.1])
            calc |c d b - cb| ≤ |c d b| + |cb| := abs_sub _ _
              _ ≤ 2 * (u + B) := by linarith [habs d b]
        _ = N * (2 * (u + B) * S) := by
          rw [hNdef]
          simp
          ring
  rw [abs_mul]
  rw [← hNdef] at hcent hN
  obtain ⟨Γ, hΓ⟩ : ∃ Γ, Γ = |gradientOf c g| := ⟨_, rfl⟩
  rw [← hΓ] at hterm ⊢
  have hΓ0 : 0 ≤ Γ := by rw [hΓ]; exact abs_nonneg _
  have hu0 : 0 ≤ u := abs_nonneg _
  have hw0 : 0 ≤ w := abs_nonneg _
  change u * w ≤ _
  have h4 := mul_le_mul_of_nonneg_right hcent hw0
  have h5 := mul_le_mul_of_nonneg_left hterm (by linarith : (0 : ℝ) ≤ N)
  obtain ⟨hB, hS⟩ := hBS
  have h6 : (N - 1) * (κ / 2 * (u * w)) ≤ N * ((N - 1) / 2 * Γ + N * (2 * (u + B) * S)) +
      (N - 1) * (κ * B / 2 + 2 * B) * w := by
    calc (N - 1) * (κ / 2 * (u * w)) = (N - 1) * (κ * (u - B) / 2 - 2 * B) * w +
          (N - 1) * (κ * B / 2 + 2 * B) * w := by ring
      _ ≤ _ := by linarith
  have h7 : κ / 2 * (u * w) ≤ (N - 1) * (κ / 2 * (u * w)) :=
    le_mul_of_one_le_left (by positivity) (by linarith)
  have h8 : κ / 2 * (u * w) ≤ (N ^ 2 + 2 * N ^ 2 * S + 2 * N ^ 2 * S * B + N * (3 * B)) *
      (Γ + u + w + 1) := by
    have hN0 : 0 ≤ N := by linarith
    have a1 : N * ((N - 1) / 2 * Γ) ≤ N ^ 2 * Γ := by nlinarith [mul_nonneg hN0 hΓ0]
    have a2 : (N - 1) * (κ * B / 2 + 2 * B) * w ≤ N * (3 * B) * w := by
      refine mul_le_mul_of_nonneg_right ?_ hw0
      refine mul_le_mul (by linarith) (by nlinarith) (by positivity) hN0
    have a3 : N * (N * (2 * (u + B) * S)) = 2 * N ^ 2 * S * u + 2 * N ^ 2 * S * B := by ring
    have p1 : 0 ≤ N ^ 2 := by positivity
    have p2 : 0 ≤ 2 * N ^ 2 * S := by positivity
    have p3 : 0 ≤ 2 * N ^ 2 * S * B := by positivity
    have p4 : 0 ≤ N * (3 * B) := by positivity
    generalize N ^ 2 = q1 at *
    nlinarith [mul_nonneg p1 hΓ0, mul_nonneg p1 hu0, mul_nonneg p1 hw0, mul_nonneg p2 hΓ0, mul_nonneg p2 hu0,
      mul_nonneg p2 hw0, mul_nonneg p3 hΓ0, mul_nonneg p3 hu0, mul_nonneg p3 hw0, mul_nonneg p4 hΓ0,
      mul_nonneg p4 hu0, mul_nonneg p4 hw0]
  have h9 := mul_le_mul_of_nonneg_left h8 (by positivity : 0 ≤ 2 / κ)
  calc u * w = 2 / κ * (κ / 2 * (u * w)) := by field_simp
    _ ≤ _ := h9
    _ = _ := by ring

end large

/-! ### What clipping takes from one large energy -/

section loss

variable {D n : ℕ} {threshold : ℝ} {center : Center} {e c : Fin D → Fin n → ℝ}

theorem gradientOf_sub (e c g : Fin D → Fin n → ℝ) :
    gradientOf e g - gradientOf c g = gradientOf (fun d b => e d b - c d b) g := by
  unfold gradientOf
  rw [← mul_sub, ← Finset.sum_sub_distrib]
  congr 1
  refine Finset.sum_congr rfl fun d _ => ?_
  rw [← Finset.sum_sub_distrib]
  refine Finset.sum_congr rfl fun b _ => ?_
  simp only [Finset.sum_sub_distrib]
  ring

/-- The term of one walker in the estimator. -/
theorem gradient_term (h2 : 2 ≤ D * n) (d₀ : Fin D) (b₀ : Fin n) {δ g : Fin D → Fin n → ℝ} {A S : ℝ}
    (hδ : ∀ d b, |δ d b| ≤ A) (hg : ∀ d b, (d, b) ≠ (d₀, b₀) → |g d b| ≤ S) :
    |δ d₀ b₀ - (∑ d, ∑ b, δ d b) / (D * n)| * |g d₀ b₀| ≤
      (D * n) * |gradientOf δ g| + (D * n) * (2 * A * |S|) := by
  have hN : (2 : ℝ) ≤ D * n := by exact_mod_cast h2
  have hA : 0 ≤ A := (abs_nonneg _).trans (hδ d₀ b₀)
  set cb := (∑ d, ∑ b, δ d b) / (D * n) with hcb
  have hcb_le : |cb| ≤ A := by
    rw [hcb, abs_div, abs_of_pos (by linarith : (0 : ℝ) < D * n), div_le_iff₀ (by linarith)]
    calc |∑ d, ∑ b, δ d b| ≤ ∑ d : Fin D, ∑ b : Fin n, |δ d b| :=
        (Finset.abs_sum_le_sum_abs _ _).trans
          (Finset.sum_le_sum fun _ _ => Finset.abs_sum_le_sum_abs _ _)
      _ ≤ ∑ d : Fin D, ∑ b : Fin n, A :=
        Finset.sum_le_sum fun d _ => Finset.sum_le_sum fun b _ => hδ d b
      _ = A * (D * n) := by
        simp
        ring
  have h1 : (δ d₀ b₀ - cb) * g d₀ b₀ = ((D * n : ℝ) - 1) / 2 * gradientOf δ g -
      ∑ d, ∑ b, (if d = d₀ ∧ b = b₀ then 0 else (δ d b - cb) * g d b) := by
    have h3 : ((D * n : ℝ) - 1) / 2 * gradientOf δ g = ∑ d, ∑ b, (δ d b - cb) * g d b := by
      unfold gradientOf
      rw [← mul_assoc]
      have : ((D * n : ℝ) - 1) / 2 * (2 / (((D * n : ℕ) : ℝ) - 1)) = 1 := by
        push_cast
        have : (D * n : ℝ) - 1 ≠ 0 := by linarith
        field_simp
      rw [this, one_mul]
    rw [h3, ← Finset.sum_sub_distrib]
    simp only [← Finset.sum_sub_distrib]
    rw [Finset.sum_eq_single d₀, Finset.sum_eq_single b₀]
    · simp
    · intro b _ hb
      simp [hb]
    · simp
    · intro d _ hd
      simp [hd]
    · simp
  rw [← abs_mul, h1]
  refine (abs_sub _ _).trans (add_le_add ?_ ?_)
  · rw [abs_mul, abs_of_nonneg (by linarith)]
    exact mul_le_mul_of_nonneg_right (by linarith) (abs_nonneg _)
  · calc |∑ d, ∑ b, (if d = d₀ ∧ b = b₀ then 0 else (δ d b - cb) * g d b)|
        ≤ ∑ d : Fin D, ∑ b : Fin n, |if d = d₀ ∧ b = b₀ then 0 else (δ d b - cb) * g d b| :=
        (Finset.abs_sum_le_sum_abs _ _).trans
          (Finset.sum_le_sum fun _ _ => Finset.abs_sum_le_sum_abs _ _)
      _ ≤ ∑ d : Fin D, ∑ b : Fin n, 2 * A * |S| := by
        refine Finset.sum_le_sum fun d _ => Finset.sum_le_sum fun b _ => ?_
        split_ifs with hdb
        · rw [abs_zero]
          positivity
        · rw [abs_mul]
          have h4 : |δ d b - cb| ≤ 2 * A := (abs_sub _ _).trans (by linarith [hδ d b])
          have h5 := (hg d b (by simpa using hdb)).trans (le_abs_self S)
          exact mul_le_mul h4 h5 (abs_nonneg _) (by linarith)
      _ = _ := by
        simp
        ring

/-- What clipping takes from a large energy, if there are more than four times as many walkers on a device as
the threshold. -/
theorem Clips.loss (hn : 3 ≤ n) (ht0 : 0 < threshold) (ht : 4 * threshold < n)
    (h : Clips threshold center e c) (d₀ : Fin D) {B : ℝ}
    (he : ∀ d b, (d, b) ≠ (d₀, ⟨0, by omega⟩) → |e d b| ≤ B) (hu : B ≤ e d₀ ⟨0, by omega⟩) :
    e d₀ ⟨0, by omega⟩ / 9 - (3 + 2 * threshold) * B ≤
      (e d₀ ⟨0, by omega⟩ - c d₀ ⟨0, by omega⟩) - (∑ d, ∑ b, (e d b - c d b)) / (D * n) := by
  have hn0 : 0 < n := by omega
  have hB : 0 ≤ B := (abs_nonneg _).trans (he d₀ ⟨1, by omega⟩ (by simp))
  set u := e d₀ ⟨0, by omega⟩ with hu'
  have hnR : (3 : ℝ) ≤ n := by exact_mod_cast hn
  have hDR : (1 : ℝ) ≤ D := by
    exact_mod_cast (Nat.one_le_iff_ne_zero.mpr (by rintro rfl; exact d₀.elim0))
  have hN : (n : ℝ) ≤ D * n := by nlinarith
  have hlo : ∀ d b, -B ≤ e d b := fun d b => by
    by_cases hdb : (d, b) = (d₀, ⟨0, hn0⟩)
    · simp only [Prod.mk.injEq] at hdb
      rw [hdb.1, hdb.2]
      linarith
    · exact (_root_.abs_le.mp (he d b hdb)).1
  rw [Clips, if_pos ht0] at h
  -- centres are not far below the energies
  have hmlo : ∀ d m, (center = .mean → m = (∑ d, ∑ b, e d b) / (D * n)) →
      (center = .median → m = med (List.ofFn (e d))) → -B ≤ m := by
    intro d m h1 h2
    cases center with
    | mean =>
      rw [h1 rfl, le_div_iff₀ (by linarith)]
      calc -B * (D * n) = ∑ _ : Fin D, ∑ _ : Fin n, -B := by
            simp
            ring
        _ ≤ _ := Finset.sum_le_sum fun d _ => Finset.sum_le_sum fun b _ => hlo d b
    | median =>
      rw [h2 rfl]
      refine le_med (by simp; omega) fun x hx => ?_
      obtain ⟨b, rfl⟩ := (List.mem_ofFn' _ _).mp hx
      exact hlo _ _
  -- other walkers lose little
  have hother : ∀ d b, (d, b) ≠ (d₀, ⟨0, hn0⟩) → e d b - c d b ≤ 2 * B := by
    intro d b hdb
    obtain ⟨m, h1, h2, h3⟩ := h d
    have hm := hmlo d m h1 h2
    have hw : 0 ≤ threshold * ((∑ b, |e d b - m|) / n) :=
      mul_nonneg ht0.le (div_nonneg (Finset.sum_nonneg fun _ _ => abs_nonneg _) (Nat.cast_nonneg _))
    have h4 := (clip_between (m := m) (x := e d b) hw).1
    rw [← h3 b] at h4
    have h5 : -B ≤ min m (e d b) := le_min hm (hlo d b)
    have h6 := (_root_.abs_le.mp (he d b hdb)).2
    linarith
  -- the walker itself
  have hself : u / 6 - (1 + 2 * threshold) * B ≤ u - c d₀ ⟨0, hn0⟩ := by
    obtain ⟨m, h1, h2, h3⟩ := h d₀
    have hm := hmlo d₀ m h1 h2
    have hmu : n * m ≤ u + n * B := by
      cases center with
      | mean =>
        have hsum : ∑ d, ∑ b, e d b ≤ D * n * B + (u - B) := by
          calc ∑ d, ∑ b, e d b ≤ ∑ d : Fin D, ∑ b : Fin n,
                (B + if d = d₀ ∧ b = ⟨0, hn0⟩ then u - B else 0) := by
                refine Finset.sum_le_sum fun d _ => Finset.sum_le_sum fun b _ => ?_
                split_ifs with hdb
                · rw [hdb.1, hdb.2]
                  linarith
                · rw [add_zero]
                  exact (_root_.abs_le.mp (he d b (by simpa using hdb))).2
            _ = D * n * B + (u - B) := by
                have : ∀ d, (∑ b : Fin n, if d = d₀ ∧ b = ⟨0, hn0⟩ then u - B else 0) =
                    if d = d₀ then u - B else 0 := fun d => by
                  by_cases hd : d = d₀ <;> simp [hd]
                simp only [Finset.sum_add_distrib, this]
                simp
                ring
        have h4 : n * m = (∑ d, ∑ b, e d b) / D := by
          rw [h1 rfl]
          field_simp
        rw [h4, div_le_iff₀ (by linarith)]
        nlinarith
      | median =>
        have hmB : m ≤ B := by
          rw [h2 rfl]
          obtain ⟨k, rfl⟩ : ∃ k, n = k + 1 := ⟨n - 1, by omega⟩
          rw [List.ofFn_succ]
          have hle : ∀ x ∈ List.ofFn fun i : Fin k => e d₀ i.succ, x ≤ B := by
            intro x hx
            obtain ⟨b, rfl⟩ := (List.mem_ofFn' _ _).mp hx
            exact (_root_.abs_le.mp (he d₀ b.succ (by simp [Fin.ext_iff]))).2
          have hlen := List.length_insertionSort (· ≤ ·) (e d₀ 0 :: List.ofFn fun i : Fin k => e d₀ i.succ)
          rw [List.length_cons, List.length_ofFn] at hlen
          unfold med
          simp only
          have g1 := sorted_le (u := e d₀ 0) hle (i := (((e d₀ 0 :: List.ofFn fun i : Fin k =>
            e d₀ i.succ).insertionSort (· ≤ ·)).length - 1) / 2) (by rw [List.length_ofFn]; omega)
          have g2 := sorted_le (u := e d₀ 0) hle (i := ((e d₀ 0 :: List.ofFn fun i : Fin k =>
            e d₀ i.succ).insertionSort (· ≤ ·)).length / 2) (by rw [List.length_ofFn]; omega)
          linarith
        nlinarith
    have hma : n * |m| ≤ u + n * B := by
      rcases abs_cases m with ⟨h4, -⟩ | ⟨h4, -⟩ <;> rw [h4]
      · exact hmu
      · nlinarith
    have hdev : ∑ b, |e d₀ b - m| ≤ 2 * u + 2 * n * B := by
      calc ∑ b, |e d₀ b - m| ≤ ∑ b : Fin n, (|m| + (B + if b = ⟨0, hn0⟩ then u - B else 0)) := by
            refine Finset.sum_le_sum fun b _ => (abs_sub _ _).trans ?_
            split_ifs with hb
            · rw [hb, ← hu', abs_of_nonneg (by linarith)]
              linarith
            · have := he d₀ b (by simpa using hb)
              linarith
        _ = n * |m| + (n * B + (u - B)) := by
            simp only [Finset.sum_add_distrib]
            simp
        _ ≤ _ := by linarith
    have hc₀ : c d₀ ⟨0, hn0⟩ ≤ m + threshold * ((∑ b, |e d₀ b - m|) / n) := by
      rw [h3]
      exact min_le_left _ _
    have h5 : threshold * ((∑ b, |e d₀ b - m|) / n) ≤ u / 2 + 2 * threshold * B := by
      rw [← mul_div_assoc, div_le_iff₀ (by linarith)]
      have := mul_le_mul_of_nonneg_left hdev ht0.le
      nlinarith
    have h6 : m ≤ u / 3 + B := by nlinarith
    linarith
  -- the mean of the losses
  have hmean : (∑ d, ∑ b, (e d b - c d b)) / (D * n) ≤
      2 * B + (u - c d₀ ⟨0, hn0⟩ - 2 * B) / (D * n) := by
    rw [div_le_iff₀ (by linarith), add_mul, div_mul_cancel₀ _ (by linarith : (D * n : ℝ) ≠ 0)]
    calc ∑ d, ∑ b, (e d b - c d b) ≤ ∑ d : Fin D, ∑ b : Fin n,
          (2 * B + if d = d₀ ∧ b = ⟨0, hn0⟩ then u - c d₀ ⟨0, hn0⟩ - 2 * B else 0) := by
          refine Finset.sum_le_sum fun d _ => Finset.sum_le_sum fun b _ => ?_
          split_ifs with hdb
          · rw [hdb.1, hdb.2]
            linarith
          · rw [add_zero]
            exact hother d b (by simpa using hdb)
      _ = _ := by
          have : ∀ d, (∑ b : Fin n, if d = d₀ ∧ b = ⟨0, hn0⟩ then u - c d₀ ⟨0, hn0⟩ - 2 * B else 0) =
              if d = d₀ then u - c d₀ ⟨0, hn0⟩ - 2 * B else 0 := fun d => by
            by_cases hd : d = d₀ <;> simp [hd]
          simp only [Finset.sum_add_distrib, this]
          simp
          ring
  generalize u - c d₀ ⟨0, hn0⟩ = L at *
  have hu0 : 0 ≤ u := hB.trans hu
  have hq0 : 0 ≤ 1 / (D * n : ℝ) := by positivity
  have hq1 : 1 / (D * n : ℝ) ≤ 1 / 3 := one_div_le_one_div_of_le (by norm_num) (by linarith)
  rw [div_eq_mul_one_div (L - 2 * B)] at hmean
  generalize 1 / (D * n : ℝ) = r at *
  have h7 : (1 - r) * (u / 6 - (1 + 2 * threshold) * B - 2 * B) ≤ (1 - r) * (L - 2 * B) :=
    mul_le_mul_of_nonneg_left (by linarith) (by linarith)
  have h8 : 0 ≤ (3 + 2 * threshold) * B := by positivity
  nlinarith

/-- What clipping changes in the estimator is at least of the order of the product of a large energy
and a large derivative. -/
theorem clipping_large (hn : 3 ≤ n) (ht0 : 0 < threshold) (ht : 4 * threshold < n) (center : Center)
    (d₀ : Fin D) (B S : ℝ) :
    ∃ C, 0 ≤ C ∧ ∀ e c g : Fin D → Fin n → ℝ, Clips threshold center e c →
      (∀ d b, (d, b) ≠ (d₀, ⟨0, by omega⟩) → |e d b| ≤ B ∧ |g d b| ≤ S) →
      |e d₀ ⟨0, by omega⟩ * g d₀ ⟨0, by omega⟩| ≤
        C * (|gradientOf c g - gradientOf e g| + |e d₀ ⟨0, by omega⟩| + |g d₀ ⟨0, by omega⟩| + 1) := by
  have hn0 : 0 < n := by omega
  have hD : 1 ≤ D := Nat.one_le_iff_ne_zero.mpr (by rintro rfl; exact d₀.elim0)
  have h2 : 2 ≤ D * n := by nlinarith
  have hN : (2 : ℝ) ≤ D * n := by exact_mod_cast h2
  refine ⟨9 * (D * n + D * n * (4 * |S|) + D * n * (4 * |B| * |S|) + (3 + 2 * threshold) * |B|), by positivity,
    fun e c g h hother => ?_⟩
  have hB : 0 ≤ B := (abs_nonneg _).trans (hother d₀ ⟨1, by omega⟩ (by simp)).1
  rw [abs_of_nonneg hB]
  have habs := h.abs_le hn0 (A := |e d₀ ⟨0, hn0⟩| + B) (fun d b => by
    by_cases hdb : (d, b) = (d₀, ⟨0, hn0⟩)
    · simp only [Prod.mk.injEq] at hdb
      rw [hdb.1, hdb.2]
      linarith
    · linarith [(hother d b hdb).1, abs_nonneg (e d₀ ⟨0, hn0⟩)])
  have hδ : ∀ d b, |e d b - c d b| ≤ 2 * (|e d₀ ⟨0, hn0⟩| + B) := fun d b => by
    refine (abs_sub _ _).trans ?_
    have h1 := habs d b
    have h3 : |e d b| ≤ |e d₀ ⟨0, hn0⟩| + B := by
      by_cases hdb : (d, b) = (d₀, ⟨0, hn0⟩)
      · simp only [Prod.mk.injEq] at hdb
        rw [hdb.1, hdb.2]
        linarith
      · linarith [(hother d b hdb).1, abs_nonneg (e d₀ ⟨0, hn0⟩)]
    linarith
  have hterm := gradient_term h2 d₀ ⟨0, hn0⟩ (g := g) hδ fun d b hdb => (hother d b hdb).2
  have hcent : |e d₀ ⟨0, hn0⟩| / 9 - (3 + 2 * threshold) * B ≤
      |(e d₀ ⟨0, hn0⟩ - c d₀ ⟨0, hn0⟩) - (∑ d, ∑ b, (e d b - c d b)) / (D * n)| := by
    rcases le_or_gt B |e d₀ ⟨0, hn0⟩| with hu | hu
    · rcases le_total 0 (e d₀ ⟨0, hn0⟩) with h0 | h0
      · rw [abs_of_nonneg h0] at hu ⊢
        exact (h.loss hn ht0 ht d₀ (fun d b hdb => (hother d b hdb).1) hu).trans (le_abs_self _)
      · rw [abs_of_nonpos h0] at hu ⊢
        have := (h.neg hn0).loss hn ht0 ht d₀ (fun d b hdb => by
          rw [abs_neg]
          exact (hother d b hdb).1) hu
        refine this.trans ?_
        rw [← abs_neg (e d₀ ⟨0, hn0⟩ - c d₀ ⟨0, hn0⟩ - _)]
        refine le_trans (le_of_eq ?_) (le_abs_self _)
        have e1 : ∀ d b, -e d b - -c d b = -(e d b - c d b) := fun d b => by ring
        simp only [e1, Finset.sum_neg_distrib]
        ring
    · refine le_trans ?_ (abs_nonneg _)
      have : 0 ≤ 2 * threshold * B := by positivity
      linarith
  rw [← gradientOf_sub, abs_sub_comm (gradientOf e g)] at hterm
  have hw := abs_nonneg (g d₀ ⟨0, hn0⟩)
  have hu := abs_nonneg (e d₀ ⟨0, hn0⟩)
  have hG := abs_nonneg (gradientOf c g - gradientOf e g)
  have h3 := (mul_le_mul_of_nonneg_right hcent hw).trans hterm
  rw [abs_mul]
  have hS := abs_nonneg S
  have ht1 : 0 ≤ (3 + 2 * threshold) * B := by positivity
  generalize |gradientOf c g - gradientOf e g| = G at *
  generalize |g d₀ ⟨0, hn0⟩| = w at *
  generalize |e d₀ ⟨0, hn0⟩| = u at *
  generalize |S| = s at *
  generalize (3 + 2 * threshold) * B = T at *
  generalize (D * n : ℝ) = M at *
  have hM : 0 ≤ M := by linarith
  have p1 : 0 ≤ M * s := by positivity
  have p2 : 0 ≤ M * (4 * B * s) := by positivity
  have p3 : 0 ≤ M * (4 * s) := by positivity
  have q1 : M * G ≤ M * (G + u + w + 1) := mul_le_mul_of_nonneg_left (by linarith) hM
  have q2 : M * (4 * s) * u ≤ M * (4 * s) * (G + u + w + 1) := mul_le_mul_of_nonneg_left (by linarith) p3
  have q3 : M * (4 * B * s) * 1 ≤ M * (4 * B * s) * (G + u + w + 1) :=
    mul_le_mul_of_nonneg_left (by linarith) p2
  have q4 : T * w ≤ T * (G + u + w + 1) := mul_le_mul_of_nonneg_left (by linarith) ht1
  nlinarith

end loss
end Verif.Props
