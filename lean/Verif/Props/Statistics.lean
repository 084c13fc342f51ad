import Verif.Lemmas.Statistics

/-!
Property theorems about the evaluation statistics: C25 (autocorrelation), C26 (variance),
C27 (integrated autocorrelation and standard error).
-/

namespace Verif.Props
open Spec Stat

/-! ### C25 -/

/-- C25.  The curve computed through the Fourier transform has length `min(cutoff, N)` and at
lag `k` is the direct autocovariance at lag `k` divided by the one at lag 0. -/
theorem fft_autocorr_is_direct (N : ℕ) (x : ℕ → ℝ) (cutoff : Option ℕ)
    (hvar : autocov N x 0 ≠ 0) :
    perChainCurve N x cutoff = (List.range (curveLen N cutoff)).map
      fun k => XR.fin (autocov N x k / autocov N x 0) := by
  refine List.map_congr_left fun k hk => ?_
  have hkN : k < N := by
    have h1 := List.mem_range.mp hk
    cases cutoff with
    | none => exact h1
    | some c => exact lt_of_lt_of_le h1 (Nat.min_le_right _ _)
  have hN : 0 < N := by omega
  have hG : ∀ j < N, (ifft (2 * N) (fun k =>
      fftPad (2 * N) N (fun t => x t - chainMean N x) k *
        (starRingEnd ℂ) (fftPad (2 * N) N (fun t => x t - chainMean N x) k)) j).re /
        ((N : ℝ) - j) = autocov N x j := by
    intro j hj
    rw [ifft_autocorr N _ j hj, Complex.ofReal_re]
    unfold autocov
    rw [Nat.cast_sub hj.le]
    rfl
  unfold perChainAutocorr
  simp only
  rw [hG k hkN, hG 0 hN, XR.fin_div hvar]

/-- C25: the curve is 1 at lag 0. -/
theorem autocorr_lag_zero (N : ℕ) (x : ℕ → ℝ) (hN : 1 ≤ N) (hvar : autocov N x 0 ≠ 0) :
    (perChainCurve N x none).head? = some (.fin 1) := by
  rw [fft_autocorr_is_direct N x none hvar]
  obtain ⟨n, rfl⟩ : ∃ n, N = n + 1 := ⟨N - 1, by omega⟩
  simp only [curveLen, List.range_succ_eq_map, List.map_cons, List.head?_cons]
  rw [div_self hvar]

/-- C25: with zero variance every entry is nan (the hypothesis is needed). -/
theorem autocorr_constant_chain (N : ℕ) (x : ℕ → ℝ) (k : ℕ) (hN : 1 ≤ N)
    (hvar : ∀ t < N, x t = avg N x) (hk : k < N) : perChainAutocorr N x k = .nan := by
  have hz : ∀ j < N, ∑ m ∈ Finset.range (N - j), (x m - chainMean N x) *
      (x (m + j) - chainMean N x) = 0 := by
    intro j hj
    refine Finset.sum_eq_zero fun m hm => ?_
    have h1 := hvar m (by have := Finset.mem_range.mp hm; omega)
    have : x m - chainMean N x = 0 := by rw [h1]; exact sub_self _
    rw [this, zero_mul]
  unfold perChainAutocorr
  simp only
  rw [ifft_autocorr N _ k hk, ifft_autocorr N _ 0 (by omega), Complex.ofReal_re,
    Complex.ofReal_re, hz k hk, hz 0 (by omega)]
  show XR.div (.fin _) (.fin _) = _
  simp [XR.div, XR.infMul]

/-- The chain 1, 0, 0: autocovariance at lag 0 is 2/9, at lag 1 it is -1/18. -/
example : autocov 3 (fun t => if t = 0 then 1 else 0) 0 = 2 / 9 ∧
    autocov 3 (fun t => if t = 0 then 1 else 0) 1 = -1 / 18 := by
  unfold autocov avg
  norm_num [Finset.sum_range_succ]

/-! ### C26 -/

/-- C26 as stated. -/
def VarianceIsPopulationVariance : Prop :=
  ∀ (N M : ℕ) (x : ℕ → ℕ → ℝ), 2 ≤ N → 2 ≤ M → overallVar N M x = .fin (popVar N M x)

/-- The between-chain term for at least two chains: sample variance of the chain means. -/
noncomputable def betweenVar (N M : ℕ) (x : ℕ → ℕ → ℝ) : ℝ :=
  (∑ c ∈ Finset.range M,
    ((avg N fun t => x t c) - avg M fun c => avg N fun t => x t c) ^ 2) / (M - 1)

/-- What the code computes: the population variance plus `1/M` of the sample variance of the
chain means. -/
theorem variance_exact (N M : ℕ) (x : ℕ → ℕ → ℝ) (hN : 2 ≤ N) (hM : 2 ≤ M) :
    overallVar N M x = .fin (popVar N M x + betweenVar N M x / M) := by
  have hN1 : (N : ℝ) - 1 ≠ 0 := by
    have : (2 : ℝ) ≤ N := by exact_mod_cast hN
    linarith
  have hM1 : (M : ℝ) - 1 ≠ 0 := by
    have : (2 : ℝ) ≤ M := by exact_mod_cast hM
    linarith
  have hN0 : (N : ℝ) ≠ 0 := by
    have : N ≠ 0 := by omega
    exact_mod_cast this
  have hM0 : (M : ℝ) ≠ 0 := by
    have : M ≠ 0 := by omega
    exact_mod_cast this
  have hB : betweenTerm N M x = .fin (betweenVar N M x) := by
    unfold betweenTerm var1
    rw [XR.fin_div hM1]
    rfl
  have hW : withinTerm N M x = .fin ((∑ c ∈ Finset.range M,
      (∑ t ∈ Finset.range N, (x t c - avg N fun t => x t c) ^ 2) / ((N : ℝ) - 1)) / M) := by
    unfold withinTerm meanX
    have : ∀ c, var1 N (fun t => x t c) =
        .fin ((∑ t ∈ Finset.range N, (x t c - avg N fun t => x t c) ^ 2) / ((N : ℝ) - 1)) := by
      intro c
      unfold var1
      rw [XR.fin_div hN1]
      rfl
    simp_rw [this]
    rw [XR.sum_fin, XR.ofNat, XR.fin_div hM0]
  unfold overallVar
  rw [hB, hW, XR.fin_mul, XR.ofNat, XR.fin_div hN0, XR.fin_add, XR.fin_inj]
  have hpop : popVar N M x = (∑ c ∈ Finset.range M,
      ∑ t ∈ Finset.range N, (x t c - avg N fun t => x t c) ^ 2) / (N * M) +
      (M - 1) * betweenVar N M x / M := by
    unfold popVar betweenVar
    rw [grandMean_eq N M x (by omega) (by omega), Finset.sum_comm]
    have : ∀ c, ∑ t ∈ Finset.range N,
        (x t c - avg M fun c => avg N fun t => x t c) ^ 2 = _ :=
      fun c => sumSq_shift N (fun t => x t c) (by omega) _
    simp_rw [this]
    rw [Finset.sum_add_distrib, ← Finset.mul_sum]
    field_simp
  rw [hpop, ← Finset.sum_div]
  field_simp
  ring

/-- C26 holds exactly when all chain means coincide.
Missing: the general case, which is false, see `variance_is_population_variance_fails`. -/
theorem variance_is_population_variance_partial (N M : ℕ) (x : ℕ → ℕ → ℝ) (hN : 2 ≤ N)
    (hM : 2 ≤ M) :
    overallVar N M x = .fin (popVar N M x) ↔
      ∀ c < M, (avg N fun t => x t c) = avg M fun c => avg N fun t => x t c := by
  have hM2 : (2 : ℝ) ≤ M := by exact_mod_cast hM
  have hM1 : (0 : ℝ) < (M : ℝ) - 1 := by linarith
  rw [variance_exact N M x hN hM, XR.fin_inj]
  constructor
  · intro h
    have h2 : betweenVar N M x = 0 := by
      have : betweenVar N M x / M = 0 := by linarith
      have hM0 : (M : ℝ) ≠ 0 := by linarith
      field_simp at this
      simpa using this
    unfold betweenVar at h2
    rw [div_eq_zero_iff] at h2
    rcases h2 with h2 | h2
    · rw [Finset.sum_eq_zero_iff_of_nonneg (fun _ _ => sq_nonneg _)] at h2
      intro c hc
      have := h2 c (Finset.mem_range.mpr hc)
      have := pow_eq_zero_iff (two_ne_zero) |>.mp this
      linarith
    · linarith
  · intro h
    have : betweenVar N M x = 0 := by
      unfold betweenVar
      rw [Finset.sum_eq_zero, zero_div]
      intro c hc
      rw [h c (Finset.mem_range.mp hc)]
      ring
    rw [this]; simp

/-- C26 is false of the code: two chains with different means. -/
theorem variance_is_population_variance_fails : ¬ VarianceIsPopulationVariance := by
  intro h
  have h1 := (variance_is_population_variance_partial 2 2 (fun _ c => (c : ℝ)) le_rfl le_rfl).mp
    (h 2 2 _ le_rfl le_rfl) 0 (by norm_num)
  unfold avg at h1
  norm_num [Finset.sum_range_succ] at h1

/-- With a single chain the code's variance is always nan. -/
theorem single_chain_variance_nan (N : ℕ) (x : ℕ → ℕ → ℝ) : overallVar N 1 x = .nan := by
  have : betweenTerm N 1 x = .nan := by
    unfold betweenTerm var1 sumSq chainMean
    show XR.div (.fin _) (.fin _) = _
    simp [XR.div, XR.infMul]
  unfold overallVar
  rw [this, XR.add_nan]

/-- The reported average is the mean of all samples. -/
theorem summary_average (N M : ℕ) (x : ℕ → ℕ → ℝ) (hN : 1 ≤ N) (hM : 1 ≤ M) :
    (getStatsSummary N M x).average = .fin (grandMean N M x) := by
  have hN0 : (N : ℝ) ≠ 0 := by
    have : N ≠ 0 := by omega
    exact_mod_cast this
  have hM0 : (M : ℝ) ≠ 0 := by
    have : M ≠ 0 := by omega
    exact_mod_cast this
  simp only [getStatsSummary, meanX, XR.sum_fin, XR.ofNat, XR.fin_div hM0, XR.fin_div hN0]
  unfold grandMean
  rw [← Finset.sum_div]
  congr 1
  field_simp

/-- Chains with equal means but different values. -/
example : ∀ c < 2, (avg 2 fun t => ((-1 : ℝ) ^ t) * (c + 1 : ℕ)) =
    avg 2 fun c => avg 2 fun t => ((-1 : ℝ) ^ t) * (c + 1 : ℕ) := by
  intro c _
  unfold avg
  simp [Finset.sum_range_succ]

/-! ### C27 -/

/-- C27.  Integrated autocorrelation of a finite real curve: `-1 + 2 *` the sum of the running
minima of the pair sums up to the first negative one. -/
theorem tau_is_initial_monotone_sum (c : List ℝ) (T : ℕ) (hT : IsCut c T) :
    tau (c.map XR.fin) = .fin (-1 + 2 * ∑ j ∈ Finset.range T, runMin (pairSum c) j) := by
  unfold tau
  rw [pairSums_map, cutNegative_map (pairSum c) _ T hT.1 hT.2.1 hT.2.2, minAcc_map, list_sum_fin,
    XR.fin_mul, XR.fin_add]

/-- The cut exists and is unique. -/
theorem cut_exists_unique (c : List ℝ) : ∃! T, IsCut c T := by
  classical
  by_cases h : ∃ j, j < c.length / 2 ∧ pairSum c j < 0
  · refine ⟨Nat.find h, ⟨(Nat.find_spec h).1.le, ?_, fun _ => (Nat.find_spec h).2⟩, ?_⟩
    · intro j hj
      by_contra hneg
      exact Nat.find_min h hj ⟨by have := (Nat.find_spec h).1; omega, not_le.mp hneg⟩
    · rintro T ⟨h1, h2, h3⟩
      rcases lt_trichotomy T (Nat.find h) with hlt | heq | hgt
      · exact absurd ⟨by have := (Nat.find_spec h).1; omega,
          h3 (by have := (Nat.find_spec h).1; omega)⟩ (Nat.find_min h hlt)
      · exact heq
      · exact absurd (Nat.find_spec h).2 (not_lt.mpr (h2 _ hgt))
  · push Not at h
    refine ⟨c.length / 2, ⟨le_rfl, fun j hj => h j hj, fun h => absurd h (lt_irrefl _)⟩, ?_⟩
    rintro T ⟨h1, h2, h3⟩
    by_contra hne
    have hlt : T < c.length / 2 := lt_of_le_of_ne h1 hne
    exact absurd (h3 hlt) (not_lt.mpr (h T hlt))

theorem runMin_nonneg {s : ℕ → ℝ} {j : ℕ} (h : ∀ i ≤ j, 0 ≤ s i) : 0 ≤ runMin s j := by
  induction j with
  | zero => exact h 0 le_rfl
  | succ j ih => exact le_min (ih fun i hi => h i (by omega)) (h _ le_rfl)

theorem runMin_mono {s s' : ℕ → ℝ} {j : ℕ} (h : ∀ i ≤ j, s i ≤ s' i) :
    runMin s j ≤ runMin s' j := by
  induction j with
  | zero => exact h 0 le_rfl
  | succ j ih => exact min_le_min (ih fun i hi => h i (by omega)) (h _ le_rfl)

/-- C27: insensitive to everything after the first negative pair: two curves (of possibly
different lengths) that agree up to and including it have the same integrated
autocorrelation. -/
theorem tau_ignores_tail (c c' : List ℝ) (T : ℕ) (hT : IsCut c T) (hlt : T < c.length / 2)
    (hlen : 2 * T + 2 ≤ c'.length) (hagree : ∀ i < 2 * T + 2, c.getD i 0 = c'.getD i 0) :
    tau (c.map XR.fin) = tau (c'.map XR.fin) := by
  have hp : ∀ j ≤ T, pairSum c j = pairSum c' j := by
    intro j hj
    unfold pairSum
    rw [hagree (2 * j) (by omega), hagree (2 * j + 1) (by omega)]
  have hT' : IsCut c' T := by
    refine ⟨by omega, fun j hj => ?_, fun _ => ?_⟩
    · rw [← hp j hj.le]; exact hT.2.1 j hj
    · rw [← hp T le_rfl]; exact hT.2.2 hlt
  rw [tau_is_initial_monotone_sum c T hT, tau_is_initial_monotone_sum c' T hT']
  congr 3
  refine Finset.sum_congr rfl fun j hj => ?_
  have hjT := Finset.mem_range.mp hj
  exact le_antisymm (runMin_mono fun i hi => (hp i (by omega)).le)
    (runMin_mono fun i hi => (hp i (by omega)).ge)

/-- C27: monotone: raising the retained pair sums does not lower the result. -/
theorem tau_monotone (c c' : List ℝ) (T T' : ℕ) (hT : IsCut c T) (hT' : IsCut c' T')
    (hlen : c.length ≤ c'.length) (hle : ∀ j < T, pairSum c j ≤ pairSum c' j) :
    ∃ r r' : ℝ, tau (c.map XR.fin) = .fin r ∧ tau (c'.map XR.fin) = .fin r' ∧ r ≤ r' := by
  refine ⟨_, _, tau_is_initial_monotone_sum c T hT, tau_is_initial_monotone_sum c' T' hT', ?_⟩
  have hTT : T ≤ T' := by
    by_contra hlt
    push Not at hlt
    have h1 := hT'.2.2 (by have := hT.1; omega)
    exact absurd h1 (not_lt.mpr (le_trans (hT.2.1 T' hlt) (hle T' hlt)))
  have h1 : ∑ j ∈ Finset.range T, runMin (pairSum c) j ≤
      ∑ j ∈ Finset.range T, runMin (pairSum c') j :=
    Finset.sum_le_sum fun j hj => runMin_mono fun i hi =>
      hle i (by have := Finset.mem_range.mp hj; omega)
  have h2 : ∑ j ∈ Finset.range T, runMin (pairSum c') j ≤
      ∑ j ∈ Finset.range T', runMin (pairSum c') j := by
    refine Finset.sum_le_sum_of_subset_of_nonneg
      (Finset.range_subset_range.mpr hTT) fun j hj _ => runMin_nonneg fun i hi => ?_
    exact hT'.2.1 i (by have := Finset.mem_range.mp hj; omega)
  linarith

/-- C27: if the first pair sum is at least 1/2 the integrated autocorrelation is
non-negative; in general it is at least `-1 + 2 *` (first pair sum). -/
theorem tau_nonneg (c : List ℝ) (hlen : 2 ≤ c.length) (h0 : 1 / 2 ≤ pairSum c 0) :
    ∃ r : ℝ, tau (c.map XR.fin) = .fin r ∧ -1 + 2 * pairSum c 0 ≤ r ∧ 0 ≤ r := by
  obtain ⟨T, hT, -⟩ := cut_exists_unique c
  have hTpos : 0 < T := by
    by_contra h
    have : T = 0 := by omega
    have := hT.2.2 (by omega)
    rw [‹T = 0›] at this
    linarith
  refine ⟨_, tau_is_initial_monotone_sum c T hT, ?_⟩
  have : pairSum c 0 ≤ ∑ j ∈ Finset.range T, runMin (pairSum c) j := by
    have hmem : 0 ∈ Finset.range T := Finset.mem_range.mpr hTpos
    calc pairSum c 0 = runMin (pairSum c) 0 := rfl
      _ ≤ _ := Finset.single_le_sum (f := fun j => runMin (pairSum c) j)
        (fun j hj => runMin_nonneg fun i hi => hT.2.1 i
          (by have := Finset.mem_range.mp hj; omega)) hmem
  constructor <;> linarith

/-- The combined curve in terms of direct autocovariances: one minus the sample-size-corrected
average drop of the autocovariance, relative to the reported variance `V`. -/
noncomputable def combined (N M : ℕ) (x : ℕ → ℕ → ℝ) (V : ℝ) (i : ℕ) : ℝ :=
  1 - (N / (N - 1) * avg M fun c =>
    autocov N (fun t => x t c) 0 - autocov N (fun t => x t c) i) / V

theorem popVar_nonneg (N M : ℕ) (x : ℕ → ℕ → ℝ) : 0 ≤ popVar N M x :=
  div_nonneg (Finset.sum_nonneg fun _ _ => Finset.sum_nonneg fun _ _ => sq_nonneg _)
    (by positivity)

theorem betweenVar_nonneg (N M : ℕ) (x : ℕ → ℕ → ℝ) (hM : 2 ≤ M) : 0 ≤ betweenVar N M x := by
  have hM2 : (2 : ℝ) ≤ M := by exact_mod_cast hM
  exact div_nonneg (Finset.sum_nonneg fun _ _ => sq_nonneg _) (by linarith)

theorem sumSq_autocov (N : ℕ) (hN : 1 ≤ N) (x : ℕ → ℝ) : sumSq N x = N * autocov N x 0 := by
  have hN0 : (N : ℝ) ≠ 0 := by
    have : N ≠ 0 := by omega
    exact_mod_cast this
  unfold autocov sumSq
  simp only [Nat.sub_zero, add_zero]
  rw [mul_div_cancel₀ _ hN0]
  exact Finset.sum_congr rfl fun t _ => by rw [sq]; rfl

/-- The combined curve is real and given by `combined` when there are at least two chains of at
least two samples, none of them constant and the reported variance is positive. -/
theorem combined_curve (N M : ℕ) (x : ℕ → ℕ → ℝ) (hN : 2 ≤ N) (hM : 2 ≤ M)
    (hvar : ∀ c < M, autocov N (fun t => x t c) 0 ≠ 0)
    (hV : popVar N M x + betweenVar N M x / M ≠ 0) (i : ℕ) (hi : i < N) :
    multiChainAutocorr N M x i =
      .fin (combined N M x (popVar N M x + betweenVar N M x / M) i) := by
  have hN1 : (N : ℝ) - 1 ≠ 0 := by
    have : (2 : ℝ) ≤ N := by exact_mod_cast hN
    linarith
  have hM0 : (M : ℝ) ≠ 0 := by
    have : M ≠ 0 := by omega
    exact_mod_cast this
  have hv1 : ∀ c, var1 N (fun t => x t c) =
      .fin (N / (N - 1) * autocov N (fun t => x t c) 0) := by
    intro c
    unfold var1
    rw [XR.fin_div hN1, sumSq_autocov N (by omega)]
    congr 1; ring
  have hW : withinTerm N M x =
      .fin (N / (N - 1) * avg M fun c => autocov N (fun t => x t c) 0) := by
    unfold withinTerm meanX
    simp_rw [hv1]
    rw [XR.sum_fin, XR.ofNat, XR.fin_div hM0, ← Finset.mul_sum]
    unfold avg
    congr 1; ring
  have hA : meanX M (fun c => var1 N (fun t => x t c) *
      perChainAutocorr N (fun t => x t c) i) =
      .fin (N / (N - 1) * avg M fun c => autocov N (fun t => x t c) i) := by
    unfold meanX
    have : ∀ c ∈ Finset.range M, var1 N (fun t => x t c) *
        perChainAutocorr N (fun t => x t c) i =
        .fin (N / (N - 1) * autocov N (fun t => x t c) i) := by
      intro c hc
      have hc' := hvar c (Finset.mem_range.mp hc)
      have h1 : perChainAutocorr N (fun t => x t c) i =
          .fin (autocov N (fun t => x t c) i / autocov N (fun t => x t c) 0) := by
        have h2 := fft_autocorr_is_direct N (fun t => x t c) none hc'
        unfold perChainCurve at h2
        exact List.map_inj_left.mp h2 i (List.mem_range.mpr hi)
      rw [h1, hv1, XR.fin_mul]
      congr 1
      field_simp
    rw [Finset.sum_congr rfl this, XR.sum_fin, XR.ofNat, XR.fin_div hM0, ← Finset.mul_sum]
    unfold avg
    congr 1; ring
  unfold multiChainAutocorr
  simp only
  rw [hA, hW, variance_exact N M x hN hM, XR.fin_sub, XR.fin_div hV, XR.fin_sub]
  unfold combined avg
  rw [Finset.sum_sub_distrib]
  congr 2
  ring

/-- The combined curve starts at 1. -/
theorem combined_curve_lag_zero (N M : ℕ) (x : ℕ → ℕ → ℝ) (V : ℝ) :
    combined N M x V 0 = 1 := by
  simp [combined, avg]

/-- C27: for at least two non-constant chains of at least two samples, when the combined
curve at lag 1 is at least -1/2 (first pair sum at least 1/2) the integrated autocorrelation
is a non-negative real and the standard error is the real number
`sqrt (iac * variance / count)`. -/
theorem std_err_is_real (N M : ℕ) (x : ℕ → ℕ → ℝ) (hN : 2 ≤ N) (hM : 2 ≤ M)
    (hvar : ∀ c < M, autocov N (fun t => x t c) 0 ≠ 0)
    (hV : popVar N M x + betweenVar N M x / M ≠ 0)
    (h1 : -1 / 2 ≤ combined N M x (popVar N M x + betweenVar N M x / M) 1) :
    ∃ r, 0 ≤ r ∧ (getStatsSummary N M x).iac = .fin r ∧
      (getStatsSummary N M x).stdErr =
        .fin (Real.sqrt (r * (popVar N M x + betweenVar N M x / M) / (N * M : ℕ))) := by
  set V := popVar N M x + betweenVar N M x / M with hVdef
  have hVnn : 0 ≤ V := add_nonneg (popVar_nonneg N M x)
    (div_nonneg (betweenVar_nonneg N M x hM) (by positivity))
  have hc : (List.range N).map (multiChainAutocorr N M x) =
      ((List.range N).map (combined N M x V)).map XR.fin := by
    rw [List.map_map]
    exact List.map_congr_left fun i hi =>
      combined_curve N M x hN hM hvar hV i (List.mem_range.mp hi)
  have hp : 1 / 2 ≤ pairSum ((List.range N).map (combined N M x V)) 0 := by
    unfold pairSum
    have h0 := combined_curve_lag_zero N M x V
    have e0 : ((List.range N).map (combined N M x V)).getD 0 0 = 1 := by
      simp [List.getD, show 0 < N by omega, h0]
    have e1 : ((List.range N).map (combined N M x V)).getD 1 0 = combined N M x V 1 := by
      simp [List.getD, show 1 < N by omega]
    simp only [Nat.mul_zero, zero_add]
    rw [e0, e1]; linarith
  obtain ⟨r, h2, -, h3⟩ := tau_nonneg _ (by simp; omega) hp
  have hiac : (getStatsSummary N M x).iac = .fin r := by
    simp only [getStatsSummary, curveLen]
    rw [hc, h2]
  have hNM0 : ((N * M : ℕ) : ℝ) ≠ 0 := by
    have : N * M ≠ 0 := Nat.mul_ne_zero (by omega) (by omega)
    exact_mod_cast this
  refine ⟨r, h3, hiac, ?_⟩
  have : (getStatsSummary N M x).stdErr =
      XR.sqrt ((getStatsSummary N M x).iac * overallVar N M x / XR.ofNat (N * M)) := rfl
  rw [this, hiac, variance_exact N M x hN hM, XR.fin_mul, XR.ofNat, XR.fin_div hNM0]
  exact XR.sqrt_fin (by positivity)

/-- C27: conversely, a curve whose first pair sum is negative (or with no pair at all) gives
an integrated autocorrelation of -1, and then the square root of a negative number. -/
theorem tau_cut_at_start (c : List ℝ) (h0 : IsCut c 0) (v n : ℝ) (hv : 0 < v) (hn : 0 < n) :
    tau (c.map XR.fin) = .fin (-1) ∧
      XR.sqrt (tau (c.map XR.fin) * .fin v / .fin n) = .nan := by
  have h1 : tau (c.map XR.fin) = .fin (-1) := by
    rw [tau_is_initial_monotone_sum c 0 h0]; simp
  refine ⟨h1, ?_⟩
  rw [h1, XR.fin_mul, XR.fin_div hn.ne']
  exact if_pos (div_neg_of_neg_of_pos (by linarith) hn)

/-- Two chains 0, 1 and 10, 11 meet the hypotheses of `std_err_is_real`. -/
example : (∀ c : ℕ, c < 2 → autocov 2 (fun t => (t + 10 * c : ℝ)) 0 ≠ 0) ∧
    popVar 2 2 (fun t c => (t + 10 * c : ℝ)) +
      betweenVar 2 2 (fun t c => (t + 10 * c : ℝ)) / 2 = 50.25 ∧
    -1 / 2 ≤ combined 2 2 (fun t c => (t + 10 * c : ℝ)) 50.25 1 := by
  refine ⟨fun c _ => ?_, ?_, ?_⟩
  · unfold autocov avg
    norm_num [Finset.sum_range_succ]
    ring_nf
    norm_num
  · unfold popVar betweenVar grandMean avg
    norm_num [Finset.sum_range_succ]
  · unfold combined autocov avg
    norm_num [Finset.sum_range_succ]

/-- Odd length, one negative pair: pair sums 1.5, 0.5, -1. -/
example : IsCut [1, 0.5, 0.25, 0.25, -0.5, -0.5, 7] 2 := by
  refine ⟨by simp, ?_, ?_⟩
  · intro j hj
    interval_cases j <;> norm_num [pairSum]
  · intro _; norm_num [pairSum]

end Verif.Props
