import Verif.Lemmas.Fft
import Verif.Spec.Statistics
namespace Verif.Stat
open Spec
theorem pairSums_map : ∀ c : List ℝ, pairSums (c.map XR.fin) =
    (List.range (c.length / 2)).map fun j => XR.fin (pairSum c j)
  | [] => rfl
  | [a] => by simp [pairSums]
  | a :: b :: rest => by
    have ih := pairSums_map rest
    simp only [List.map_cons, pairSums, ih, List.length_cons]
    have : (rest.length + 1 + 1) / 2 = rest.length / 2 + 1 := by omega
    rw [this, List.range_succ_eq_map, List.map_cons, List.map_map]
    congr 1

/-- cutting a list of reals at `T` -/
theorem cutNegative_map (s : ℕ → ℝ) (n T : ℕ) (hT : T ≤ n) (h0 : ∀ j < T, 0 ≤ s j)
    (h1 : T < n → s T < 0) :
    cutNegative ((List.range n).map fun j => XR.fin (s j)) =
      (List.range T).map fun j => XR.fin (s j) := by
  induction n generalizing s T with
  | zero => 
    have : T = 0 := by omega
    subst this; rfl
  | succ n ih =>
    rw [List.range_succ_eq_map, List.map_cons, List.map_map, cutNegative]
    cases T with
    | zero =>
      rw [if_pos ((XR.fin_lt _ _).mpr (h1 (by omega)))]; rfl
    | succ T =>
      rw [if_neg (fun h => absurd ((XR.fin_lt _ _).mp h) (not_lt.mpr (h0 0 (by omega))))]
      have := ih (fun j => s (j + 1)) T (by omega) (fun j hj => h0 (j + 1) (by omega))
        (fun h => h1 (by omega))
      rw [List.range_succ_eq_map (n := T), List.map_cons, List.map_map]
      congr 1

theorem minAccFrom_map (s : ℕ → ℝ) (T k : ℕ) :
    minAccFrom (XR.fin (runMin s k)) ((List.range T).map fun j => XR.fin (s (k + 1 + j))) =
      (List.range T).map fun j => XR.fin (runMin s (k + 1 + j)) := by
  induction T generalizing k with
  | zero => rfl
  | succ T ih =>
    rw [List.range_succ_eq_map, List.map_cons, List.map_map, List.map_cons, List.map_map,
      minAccFrom, XR.minimum_fin]
    have h1 : min (runMin s k) (s (k + 1 + 0)) = runMin s (k + 1) := rfl
    rw [h1]
    have := ih (k + 1)
    have e : ∀ f : ℕ → XR, (f ∘ fun j => k + 1 + 1 + j) = (fun j => f (k + 1 + j)) ∘ Nat.succ := by
      intro f; funext j; simp only [Function.comp]; congr 1; omega
    congr 1
    calc _ = minAccFrom (XR.fin (runMin s (k + 1)))
          ((List.range T).map fun j => XR.fin (s (k + 1 + 1 + j))) := by
            congr 1; refine List.map_congr_left fun j _ => ?_
            simp only [Function.comp]; congr 2; omega
      _ = _ := this
      _ = _ := by
            refine List.map_congr_left fun j _ => ?_
            simp only [Function.comp]; congr 2; omega

theorem minAcc_map (s : ℕ → ℝ) (T : ℕ) :
    minAcc ((List.range T).map fun j => XR.fin (s j)) =
      (List.range T).map fun j => XR.fin (runMin s j) := by
  cases T with
  | zero => rfl
  | succ T =>
    rw [List.range_succ_eq_map, List.map_cons, List.map_map, List.map_cons, List.map_map, minAcc]
    congr 1
    have := minAccFrom_map s T 0
    calc _ = minAccFrom (XR.fin (runMin s 0))
          ((List.range T).map fun j => XR.fin (s (0 + 1 + j))) := by
            congr 1; refine List.map_congr_left fun j _ => ?_
            simp only [Function.comp]; congr 2; omega
      _ = _ := this
      _ = _ := by
            refine List.map_congr_left fun j _ => ?_
            simp only [Function.comp]; congr 2; omega

theorem list_sum_fin (f : ℕ → ℝ) (T : ℕ) :
    ((List.range T).map fun j => XR.fin (f j)).sum = XR.fin (∑ j ∈ Finset.range T, f j) := by
  induction T with
  | zero => rfl
  | succ T ih =>
    rw [List.range_succ, List.map_append, List.sum_append, ih, Finset.sum_range_succ]
    simp

theorem sum_sub_avg (n : ℕ) (x : ℕ → ℝ) (hn : 0 < n) :
    ∑ t ∈ Finset.range n, (x t - avg n x) = 0 := by
  unfold avg
  have : (n : ℝ) ≠ 0 := by exact_mod_cast hn.ne'
  rw [Finset.sum_sub_distrib, Finset.sum_const, Finset.card_range, nsmul_eq_mul]
  field_simp
  ring

/-- splitting the squared deviations from any point -/
theorem sumSq_shift (n : ℕ) (x : ℕ → ℝ) (hn : 0 < n) (g : ℝ) :
    ∑ t ∈ Finset.range n, (x t - g) ^ 2 =
      ∑ t ∈ Finset.range n, (x t - avg n x) ^ 2 + n * (avg n x - g) ^ 2 := by
  have h := sum_sub_avg n x hn
  have e : ∀ t, (x t - g) ^ 2 = (x t - avg n x) ^ 2 + 2 * (avg n x - g) * (x t - avg n x) +
      (avg n x - g) ^ 2 := by intro t; ring
  simp_rw [e]
  rw [Finset.sum_add_distrib, Finset.sum_add_distrib, ← Finset.mul_sum, h]
  simp

theorem grandMean_eq (N M : ℕ) (x : ℕ → ℕ → ℝ) (hN : 0 < N) (hM : 0 < M) :
    grandMean N M x = avg M fun c => avg N fun t => x t c := by
  unfold grandMean avg
  rw [Finset.sum_comm, ← Finset.sum_div]
  have : (N : ℝ) ≠ 0 := by exact_mod_cast hN.ne'
  have : (M : ℝ) ≠ 0 := by exact_mod_cast hM.ne'
  field_simp

end Verif.Stat
