import Verif.Spec.IO
import Verif.Lemmas.LoopCkpt

namespace Verif.Files
open Spec

mutual
theorem map_map {A B C : Type} (f : A → B) (g : B → C) :
    ∀ x : Py A, Py.map g (Py.map f x) = Py.map (g ∘ f) x
  | .arr a => rfl
  | .scalar s => rfl
  | .none => rfl
  | .tup l => by simp only [Py.map]; rw [mapL_mapL f g l]
  | .list l => by simp only [Py.map]; rw [mapL_mapL f g l]
  | .dict l => by simp only [Py.map]; rw [mapD_mapD f g l]
  | .obj c l => by simp only [Py.map]; rw [mapL_mapL f g l]
theorem mapL_mapL {A B C : Type} (f : A → B) (g : B → C) :
    ∀ x : List (Py A), Py.mapL g (Py.mapL f x) = Py.mapL (g ∘ f) x
  | [] => rfl
  | x :: xs => by simp only [Py.mapL]; rw [map_map f g x, mapL_mapL f g xs]
theorem mapD_mapD {A B C : Type} (f : A → B) (g : B → C) :
    ∀ x : List (String × Py A), Py.mapD g (Py.mapD f x) = Py.mapD (g ∘ f) x
  | [] => rfl
  | (k, x) :: xs => by simp only [Py.mapD]; rw [map_map f g x, mapD_mapD f g xs]
end

mutual
theorem map_id {A : Type} : ∀ x : Py A, Py.map id x = x
  | .arr a => rfl
  | .scalar s => rfl
  | .none => rfl
  | .tup l => by simp only [Py.map]; rw [mapL_id l]
  | .list l => by simp only [Py.map]; rw [mapL_id l]
  | .dict l => by simp only [Py.map]; rw [mapD_id l]
  | .obj c l => by simp only [Py.map]; rw [mapL_id l]
theorem mapL_id {A : Type} : ∀ x : List (Py A), Py.mapL id x = x
  | [] => rfl
  | x :: xs => by simp only [Py.mapL]; rw [map_id x, mapL_id xs]
theorem mapD_id {A : Type} : ∀ x : List (String × Py A), Py.mapD id x = x
  | [] => rfl
  | (k, x) :: xs => by simp only [Py.mapD]; rw [map_id x, mapD_id xs]
end

theorem replicate_eq_map {A : Type} (n : ℕ) (x : Py A) :
    replicate n x = x.map (fun a _ => a) := by
  cases x <;> rfl

theorem replicate_getFirst {A : Type} {n : ℕ} (h : 0 < n) (x : Py (Dev n A))
    (hx : Replicated x) : replicate n (getFirst h x) = x := by
  obtain ⟨y, rfl⟩ := hx
  rw [replicate_eq_map]
  unfold getFirst
  rw [map_map, map_map]
  rfl

theorem unwrap_wrap {A : Type} (x : Py A) :
    unwrapIfSingleton (tolist (asanyarray (wrapSingleton x))) = x := by
  simp [wrapSingleton, asanyarray, tolist, unwrapIfSingleton]

theorem getFirst_dict {A : Type} {n : ℕ} (h : 0 < n) (l : List (String × Py (Dev n A))) :
    ∃ l', getFirst h (.dict l) = .dict l' := ⟨_, rfl⟩

theorem tolist_dict {A : Type} (l : List (String × Py A)) :
    tolist (asanyarray (.dict l)) = .dict l := rfl

theorem loadData_dictOrArray {A : Type} (x : Py A) (h : IsDictOrArray x) :
    loadData (asanyarray x) = x := by
  rcases h with ⟨l, rfl⟩ | ⟨a, rfl⟩ <;> rfl

/-! config files -/

mutual
theorem convert_flat {A : Type} : ∀ x : Py A, Flat x →
    convertToTupleIfList (jsonRoundTrip x) = tuplify x
  | .scalar _, _ => rfl
  | .none, _ => rfl
  | .tup l, h => by
    simp only [jsonRoundTrip, convertToTupleIfList, tuplify]
    rw [convert_flatL l h]
  | .list l, h => by
    simp only [jsonRoundTrip, convertToTupleIfList, tuplify]
    rw [convert_flatL l h]
  | .arr _, h => h.elim
  | .dict _, h => h.elim
  | .obj _ _, h => h.elim
theorem convert_flatL {A : Type} : ∀ l : List (Py A), FlatL l →
    convertToTupleIfListL (jsonRoundTripL l) = tuplifyL l
  | [], _ => rfl
  | x :: xs, h => by
    simp only [jsonRoundTripL, convertToTupleIfListL, tuplifyL]
    rw [convert_flat x h.1, convert_flatL xs h.2]
end

mutual
theorem reload_config {A : Type} : ∀ x : Py A, Config x →
    convertDictLists (jsonRoundTrip x) = tuplify x
  | .scalar _, _ => rfl
  | .none, _ => rfl
  | .tup l, h => by
    have := convert_flatL l h
    simp only [jsonRoundTrip, convertDictLists, convertToTupleIfList, tuplify]
    rw [this]
  | .list l, h => by
    have := convert_flatL l h
    simp only [jsonRoundTrip, convertDictLists, convertToTupleIfList, tuplify]
    rw [this]
  | .dict l, h => by
    simp only [jsonRoundTrip, convertDictLists, tuplify]
    rw [reload_configD l h]
  | .arr _, h => h.elim
  | .obj _ _, h => h.elim
theorem reload_configD {A : Type} : ∀ l : List (String × Py A), ConfigD l →
    convertDictListsD (jsonRoundTripD l) = tuplifyD l
  | [], _ => rfl
  | (k, x) :: xs, h => by
    simp only [jsonRoundTripD, convertDictListsD, tuplifyD]
    rw [reload_config x h.1, reload_configD xs h.2]
end

/-! unique names -/

theorem candidate_inj {rel : String} {i j : ℕ} (hi : i ≠ 0) (hj : j ≠ 0)
    (h : candidate rel i = candidate rel j) : i = j := by
  unfold candidate at h
  rw [if_neg hi, if_neg hj] at h
  have h2 := congrArg String.toList h
  simp only [String.toList_append] at h2
  have h3 := List.append_cancel_left h2
  exact Nat.repr_injective (String.toList_inj.mp h3)

theorem suffixLoop_some (ex : String → Bool) (rel tr : String) (fuel i : ℕ) (out : String)
    (h : suffixLoop ex rel tr fuel i = some out) :
    ∃ j, i ≤ j ∧ out = candidate rel j ∧ ex (out ++ tr) = false ∧
      ∀ k, i ≤ k → k < j → ex (candidate rel k ++ tr) = true := by
  induction fuel generalizing i with
  | zero => simp [suffixLoop] at h
  | succ fuel ih =>
    rw [suffixLoop] at h
    split at h
    · rename_i hex
      obtain ⟨j, hj, h1, h2, h3⟩ := ih (i + 1) h
      refine ⟨j, by omega, h1, h2, ?_⟩
      intro k hk hkj
      by_cases hki : k = i
      · rw [hki]; exact hex
      · exact h3 k (by omega) hkj
    · rename_i hex
      have := Option.some.inj h
      subst this
      exact ⟨i, le_rfl, rfl, by simpa using hex, fun k hk hki => by omega⟩

theorem suffixLoop_total (ex : String → Bool) (rel tr : String) (j i fuel : ℕ)
    (hij : i ≤ j) (hj : ex (candidate rel j ++ tr) = false) (hf : j - i < fuel) :
    ∃ out, suffixLoop ex rel tr fuel i = some out := by
  induction fuel generalizing i with
  | zero => omega
  | succ fuel ih =>
    rw [suffixLoop]
    split
    · rename_i hex
      by_cases hji : i = j
      · subst hji; rw [hj] at hex; cases hex
      · exact ih (i + 1) (by omega) (by omega)
    · exact ⟨_, rfl⟩

/-! metric files -/

theorem runN_metricsQ {P D S K : Type} (cfg : LoopCfg P D) (fns : LoopFns P D S K) (s : ℕ)
    (c : Core P D S K) (hlog : cfg.hasLogdir = true) (n : ℕ)  :
    (runN cfg fns s c n).metricsQ =
      (List.range (epochsRun (loopBad cfg fns c) n)).filterMap
        (fun i => (rawMetrics fns c i).map (fullMetrics cfg fns (traj fns c i))) := by
  induction n with
  | zero => simp [runN_zero, initState, epochsRun]
  | succ n ih =>
    have hcn := runN_core_nans cfg fns s c n
    rw [runN_succ]
    by_cases hb : ∃ i < n, loopBad cfg fns c i
    · rw [if_pos (hcn.2.mpr hb), epochsRun_succ_bad hb]; exact ih
    · have hn : (runN cfg fns s c n).nansDetected = false := by
        by_contra h; exact hb (hcn.2.mp (by simpa using h))
      have hE : epochsRun (loopBad cfg fns c) n = n := epochsRun_of_not_bad hb
      have hE' : epochsRun (loopBad cfg fns c) (n + 1) = n + 1 := by
        rw [epochsRun, if_neg hb]
      rw [hE] at ih hcn
      rw [if_neg (by simp [hn]), hE', List.range_succ, List.filterMap_append]
      cases hm : rawMetrics fns (runN cfg fns s c n).core 0 with
      | none =>
        rw [epochStep_none _ _ _ _ hm]
        rw [hcn.1, rawMetrics_traj, Nat.add_zero] at hm
        simp [ih, hm]
      | some m =>
        rw [epochStep_some _ _ _ _ m hlog hm]
        rw [hcn.1, rawMetrics_traj, Nat.add_zero] at hm
        simp [ih, hm, hcn.1]

end Verif.Files
