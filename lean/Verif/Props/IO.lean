import Verif.Lemmas.IO
import Verif.Props.Loop

/-!
Property theorems about files: C12 (checkpoint round trip), C13 (metric files), C14 (unique
names), C15 (configuration files).
-/

namespace Verif.Props
open Spec Files

/-- C12, multi-device.  Saving a state whose parameters and optimizer state are replicated
over `n ≥ 1` devices, reloading it and redistributing it over `n` devices gives the state
back.  The parameters must be a dict (as flax parameters are) and the data a dict or an
array; the optimizer state may be any container. -/
theorem checkpoint_round_trip {AD AP : Type} {n : ℕ} (h : 0 < n)
    (s : VmcState (Dev n AD) (Dev n AP))
    (hd : IsDictOrArray s.data) (hp : IsDict s.params) (hpr : Replicated s.params)
    (hor : Replicated s.opt) :
    distributeFromCheckpoint n (reloadVmcState (saveVmcState (processDistributed h s))) = s := by
  obtain ⟨e, d, p, o, k⟩ := s
  simp only at hd hp hpr hor
  obtain ⟨l, rfl⟩ := hp
  obtain ⟨l', hl'⟩ := getFirst_dict h l
  have h1 : tolist (asanyarray (getFirst h (.dict l))) = getFirst h (.dict l) := by
    rw [hl', tolist_dict]
  simp only [distributeFromCheckpoint, reloadVmcState, saveVmcState, processDistributed,
    loadData_dictOrArray d hd, h1, unwrap_wrap, replicate_getFirst h _ hpr,
    replicate_getFirst h _ hor, broadcast]

/-- C12, single device: saving and reloading without a device axis is the identity. -/
theorem checkpoint_round_trip_single {AD AP : Type} (s : VmcState AD AP)
    (hd : IsDictOrArray s.data) (hp : IsDict s.params) :
    reloadVmcState (saveVmcState (processSingle s)) = s := by
  obtain ⟨e, d, p, o, k⟩ := s
  simp only at hd hp
  obtain ⟨l, rfl⟩ := hp
  simp only [reloadVmcState, saveVmcState, processSingle, loadData_dictOrArray d hd,
    tolist_dict, unwrap_wrap]

/-- A replicated state with a tuple (optax style) as optimizer state. -/
example : ∃ s : VmcState (Dev 2 ℕ) (Dev 2 ℕ), IsDictOrArray s.data ∧ IsDict s.params ∧
    Replicated s.params ∧ Replicated s.opt ∧ ∃ a b, s.opt = .tup [a, b] :=
  ⟨⟨3, .arr ![1, 2], .dict [("w", .arr fun _ => 5)], .tup [.arr fun _ => 7, .none], ![8, 9]⟩,
    Or.inr ⟨_, rfl⟩, ⟨_, rfl⟩, ⟨.dict [("w", .arr 5)], rfl⟩, ⟨.tup [.arr 7, .none], rfl⟩,
    _, _, rfl⟩

/-- C12, files written without the wrapper (`save_vmc_state` called on unprocessed data, as in
older files): a dict optimizer state other than the wrapper itself, even with a single entry,
reloads unchanged. -/
theorem unwrapped_optimizer_dict_reloads {AD AP : Type} (s : VmcState AD AP)
    (hd : IsDictOrArray s.data) (hp : IsDict s.params) (ho : IsDict s.opt)
    (hw : ∀ v, s.opt ≠ .dict [("single_element", v)]) :
    reloadVmcState (saveVmcState s) = s := by
  obtain ⟨e, d, p, o, k⟩ := s
  simp only at hd hp ho hw
  obtain ⟨l, rfl⟩ := hp
  obtain ⟨lo, rfl⟩ := ho
  have h : unwrapIfSingleton (.dict lo : Py AP) = .dict lo := by
    match lo with
    | [] => rfl
    | [(key, v)] =>
      have hk : key ≠ "single_element" := fun hc => hw v (by rw [hc])
      simp [unwrapIfSingleton, hk]
    | _ :: _ :: _ => rfl
  simp only [reloadVmcState, saveVmcState, loadData_dictOrArray d hd, tolist_dict, h]

/-- A one-entry optimizer dict under another name. -/
example : ∃ s : VmcState ℕ ℕ, IsDictOrArray s.data ∧ IsDict s.params ∧ IsDict s.opt ∧
    (∀ v, s.opt ≠ .dict [("single_element", v)]) ∧ ∃ a, s.opt = .dict [("velocities", a)] :=
  ⟨⟨3, .arr 1, .dict [("w", .arr 5)], .dict [("velocities", .arr 7)], 8⟩,
    Or.inr ⟨_, rfl⟩, ⟨_, rfl⟩, ⟨_, rfl⟩, fun v h => by simp at h, _, rfl⟩

/-- C12, why the optimizer state is wrapped: saved without the wrapper, a tuple comes back as a list and an array as
a nested list, so that the state is not the same. -/
theorem unwrapped_optimizer_changes {AD AP : Type} (s : VmcState AD AP) :
    (∀ l, s.opt = .tup l → (reloadVmcState (saveVmcState s)).opt = .list l) ∧
    (∀ a, s.opt = .arr a → (reloadVmcState (saveVmcState s)).opt = .list [.arr a]) ∧
    ((∃ l, s.opt = .tup l) ∨ (∃ a, s.opt = .arr a) → reloadVmcState (saveVmcState s) ≠ s) := by
  have h1 : ∀ l, s.opt = .tup l → (reloadVmcState (saveVmcState s)).opt = .list l := by
    intro l h
    simp [reloadVmcState, saveVmcState, h, asanyarray, tolist, unwrapIfSingleton]
  have h2 : ∀ a, s.opt = .arr a → (reloadVmcState (saveVmcState s)).opt = .list [.arr a] := by
    intro a h
    simp [reloadVmcState, saveVmcState, h, asanyarray, tolist, unwrapIfSingleton]
  refine ⟨h1, h2, ?_⟩
  rintro (⟨l, h⟩ | ⟨a, h⟩) he
  · have := h1 l h
    rw [he, h] at this
    cases this
  · have := h2 a h
    rw [he, h] at this
    cases this

/-- The state of an optimizer with two entries, and one which is an array. -/
example : reloadVmcState (saveVmcState (⟨3, .arr 1, .dict [("w", .arr 5)], .tup [.arr 7, .none], 8⟩ :
      VmcState ℕ ℕ)) ≠ ⟨3, .arr 1, .dict [("w", .arr 5)], .tup [.arr 7, .none], 8⟩ ∧
    reloadVmcState (saveVmcState (⟨3, .arr 1, .dict [("w", .arr 5)], .arr 7, 8⟩ : VmcState ℕ ℕ)) ≠
      ⟨3, .arr 1, .dict [("w", .arr 5)], .arr 7, 8⟩ :=
  ⟨(unwrapped_optimizer_changes _).2.2 (.inl ⟨_, rfl⟩), (unwrapped_optimizer_changes _).2.2 (.inr ⟨_, rfl⟩)⟩

/-! ### C13 -/

variable {P D S K : Type}

/-- The text file left by writing the rows of some metrics one after another. -/
def writeRows {R : Type} (file : List R) (rows : List R) : List R := rows.foldl appendMetric file

theorem writeRows_eq {R : Type} (file rows : List R) : writeRows file rows = file ++ rows := by
  induction rows generalizing file with
  | nil => simp [writeRows]
  | cons r rs ih =>
    have := ih (appendMetric file r)
    simp only [writeRows, List.foldl_cons] at this ⊢
    rw [this]; simp [appendMetric]

/-- The situation of C13: `full` is the uninterrupted run over epochs `0..N-1`, `ck` one of
its checkpoints, the old run wrote the first `r ≥ ck.epoch` rows of each metric before it
was interrupted, and the resumed run (same settings) copies the file and appends. -/
noncomputable def finalFile {R : Type} (cfg : LoopCfg P D) (fns : LoopFns P D S K) (N : ℕ)
    (c : Core P D S K) (row : Metrics → R) (ck : Ckpt P D S K) (r : ℕ) : List R :=
  let full := vmcLoop cfg fns 0 N c
  let old := (full.metricsQ.map row).take r
  let resumed := vmcLoop cfg fns ck.epoch N ⟨ck.params, ck.data, ck.opt, ck.key⟩
  writeRows (copyTxtStats old (some ck.epoch)) (resumed.metricsQ.map row)

/-- Rows of an uninterrupted run. -/
noncomputable def uninterruptedFile {R : Type} (cfg : LoopCfg P D) (fns : LoopFns P D S K) (N : ℕ)
    (c : Core P D S K) (row : Metrics → R) : List R :=
  writeRows [] ((vmcLoop cfg fns 0 N c).metricsQ.map row)

/-- C13 as stated, for every reload epoch including 0. -/
def AppendMatchesUninterrupted : Prop :=
  ∀ (cfg : LoopCfg ℕ ℕ) (fns : LoopFns ℕ ℕ ℕ ℕ) (N : ℕ) (c : Core ℕ ℕ ℕ ℕ)
    (row : Metrics → XR) (file : FileName) (ck : Ckpt ℕ ℕ ℕ ℕ) (r : ℕ),
    cfg.hasLogdir = true → (∀ i < N, (rawMetrics fns c i).isSome) →
    (file, ck) ∈ (vmcLoop cfg fns 0 N c).ckptQ → ck.epoch ≤ r →
    finalFile cfg fns N c row ck r = uninterruptedFile cfg fns N c row

/-- rows of a run in which every epoch reports metrics -/
theorem metrics_rows (cfg : LoopCfg P D) (fns : LoopFns P D S K) (N i : ℕ)
    (c : Core P D S K) (hlog : cfg.hasLogdir = true)
    (hi : i < epochsRun (stops cfg fns c) N) (hm : ∀ j < N, (rawMetrics fns c j).isSome) :
    (vmcLoop cfg fns 0 N c).metricsQ =
      (vmcLoop cfg fns 0 N c).metricsQ.take i ++
      (vmcLoop cfg fns i N (traj fns c i)).metricsQ ∧
    ((vmcLoop cfg fns 0 N c).metricsQ.take i).length = i := by
  have hiN : i < N := lt_of_lt_of_le hi (epochsRun_le _ _)
  have hnb := epochsRun_no_bad_before hi
  rw [vmcLoop_eq, vmcLoop_eq, finish_metricsQ, finish_metricsQ, runN_metricsQ _ _ _ _ hlog,
    runN_metricsQ _ _ _ _ hlog, Nat.sub_zero]
  have hbad : loopBad cfg fns (traj fns c i) = fun j => loopBad cfg fns c (i + j) := by
    funext j; exact propext (loopBad_traj cfg fns c i j)
  rw [hbad]
  have hE : epochsRun (loopBad cfg fns c) N =
      i + epochsRun (fun j => loopBad cfg fns c (i + j)) (N - i) := by
    have := epochsRun_add (bad := loopBad cfg fns c) (i := i) hnb (N - i)
    rw [Nat.add_sub_cancel' hiN.le] at this
    exact this
  rw [hE, List.range_add, List.filterMap_append]
  have hlen : ((List.range i).filterMap (fun j => (rawMetrics fns c j).map
      (fullMetrics cfg fns (traj fns c j)))).length = i := by
    clear hE hbad hnb hi
    induction i with
    | zero => rfl
    | succ i ih =>
      rw [List.range_succ, List.filterMap_append, List.length_append, ih (by omega)]
      obtain ⟨m, h⟩ := Option.isSome_iff_exists.mp (hm i (by omega))
      simp [h]
  refine ⟨?_, ?_⟩
  · rw [List.take_left' hlen]
    congr 1
    rw [List.filterMap_map]
    apply List.filterMap_congr
    intro j _
    simp only [Function.comp, rawMetrics_traj, traj_shift]
  · rw [List.take_left' hlen, hlen]

/-- C13, reload epoch at least 1: the appended file equals the file of an uninterrupted run.
Missing: reload epoch 0, for which the code copies the old rows without truncating, see
`append_at_epoch_zero_duplicates`. -/
theorem append_matches_uninterrupted_partial {R : Type} (cfg : LoopCfg P D)
    (fns : LoopFns P D S K) (N : ℕ) (c : Core P D S K) (row : Metrics → R) (file : FileName)
    (ck : Ckpt P D S K) (r : ℕ) (hlog : cfg.hasLogdir = true)
    (hm : ∀ i < N, (rawMetrics fns c i).isSome)
    (hck : (file, ck) ∈ (vmcLoop cfg fns 0 N c).ckptQ) (hr : ck.epoch ≤ r)
    (hpos : 1 ≤ ck.epoch) :
    finalFile cfg fns N c row ck r = uninterruptedFile cfg fns N c row := by
  obtain ⟨i, hi, h1, -⟩ := vmcLoop_ckpts cfg fns 0 N c _ hck
  simp only at h1
  subst h1
  have hep : (startOfEpoch fns c 0 i).epoch = i := by simp [startOfEpoch]
  rw [hep] at hr hpos
  have hcore : (⟨(startOfEpoch fns c 0 i).params, (startOfEpoch fns c 0 i).data,
      (startOfEpoch fns c 0 i).opt, (startOfEpoch fns c 0 i).key⟩ : Core P D S K)
      = traj fns c i := rfl
  unfold finalFile uninterruptedFile
  simp only [hep, hcore, writeRows_eq, copyTxtStats, List.nil_append]
  rw [if_neg (by omega), List.take_take, Nat.min_eq_left hr, ← List.map_take,
    ← List.map_append, ← (metrics_rows cfg fns N i c hlog hi hm).1]

/-- C13 at epoch 0: the file of the resumed run starts with all old rows. -/
theorem append_at_epoch_zero_duplicates {R : Type} (cfg : LoopCfg P D)
    (fns : LoopFns P D S K) (N : ℕ) (c : Core P D S K) (row : Metrics → R) (file : FileName)
    (ck : Ckpt P D S K) (r : ℕ)
    (hck : (file, ck) ∈ (vmcLoop cfg fns 0 N c).ckptQ) (hz : ck.epoch = 0) :
    finalFile cfg fns N c row ck r =
      (uninterruptedFile cfg fns N c row).take r ++ uninterruptedFile cfg fns N c row := by
  obtain ⟨i, hi, h1, -⟩ := vmcLoop_ckpts cfg fns 0 N c _ hck
  simp only at h1
  subst h1
  have hi0 : i = 0 := by simpa [startOfEpoch] using hz
  subst hi0
  unfold finalFile uninterruptedFile
  simp [startOfEpoch, writeRows_eq, copyTxtStats, traj]

/-- Concrete run for C13: a checkpoint every epoch. -/
noncomputable def everyCfg : LoopCfg ℕ ℕ :=
  { nchains := 4, hasLogdir := true, checkpointEvery := some 1, bestCheckpointEvery := none
    varianceScale := 1, checkForNans := false, recordAmplitudes := none, nhistoryMax := 3
    paramsHaveNan := fun _ => False }

theorem everyCfg_mem (i : ℕ) (hi : i < 3) : (FileName.regular (0 + i + 1),
    startOfEpoch toyFns ⟨0, 0, 0, 0⟩ 0 i) ∈
      (vmcLoop everyCfg toyFns 0 3 ⟨0, 0, 0, 0⟩).ckptQ := by
  have hE : epochsRun (stops everyCfg toyFns ⟨0, 0, 0, 0⟩) (3 - 0) = 3 :=
    epochsRun_of_not_bad (by rintro ⟨j, -, hb⟩; simp [stops, everyCfg] at hb)
  have hreg := regular_checkpoints_exact everyCfg toyFns 0 3 ⟨0, 0, 0, 0⟩ 1 rfl rfl le_rfl
  have hmem : (FileName.regular (0 + i + 1), startOfEpoch toyFns ⟨0, 0, 0, 0⟩ 0 i) ∈
      (vmcLoop everyCfg toyFns 0 3 ⟨0, 0, 0, 0⟩).ckptQ.filter (fun x => x.1.isRegular) := by
    rw [hreg, hE, List.mem_map]
    refine ⟨i, ?_, rfl⟩
    rw [List.mem_filter, List.mem_range]
    exact ⟨hi, by simp [rawMetrics, toyFns]⟩
  exact (List.mem_filter.mp hmem).1

/-- C13 is false of the code at reload epoch 0. -/
theorem append_matches_uninterrupted_fails : ¬ AppendMatchesUninterrupted := by
  intro h
  have hm : ∀ i < 3, (rawMetrics toyFns ⟨0, 0, 0, 0⟩ i).isSome := fun i _ => rfl
  have h1 := h everyCfg toyFns 3 ⟨0, 0, 0, 0⟩ (fun m => m.energy) _ _ 1 rfl hm
    (everyCfg_mem 0 (by norm_num)) (by simp [startOfEpoch])
  rw [append_at_epoch_zero_duplicates everyCfg toyFns 3 ⟨0, 0, 0, 0⟩ (fun m => m.energy) _ _ 1
    (everyCfg_mem 0 (by norm_num)) rfl] at h1
  have hlen := congrArg List.length h1
  have hrows : 1 ≤ (uninterruptedFile everyCfg toyFns 3 ⟨0, 0, 0, 0⟩
      (fun m => m.energy)).length := by
    have hE : epochsRun (stops everyCfg toyFns ⟨0, 0, 0, 0⟩) 3 = 3 :=
      epochsRun_of_not_bad (by rintro ⟨j, -, hb⟩; simp [stops, everyCfg] at hb)
    have := (metrics_rows everyCfg toyFns 3 1 ⟨0, 0, 0, 0⟩ rfl (by rw [hE]; norm_num) hm).2
    unfold uninterruptedFile
    rw [writeRows_eq]
    simp only [List.length_take, List.nil_append, List.length_map] at this ⊢
    omega
  simp only [List.length_append, List.length_take] at hlen
  omega

/-- Hypotheses of the C13 theorem on the concrete run: reload at epoch 2. -/
example : (FileName.regular 3, startOfEpoch toyFns ⟨0, 0, 0, 0⟩ 0 2) ∈
    (vmcLoop everyCfg toyFns 0 3 ⟨0, 0, 0, 0⟩).ckptQ ∧
    1 ≤ (startOfEpoch toyFns ⟨0, 0, 0, 0⟩ 0 2).epoch :=
  ⟨everyCfg_mem 2 (by norm_num), by simp [startOfEpoch]⟩

/-! ### C14 -/

/-- C14, termination.  Whatever finite set of names exists, `add_suffix_for_uniqueness`
returns. -/
theorem unique_name_terminates (existing : Finset String) (rel trailing : String) :
    ∃ out, AddSuffix (fun p => decide (p ∈ existing)) rel trailing out := by
  -- among the candidates 1, ..., card+1 one is free
  have : ∃ j, (decide (candidate rel j ++ trailing ∈ existing)) = false := by
    by_contra hcon
    push Not at hcon
    have hall : ∀ j, candidate rel j ++ trailing ∈ existing := by
      intro j; simpa using hcon j
    have hinj : Set.InjOn (fun j => candidate rel (j + 1) ++ trailing)
        (Finset.range (existing.card + 1) : Set ℕ) := by
      intro a _ b _ hab
      have h2 := congrArg String.toList hab
      simp only [String.toList_append] at h2
      have h3 := String.toList_inj.mp (List.append_cancel_right h2)
      have := candidate_inj (by omega) (by omega) h3
      omega
    have hcard := Finset.card_le_card_of_injOn (s := Finset.range (existing.card + 1))
      (t := existing) _ (fun j _ => hall (j + 1)) hinj
    simp at hcard
  obtain ⟨j, hj⟩ := this
  obtain ⟨out, ho⟩ := suffixLoop_total (fun p => decide (p ∈ existing)) rel trailing j 0 (j + 1)
    (by omega) hj (by omega)
  exact ⟨out, _, ho⟩

/-- C14.  The returned name is free; it is the requested name (without trailing separators)
if that is free, and otherwise the requested name followed by `_i` for the smallest `i ≥ 1`
that is free. -/
theorem unique_name_free_and_minimal (ex : String → Bool) (rel trailing out : String)
    (h : AddSuffix ex rel trailing out) :
    ex (out ++ trailing) = false ∧
    ((ex (rstripSep rel ++ trailing) = false → out = rstripSep rel) ∧
     (ex (rstripSep rel ++ trailing) = true → ∃ i, 1 ≤ i ∧ out = rel ++ "_" ++ Nat.repr i ∧
        ∀ k, 1 ≤ k → k < i → ex (rel ++ "_" ++ Nat.repr k ++ trailing) = true)) := by
  obtain ⟨fuel, hf⟩ := h
  obtain ⟨j, -, h1, h2, h3⟩ := suffixLoop_some ex rel trailing fuel 0 out hf
  refine ⟨h2, ?_, ?_⟩
  · intro hfree
    by_cases hj : j = 0
    · rw [h1, hj]; simp [candidate]
    · have := h3 0 le_rfl (by omega)
      simp only [candidate, if_true] at this
      rw [hfree] at this; cases this
  · intro htaken
    have hj : j ≠ 0 := by
      rintro rfl
      rw [h1] at h2
      simp only [candidate, if_true] at h2
      rw [htaken] at h2; cases h2
    refine ⟨j, by omega, ?_, ?_⟩
    · rw [h1, candidate, if_neg hj]
    · intro k hk hkj
      have := h3 k (by omega) hkj
      rwa [candidate, if_neg (by omega)] at this

/-- A name that does not end in a separator is not changed by the stripping. -/
theorem rstrip_of_no_trailing_sep (s : String) (h : s.toList.getLast? ≠ some '/') :
    rstripSep s = s := by
  unfold rstripSep
  have : s.toList.reverse.dropWhile (fun c => decide (c = '/')) = s.toList.reverse := by
    cases hr : s.toList.reverse with
    | nil => rfl
    | cons x xs =>
      have hx : s.toList.getLast? = some x := by
        rw [← List.head?_reverse, hr]; rfl
      have : x ≠ '/' := by rintro rfl; exact h hx
      simp [List.dropWhile, this]
  rw [this, List.reverse_reverse, String.ofList_toList]

/-- Observation: with a trailing separator the suffixed name lies inside the existing
directory: `logs/` becomes `logs/_1`. -/
theorem trailing_separator_goes_inside :
    AddSuffix (fun p => decide (p ∈ ({"logs"} : Finset String))) "logs/" "" "logs/_1" := by
  refine ⟨2, ?_⟩
  decide

/-- With `run` and `run_1` taken, the result is `run_2`. -/
example : AddSuffix (fun p => decide (p ∈ ({"run", "run_1"} : Finset String))) "run" ""
    "run_2" := by
  refine ⟨3, ?_⟩
  decide

/-! ### C15 -/

/-- C15 as stated, for arbitrary nesting. -/
def ConfigRoundTrips : Prop := ∀ c : Py Unit, AnyConfig c → reloadConfig c = tuplify c

/-- C15 for configurations of nested dicts whose leaves are scalars, None or nested
sequences of scalars: reloading gives the configuration with every sequence a tuple.
Missing: dicts inside sequences (see `config_round_trip_fails`). -/
theorem config_round_trip_partial {A : Type} (c : Py A) (h : Config c) :
    reloadConfig c = tuplify c := reload_config c h

/-- C15 is false of the code for a dict inside a sequence: its inner sequences stay lists. -/
theorem config_round_trip_fails : ¬ ConfigRoundTrips := by
  intro h
  have h1 := h (.dict [("a", .tup [.dict [("b", .tup [.scalar "1"])]])])
    (by simp [AnyConfig, AnyConfigL, AnyConfigD])
  simp [reloadConfig, jsonRoundTrip, jsonRoundTripD, jsonRoundTripL, convertDictLists,
    convertDictListsD, convertToTupleIfList, convertToTupleIfListL, tuplify, tuplifyD,
    tuplifyL] at h1

/-- A configuration like those of vmcnet: nested dicts, tuples of tuples, scalars. -/
example : Config (A := Unit) (.dict [("problem", .dict [("ion_pos", .tup [.tup [.scalar "0.0",
    .scalar "0.0"], .tup [.scalar "1.0", .scalar "0.5"]]), ("nelec", .tup [.scalar "3",
    .scalar "2"])]), ("subfolder_name", .none)]) := by
  simp [Config, ConfigD, FlatL, Flat]

end Verif.Props
