import Verif.Spec.Config
import Mathlib.Tactic

/-!
Property theorems about configurations: C57 (command line rules) and C66 (copies of shared
sub-configurations).
-/

namespace Verif.Props
open Spec Verif.Config

variable {A V : Type}

/-! ### C57 -/

/-- Overrides succeed exactly if every path is a field, and then the last argument wins. -/
theorem applyOverrides_ok_iff (c c' : Cfg A) (ov : List (Field × Val A)) :
    applyOverrides c ov = .ok c' ↔
      (∀ e ∈ ov, c e.1 ≠ none) ∧ c' = fun p => firstOf [lastSet p ov, c p] := by
  induction ov generalizing c with
  | nil =>
    have h : (fun p => firstOf [lastSet p ([] : List (Field × Val A)), c p]) = c := by
      funext p; cases h : c p <;> simp [firstOf, lastSet]
    rw [h]; simp [applyOverrides, eq_comm]
  | cons e rest ih =>
    obtain ⟨p, v⟩ := e
    cases hp : c p with
    | none =>
      constructor
      · intro h; simp [applyOverrides, hp] at h
      · intro h; exact absurd hp (h.1 _ List.mem_cons_self)
    | some w =>
      have h1 : applyOverrides c ((p, v) :: rest) = applyOverrides (setField c p v) rest := by
        simp [applyOverrides, hp]
      rw [h1, ih]
      have h2 : (fun q => firstOf [lastSet q rest, setField c p v q]) =
          fun q => firstOf [lastSet q ((p, v) :: rest), c q] := by
        funext q
        cases hq : lastSet q rest with
        | some u => simp [lastSet, hq, firstOf]
        | none =>
          by_cases hpq : p = q
          · subst hpq; simp [lastSet, hq, firstOf, setField]
          · have : q ≠ p := fun h => hpq h.symm
            cases hc : c q <;> simp [lastSet, hq, firstOf, setField, hpq, Function.update, this, hc]
      rw [h2]
      refine and_congr_left fun _ => ?_
      constructor
      · intro h e he
        rcases List.mem_cons.mp he with rfl | he
        · simp [hp]
        · intro hn
          by_cases hpe : e.1 = p
          · rw [hpe, hp] at hn; simp at hn
          · exact h e he (by simp [setField, Function.update, hpe, hn])
      · intro h e he hn
        by_cases hpe : e.1 = p
        · rw [hpe] at hn; simp [setField] at hn
        · simp only [setField, Function.update, hpe, dite_false] at hn
          exact h e (List.mem_cons_of_mem _ he) hn

/-- What a configuration with the model chosen looks like. -/
def ModelChosen (c c' : Cfg A) : Prop :=
  ∃ ty, c ["model", "type"] = some (.str ty) ∧ (∃ rest v, c ("model" :: ty :: rest) = some v) ∧
    c' ["model", "type"] = some (.str ty) ∧
    (∀ rest, rest ≠ ["type"] → c' ("model" :: rest) = c ("model" :: ty :: rest)) ∧
    ∀ p, p.head? ≠ some "model" → c' p = c p

theorem chooseModel_ok_iff (c c' : Cfg A) : chooseModel c = .ok c' ↔ ModelChosen c c' := by
  constructor
  · intro h
    unfold chooseModel at h
    split at h
    · rename_i ty hty
      split at h
      · rename_i hex
        cases h
        refine ⟨ty, hty, hex, by simp, fun rest hr => by simp [hr], fun p hp => ?_⟩
        match p, hp with
        | [], _ => rfl
        | k :: rest, hp =>
          have hk : k ≠ "model" := by simpa using hp
          simp only
          split
          · rename_i heq; simp at heq; exact absurd heq.1 hk
          · rfl
      · simp at h
    · simp at h
  · rintro ⟨ty, hty, hex, h1, h2, h3⟩
    unfold chooseModel
    rw [hty]
    simp only [if_pos hex, Except.ok.injEq]
    funext p
    match p with
    | [] => exact (h3 [] (by simp)).symm
    | k :: rest =>
      by_cases hk : k = "model"
      · subst hk
        by_cases hr : rest = ["type"]
        · subst hr; simp [h1]
        · simp [hr, h2 rest hr]
      · rw [h3 _ (by simpa using hk)]
        split
        · rename_i heq; simp at heq; exact absurd heq.1 hk
        · rfl

/-- What the last steps of `parse_flags` do. -/
theorem finishConfig_ok_iff (c c' : Cfg A) (dbg : Bool) : finishConfig c = .ok (c', dbg) ↔
    ∃ v l, c ["debug_nans"] = some v ∧ (dbg = true ↔ v ≠ .bool false) ∧ c ["logdir"] = some l ∧
      c' ["base_logdir"] = some l ∧ (dbg = true → c' ["distribute"] = some (.bool false)) ∧
      ∀ p, p ≠ ["base_logdir"] → (dbg = true → p ≠ ["distribute"]) → c' p = c p := by
  have key : ∀ (d : Bool) (l : Val A), c ["logdir"] = some l →
      ((if d then setField c ["distribute"] (.bool false) else c) ["logdir"] = some l) ∧
      (setField (if d then setField c ["distribute"] (.bool false) else c) ["base_logdir"] l = c'
        ↔ c' ["base_logdir"] = some l ∧ (d = true → c' ["distribute"] = some (.bool false)) ∧
          ∀ p, p ≠ ["base_logdir"] → (d = true → p ≠ ["distribute"]) → c' p = c p) := by
    intro d l hl
    constructor
    · cases d <;> simp [setField, Function.update, hl]
    · constructor
      · rintro rfl
        cases d
        · refine ⟨by simp [setField], by simp, fun p hp _ => by simp [setField, Function.update, hp]⟩
        · refine ⟨by simp [setField], by simp [setField, Function.update], fun p hp hd => ?_⟩
          have := hd rfl
          simp [setField, Function.update, hp, this]
      · rintro ⟨h1, h2, h3⟩
        funext p
        by_cases hp : p = ["base_logdir"]
        · subst hp; simp [setField, h1]
        · cases d
          · rw [h3 p hp (by simp)]; simp [setField, Function.update, hp]
          · by_cases hq : p = ["distribute"]
            · subst hq; rw [h2 rfl]; simp [setField, Function.update]
            · rw [h3 p hp (fun _ => hq)]; simp [setField, Function.update, hp, hq]
  cases hv : c ["debug_nans"] with
  | none => simp [finishConfig, hv]
  | some v =>
    cases hl : c ["logdir"] with
    | none =>
      have : ∀ d : Bool, (if d then setField c ["distribute"] (.bool false) else c) ["logdir"]
          = none := by intro d; cases d <;> simp [setField, Function.update, hl]
      simp [finishConfig, hv, this]
    | some l =>
      obtain ⟨d, hd⟩ : ∃ d, d = truthy v := ⟨_, rfl⟩
      have hdv : d = true ↔ v ≠ .bool false := by
        cases v with
        | bool b => cases b <;> simp [hd, truthy]
        | str s => simp [hd, truthy]
        | other a => simp [hd, truthy]
      have h0 : finishConfig c = .ok
          (setField (if d then setField c ["distribute"] (.bool false) else c)
            ["base_logdir"] l, d) := by
        unfold finishConfig
        simp only [hv, ← hd, (key d l hl).1]
      rw [h0]
      simp only [Except.ok.injEq, Prod.mk.injEq]
      constructor
      · rintro ⟨h1, rfl⟩
        exact ⟨v, l, rfl, hdv, rfl, (key d l hl).2.mp h1⟩
      · rintro ⟨v', l', h1, h2, h3, h4⟩
        cases h1; cases h3
        have : d = dbg := by rw [Bool.eq_iff_iff, h2, hdv]
        rw [this]
        exact ⟨(key dbg l hl).2.mpr h4, rfl⟩

theorem presetFile_none_iff (f : PresetFlags) :
    presetFile f = none ↔ f.name = "NONE" ∧ f.path = "NONE" := by
  unfold presetFile
  by_cases h1 : f.name = "NONE" <;> by_cases h2 : f.path = "NONE" <;> simp [h1, h2]

/-- C57, rejection.  Giving both kinds of preset is rejected, and so is giving a preset
together with a reloaded configuration. -/
theorem conflicting_flags_rejected (files : String → Option (Cfg A)) (dflt : Cfg A)
    (presets : PresetFlags) (reload : ReloadFlags) (ov : List (Field × Val A)) :
    (presets.name ≠ "NONE" ∧ presets.path ≠ "NONE" →
      parseFlags files dflt presets reload ov = .error .bothPresets) ∧
    (Reloading reload → (presets.name = "NONE" ↔ presets.path ≠ "NONE") →
      parseFlags files dflt presets reload ov = .error .presetsWithReload) := by
  constructor
  · rintro ⟨h1, h2⟩
    simp [parseFlags, noName, h1, h2]
  · rintro ⟨h1, h2⟩ h3
    by_cases hn : presets.name = "NONE"
    · simp [parseFlags, noName, hn, h1, h2, h3.mp hn]
    · have hp : presets.path = "NONE" := by
        by_contra hp; exact hn (h3.mpr hp)
      simp [parseFlags, noName, hn, h1, h2, hp]

/-- C57, without a reloaded configuration: which flags are accepted and what the resulting
configuration is.  Every field has the value of the last command line argument for it, else
of the preset, else of the default, except that the chosen model takes the place of the
collection of models, `distribute` is off when debugging nans, and `base_logdir` remembers
the log directory. -/
theorem default_flags_accepted_iff (files : String → Option (Cfg A)) (dflt : Cfg A)
    (presets : PresetFlags) (reload : ReloadFlags) (ov : List (Field × Val A))
    (hr : ¬ Reloading reload) (c : Cfg A) (dbg : Bool) :
    parseFlags files dflt presets reload ov = .ok (c, dbg) ↔
      (presets.name = "NONE" ∨ presets.path = "NONE") ∧
      (∀ f, presetFile presets = some f → files f ≠ none) ∧
      (∀ e ∈ ov, firstOf [presetValues files presets e.1, dflt e.1] ≠ none) ∧
      ∃ m, ModelChosen (expected files dflt presets ov) m ∧
      ∃ v l, m ["debug_nans"] = some v ∧ (dbg = true ↔ v ≠ .bool false) ∧
        m ["logdir"] = some l ∧ c ["base_logdir"] = some l ∧
        (dbg = true → c ["distribute"] = some (.bool false)) ∧
        ∀ p, p ≠ ["base_logdir"] → (dbg = true → p ≠ ["distribute"]) → c p = m p := by
  have hur : (reload.logdir != noName && reload.useConfigFile) = false := by
    unfold Reloading at hr
    rw [Bool.eq_false_iff]
    intro h
    simp only [Bool.and_eq_true, bne_iff_ne, noName] at h
    exact hr h
  by_cases hboth : presets.name = "NONE" ∨ presets.path = "NONE"
  swap
  · push Not at hboth
    rw [(conflicting_flags_rejected files dflt presets reload ov).1 hboth]
    simp [hboth]
  -- the base configuration
  have hmain : ∀ base : Cfg A, (∀ p, base p = firstOf [presetValues files presets p, dflt p]) →
      ((match (match applyOverrides base ov with
          | .error e => .error e
          | .ok c => chooseModel c : Except Err (Cfg A)) with
        | .error e => .error e
        | .ok c => finishConfig c) = Except.ok (c, dbg) ↔
      (∀ e ∈ ov, firstOf [presetValues files presets e.1, dflt e.1] ≠ none) ∧
      ∃ m, ModelChosen (expected files dflt presets ov) m ∧
      ∃ v l, m ["debug_nans"] = some v ∧ (dbg = true ↔ v ≠ .bool false) ∧
        m ["logdir"] = some l ∧ c ["base_logdir"] = some l ∧
        (dbg = true → c ["distribute"] = some (.bool false)) ∧
        ∀ p, p ≠ ["base_logdir"] → (dbg = true → p ≠ ["distribute"]) → c p = m p) := by
    intro base hbase
    have hexp : (fun p => firstOf [lastSet p ov, base p]) = expected files dflt presets ov := by
      funext p
      rw [hbase]
      unfold expected
      cases lastSet p ov <;> cases presetValues files presets p <;> cases dflt p <;> rfl
    have hok : ∀ c1, applyOverrides base ov = .ok c1 ↔
        (∀ e ∈ ov, firstOf [presetValues files presets e.1, dflt e.1] ≠ none) ∧
        c1 = expected files dflt presets ov := by
      intro c1
      rw [applyOverrides_ok_iff, hexp]
      simp only [hbase]
    constructor
    · intro h
      cases h1 : applyOverrides base ov with
      | error e => simp [h1] at h
      | ok c1 =>
        simp only [h1] at h
        obtain ⟨ha, rfl⟩ := (hok c1).mp h1
        cases h2 : chooseModel (expected files dflt presets ov) with
        | error e => simp [h2] at h
        | ok m =>
          simp only [h2] at h
          exact ⟨ha, m, (chooseModel_ok_iff _ _).mp h2, (finishConfig_ok_iff _ _ _).mp h⟩
    · rintro ⟨ha, m, hm, hf⟩
      rw [(hok _).mpr ⟨ha, rfl⟩]
      simp only [(chooseModel_ok_iff _ _).mpr hm]
      exact (finishConfig_ok_iff _ _ _).mpr hf
  have hboth' : (presets.path != noName && presets.name != noName) = false := by
    rw [Bool.eq_false_iff]; intro h
    simp only [Bool.and_eq_true, bne_iff_ne, noName] at h
    rcases hboth with h1 | h1
    · exact h.2 h1
    · exact h.1 h1
  unfold parseFlags
  simp only [hur, hboth', Bool.false_and, Bool.false_eq_true, if_false]
  by_cases hnone : presetFile presets = none
  · obtain ⟨hn, hp⟩ := (presetFile_none_iff _).mp hnone
    have hlp : (presets.name != noName || presets.path != noName) = false := by
      simp [hn, hp, noName]
    have hpv : ∀ p, presetValues files presets p = none := by
      intro p; simp [presetValues, hnone]
    have hb : ∀ p, dflt p = firstOf [presetValues files presets p, dflt p] := by
      intro p; rw [hpv]; cases dflt p <;> rfl
    simp only [hlp, Bool.false_eq_true, if_false, configFromDefault]
    refine Iff.trans (hmain dflt hb) ?_
    simp [hnone, hboth]
  · obtain ⟨f, hf⟩ := Option.ne_none_iff_exists'.mp hnone
    have hlp : (presets.name != noName || presets.path != noName) = true := by
      rw [presetFile_none_iff] at hnone
      by_contra h
      simp [noName] at h
      exact hnone h
    have hpath : osJoin "" (if presets.name != noName then
        osJoin presetsDir (presets.name ++ ".json") else presets.path) = f := by
      unfold presetFile at hf
      by_cases hn : presets.name = "NONE"
      · simp only [hn] at hf
        rw [if_neg (by simp)] at hf
        split at hf
        · simp only [Option.some.injEq] at hf
          simp [hn, noName, hf]
        · simp at hf
      · rw [if_pos hn] at hf
        simp only [Option.some.injEq] at hf
        have : (presets.name != noName) = true := by simp [noName, hn]
        rw [if_pos this, presetsDir, hf]
        unfold osJoin
        split <;> simp
    simp only [hlp, if_true, configFromDefault, hpath]
    cases hfile : files f with
    | none => simp [hf, hfile]
    | some pc =>
      have hpv : ∀ p, presetValues files presets p = pc p := by
        intro p; simp [presetValues, hf, hfile]
      have hb : ∀ p, updateWith dflt pc p = firstOf [presetValues files presets p, dflt p] := by
        intro p; rw [hpv]
        cases h : pc p with
        | none => cases h' : dflt p <;> simp [updateWith, h, h', firstOf]
        | some v => simp [updateWith, h, firstOf]
      simp only
      refine Iff.trans (hmain _ hb) ?_
      simp [hf, hfile, hboth]

/-- C57, with a reloaded configuration: which flags are accepted and what the result is.
Command line values win over reloaded ones; the log directory is the one remembered by the
reloaded run; `distribute` and `base_logdir` as before. -/
theorem reload_flags_accepted_iff (files : String → Option (Cfg A)) (dflt : Cfg A)
    (presets : PresetFlags) (reload : ReloadFlags) (ov : List (Field × Val A))
    (hr : Reloading reload) (c : Cfg A) (dbg : Bool) :
    parseFlags files dflt presets reload ov = .ok (c, dbg) ↔
      presets.name = "NONE" ∧ presets.path = "NONE" ∧
      ∃ old l0, files (osJoin reload.logdir reload.configPath) = some old ∧
        old ["base_logdir"] = some l0 ∧
        (∀ e ∈ ov, e.1 ≠ ["logdir"] → old e.1 ≠ none) ∧
      ∃ v, firstOf [lastSet ["debug_nans"] ov, old ["debug_nans"]] = some v ∧
        (dbg = true ↔ v ≠ .bool false) ∧
        c ["logdir"] = firstOf [lastSet ["logdir"] ov, some l0] ∧
        c ["base_logdir"] = firstOf [lastSet ["logdir"] ov, some l0] ∧
        (dbg = true → c ["distribute"] = some (.bool false)) ∧
        ∀ p, p ≠ ["logdir"] → p ≠ ["base_logdir"] → (dbg = true → p ≠ ["distribute"]) →
          c p = firstOf [lastSet p ov, old p] := by
  obtain ⟨hr1, hr2⟩ := hr
  by_cases hnone : presets.name = "NONE" ∧ presets.path = "NONE"
  swap
  · constructor
    · intro h
      by_cases hboth : presets.name ≠ "NONE" ∧ presets.path ≠ "NONE"
      · rw [(conflicting_flags_rejected files dflt presets reload ov).1 hboth] at h
        simp at h
      · rw [(conflicting_flags_rejected files dflt presets reload ov).2 ⟨hr1, hr2⟩
          (by constructor <;> intro h1 <;> tauto)] at h
        simp at h
    · rintro ⟨h1, h2, -⟩; exact absurd ⟨h1, h2⟩ hnone
  obtain ⟨hn, hp⟩ := hnone
  have hstep : parseFlags files dflt presets reload ov =
      (match configFromReload files reload ov with
        | .error e => .error e
        | .ok c => finishConfig c) := by
    simp only [parseFlags, noName, hn, hp, hr2, bne_self_eq_false, Bool.and_self, Bool.or_self,
      Bool.false_eq_true, if_false, Bool.and_false, Bool.and_true]
    rw [if_pos (by simpa using hr1)]
    rfl
  rw [hstep]
  cases hf : files (osJoin reload.logdir reload.configPath) with
  | none => simp [configFromReload, hf]
  | some old =>
    cases hb : old ["base_logdir"] with
    | none => simp [configFromReload, hf, hb]
    | some l0 =>
      have hconf : configFromReload files reload ov =
          applyOverrides (setField old ["logdir"] l0) ov := by
        simp [configFromReload, hf, hb]
      rw [hconf]
      have hfields : ∀ e : Field × Val A, setField old ["logdir"] l0 e.1 ≠ none ↔
          (e.1 ≠ ["logdir"] → old e.1 ≠ none) := by
        intro e
        by_cases he : e.1 = ["logdir"]
        · simp [he, setField]
        · simp [he, setField, Function.update]
      have hok : ∀ c1, applyOverrides (setField old ["logdir"] l0) ov = .ok c1 ↔
          (∀ e ∈ ov, e.1 ≠ ["logdir"] → old e.1 ≠ none) ∧
          c1 = fun p => firstOf [lastSet p ov, setField old ["logdir"] l0 p] := by
        intro c1
        rw [applyOverrides_ok_iff]
        simp only [hfields]
      have hval : ∀ p, p ≠ ["logdir"] →
          firstOf [lastSet p ov, setField old ["logdir"] l0 p] =
            firstOf [lastSet p ov, old p] := by
        intro p hp; simp [setField, Function.update, hp]
      have hl : ∃ l, firstOf [lastSet ["logdir"] ov, some l0] = some l := by
        cases lastSet ["logdir"] ov <;> simp [firstOf]
      obtain ⟨l, hl⟩ := hl
      have hlog : firstOf [lastSet ["logdir"] ov, setField old ["logdir"] l0 ["logdir"]] =
          some l := by simpa [setField] using hl
      constructor
      · intro h
        cases h1 : applyOverrides (setField old ["logdir"] l0) ov with
        | error e => simp [h1] at h
        | ok c1 =>
          simp only [h1] at h
          obtain ⟨ha, rfl⟩ := (hok c1).mp h1
          obtain ⟨v, l', hv, hd, hl', hbl, hdist, hrest⟩ := (finishConfig_ok_iff _ _ _).mp h
          simp only [hlog, Option.some.injEq] at hl'
          subst hl'
          refine ⟨hn, hp, old, l0, rfl, hb, ha, v, ?_, hd, ?_, ?_, hdist, ?_⟩
          · rw [← hval _ (by simp)]; exact hv
          · rw [hrest _ (by simp) (by simp), hlog, hl]
          · rw [hbl, hl]
          · intro p h1 h2 h3
            rw [hrest p h2 h3, hval p h1]
      · rintro ⟨-, -, old', l0', h1, h2, ha, v, hv, hd, hcl, hcb, hdist, hrest⟩
        cases h1
        rw [hb] at h2
        cases h2
        rw [(hok _).mpr ⟨ha, rfl⟩]
        simp only
        refine (finishConfig_ok_iff _ _ _).mpr ⟨v, l, ?_, hd, hlog, ?_, hdist, ?_⟩
        · rw [hval _ (by simp)]; exact hv
        · rw [hcb, hl]
        · intro p h1 h2
          by_cases hp : p = ["logdir"]
          · subst hp; rw [hcl, hlog, hl]
          · rw [hrest p hp h1 h2, hval p hp]

/-- C57: however the flags are combined, an accepted configuration has distribution off if
nans are debugged, and remembers its log directory. -/
theorem accepted_config_rules (files : String → Option (Cfg A)) (dflt : Cfg A)
    (presets : PresetFlags) (reload : ReloadFlags) (ov : List (Field × Val A))
    (c : Cfg A) (dbg : Bool) (h : parseFlags files dflt presets reload ov = .ok (c, dbg)) :
    (c ["debug_nans"] = some (.bool true) → c ["distribute"] = some (.bool false) ∧ dbg = true) ∧
    (c ["debug_nans"] = some (.bool false) → dbg = false) ∧
    c ["base_logdir"] = c ["logdir"] ∧ c ["logdir"] ≠ none := by
  by_cases hr : Reloading reload
  · obtain ⟨-, -, old, l0, -, -, -, v, hv, hd, hcl, hcb, hdist, hrest⟩ :=
      (reload_flags_accepted_iff files dflt presets reload ov hr c dbg).mp h
    have hdn : c ["debug_nans"] = some v := by
      rw [hrest _ (by simp) (by simp) (by simp), hv]
    refine ⟨fun h1 => ?_, fun h1 => ?_, by rw [hcl, hcb], ?_⟩
    · rw [hdn] at h1; cases h1
      exact ⟨hdist (hd.mpr (by simp)), hd.mpr (by simp)⟩
    · rw [hdn] at h1; cases h1
      rw [Bool.eq_false_iff]; intro h2; exact hd.mp h2 rfl
    · rw [hcl]; cases lastSet ["logdir"] ov <;> simp [firstOf]
  · obtain ⟨-, -, -, m, -, v, l, hv, hd, hl, hb, hdist, hrest⟩ :=
      (default_flags_accepted_iff files dflt presets reload ov hr c dbg).mp h
    have hdn : c ["debug_nans"] = some v := by
      rw [hrest _ (by simp) (by simp), hv]
    have hcl : c ["logdir"] = some l := by rw [hrest _ (by simp) (by simp), hl]
    refine ⟨fun h1 => ?_, fun h1 => ?_, by rw [hcl, hb], by simp [hcl]⟩
    · rw [hdn] at h1; cases h1
      exact ⟨hdist (hd.mpr (by simp)), hd.mpr (by simp)⟩
    · rw [hdn] at h1; cases h1
      rw [Bool.eq_false_iff]; intro h2; exact hd.mp h2 rfl

/-- A sequence of runs in which every run reloads the configuration saved by the one before,
with no log directory on the command line.  The log directory used by a run is changed when
its configuration is saved (subfolder, date, suffix), and so are the notes. -/
inductive ReloadChain : Cfg A → Cfg A → Prop
  | start (c : Cfg A) : ReloadChain c c
  | next {c0 c s c' dflt : Cfg A} {n : Val A} {unique : String → String} {now : String}
      {rl0 rl : ReloadFlags} {files : String → Option (Cfg A)} {presets : PresetFlags}
      {ov : List (Field × Val A)} {dbg : Bool} :
      ReloadChain c0 c →
      savedConfig unique now rl0 (setField c ["notes"] n) = some s →
      Reloading rl → files (osJoin rl.logdir rl.configPath) = some s →
      lastSet ["logdir"] ov = none →
      parseFlags files dflt presets rl ov = .ok (c', dbg) → ReloadChain c0 c'

theorem savedConfig_base (unique : String → String) (now : String) (rl : ReloadFlags)
    (c s : Cfg A) (h : savedConfig unique now rl c = some s) :
    s ["base_logdir"] = c ["base_logdir"] := by
  unfold savedConfig at h
  split at h
  · cases h; simp [setField, Function.update]
  · split at h
    · cases h; simp [setField, Function.update]
    · simp at h

/-- C57: the original log directory is remembered through any number of reloads: every run
of the sequence starts from the log directory of the first one. -/
theorem reload_chain_keeps_logdir (c0 c : Cfg A) (h : ReloadChain c0 c)
    (h0 : c0 ["base_logdir"] = c0 ["logdir"]) : c ["logdir"] = c0 ["logdir"] := by
  suffices hs : c ["logdir"] = c0 ["logdir"] ∧ c ["base_logdir"] = c0 ["logdir"] from hs.1
  induction h with
  | start => exact ⟨rfl, h0⟩
  | next hchain hsave hrl hfile hov hparse ih =>
    obtain ⟨-, ih2⟩ := ih
    obtain ⟨-, -, old, l0, hf, hb, -, v, hv, hd, hcl, hcb, -⟩ :=
      (reload_flags_accepted_iff _ _ _ _ _ hrl _ _).mp hparse
    rw [hfile] at hf
    cases hf
    have hbase := savedConfig_base _ _ _ _ _ hsave
    rw [hb] at hbase
    rw [hov] at hcl hcb
    simp only [firstOf] at hcl hcb
    rw [hcl, hcb, hbase, ← ih2]
    simp [setField, Function.update]

/-! Concrete configurations. -/

/-- A small default configuration with two models. -/
def toyDefault : Cfg ℕ := fun p =>
  if p = ["logdir"] then some (.str "./logs")
  else if p = ["base_logdir"] then some (.str "./logs")
  else if p = ["notes"] then some (.str "default")
  else if p = ["debug_nans"] then some (.bool false)
  else if p = ["distribute"] then some (.bool true)
  else if p = ["subfolder_name"] then some (.str "NONE")
  else if p = ["save_to_current_datetime_subfolder"] then some (.bool false)
  else if p = ["vmc", "nburn"] then some (.other 5000)
  else if p = ["model", "type"] then some (.str "ferminet")
  else if p = ["model", "ferminet", "ndeterminants"] then some (.other 1)
  else if p = ["model", "orbital_cofactor_net", "ndeterminants"] then some (.other 7)
  else none

/-- A preset file changing one field. -/
def toyFiles : String → Option (Cfg ℕ) := fun f =>
  if f = "small.json" then some (fun p => if p = ["vmc", "nburn"] then some (.other 10) else none)
  else none

/-- The flags of the example: a preset, two overrides, one of them twice. -/
def toyFlags : List (Field × Val ℕ) :=
  [(["debug_nans"], .bool true), (["model", "ferminet", "ndeterminants"], .other 2),
    (["model", "ferminet", "ndeterminants"], .other 3)]

/-- Its result: preset over default, last override over both, the model re-rooted,
distribution off. -/
example : ∃ c, parseFlags toyFiles toyDefault ⟨"NONE", "small.json"⟩ defaultReload toyFlags =
      .ok (c, true) ∧ c ["vmc", "nburn"] = some (.other 10) ∧
    c ["model", "ndeterminants"] = some (.other 3) ∧ c ["distribute"] = some (.bool false) ∧
    c ["model", "type"] = some (.str "ferminet") ∧ c ["base_logdir"] = some (.str "./logs") := by
  have hn : ¬ Reloading defaultReload := by simp [Reloading, defaultReload, noName]
  have hpf : presetFile ⟨"NONE", "small.json"⟩ = some "small.json" := by
    simp [presetFile, osJoin]
  have hpv : ∀ p, presetValues toyFiles ⟨"NONE", "small.json"⟩ p =
      if p = ["vmc", "nburn"] then some (.other 10) else none := by
    intro p; simp [presetValues, hpf, toyFiles]
  let m : Cfg ℕ := fun p => match p with
    | "model" :: rest => if rest = ["type"] then some (.str "ferminet")
        else expected toyFiles toyDefault ⟨"NONE", "small.json"⟩ toyFlags
          ("model" :: "ferminet" :: rest)
    | p => expected toyFiles toyDefault ⟨"NONE", "small.json"⟩ toyFlags p
  let c : Cfg ℕ := setField (setField m ["distribute"] (.bool false)) ["base_logdir"]
    (.str "./logs")
  refine ⟨c, (default_flags_accepted_iff _ _ _ _ _ hn c true).mpr ⟨Or.inl rfl, ?_, ?_, m, ?_,
    .bool true, .str "./logs", ?_, by simp, ?_, by simp [c, setField], ?_, ?_⟩, ?_⟩
  · intro f hf; rw [hpf] at hf; cases hf; simp [toyFiles]
  · intro e he
    simp only [toyFlags, List.mem_cons, List.not_mem_nil, or_false] at he
    rcases he with rfl | rfl | rfl <;> simp [hpv, firstOf, toyDefault]
  · refine ⟨"ferminet", ?_, ⟨["ndeterminants"], .other 3, ?_⟩, ?_, ?_, ?_⟩
    · simp [expected, hpv, lastSet, toyFlags, firstOf, toyDefault]
    · simp [expected, hpv, lastSet, toyFlags, firstOf, toyDefault]
    · simp [m]
    · intro rest hr; simp [m, hr]
    · intro p hp
      match p, hp with
      | [], _ => rfl
      | k :: rest, hp =>
        have hk : k ≠ "model" := by simpa using hp
        simp only [m]
        split
        · rename_i heq; simp at heq; exact absurd heq.1 hk
        · rfl
  · simp [m, expected, hpv, lastSet, toyFlags, firstOf]
  · simp [m, expected, hpv, lastSet, toyFlags, firstOf, toyDefault]
  · intro _; simp [c, setField, Function.update]
  · intro p h1 h2
    have := h2 rfl
    simp [c, setField, Function.update, h1, this]
  · simp [c, m, setField, Function.update, expected, hpv, lastSet, toyFlags, firstOf, toyDefault]

/-- The conflicting flags of the rejection theorem. -/
example : Reloading { defaultReload with logdir := "./logs/run1" } ∧
    (("NONE" : String) = "NONE" ↔ ("small.json" : String) ≠ "NONE") := by
  refine ⟨⟨by simp, rfl⟩, by simp⟩

/-- A chain with one reload: the first run logged to `./logs_1`, the second one starts from
`./logs` again. -/
example : ∃ c', ReloadChain toyDefault c' ∧ toyDefault ["base_logdir"] = toyDefault ["logdir"] ∧
    c' ["logdir"] = some (.str "./logs") := by
  let s : Cfg ℕ := setField (setField toyDefault ["notes"] (.str "first")) ["logdir"]
    (.str "./logs_1")
  let rl : ReloadFlags := { defaultReload with logdir := "./logs_1" }
  have hrl : Reloading rl := ⟨by simp [rl], rfl⟩
  refine ⟨setField s ["logdir"] (.str "./logs"), .next (.start toyDefault) (s := s)
    (n := .str "first") (unique := fun l => l ++ "_1") (now := "") (rl0 := defaultReload)
    (rl := rl) (files := fun f => if f = osJoin "./logs_1" "config.json" then some s else none)
    (presets := ⟨"NONE", "NONE"⟩) (ov := []) (dbg := false) (dflt := toyDefault) ?_ hrl ?_ rfl ?_,
    rfl, by simp [setField]⟩
  · simp [savedConfig, defaultReload, getStr, setField, Function.update, toyDefault, s, noName]
  · simp [rl, defaultReload]
  · refine (reload_flags_accepted_iff _ _ _ _ _ hrl _ _).mpr ⟨rfl, rfl, s, .str "./logs",
      by simp [rl, defaultReload], by simp [s, setField, Function.update, toyDefault], by simp,
      .bool false, ?_, by simp, ?_, ?_, by simp, ?_⟩
    · simp [lastSet, firstOf, s, setField, Function.update, toyDefault]
    · simp [lastSet, firstOf, setField]
    · simp [lastSet, firstOf, s, setField, Function.update, toyDefault]
    · intro p h1 h2 _
      simp only [lastSet, setField, Function.update, h1, dite_false]
      cases s p <;> rfl

/-! ### C66 -/

mutual
theorem copyAll_contents (o : Obj V) (n : ℕ) : contents (copyAll o n).1 = contents o := by
  cases o with
  | leaf v => simp [copyAll, contents]
  | dict i items => simp [copyAll, contents, copyItems_contents items (n + 1)]
theorem copyItems_contents (l : List (String × Obj V)) (n : ℕ) :
    contentsItems (copyItems l n).1 = contentsItems l := by
  match l with
  | [] => simp [copyItems, contentsItems]
  | (k, o) :: rest =>
    simp [copyItems, contentsItems, copyAll_contents o n,
      copyItems_contents rest (copyAll o n).2]
end

mutual
theorem copyAll_idents (o : Obj V) (n : ℕ) : n ≤ (copyAll o n).2 ∧
    (idents (copyAll o n).1).Nodup ∧ ∀ i ∈ idents (copyAll o n).1, n ≤ i ∧ i < (copyAll o n).2 := by
  cases o with
  | leaf v => simp [copyAll, idents]
  | dict i items =>
    obtain ⟨h1, h2, h3⟩ := copyItems_idents items (n + 1)
    simp only [copyAll, idents, List.nodup_cons, List.mem_cons]
    refine ⟨by omega, ⟨fun hm => ?_, h2⟩, ?_⟩
    · have := (h3 n hm).1; omega
    · rintro j (rfl | hj)
      · omega
      · have := h3 j hj; omega
theorem copyItems_idents (l : List (String × Obj V)) (n : ℕ) : n ≤ (copyItems l n).2 ∧
    (identsItems (copyItems l n).1).Nodup ∧
      ∀ i ∈ identsItems (copyItems l n).1, n ≤ i ∧ i < (copyItems l n).2 := by
  match l with
  | [] => simp [copyItems, identsItems]
  | (k, o) :: rest =>
    obtain ⟨h1, h2, h3⟩ := copyAll_idents o n
    obtain ⟨g1, g2, g3⟩ := copyItems_idents rest (copyAll o n).2
    simp only [copyItems, identsItems, List.nodup_append, List.mem_append]
    refine ⟨by omega, ⟨h2, g2, ?_⟩, ?_⟩
    · intro a ha b hb hab
      have := h3 a ha; have := g3 b hb; omega
    · rintro j (hj | hj)
      · have := h3 j hj; omega
      · have := g3 j hj; omega
end

/-- C66.  The copy has the same contents as the original, every dictionary of the copy is a
new object, and no object occurs at two places of the copy. -/
theorem copy_all_dicts_separate (o : Obj V) (n : ℕ) :
    contents (copyAll o n).1 = contents o ∧ (idents (copyAll o n).1).Nodup ∧
    ∀ i ∈ idents (copyAll o n).1, n ≤ i :=
  ⟨copyAll_contents o n, (copyAll_idents o n).2.1, fun i hi => ((copyAll_idents o n).2.2 i hi).1⟩

mutual
theorem assign_notMem (i : ℕ) (key : String) (v : V) (o : Obj V) (h : i ∉ idents o) :
    assign i key v o = o := by
  cases o with
  | leaf w => rfl
  | dict j items =>
    simp only [idents, List.mem_cons, not_or] at h
    simp [assign, assignItems_notMem i key v items h.2, Ne.symm h.1]
theorem assignItems_notMem (i : ℕ) (key : String) (v : V) (l : List (String × Obj V))
    (h : i ∉ identsItems l) : assignItems i key v l = l := by
  match l with
  | [] => rfl
  | (k, o) :: rest =>
    simp only [identsItems, List.mem_append, not_or] at h
    simp [assignItems, assign_notMem i key v o h.1, assignItems_notMem i key v rest h.2]
end

/-- The identity at a path, if there is a dictionary. -/
def identAt (o : Obj V) (p : Field) : Option ℕ :=
  match o.at p with
  | some (.dict i _) => some i
  | _ => none

theorem at_nil (o : Obj V) : o.at [] = some o := by cases o <;> rfl

theorem at_dict_cons (i : ℕ) (items : List (String × Obj V)) (k : String) (rest : Field) :
    (Obj.dict i items).at (k :: rest) =
      match items.lookup k with
      | none => none
      | some o' => o'.at rest := rfl

theorem lookup_cons_eq (k k' : String) (o : Obj V) (l : List (String × Obj V)) :
    List.lookup k ((k', o) :: l) = if k = k' then some o else List.lookup k l := by
  by_cases h : k = k'
  · simp [List.lookup, h]
  · have : (k == k') = false := by simp [h]
    simp [List.lookup, this, h]

theorem lookup_assignItems (i : ℕ) (key : String) (v : V) (l : List (String × Obj V))
    (k : String) : List.lookup k (assignItems i key v l) =
      (List.lookup k l).map (assign i key v) := by
  induction l with
  | nil => rfl
  | cons e rest ih =>
    obtain ⟨k', o⟩ := e
    rw [assignItems, lookup_cons_eq, lookup_cons_eq]
    split <;> simp [ih]

theorem lookup_map_set (key : String) (v : V) (l : List (String × Obj V)) (k : String) :
    List.lookup k (l.map (fun kv => if kv.1 = key then (kv.1, .leaf v) else kv)) =
      if k = key then (List.lookup k l).map (fun _ => .leaf v) else List.lookup k l := by
  induction l with
  | nil => simp
  | cons e rest ih =>
    obtain ⟨k', o⟩ := e
    rw [List.map_cons]
    by_cases hk : k' = key
    · simp only [hk, if_true]
      rw [lookup_cons_eq, lookup_cons_eq, ih]
      by_cases h : k = key <;> simp [h]
    · simp only [hk, if_false]
      rw [lookup_cons_eq, lookup_cons_eq, ih]
      by_cases h : k = k'
      · subst h; simp [hk]
      · simp [h]

theorem idents_subset_of_lookup (l : List (String × Obj V)) (k : String) (o : Obj V)
    (h : List.lookup k l = some o) : ∀ i ∈ idents o, i ∈ identsItems l := by
  induction l with
  | nil => simp at h
  | cons e rest ih =>
    obtain ⟨k', o'⟩ := e
    rw [lookup_cons_eq] at h
    intro i hi
    simp only [identsItems, List.mem_append]
    split at h
    · cases h; exact Or.inl hi
    · exact Or.inr (ih h i hi)

theorem lookup_disjoint (l : List (String × Obj V)) (hl : (identsItems l).Nodup) (k k' : String)
    (o o' : Obj V) (h : List.lookup k l = some o) (h' : List.lookup k' l = some o')
    (hne : k ≠ k') : ∀ i ∈ idents o, i ∉ idents o' := by
  induction l with
  | nil => simp at h
  | cons e rest ih =>
    obtain ⟨k0, o0⟩ := e
    simp only [identsItems, List.nodup_append] at hl
    rw [lookup_cons_eq] at h h'
    intro i hi hi'
    split at h <;> split at h'
    · rename_i h1 h2; exact hne (h1.trans h2.symm)
    · cases h
      exact hl.2.2 i hi i (idents_subset_of_lookup _ _ _ h' i hi') rfl
    · cases h'
      exact hl.2.2 i hi' i (idents_subset_of_lookup _ _ _ h i hi) rfl
    · exact ih hl.2.1 h h' i hi hi'

theorem nodup_of_lookup (l : List (String × Obj V)) (hl : (identsItems l).Nodup) (k : String)
    (o : Obj V) (h : List.lookup k l = some o) : (idents o).Nodup := by
  induction l with
  | nil => simp at h
  | cons e rest ih =>
    obtain ⟨k0, o0⟩ := e
    simp only [identsItems, List.nodup_append] at hl
    rw [lookup_cons_eq] at h
    split at h
    · cases h; exact hl.1
    · exact ih hl.2.1 h

theorem identAt_mem (o : Obj V) (p : Field) (i : ℕ) (h : identAt o p = some i) :
    i ∈ idents o := by
  induction p generalizing o with
  | nil =>
    cases o with
    | leaf v => simp [identAt, at_nil] at h
    | dict j items => simp [identAt, at_nil] at h; simp [idents, h]
  | cons k rest ih =>
    cases o with
    | leaf v => simp [identAt, Obj.at] at h
    | dict j items =>
      simp only [identAt, at_dict_cons] at h
      cases hk : List.lookup k items with
      | none => simp [hk] at h
      | some o' =>
        simp only [hk] at h
        simp only [idents, List.mem_cons]
        exact Or.inr (idents_subset_of_lookup _ _ _ hk i (ih o' h))

/-- If no object occurs at two places, assigning `key` in the dictionary at path `p` changes
nothing except what lies at or below `p ++ [key]`. -/
theorem assign_changes_only (o : Obj V) (ho : (idents o).Nodup) (p : Field) (i : ℕ)
    (hp : identAt o p = some i) (key : String) (v : V) (q : Field) :
    ((p ++ [key] <+: q → ∀ w, o.at (p ++ [key]) = some w → q = p ++ [key] →
      (assign i key v o).at q = some (.leaf v)) ∧
    (¬ p ++ [key] <+: q → ∀ w, o.at q = some (.leaf w) →
      (assign i key v o).at q = some (.leaf w))) := by
  induction p generalizing o q with
  | nil =>
    cases o with
    | leaf w => simp [identAt, at_nil] at hp
    | dict j items =>
      simp only [identAt, at_nil, Option.some.injEq] at hp
      subst hp
      simp only [idents, List.nodup_cons] at ho
      have hass : assign j key v (.dict j items) =
          .dict j (items.map (fun kv => if kv.1 = key then (kv.1, .leaf v) else kv)) := by
        simp [assign, assignItems_notMem j key v items ho.1]
      rw [hass]
      constructor
      · rintro - w hw rfl
        simp only [List.nil_append, at_dict_cons] at hw ⊢
        rw [lookup_map_set]
        cases hk : List.lookup key items with
        | none => simp [hk] at hw
        | some o' => simp [at_nil]
      · intro hq w hw
        match q with
        | [] => simp [at_nil] at hw
        | k :: rest =>
          rw [at_dict_cons] at hw ⊢
          have hk : k ≠ key := by
            rintro rfl; exact hq (by simp)
          rw [lookup_map_set, if_neg hk]
          exact hw
  | cons k0 rest0 ih =>
    cases o with
    | leaf w => simp [identAt, Obj.at] at hp
    | dict j items =>
      have hmem := identAt_mem _ _ _ hp
      simp only [identAt, at_dict_cons] at hp
      simp only [idents, List.nodup_cons] at ho
      cases hk0 : List.lookup k0 items with
      | none => simp [hk0] at hp
      | some o0 =>
        simp only [hk0] at hp
        have hi0 : i ∈ idents o0 := identAt_mem o0 rest0 i hp
        have hji : j ≠ i := by
          rintro rfl
          exact ho.1 (idents_subset_of_lookup _ _ _ hk0 _ hi0)
        have hass : assign i key v (.dict j items) = .dict j (assignItems i key v items) := by
          simp [assign, hji]
        have ih0 := ih o0 (nodup_of_lookup _ ho.2 _ _ hk0) hp
        rw [hass]
        constructor
        · rintro - w hw rfl
          simp only [List.cons_append, at_dict_cons, lookup_assignItems, hk0, Option.map_some]
            at hw ⊢
          exact (ih0 (rest0 ++ [key])).1 (List.prefix_refl _) w hw rfl
        · intro hq w hw
          match q with
          | [] => simp [at_nil] at hw
          | k :: rest =>
            rw [at_dict_cons] at hw ⊢
            rw [lookup_assignItems]
            by_cases hk : k = k0
            · subst hk
              simp only [hk0, Option.map_some] at hw ⊢
              refine (ih0 rest).2 (fun hpre => hq ?_) w hw
              simpa using hpre
            · cases hkl : List.lookup k items with
              | none => simp [hkl] at hw
              | some o' =>
                simp only [hkl, Option.map_some] at hw ⊢
                rw [assign_notMem _ _ _ _
                  (lookup_disjoint items ho.2 k0 k o0 o' hk0 hkl (Ne.symm hk) i hi0)]
                exact hw

/-- C66, consequence for command line flags.  In the copied dictionary, assigning an existing
field (the last key on the dictionary object found by following the others) changes that
field and no other leaf, whatever was shared in the original. -/
theorem override_changes_only_its_field (o : Obj V) (n : ℕ) (p : Field) (i : ℕ) (key : String)
    (v w : V) (hp : identAt (copyAll o n).1 p = some i)
    (hw : (copyAll o n).1.at (p ++ [key]) = some (.leaf w)) :
    (assign i key v (copyAll o n).1).at (p ++ [key]) = some (.leaf v) ∧
    ∀ q u, q ≠ p ++ [key] → (copyAll o n).1.at q = some (.leaf u) →
      (assign i key v (copyAll o n).1).at q = some (.leaf u) := by
  have h := assign_changes_only (copyAll o n).1 (copyAll_idents o n).2.1 p i hp key v
  refine ⟨(h _).1 (List.prefix_refl _) _ hw rfl, fun q u hq hu => (h q).2 (fun hpre => ?_) u hu⟩
  obtain ⟨t, rfl⟩ := hpre
  cases t with
  | nil => simp at hq
  | cons k rest =>
    have : ∀ (x : Obj V) (a b : Field) (y : V), x.at a = some (.leaf y) → b ≠ [] →
        x.at (a ++ b) = none := by
      intro x a
      induction a generalizing x with
      | nil =>
        intro b y hx hb
        rw [at_nil] at hx
        cases hx
        match b, hb with
        | _ :: _, _ => rfl
      | cons k rest ih =>
        intro b y hx hb
        cases x with
        | leaf z => rfl
        | dict j items =>
          rw [List.cons_append]
          rw [at_dict_cons] at hx ⊢
          cases hk : List.lookup k items with
          | none => rfl
          | some o' =>
            simp only [hk] at hx ⊢
            exact ih o' b y hx hb
    rw [this _ _ _ _ hw (by simp)] at hu
    simp at hu

/-- The example of the docstring of `_copy_all_dicts`: one sub-dictionary used twice. -/
def sharedToy : Obj ℕ :=
  .dict 0 [("sub1", .dict 1 [("val", .leaf 2)]), ("sub2", .dict 1 [("val", .leaf 2)])]

/-- Without the copy, setting `sub1.val` also sets `sub2.val`; with the copy it does not. -/
theorem shared_override_leaks :
    identAt sharedToy ["sub1"] = some 1 ∧
    (assign 1 "val" 3 sharedToy).at ["sub2", "val"] = some (.leaf 3) ∧
    identAt (copyAll sharedToy 10).1 ["sub1"] = some 11 ∧
    (copyAll sharedToy 10).1.at ["sub1", "val"] = some (.leaf 2) ∧
    (assign 11 "val" 3 (copyAll sharedToy 10).1).at ["sub2", "val"] = some (.leaf 2) := by
  refine ⟨rfl, rfl, rfl, rfl, rfl⟩

end Verif.Props
