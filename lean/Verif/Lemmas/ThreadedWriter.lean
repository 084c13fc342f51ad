import Verif.Model.ThreadedWriter
import Mathlib.Tactic

namespace Verif.TW

variable {F V : Type} [DecidableEq F]

/-- item taken from the queue but not yet written -/
def WriterPc.inflight : WriterPc F V → List (F × V)
  | .writing f v => [(f, v)]
  | .writingOpen f v => [(f, v)]
  | .drainWriting f v => [(f, v)]
  | .drainWritingOpen f v => [(f, v)]
  | _ => []

/-- file currently open for writing -/
def WriterPc.openFile : WriterPc F V → Option F
  | .writingOpen f _ => some f
  | .drainWritingOpen f _ => some f
  | _ => none

/-- in the final drain or ended -/
def WriterPc.draining : WriterPc F V → Prop
  | .drainCheck => True
  | .drainGet => True
  | .drainWriting _ _ => True
  | .drainWritingOpen _ _ => True
  | .finished => True
  | _ => False

/-- last value recorded for a file -/
def lastFor (f : F) (l : List (F × V)) : Option V :=
  ((l.filter (fun x => decide (x.1 = f))).getLast?).map (·.2)

theorem lastFor_append_self (f : F) (l : List (F × V)) (v : V) :
    lastFor f (l ++ [(f, v)]) = some v := by simp [lastFor]

theorem lastFor_append_ne {f g : F} (h : g ≠ f) (l : List (F × V)) (v : V) :
    lastFor f (l ++ [(g, v)]) = lastFor f l := by simp [lastFor, h]

/-- contents a file should have if no write to it is in progress -/
def expected (disk : F → DiskFile V) (l : List (F × V)) (f : F) : DiskFile V :=
  match lastFor f l with
  | some v => .complete v
  | none => disk f

structure Inv (disk : F → DiskFile V) (s : State F V) : Prop where
  done_iff : s.done = true ↔ s.main ≠ .running
  drain_done : s.wpc.draining → s.done = true
  drainGet : s.wpc = .drainGet → s.queue ≠ []
  finished : s.wpc = .finished → s.queue = []
  not_dead : s.wpc ≠ .dead
  joined : s.main = .joined → s.wpc = .finished
  hist : s.puts = s.written ++ s.wpc.inflight ++ s.queue
  files : ∀ f, s.wpc.openFile ≠ some f → s.disk f = expected disk s.written f
  openF : ∀ f, s.wpc.openFile = some f → s.disk f = .truncated

theorem inv_init (disk : F → DiskFile V) : Inv disk (init disk) := by
  constructor <;> simp [init, WriterPc.draining, WriterPc.inflight, WriterPc.openFile,
    expected, lastFor]

theorem setFile_same (d : F → DiskFile V) (f : F) (x : DiskFile V) : setFile d f x f = x := by
  simp [setFile]
theorem setFile_ne (d : F → DiskFile V) {f g : F} (h : g ≠ f) (x : DiskFile V) :
    setFile d f x g = d g := by simp [setFile, h]

theorem expected_append_self (disk : F → DiskFile V) (l : List (F × V)) (f : F) (v : V) :
    expected disk (l ++ [(f, v)]) f = .complete v := by
  simp [expected, lastFor_append_self]
theorem expected_append_ne (disk : F → DiskFile V) (l : List (F × V)) {f g : F} (h : g ≠ f)
    (v : V) : expected disk (l ++ [(f, v)]) g = expected disk l g := by
  simp [expected, lastFor_append_ne (Ne.symm h)]

theorem inv_main {disk : F → DiskFile V} {s t : State F V} (hi : Inv disk s)
    (h : MainStep s t) : Inv disk t := by
  obtain ⟨h1, h2, h3, h4, h5, h6, h7, h8, h9⟩ := hi
  cases h with
  | put f v hm =>
    have hd : s.done = false := by
      by_contra hd; exact h1.mp (by simpa using hd) hm
    refine ⟨h1, h2, fun h => by simp, ?_, h5, h6, ?_, h8, h9⟩
    · intro hf
      have := h2 (by simp only at hf; rw [hf]; trivial)
      rw [hd] at this; cases this
    · simp only [h7, List.append_assoc]
  | setDone hm =>
    exact ⟨by simp, fun _ => rfl, h3, h4, h5, by simp, h7, h8, h9⟩
  | join hm hw =>
    refine ⟨?_, h2, h3, h4, h5, ?_, h7, h8, h9⟩
    · simp only [ne_eq, reduceCtorEq, not_false_eq_true, iff_true]
      exact h1.mpr (by rw [hm]; simp)
    · intro _
      rcases hw with h | h
      · exact h
      · exact absurd h h5

theorem inv_writer {disk : F → DiskFile V} {s t : State F V} (hi : Inv disk s)
    (h : WriterStep s t) : Inv disk t := by
  obtain ⟨h1, h2, h3, h4, h5, h6, h7, h8, h9⟩ := hi
  have hj : s.wpc ≠ .finished → s.main = .joined → False := fun a b => a (h6 b)
  cases h with
  | enterLoop h hd =>
    rw [h] at h7 h8 h9
    exact ⟨h1, by simp [WriterPc.draining], by simp, by simp, by simp,
      fun hm => (hj (by simp [h]) hm).elim, h7, h8, h9⟩
  | leaveLoop h hd =>
    rw [h] at h7 h8 h9
    exact ⟨h1, fun _ => hd, by simp, by simp, by simp,
      fun hm => (hj (by simp [h]) hm).elim, h7, h8, h9⟩
  | get f v q h hq =>
    rw [h] at h7 h8 h9
    refine ⟨h1, by simp [WriterPc.draining], by simp, by simp, by simp,
      fun hm => (hj (by simp [h]) hm).elim, ?_, h8, h9⟩
    rw [h7, hq]; simp [WriterPc.inflight]
  | timeout h hq =>
    rw [h] at h7 h8 h9
    exact ⟨h1, by simp [WriterPc.draining], by simp, by simp, by simp,
      fun hm => (hj (by simp [h]) hm).elim, h7, h8, h9⟩
  | openFile f v h =>
    rw [h] at h7 h8 h9
    refine ⟨h1, by simp [WriterPc.draining], by simp, by simp, by simp,
      fun hm => (hj (by simp [h]) hm).elim, h7, ?_, ?_⟩
    · intro g hg
      have hg' : g ≠ f := by rintro rfl; exact hg rfl
      simp only [setFile_ne _ hg']
      exact h8 g (by simp [WriterPc.openFile])
    · intro g hg
      simp only [WriterPc.openFile, Option.some.injEq] at hg
      subst hg; exact setFile_same _ _ _
  | finishFile f v h =>
    rw [h] at h7 h8 h9
    refine ⟨h1, by simp [WriterPc.draining], by simp, by simp, by simp,
      fun hm => (hj (by simp [h]) hm).elim, ?_, ?_, by simp [WriterPc.openFile]⟩
    · rw [h7]; simp [WriterPc.inflight]
    · intro g _
      by_cases hg : g = f
      · subst hg; simp only [setFile_same, expected_append_self]
      · simp only [setFile_ne _ hg, expected_append_ne _ _ hg]
        exact h8 g (by simp [WriterPc.openFile, Ne.symm hg])
  | drainMore h hq =>
    rw [h] at h2 h7 h8 h9
    exact ⟨h1, fun _ => h2 trivial, fun _ => hq, by simp, by simp,
      fun hm => (hj (by simp [h]) hm).elim, h7, h8, h9⟩
  | drainEnd h hq =>
    rw [h] at h2 h7 h8 h9
    exact ⟨h1, fun _ => h2 trivial, by simp, fun _ => hq, by simp, fun _ => rfl, h7, h8, h9⟩
  | drainTake f v q h hq =>
    rw [h] at h2 h7 h8 h9
    refine ⟨h1, fun _ => h2 trivial, by simp, by simp, by simp,
      fun hm => (hj (by simp [h]) hm).elim, ?_, h8, h9⟩
    rw [h7, hq]; simp [WriterPc.inflight]
  | drainOpen f v h =>
    rw [h] at h2 h7 h8 h9
    refine ⟨h1, fun _ => h2 trivial, by simp, by simp, by simp,
      fun hm => (hj (by simp [h]) hm).elim, h7, ?_, ?_⟩
    · intro g hg
      have hg' : g ≠ f := by rintro rfl; exact hg rfl
      simp only [setFile_ne _ hg']
      exact h8 g (by simp [WriterPc.openFile])
    · intro g hg
      simp only [WriterPc.openFile, Option.some.injEq] at hg
      subst hg; exact setFile_same _ _ _
  | drainFinish f v h =>
    rw [h] at h2 h7 h8 h9
    refine ⟨h1, fun _ => h2 trivial, by simp, by simp, by simp,
      fun hm => (hj (by simp [h]) hm).elim, ?_, ?_, by simp [WriterPc.openFile]⟩
    · rw [h7]; simp [WriterPc.inflight]
    · intro g _
      by_cases hg : g = f
      · subst hg; simp only [setFile_same, expected_append_self]
      · simp only [setFile_ne _ hg, expected_append_ne _ _ hg]
        exact h8 g (by simp [WriterPc.openFile, Ne.symm hg])

theorem inv_reachable {disk : F → DiskFile V} {s : State F V} (h : Reachable disk s) :
    Inv disk s := by
  induction h with
  | refl => exact inv_init disk
  | tail _ hs ih =>
    rcases hs with hs | hs
    · exact inv_main ih hs
    · exact inv_writer ih hs

/-- number of writer steps left once the flag is set -/
def measure (s : State F V) : ℕ :=
  5 * s.queue.length +
  match s.wpc with
  | .loopTop => 2
  | .getting => 3
  | .writing _ _ => 4
  | .writingOpen _ _ => 3
  | .drainCheck => 1
  | .drainGet => 0
  | .drainWriting _ _ => 3
  | .drainWritingOpen _ _ => 2
  | .finished => 0
  | .dead => 0

theorem measure_decreases {s t : State F V}
    (hd : s.done = true) (h : WriterStep s t) : measure t < measure s ∧ t.done = true := by
  cases h <;> simp_all [measure] <;> omega

theorem writer_progress {disk : F → DiskFile V} {s : State F V} (hi : Inv disk s)
    (h : s.wpc ≠ .finished) : ∃ t, WriterStep s t := by
  obtain ⟨h1, h2, h3, h4, h5, h6, h7, h8, h9⟩ := hi
  match hw : s.wpc with
  | .loopTop =>
    by_cases hd : s.done = true
    · exact ⟨_, .leaveLoop s hw hd⟩
    · exact ⟨_, .enterLoop s hw (by simpa using hd)⟩
  | .getting =>
    match hq : s.queue with
    | [] => exact ⟨_, .timeout s hw hq⟩
    | (f, v) :: q => exact ⟨_, .get s f v q hw hq⟩
  | .writing f v => exact ⟨_, .openFile s f v hw⟩
  | .writingOpen f v => exact ⟨_, .finishFile s f v hw⟩
  | .drainCheck =>
    by_cases hq : s.queue = []
    · exact ⟨_, .drainEnd s hw hq⟩
    · exact ⟨_, .drainMore s hw hq⟩
  | .drainGet =>
    match hq : s.queue with
    | [] => exact absurd hq (h3 hw)
    | (f, v) :: q => exact ⟨_, .drainTake s f v q hw hq⟩
  | .drainWriting f v => exact ⟨_, .drainOpen s f v hw⟩
  | .drainWritingOpen f v => exact ⟨_, .drainFinish s f v hw⟩
  | .finished => exact absurd hw h
  | .dead => exact absurd hw h5

/-- invariant that also survives failing writes -/
theorem prefix_reachableF {disk : F → DiskFile V} {s : State F V} (h : ReachableF disk s) :
    ∃ rest, s.puts = s.written ++ s.wpc.inflight ++ rest ++ s.queue ∧
      (s.wpc ≠ .dead → rest = []) := by
  induction h with
  | refl => exact ⟨[], rfl, fun _ => rfl⟩
  | tail _ hs ih =>
    obtain ⟨rest, h7, hr⟩ := ih
    rcases hs with hs | hs | hs
    · cases hs with
      | put f v hm => exact ⟨rest, by simp [h7], hr⟩
      | setDone hm => exact ⟨rest, h7, hr⟩
      | join hm hw => exact ⟨rest, h7, hr⟩
    · refine ⟨[], ?_, fun _ => rfl⟩
      cases hs <;> simp_all [WriterPc.inflight]
    · cases hs with
      | early f v h =>
        refine ⟨[(f, v)], ?_, by simp⟩
        rcases h with h | h <;> simp_all [WriterPc.inflight]
      | late f v h =>
        refine ⟨[(f, v)], ?_, by simp⟩
        rcases h with h | h <;> simp_all [WriterPc.inflight]

end Verif.TW
