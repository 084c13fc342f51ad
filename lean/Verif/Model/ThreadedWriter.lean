import Mathlib.Data.List.Basic
import Mathlib.Logic.Relation

/-!
Model of `ThreadedWriter` and `CheckpointWriter` (vmcnet/utils/checkpoint.py:84-186) as a
transition system with two threads, together with the file being written
(`save_vmc_state`, vmcnet/utils/io.py:154-176).

Granularity: one transition per queue operation, per test of `_done` or `queue.empty()`,
and two per file write (open-and-truncate, then finish).  `queue.Queue` operations are
atomic, as guaranteed by its lock; reading and setting the Python attribute `_done` is
atomic under the GIL.  Process death is not a transition: the files found after a crash are
the `disk` component of whatever state was reached.
-/

namespace Verif.TW

variable {F V : Type}

/-- A file on disk: missing, opened with "wb" but not finished, or complete. -/
inductive DiskFile (V : Type) where
  | absent
  | truncated
  | complete (v : V)

/-- Where the main thread is with respect to this writer. `running`: inside the `with`
block; `closing`: `_done = True` set, in `join` (checkpoint.py:135-138); `joined`:
`close_and_await` has returned. -/
inductive MainPc where
  | running
  | closing
  | joined
  deriving DecidableEq

/-- Program counter of the writer thread, `_run_thread`, checkpoint.py:110-125.
`dead` is a thread ended by an exception raised in `write_out_data`. -/
inductive WriterPc (F V : Type) where
  /-- line 111, about to test `not self._done` -/
  | loopTop
  /-- line 116, in `get(timeout=0.5)` -/
  | getting
  /-- line 117, `write_out_data` called, file not opened yet -/
  | writing (f : F) (v : V)
  /-- line 117, inside `np.savez`, file opened and truncated (io.py:168) -/
  | writingOpen (f : F) (v : V)
  /-- line 123, about to test `not queue.empty()` -/
  | drainCheck
  /-- line 124, blocking `get()` -/
  | drainGet
  /-- line 125, `write_out_data` called -/
  | drainWriting (f : F) (v : V)
  /-- line 125, file opened and truncated -/
  | drainWritingOpen (f : F) (v : V)
  | finished
  | dead

/-- Shared state.  `puts` and `written` are history variables (not used by any guard). -/
structure State (F V : Type) where
  queue : List (F × V)
  done : Bool
  main : MainPc
  wpc : WriterPc F V
  disk : F → DiskFile V
  puts : List (F × V)
  written : List (F × V)

/-- State right after `__enter__` (thread started), over any previous disk contents. -/
def init (disk : F → DiskFile V) : State F V :=
  ⟨[], false, .running, .loopTop, disk, [], []⟩

variable [DecidableEq F]

/-- Overwrite one file. -/
def setFile (d : F → DiskFile V) (f : F) (x : DiskFile V) : F → DiskFile V :=
  fun g => if g = f then x else d g

/-- Steps of the main thread: `save_data` (checkpoint.py:131-133), and the two halves of
`close_and_await` (135-138). `join` returns when the thread has ended. -/
inductive MainStep : State F V → State F V → Prop
  | put (s : State F V) (f : F) (v : V) (h : s.main = .running) :
      MainStep s { s with queue := s.queue ++ [(f, v)], puts := s.puts ++ [(f, v)] }
  | setDone (s : State F V) (h : s.main = .running) :
      MainStep s { s with done := true, main := .closing }
  | join (s : State F V) (h : s.main = .closing) (hw : s.wpc = .finished ∨ s.wpc = .dead) :
      MainStep s { s with main := .joined }

/-- Steps of the writer thread, `_run_thread`, checkpoint.py:110-125. -/
inductive WriterStep : State F V → State F V → Prop
  | enterLoop (s : State F V) (h : s.wpc = .loopTop) (hd : s.done = false) :
      WriterStep s { s with wpc := .getting }
  | leaveLoop (s : State F V) (h : s.wpc = .loopTop) (hd : s.done = true) :
      WriterStep s { s with wpc := .drainCheck }
  | get (s : State F V) (f : F) (v : V) (q : List (F × V)) (h : s.wpc = .getting)
      (hq : s.queue = (f, v) :: q) :
      WriterStep s { s with wpc := .writing f v, queue := q }
  | timeout (s : State F V) (h : s.wpc = .getting) (hq : s.queue = []) :
      WriterStep s { s with wpc := .loopTop }
  | openFile (s : State F V) (f : F) (v : V) (h : s.wpc = .writing f v) :
      WriterStep s { s with wpc := .writingOpen f v, disk := setFile s.disk f .truncated }
  | finishFile (s : State F V) (f : F) (v : V) (h : s.wpc = .writingOpen f v) :
      WriterStep s { s with wpc := .loopTop, disk := setFile s.disk f (.complete v),
                            written := s.written ++ [(f, v)] }
  | drainMore (s : State F V) (h : s.wpc = .drainCheck) (hq : s.queue ≠ []) :
      WriterStep s { s with wpc := .drainGet }
  | drainEnd (s : State F V) (h : s.wpc = .drainCheck) (hq : s.queue = []) :
      WriterStep s { s with wpc := .finished }
  | drainTake (s : State F V) (f : F) (v : V) (q : List (F × V)) (h : s.wpc = .drainGet)
      (hq : s.queue = (f, v) :: q) :
      WriterStep s { s with wpc := .drainWriting f v, queue := q }
  | drainOpen (s : State F V) (f : F) (v : V) (h : s.wpc = .drainWriting f v) :
      WriterStep s { s with wpc := .drainWritingOpen f v, disk := setFile s.disk f .truncated }
  | drainFinish (s : State F V) (f : F) (v : V) (h : s.wpc = .drainWritingOpen f v) :
      WriterStep s { s with wpc := .drainCheck, disk := setFile s.disk f (.complete v),
                            written := s.written ++ [(f, v)] }

/-- `write_out_data` raises (disk full, unpicklable data, ...): the exception is not
`queue.Empty`, so it leaves `_run_thread` and ends the thread. -/
inductive FailStep : State F V → State F V → Prop
  | early (s : State F V) (f : F) (v : V)
      (h : s.wpc = .writing f v ∨ s.wpc = .drainWriting f v) :
      FailStep s { s with wpc := .dead }
  | late (s : State F V) (f : F) (v : V)
      (h : s.wpc = .writingOpen f v ∨ s.wpc = .drainWritingOpen f v) :
      FailStep s { s with wpc := .dead }

/-- One step of the system when every write succeeds. -/
def Step (s t : State F V) : Prop := MainStep s t ∨ WriterStep s t

/-- One step of the system when writes may also raise. -/
def StepF (s t : State F V) : Prop := MainStep s t ∨ WriterStep s t ∨ FailStep s t

/-- States reachable from a fresh writer. -/
def Reachable (disk : F → DiskFile V) (s : State F V) : Prop :=
  Relation.ReflTransGen Step (init disk) s

/-- States reachable from a fresh writer when writes may raise. -/
def ReachableF (disk : F → DiskFile V) (s : State F V) : Prop :=
  Relation.ReflTransGen StepF (init disk) s

end Verif.TW
