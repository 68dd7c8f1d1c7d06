import Verif.Spec.WeakMem

/-! # Runs of independent elements on memory with out-of-date reads

`parallelRunAll` and `parallelRunOne` (GDynamicEngine.cpp:229-288) as operations on shared memory, in runs in which no element fails.
Every step appends to a log, loads take what they read from as an oracle, and which logs are possible is said by `Spec.Coherent`. -/
namespace CGraph
open Spec

/-- `parallel_run_num_`, and the place in a queue of the pool in which task number `n` is handed over. -/
inductive PLoc where
  | num
  | task (n : Nat)
deriving DecidableEq

/-- An operation of a thread on shared memory (GDynamicEngine.cpp:229-288). -/
abbrev PwOp := WAct PLoc Nat Nat

/-- Where the caller is in `parallelRunAll`: not in it; `k` tasks are handed over (232-246); waiting (253-266). -/
inductive PwMain where
  | idle
  | push (k : Nat)
  | wait
deriving DecidableEq

/-- A thread `tid` that executes element `elem` in `parallelRunOne` (270-283). -/
structure PwJob where
  tid : Nat
  elem : Nat
deriving DecidableEq

/-- `queue`: tasks handed over and not taken, element and number; `cnt` counts tasks. -/
structure PwSt where
  main : PwMain
  queue : List (Nat × Nat)
  jobs : List PwJob
  cnt : Nat
  runs : Nat
  log : List PwOp

/-- Steps.  The memory of the user: element `e` works on cell `e`; cells from `total` on are inputs that elements only read; between runs
the caller does what it likes.  `src` is what a load or read-modify-write reads from. -/
inductive PwAct where
  /-- the caller reads or writes a cell between runs -/
  | use (c : Nat) (w : Bool)
  /-- the caller calls `run` -/
  | begin
  /-- the caller goes on in `parallelRunAll` -/
  | main (src : Option Nat)
  /-- thread `t` takes a task -/
  | take (i t : Nat) (src : Option Nat)
  /-- an element reads or writes a cell -/
  | body (i c : Nat) (w : Bool)
  /-- an element is finished and is counted -/
  | inc (i : Nat) (src : Option Nat)

namespace PwSt

/-- After `init` of the pipeline. -/
def init : PwSt := ⟨.idle, [], [], 0, 0, []⟩

/-- The value that is read. -/
def val (log : List PwOp) : Option Nat → Nat
  | none => 0
  | some i => match log[i]? with
    | some ⟨_, .store _ _ v⟩ => v
    | some ⟨_, .rmw _ _ _ _ _ v⟩ => v
    | _ => 0

/-- Thread `t` performs an operation. -/
def put (s : PwSt) (t : Nat) (o : WOp PLoc Nat Nat) : PwSt := { s with log := s.log ++ [⟨t, o⟩] }

/-- An access of memory of the user. -/
def access (c : Nat) (w : Bool) : WOp PLoc Nat Nat := if w then .write c else .read c

/-- One step; `total` is `total_end_size_`, the number of elements.  The caller is thread 0.  Simplified: handing over a task is a release
store and taking it an acquire load of one location per task (in the pool a mutex of a queue does this, C09, or C08); the readings of
`cur_status_`, which nobody writes when no element fails, and the locking and signalling of `locker_` (262-265, 284-287) are left out
(leaving out synchronisation allows more executions). -/
def step (total : Nat) (s : PwSt) : PwAct → PwSt
  | .use c w => if s.main = .idle then s.put 0 (access c w) else s
  -- 230: `parallel_run_num_ = 0`, sequentially consistent
  | .begin => if s.main = .idle then { s.put 0 (.store .num true 0) with main := .push 0 } else s
  | .main src =>
    match s.main with
    | .idle => s
    | .push k =>
      if k < total then
        -- 236, 243
        { s.put 0 (.store (.task s.cnt) true 1) with main := .push (k + 1), queue := s.queue ++ [(k, s.cnt)], cnt := s.cnt + 1 }
      else { s with main := .wait }
    -- 255, 264: sequentially consistent
    | .wait =>
      let s' := s.put 0 (.load .num true src (val s.log src))
      if val s.log src ≥ total then { s' with main := .idle, runs := s.runs + 1 } else s'
  | .take i t src =>
    match s.queue[i]? with
    | none => s
    | some (e, n) =>
      -- another thread that is free
      if t ≠ 0 ∧ s.jobs.all (fun j => j.tid ≠ t) then
        let s' := s.put t (.load (.task n) true src (val s.log src))
        if val s.log src = 1 then { s' with queue := s.queue.eraseIdx i, jobs := s.jobs ++ [⟨t, e⟩] } else s'
      else s
  -- 275
  | .body i c w =>
    match s.jobs[i]? with
    | none => s
    | some j => if c = j.elem ∨ (total ≤ c ∧ w = false) then s.put j.tid (access c w) else s
  -- 283: release
  | .inc i src =>
    match s.jobs[i]? with
    | none => s
    | some j =>
      { s.put j.tid (.rmw .num false true src (val s.log src) (val s.log src + 1)) with jobs := s.jobs.eraseIdx i }

/-- Run a schedule. -/
def run (total : Nat) (s : PwSt) (l : List PwAct) : PwSt := l.foldl (step total) s

end PwSt
end CGraph
