import Verif.Model.Pool

/-! # Changing the number of secondary threads from several threads

`UThreadPool::createSecondaryThread`, `releaseSecondaryThread` and the part of `monitor` that retires threads
(src/UtilsCtrl/ThreadPool/UThreadPool.cpp:186-206, 227-242, 266-270) step by step, called by any thread: by callers, by the monitor, and by
tasks, such as `GCoordinator` elements, which primary or secondary threads execute.  Simplified: the elements of the list that are erased
are unlinked when the thread has been joined, all of a task but these calls is `work`, which ends; a task waits in one queue that any
secondary thread reads; primary threads are like other callers; `ttl` of a thread is not counted (C18): the monitor may retire any
secondary thread that has no task.  A thread whose `done_` is cleared while it waits for a task takes none.  An `int` does not overflow. -/
namespace CGraph
namespace Coord

/-- What a thread does: calls in the order in which it makes them; `pass` is the loop of the monitor (UThreadPool.cpp:266-270). -/
inductive Call where
  | work
  | create (n : Int)
  | release (n : Int)
  | pass
deriving DecidableEq

/-- GCoordinator.inl:24-31: the call that an element `GCoordinator<size>` makes. -/
def coordCall (size : Int) : Call := if size ≥ 0 then .create size else .release ((-1) * size)

/-- Where a thread is: `ready`: between calls; `adding r`: `realSize` is computed, `st_mutex_` not yet taken (UThreadPool.cpp:231-233);
`purge n rest`: holds `st_mutex_`, `rest` is what the loop has still to visit (191); `pjoin n t rest`: in the destructor of thread `t`, in
`thread_.join()` (192, Thread/UThreadBase.h:104-118); `freeze rest`, `fjoin t rest`: the same in `monitor` (268-269), where `frz t rest`:
`freeze` has said that `t` is to be retired; `ended`: the function of the thread has returned. -/
inductive Pc where
  | ready
  | adding (r : Int)
  | purge (n : Int) (rest : List Nat)
  | pjoin (n : Int) (t : Nat) (rest : List Nat)
  | freeze (rest : List Nat)
  | frz (t : Nat) (rest : List Nat)
  | fjoin (t : Nat) (rest : List Nat)
  | ended
deriving DecidableEq

/-- A thread: whether it is a secondary one, its `done_` (true: go on, Thread/UThreadBase.h:25), where it is, and what it has to do:
the rest of its task if it is a secondary thread. -/
structure Th where
  sec : Bool
  go : Bool
  pc : Pc
  todo : List Call
deriving DecidableEq

/-- `ths`: all threads there ever were; `secs`: `secondary_threads_`; `holder` of `st_mutex_`; `queue`: tasks; `crash`: `std::terminate` was
called; `refused` counts the errors of `releaseSecondaryThread`. -/
structure St where
  ths : List Th
  secs : List Nat
  holder : Option Nat
  queue : List (List Call)
  crash : Bool
  refused : Nat
deriving DecidableEq

/-- Thread `i` makes its next step; `retire`: what `freeze` says of the thread that it is asked for; `k`: the task that is taken. -/
structure Act where
  i : Nat
  retire : Bool
  k : Nat

namespace St

def setTh (s : St) (i : Nat) (t : Th) : St := { s with ths := s.ths.set i t }

/-- The thread has no task: it waits for one (Thread/UThreadSecondary.h:95-102). -/
def idle (s : St) (t : Nat) : Bool :=
  match s.ths[t]? with
  | some th => decide (th.pc = .ready ∧ th.todo = [])
  | none => false

/-- `done_` of thread `t`. -/
def goes (s : St) (t : Nat) : Bool :=
  match s.ths[t]? with
  | some th => th.go
  | none => false

def isEnded (s : St) (t : Nat) : Bool :=
  match s.ths[t]? with
  | some th => decide (th.pc = .ended)
  | none => true

/-- `done_ = false`. -/
def unset (s : St) (t : Nat) : St :=
  match s.ths[t]? with
  | some th => s.setTh t { th with go := false }
  | none => s

/-- UThreadPool.cpp:200-204: mark the first ones. -/
def mark (s : St) : List Nat → Int → St
  | [], _ => s
  | t :: ts, n => if n > 0 then (s.unset t).mark ts (n - 1) else s

/-- UThreadPool.cpp:234-239: new threads, which have nothing to do. -/
def grow (s : St) (n : Nat) : St :=
  { s with ths := s.ths ++ List.replicate n ⟨true, true, .ready, []⟩, secs := s.secs ++ List.range' s.ths.length n }

/-- One step; `none`: the thread is blocked, or there is nothing to do. -/
def step (c : PoolCfg) (s : St) (a : Act) : Option St :=
  if s.crash then none else
  match s.ths[a.i]? with
  | none => none
  | some th =>
    match th.pc with
    | .ready =>
      match th.todo with
      | [] =>
        if th.sec then
          -- Thread/UThreadBase.h:152-164
          if th.go then
            match s.queue[a.k]? with
            | none => none
            | some task => some ({ s with queue := s.queue.eraseIdx a.k }.setTh a.i { th with todo := task })
          else some (s.setTh a.i { th with pc := .ended })
        else none
      | .work :: rest => some (s.setTh a.i { th with todo := rest })
      | .create n :: rest =>
        -- UThreadPool.cpp:230-231
        some (s.setTh a.i { th with pc := .adding (PoolMgr.realSize c n s.secs.length), todo := rest })
      | .release n :: rest =>
        -- 190
        if s.holder = none then some ({ s with holder := some a.i }.setTh a.i { th with pc := .purge n s.secs, todo := rest }) else none
      | .pass :: rest =>
        -- 266
        if s.holder = none then some ({ s with holder := some a.i }.setTh a.i { th with pc := .freeze s.secs, todo := rest }) else none
    | .adding r =>
      -- 233-239
      if s.holder = none then some ((s.setTh a.i { th with pc := .ready }).grow r.toNat) else none
    | .purge n [] =>
      -- 195-205
      if n > (s.secs.length : Int) then some { s.setTh a.i { th with pc := .ready } with holder := none, refused := s.refused + 1 }
      else some { (s.setTh a.i { th with pc := .ready }).mark s.secs n with holder := none }
    | .purge n (t :: rest) =>
      -- 192
      if s.goes t then some (s.setTh a.i { th with pc := .purge n rest })
      -- `thread_.join()` of the calling thread throws in a destructor
      else if t = a.i then some { s with crash := true }
      else some (s.setTh a.i { th with pc := .pjoin n t rest })
    | .pjoin n t rest =>
      if s.isEnded t then some { s.setTh a.i { th with pc := .purge n rest } with secs := s.secs.erase t } else none
    | .freeze [] => some { s.setTh a.i { th with pc := .ready } with holder := none }
    | .freeze (t :: rest) =>
      -- 269, Thread/UThreadSecondary.h:109-118
      if a.retire && s.goes t && s.idle t then some (s.setTh a.i { th with pc := .frz t rest })
      else some (s.setTh a.i { th with pc := .freeze rest })
    | .frz t rest =>
      -- Thread/UThreadBase.h:107-108
      some ((s.setTh a.i { th with pc := .fjoin t rest }).unset t)
    | .fjoin t rest =>
      if s.isEnded t then some { s.setTh a.i { th with pc := .freeze rest } with secs := s.secs.erase t } else none
    | .ended => none

/-- Threads that are not secondary, with what each of them does; tasks that secondary threads will execute. -/
def init (callers queue : List (List Call)) : St := ⟨callers.map (⟨false, true, .ready, ·⟩), [], none, queue, false, 0⟩

/-- Execute a schedule; steps that are not possible are skipped. -/
def run (c : PoolCfg) (s : St) : List Act → St
  | [] => s
  | a :: as => run c ((step c s a).getD s) as

end St
end Coord
end CGraph
