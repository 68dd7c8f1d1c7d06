import Verif.Model.Status

/-! # Events

`src/GraphCtrl/GraphEvent/GEvent.cpp`, `GEventManager.cpp`, with the parts of `GPipeline.cpp` that wait for events
(`run` 56-77, `destroy` 80-103) and `_GSchedule/GSchedule.cpp:35-44`.

The pipeline has `m` events.  Any number of notifications is in progress at any time, made by any threads; the pool
executes the handlers in any order (Model/PoolRun.lean).  All these steps are interleaved with the thread that calls
`run` and `destroy`.  Simplified: the hash map is walked in the order of the numbers; handlers return and do not throw;
the engine returns normally; `fatInit` and the `clear` calls of `fatDestroy`, which take no lock, are single steps; to
notify asynchronously when the pipeline's own pool is deleted (undefined behaviour) is not a step. -/
namespace CGraph

/-- GEventDefine.h:27-31. -/
inductive EvStrategy where
  | runFinish | destroy | noWait
deriving DecidableEq, Repr

/-- GEventDefine.h:18-21. -/
inductive EvKind where
  | sync
  | async (s : EvStrategy)
deriving DecidableEq, Repr

/-- What became of the handler of a notification. -/
inductive EvRun where
  /-- in a queue of the pool; synchronous: the caller is about to execute it -/
  | queued
  | running
  | done
  /-- the pool was deleted with the task in a queue; the future is ready (broken promise) -/
  | dropped
deriving DecidableEq, Repr

/-- A notification; its number is its place in the list. -/
structure EvNote where
  ev : Nat
  kind : EvKind
  run : EvRun
  /-- the call has returned -/
  back : Bool
deriving DecidableEq, Repr

/-- Where the thread of the pipeline is. -/
inductive EvPc where
  /-- initialised, no call in progress -/
  | idle
  /-- GPipeline.cpp:72: the engine is running -/
  | engine
  /-- GEvent.cpp:88-92: waits for the futures `l` of event `e`, holding `async_run_finished_lock_` -/
  | wait (e : Nat) (l : List Nat)
  /-- GPipeline.cpp:91: about to delete the pool -/
  | poolDown
  /-- GEvent.cpp:96-100: waits for the futures `l` of event `e`, holding `async_destroy_lock_` -/
  | dwait (e : Nat) (l : List Nat)
  /-- destroyed -/
  | gone
deriving DecidableEq, Repr

/-- What can be seen from outside. -/
inductive EvEv where
  /-- notification `id` of event `e` is made -/
  | call (id e : Nat) (k : EvKind)
  /-- notification of an unknown event refused -/
  | refused
  /-- the handler begins -/
  | start (id : Nat)
  /-- the handler has returned -/
  | handled (id : Nat)
  /-- the call of the notification has returned -/
  | back (id : Nat)
  /-- the engine has finished: `run` begins to wait for the events -/
  | waitBegin
  /-- `run` has finished waiting -/
  | runEnd
  /-- `destroy` is called -/
  | destroyBegin
  /-- the events are destroyed -/
  | destroyEnd
  /-- `init` is called (again) -/
  | inited
deriving DecidableEq, Repr

/-- GEvent.h:63-69 (futures by event), the notifications, the pool. -/
structure EvSt where
  notes : List EvNote
  /-- `async_run_finish_futures_` -/
  runL : Nat → List Nat
  /-- `async_destroy_futures_` -/
  desL : Nat → List Nat
  poolUp : Bool
  pc : EvPc
  hist : List EvEv

/-- Steps. -/
inductive EvAct where
  /-- `notify` / `asyncNotify` is called -/
  | notify (e : Nat) (k : EvKind)
  /-- a worker of the pool, or the caller itself, begins the handler of notification `id` -/
  | take (id : Nat)
  /-- the handler of notification `id` returns -/
  | finish (id : Nat)
  /-- the rest of the call: record the future, return -/
  | ret (id : Nat)
  /-- `run` of the pipeline is called -/
  | run
  /-- `destroy` of the pipeline is called -/
  | destroy
  /-- `init` of the pipeline is called -/
  | init
  /-- the next step of `run` or `destroy` -/
  | main
deriving DecidableEq, Repr

namespace EvSt

/-- GEvent.cpp:23-30 `fatInit` of a new pipeline. -/
def new : EvSt := ⟨[], fun _ => [], fun _ => [], true, .idle, []⟩

/-- The future of notification `id` is ready. -/
def ready (s : EvSt) (id : Nat) : Bool :=
  match s.notes[id]? with
  | some n => n.run = .done || n.run = .dropped
  | none => false

/-- Change of one notification. -/
def setNote (s : EvSt) (id : Nat) (n : EvNote) : EvSt := { s with notes := s.notes.set id n }

/-- Change of the list of one event. -/
def setAt (f : Nat → List Nat) (e : Nat) (l : List Nat) : Nat → List Nat := fun k => if k = e then l else f k

/-- GEventManager.cpp:45-65, GEvent.cpp:45-68: a notification up to the point where the task is committed, or where the
caller is about to execute the handler itself. -/
def notify (m : Nat) (s : EvSt) (e : Nat) (k : EvKind) : Option EvSt :=
  if e < m then
    match k with
    | .sync => some { s with notes := s.notes ++ [⟨e, k, .queued, false⟩], hist := s.hist ++ [.call s.notes.length e k] }
    | .async _ =>
      if s.poolUp then
        some { s with notes := s.notes ++ [⟨e, k, .queued, false⟩], hist := s.hist ++ [.call s.notes.length e k] }
      else none
  else some { s with hist := s.hist ++ [.refused] }

/-- `async_run_finished_lock_` of event `e` is held by `asyncWait` (GEvent.cpp:88). -/
def runLocked (s : EvSt) (e : Nat) : Bool :=
  match s.pc with
  | .wait e' _ => decide (e' = e)
  | _ => false

/-- `async_destroy_lock_` of event `e` is held by `asyncWait` (GEvent.cpp:96). -/
def desLocked (s : EvSt) (e : Nat) : Bool :=
  match s.pc with
  | .dwait e' _ => decide (e' = e)
  | _ => false

/-- GEvent.cpp:48-61, 74-81: the end of a notification; the future is recorded under the lock of its list. -/
def ret (s : EvSt) (id : Nat) (n : EvNote) : Option EvSt :=
  let fin := { s.setNote id { n with back := true } with hist := s.hist ++ [.back id] }
  if n.back then none
  else
    match n.kind with
    | .sync => if n.run = .done then some fin else none
    | .async .noWait => some fin
    | .async .runFinish =>
      if s.runLocked n.ev then none
      else some { fin with runL := setAt s.runL n.ev (s.runL n.ev ++ [id]) }
    | .async .destroy =>
      if s.desLocked n.ev then none
      else some { fin with desL := setAt s.desL n.ev (s.desL n.ev ++ [id]) }

/-- A worker is executing the handler of an asynchronous notification. -/
def busy (n : EvNote) : Bool :=
  match n.kind with
  | .sync => false
  | .async _ => n.run = .running

/-- GSchedule.cpp:35-44, `~UThreadPool`: tasks in the queues are dropped. -/
def dropTask (n : EvNote) : EvNote :=
  match n.kind with
  | .sync => n
  | .async _ => if n.run = .queued then { n with run := .dropped } else n

/-- The next event to wait for at the end of `run` (GEventManager.cpp:84-90, GPipeline.cpp:73-77). -/
def waitFrom (m : Nat) (s : EvSt) (e : Nat) : EvSt :=
  if e < m then { s with pc := .wait e (s.runL e) } else { s with pc := .idle, hist := s.hist ++ [.runEnd] }

/-- The next event to destroy (GEventManager.cpp:26-32). -/
def dwaitFrom (m : Nat) (s : EvSt) (e : Nat) : EvSt :=
  if e < m then { s with pc := .dwait e (s.desL e) } else { s with pc := .gone, hist := s.hist ++ [.destroyEnd] }

/-- The thread of the pipeline; `unique` says whether the pipeline has a pool of its own. -/
def main (m : Nat) (unique : Bool) (s : EvSt) : Option EvSt :=
  match s.pc with
  | .idle => none
  | .engine => some (waitFrom m { s with hist := s.hist ++ [.waitBegin] } 0)
  | .wait e [] => some (waitFrom m { s with runL := setAt s.runL e [] } (e + 1))
  | .wait e (id :: l) => if s.ready id then some { s with pc := .wait e l } else none
  | .poolDown =>
    if unique then
      if s.notes.any busy then none
      else some (dwaitFrom m { s with poolUp := false, notes := s.notes.map dropTask } 0)
    else some (dwaitFrom m s 0)
  | .dwait e [] => some (dwaitFrom m { s with runL := setAt s.runL e [], desL := setAt s.desL e [] } (e + 1))
  | .dwait e (id :: l) => if s.ready id then some { s with pc := .dwait e l } else none
  | .gone => none

/-- One step; `none` when it is not possible. -/
def step (m : Nat) (unique : Bool) (s : EvSt) : EvAct → Option EvSt
  | .notify e k => s.notify m e k
  | .take id =>
    match s.notes[id]? with
    | some n =>
      if n.run = .queued then
        some { s.setNote id { n with run := .running } with hist := s.hist ++ [.start id] }
      else none
    | none => none
  | .finish id =>
    match s.notes[id]? with
    | some n =>
      if n.run = .running then
        some { s.setNote id { n with run := .done } with hist := s.hist ++ [.handled id] }
      else none
    | none => none
  | .ret id =>
    match s.notes[id]? with
    | some n => s.ret id n
    | none => none
  | .run => if s.pc = .idle then some { s with pc := .engine } else none
  | .destroy => if s.pc = .idle then some { s with pc := .poolDown, hist := s.hist ++ [.destroyBegin] } else none
  | .init =>
    -- GEvent.cpp:25-26, GSchedule.cpp:13-32
    if s.pc = .gone then
      some { s with pc := .idle, poolUp := true, runL := fun _ => [], desL := fun _ => [], hist := s.hist ++ [.inited] }
    else none
  | .main => s.main m unique

/-- Execute a schedule; steps that are not possible are skipped. -/
def exec (m : Nat) (unique : Bool) (s : EvSt) : List EvAct → EvSt
  | [] => s
  | a :: as => exec m unique ((s.step m unique a).getD s) as

end EvSt
end CGraph
