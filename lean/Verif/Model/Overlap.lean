import Verif.Model.Dynamic

/-! # Several runs of one pipeline at the same time

`GPipeline::run` (GPipeline.cpp:56-77) and `asyncRun` (159-169) test `is_init_` only, and `GElementManager::run` hands over to the
engine without a lock, so that nothing keeps two threads from being inside of `GDynamicEngine::run`
(GDynamicEngine.cpp:30-48) of one engine.  This is `Model/Dynamic.lean` for any number of such callers; the dag type is common.
The threads share `left_depend_`, `cur_status_`, `finished_end_size_`, the mutex and the condition variable.  Simplified: an access
to `cur_status_` is one step (in the code it is a data race); `left` may become negative where `CSize` wraps around, which
differs from zero either way. -/
namespace CGraph
namespace Overlap

/-- A caller: it has done `prepareRun` (GDynamicEngine.cpp:31, 307-315) and is before line 57 (`zero`), somewhere in
`commonRunAll` (58-62, 206-226; `MainPc`), or has returned. -/
inductive OPc where
  | zero
  | at (m : MainPc)
  | returned (st : CStatus)
deriving DecidableEq

/-- Engine state, see `DynSt`; the runs are numbered in the order in which they begin.  `callers` has one entry per run.
Ghost: the number of the run to which a task, a thread or an event belongs.  A task belongs to the run of the thread that
created it. -/
structure OvSt where
  left : Eid → Int
  status : CStatus
  fin : Nat
  queue : List (Nat × Eid)
  jobs : List (Nat × Job)
  callers : List OPc
  trace : List (Nat × Ev)

/-- Scheduler choices, see `DynAct`; `r` is the number of a run.  `k` is the caller that is preferred when one is woken. -/
inductive OvAct where
  | begin
  | main (r : Nat) (st : CStatus) (k : Nat)
  | take (i : Nat)
  | work (i : Nat) (st : CStatus) (k : Nat)
  | spurious (r : Nat)
deriving DecidableEq

namespace OvSt

/-- A caller holds the mutex of `locker_` (GDynamicEngine.cpp:217-225). -/
def holds (s : OvSt) : Bool := s.callers.any (fun p => p == .at .check || p == .at .preSleep)

/-- `locker_.cv_.notify_one()` (150, 191): one of the waiting callers, `k` if it waits. -/
def notify (s : OvSt) (k : Nat) : OvSt :=
  if s.callers[k]? = some (.at .asleep) then { s with callers := s.callers.set k (.at .waking) }
  else { s with callers := s.callers.set (s.callers.findIdx (fun p => p == .at .asleep)) (.at .waking) }

/-- `thread_pool_->execute(...)` (GDynamicEngine.cpp:133-134). -/
def push (s : OvSt) (r : Nat) (e : Eid) : OvSt := { s with queue := s.queue ++ [(r, e)] }

/-- GDynamicEngine.cpp:124-203: one step of a thread that is at a place of `innerExec`, as in `DynSt.jobStep`. -/
def jobStep (c : DynCfg) (s : OvSt) (r : Nat) (st : CStatus) (k : Nat) : Job → Option (OvSt × Option Job)
  | .exec e =>
    some ({ s with left := Graph.setLeft s.left e ((c.g.deps e).length : Int),
                   trace := s.trace ++ [(r, .start e)] }, some (.body e))
  | .body e =>
    if st.isNotErr then some ({ s with trace := s.trace ++ [(r, .finish e)] }, some (.after e))
    else some (s, some (.errSet st))
  | .after e =>
    if s.status.isErr then some (s, none)
    else match c.shapeOf e with
      | .normal => some (s, some (.nIter e (c.g.succs e) none))
      | .linkable =>
        match c.g.succs e with
        | [] => some (s, none)
        | x :: _ => some (s, some (.proc x))
      | .root => some (s, some (.rIter e (c.g.succs e)))
      | .tail => some (s, some (.tailInc e))
  | .nIter _ [] none => some (s, none)
  | .nIter _ [] (some x) => some (s, some (.proc x))
  | .nIter e (x :: rest) q =>
    let s' := { s with left := Graph.setLeft s.left x (s.left x - 1) }
    if s.left x - 1 = 0 then
      match q with
      | none => some (s', some (.nIter e rest (some x)))
      | some y => some (s', some (.nPost e x rest y))
    else some (s', some (.nIter e rest q))
  | .nPost e x rest y =>
    if s.status.isErr then some (s, some (.nIter e rest (some y)))
    else some (s.push r x, some (.nIter e rest (some y)))
  | .rIter _ [] => some (s, none)
  | .rIter _ [x] => some (s, some (.proc x))
  | .rIter e (x :: y :: rest) =>
    if s.status.isErr then some (s, some (.rIter e (y :: rest)))
    else some (s.push r x, some (.rIter e (y :: rest)))
  | .proc e =>
    if s.status.isErr then some (s, none)
    else if c.isDefault e then some (s, some (.exec e))
    else some (s.push r e, none)
  | .tailInc _ =>
    some ({ s with fin := s.fin + 1 }, if s.fin + 1 = c.totalEnd then some .tailNotify else none)
  | .tailNotify => if s.holds then none else some (s.notify k, none)
  | .errSet st' => some ({ s with status := s.status.add st' }, some .errNotify)
  | .errNotify => some (s.notify k, none)

/-- The program counter of caller `r` is set. -/
def goto (s : OvSt) (r : Nat) (m : MainPc) : OvSt := { s with callers := s.callers.set r (.at m) }

/-- GDynamicEngine.cpp:47: `return cur_status_`. -/
def ret (s : OvSt) (r : Nat) : OvSt := { s with callers := s.callers.set r (.returned s.status) }

/-- GDynamicEngine.cpp:57-62, 206-226: one step of caller `r`, which is at `m`, as in `DynSt.step`. -/
def mainStep (c : DynCfg) (s : OvSt) (r : Nat) (st : CStatus) (k : Nat) : OPc → Option OvSt
  | .returned _ => none
  | .zero => some ({ s with fin := 0 }.goto r (.fronts c.fronts))
  | .at .idle => none
  | .at (.fronts []) => some (s.goto r (.poll c.epoch))
  | .at (.fronts [x]) =>
    if s.status.isErr then some (s.goto r (.poll c.epoch))
    else if c.isDefault x then some (s.goto r (.inline (.exec x)))
    else some ((s.push r x).goto r (.poll c.epoch))
  | .at (.fronts (x :: y :: rest)) =>
    if s.status.isErr then some (s.goto r (.fronts (y :: rest)))
    else some ((s.push r x).goto r (.fronts (y :: rest)))
  | .at (.inline j) =>
    match jobStep c s r st k j with
    | none => none
    | some (s', some j') => some (s'.goto r (.inline j'))
    | some (s', none) => some (s'.goto r (.poll c.epoch))
  | .at (.poll 0) => some (s.goto r .lock)
  | .at (.poll (n + 1)) => if s.fin ≥ c.totalEnd then some (s.ret r) else some (s.goto r (.poll n))
  | .at .lock => if s.holds then none else some (s.goto r .check)
  | .at .check => if s.fin ≥ c.totalEnd ∨ s.status.isErr then some (s.ret r) else some (s.goto r .preSleep)
  | .at .preSleep => some (s.goto r .asleep)
  | .at .asleep => none
  | .at .waking => if s.holds then none else some (s.goto r .check)

/-- One step of the system; `none` = not enabled. -/
def step (c : DynCfg) (s : OvSt) : OvAct → Option OvSt
  | .begin =>
    -- GDynamicEngine.cpp:31, 307-315 prepareRun
    let s1 := if s.status.isOK then s
      else { s with left := fun e => if e ∈ c.g.elems then ((c.g.deps e).length : Int) else s.left e,
                    status := s.status.reset }
    some { s1 with callers := s.callers ++ [.zero] }
  | .main r st k =>
    match s.callers[r]? with
    | none => none
    | some p => mainStep c s r st k p
  | .take i =>
    match s.queue[i]? with
    | none => none
    | some p =>
      if s.jobs.length < c.workers then
        some { s with queue := s.queue.eraseIdx i, jobs := s.jobs ++ [(p.1, .exec p.2)] }
      else none
  | .work i st k =>
    match s.jobs[i]? with
    | none => none
    | some p =>
      match jobStep c s p.1 st k p.2 with
      | none => none
      | some (s', some j') => some { s' with jobs := s.jobs.set i (p.1, j') }
      | some (s', none) => some { s' with jobs := s.jobs.eraseIdx i }
  | .spurious r =>
    if s.callers[r]? = some (.at .asleep) then some { s with callers := s.callers.set r (.at .waking) } else none

/-- After a successful `setup` (GDynamicEngine.cpp:13-27): see `DynSt.init`. -/
def init (c : DynCfg) : OvSt :=
  ⟨fun e => if e ∈ c.g.elems then ((c.g.deps e).length : Int) else 0, CStatus.ok, 0, [], [], [], []⟩

/-- Run a schedule; disabled choices are skipped. -/
def run (c : DynCfg) (s : OvSt) : List OvAct → OvSt
  | [] => s
  | a :: as => run c ((step c s a).getD s) as

end OvSt
end Overlap
end CGraph
