import Verif.Model.Engines
import Verif.Model.StaticRun
/-
Model of GDynamicEngine (src/GraphCtrl/GraphElement/_GEngine/GDynamicEngine/GDynamicEngine.cpp) for the common DAG
type, as a transition system: one step per access to shared data, arbitrary interleaving of the caller and the
pool threads, arbitrary statuses returned by the elements.
-/
namespace CGraph

/-- GElementDefine.h: GElementShape (the four values that `calcShape` assigns). -/
inductive Shape where
  | normal | linkable | root | tail
deriving DecidableEq

/-- What a prepared engine looks at.  `bind` is `binding_index_`; `workers` the number of pool threads able to
run tasks; `epoch` is `pipeline_wait_busy_epoch_`. -/
structure DynCfg where
  g : Graph
  bind : Eid → Int
  workers : Nat
  epoch : Nat

namespace DynCfg

/-- GEngine.h:50-52: the condition for LINKABLE. -/
def isLink (c : DynCfg) (e : Eid) : Bool :=
  match c.g.succs e with
  | [s] => decide ((c.g.deps s).length = 1) && decide (c.bind e = c.bind s)
  | _ => false

/-- GEngine.h:37-66 `calcShape` for one element. -/
def shapeOf (c : DynCfg) (e : Eid) : Shape :=
  if c.isLink e then .linkable
  else if !(c.g.succs e).isEmpty && (c.g.succs e).all (fun s => (c.g.deps s).length = 1) then .root
  else if (c.g.succs e).isEmpty then .tail
  else .normal

/-- GElement.cpp:598-600 `isDefaultBinding` (CGRAPH_DEFAULT_BINDING_INDEX = -1). -/
def isDefault (c : DynCfg) (e : Eid) : Bool := c.bind e == -1

/-- GDynamicEngine.cpp:66-81 `mark`: `front_element_arr_`. -/
def fronts (c : DynCfg) : List Eid := c.g.elems.filter (fun e => (c.g.deps e).isEmpty)

/-- GDynamicEngine.cpp:66-81 `mark`: `total_end_size_`. -/
def totalEnd (c : DynCfg) : Nat := (c.g.elems.filter (fun e => (c.g.succs e).isEmpty)).length

end DynCfg

/-- Where a thread is inside `innerExec`/`afterElementRun`/`process` (GDynamicEngine.cpp:124-203).  Each inline
`process(x, true)` is the last thing its caller does, so no stack is needed.
* `exec e`: entered `innerExec(e)` (139), before `refresh`.
* `body e`: inside `fatProcessor` (141).
* `after e`: entered `afterElementRun(e)` (155).
* `nIter e rest r`: NORMAL loop (165), successors `rest` still to be visited, `reserved = r`.
* `nPost e cur rest r`: in `process(cur, false)` (168) of that loop.
* `rIter e rest`: ROOT loop (182), `rest` still to be processed.
* `proc e`: entered `process(e, true)` (124).
* `tailInc e`: TAIL case before the `fetch_add` (188).
* `tailNotify`: before the locked notification (190-191).
* `errSet st`: before `cur_status_ += curStatus` (146-149).
* `errNotify`: before the unlocked notification (150). -/
inductive Job where
  | exec (e : Eid)
  | body (e : Eid)
  | after (e : Eid)
  | nIter (e : Eid) (rest : List Eid) (reserved : Option Eid)
  | nPost (e cur : Eid) (rest : List Eid) (reserved : Eid)
  | rIter (e : Eid) (rest : List Eid)
  | proc (e : Eid)
  | tailInc (e : Eid)
  | tailNotify
  | errSet (st : CStatus)
  | errNotify
deriving DecidableEq

/-- The caller of `run` (30-63, 206-226): `fronts rest` is the loop of commonRunAll (58-60); `inline j` while it
executes a job itself; `poll n` the busy wait with `n` rounds left (208-215); `lock` before taking the mutex
(217); `check` evaluating the predicate with the mutex held; `preSleep` predicate was false, mutex still held;
`asleep` in the condition variable; `waking` notified, about to retake the mutex. -/
inductive MainPc where
  | idle
  | fronts (rest : List Eid)
  | inline (j : Job)
  | poll (n : Nat)
  | lock
  | check
  | preSleep
  | asleep
  | waking
deriving DecidableEq

/-- Engine state.  Real: `left` (`left_depend_` of every element, see `Graph.setLeft` about the type), `status`
(`cur_status_`), `fin` (`finished_end_size_`), `queue` (tasks handed to the pool and not yet taken, in whatever
queue of the pool), `jobs` (what each busy pool thread is doing), `main`.  Ghost, about the current run:
`trace` (starts and successful ends of element bodies), `fired` (dependency edges already accounted for),
`failed` (failing elements), `ended` (tails counted), `nrun` (number of runs begun), `lastRet`. -/
structure DynSt where
  left : Eid → Int
  status : CStatus
  fin : Nat
  queue : List Eid
  jobs : List Job
  main : MainPc
  trace : List Ev
  fired : List (Eid × Eid)
  failed : List (Eid × CStatus)
  ended : List Eid
  nrun : Nat
  lastRet : Option CStatus

/-- Scheduler choices.  `st` is the status the element returns (used only when the step ends a body).
`take i`: an idle pool thread takes the `i`-th waiting task (any order: the pool's routing, stealing and
batching are abstracted). `spurious`: spurious wake-up. -/
inductive DynAct where
  | begin
  | main (st : CStatus)
  | take (i : Nat)
  | work (i : Nat) (st : CStatus)
  | spurious
deriving DecidableEq

namespace DynSt

/-- `locker_.cv_.notify_one()`: only the caller ever waits on this condition variable. -/
def notify (s : DynSt) : DynSt := if s.main = .asleep then { s with main := .waking } else s

/-- `thread_pool_->execute(...)` (133-134): the task is queued. -/
def push (s : DynSt) (e : Eid) : DynSt := { s with queue := s.queue ++ [e] }

/-- One step of a thread that is at `j`: new state and where the thread is afterwards (`none`: it has left
`innerExec`).  Outer `none`: blocked.  The status check and the hand-over to the pool in `process(x, false)`
are one step. -/
def jobStep (c : DynCfg) (s : DynSt) (st : CStatus) : Job → Option (DynSt × Option Job)
  | .exec e =>
    -- 140: refresh
    some ({ s with left := Graph.setLeft s.left e ((c.g.deps e).length : Int),
                   trace := s.trace ++ [.start e] }, some (.body e))
  | .body e =>
    -- 141-151
    if st.isNotErr then some ({ s with trace := s.trace ++ [.finish e] }, some (.after e))
    else some ({ s with failed := s.failed ++ [(e, st)] }, some (.errSet st))
  | .after e =>
    -- 156-161
    if s.status.isErr then some (s, none)
    else match c.shapeOf e with
      | .normal => some (s, some (.nIter e (c.g.succs e) none))
      | .linkable =>
        match c.g.succs e with
        | [] => some (s, none)
        | x :: _ => some ({ s with fired := s.fired ++ [(e, x)] }, some (.proc x))
      | .root => some ({ s with fired := s.fired ++ (c.g.succs e).map (fun x => (e, x)) },
                       some (.rIter e (c.g.succs e)))
      | .tail => some (s, some (.tailInc e))
  | .nIter _ [] none => some (s, none)
  | .nIter _ [] (some r) => some (s, some (.proc r))
  | .nIter e (x :: rest) r =>
    -- 166-172; unsigned `<= 0` is `== 0`
    let s' := { s with left := Graph.setLeft s.left x (s.left x - 1), fired := s.fired ++ [(e, x)] }
    if s.left x - 1 = 0 then
      match r with
      | none => some (s', some (.nIter e rest (some x)))
      | some y => some (s', some (.nPost e x rest y))
    else some (s', some (.nIter e rest r))
  | .nPost e x rest y =>
    if s.status.isErr then some (s, some (.nIter e rest (some y)))
    else some (s.push x, some (.nIter e rest (some y)))
  | .rIter _ [] => some (s, none)
  | .rIter _ [x] => some (s, some (.proc x))
  | .rIter e (x :: y :: rest) =>
    if s.status.isErr then some (s, some (.rIter e (y :: rest)))
    else some (s.push x, some (.rIter e (y :: rest)))
  | .proc e =>
    -- 124-136 with affinity
    if s.status.isErr then some (s, none)
    else if c.isDefault e then some (s, some (.exec e))
    else some (s.push e, none)
  | .tailInc e =>
    -- 188-189
    some ({ s with fin := s.fin + 1, ended := s.ended ++ [e] },
      if s.fin + 1 = c.totalEnd then some .tailNotify else none)
  | .tailNotify =>
    -- 190-191: needs the mutex, which the caller holds in `check` and `preSleep`
    if s.main = .check ∨ s.main = .preSleep then none else some (s.notify, none)
  | .errSet st' => some ({ s with status := s.status.add st' }, some .errNotify)
  | .errNotify => some (s.notify, none)

/-- 207, 217: begin of `fatWait`. -/
def toWait (c : DynCfg) (s : DynSt) : DynSt := { s with main := .poll c.epoch }

/-- 47: `return cur_status_`. -/
def ret (s : DynSt) : DynSt := { s with main := .idle, lastRet := some s.status }

/-- One step of the system; `none` = not enabled. -/
def step (c : DynCfg) (s : DynSt) : DynAct → Option DynSt
  | .begin =>
    -- 30-31, 307-315 prepareRun, 57; simplified to one step
    if s.main = .idle then
      let s1 := if s.status.isOK then s
        else { s with left := fun e => if e ∈ c.g.elems then ((c.g.deps e).length : Int) else s.left e,
                      status := s.status.reset }
      some { s1 with fin := 0, main := .fronts c.fronts, trace := [], fired := [], failed := [], ended := [],
                     nrun := s.nrun + 1, lastRet := none }
    else none
  | .main st =>
    match s.main with
    | .idle => none
    | .fronts [] => some (s.toWait c)
    | .fronts [x] =>
      if s.status.isErr then some (s.toWait c)
      else if c.isDefault x then some { s with main := .inline (.exec x) }
      else some ((s.push x).toWait c)
    | .fronts (x :: y :: rest) =>
      if s.status.isErr then some { s with main := .fronts (y :: rest) }
      else some { s.push x with main := .fronts (y :: rest) }
    | .inline j =>
      match jobStep c s st j with
      | none => none
      | some (s', some j') => some { s' with main := .inline j' }
      | some (s', none) => some (s'.toWait c)
    | .poll 0 => some { s with main := .lock }
    | .poll (n + 1) => if s.fin ≥ c.totalEnd then some s.ret else some { s with main := .poll n }
    | .lock => some { s with main := .check }
    | .check => if s.fin ≥ c.totalEnd ∨ s.status.isErr then some s.ret else some { s with main := .preSleep }
    | .preSleep => some { s with main := .asleep }
    | .asleep => none
    | .waking => some { s with main := .check }
  | .take i =>
    match s.queue[i]? with
    | none => none
    | some e =>
      if s.jobs.length < c.workers then
        some { s with queue := s.queue.eraseIdx i, jobs := s.jobs ++ [.exec e] }
      else none
  | .work i st =>
    match s.jobs[i]? with
    | none => none
    | some j =>
      match jobStep c s st j with
      | none => none
      | some (s', some j') => some { s' with jobs := s.jobs.set i j' }
      | some (s', none) => some { s' with jobs := s.jobs.eraseIdx i }
  | .spurious => if s.main = .asleep then some { s with main := .waking } else none

/-- After a successful `setup` (13-27): counters reset by `getTopo`, nothing running. -/
def init (c : DynCfg) : DynSt :=
  ⟨fun e => if e ∈ c.g.elems then ((c.g.deps e).length : Int) else 0, CStatus.ok, 0, [], [], .idle, [], [], [], [],
   0, none⟩

/-- Run a schedule; disabled choices are skipped. -/
def run (c : DynCfg) (s : DynSt) : List DynAct → DynSt
  | [] => s
  | a :: as => run c ((step c s a).getD s) as

end DynSt
end CGraph
