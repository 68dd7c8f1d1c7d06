import Verif.Model.EngPool
import Verif.Model.DagType

/-! # The fully parallel path of the dynamic engine on the threads and queues of the pool

`ParSt` leaves open how tasks get from the loops of `parallelRunAll` to a thread.  Here every task is pushed to the queue
that the code names: the elements of a row with more than one element by `executeWithTid`, which holds the mutex of the
queue from the first to the last of them, the element of a row of one by `execute`.

Simplified: the pool is the pipeline's own, has a fixed number of threads (those it was configured with), and is used for
nothing else; `wakeupAllThread` (GDynamicEngine.cpp:248-251) is left out: it only shortens waits that end by themselves. -/
namespace CGraph.ParPool
open EngPool (Thr EpCfg)

/-- One task of the loops GDynamicEngine.cpp:232-246: `plain` goes by `execute` with the element's binding index
(243-244), `tid` by `executeWithTid` with row number, `enable` and `lockable` (237-239). -/
inductive Put where
  | plain (e : Eid)
  | tid (e : Eid) (i : Int) (enable lockable : Bool)
deriving DecidableEq

/-- The element that the task executes. -/
def Put.elt : Put → Eid
  | .plain e => e
  | .tid e _ _ _ => e

/-- GDynamicEngine.cpp:233-246: the tasks of row `i`. -/
def rowPuts (i : Nat) (row : List Eid) : List Put :=
  if row.length > 1 then
    row.map fun e => .tid e i (row.head? == some e || row.getLast? == some e) (row.head? == some e)
  else (row.take 1).map .plain

/-- GDynamicEngine.cpp:232-246: the tasks of all rows, `i` is the number of the first. -/
def matPuts (i : Nat) : List (List Eid) → List Put
  | [] => []
  | row :: rows => rowPuts i row ++ matPuts (i + 1) rows

/-- `parallel_element_matrix_` (GDynamicEngine.cpp:102-121); the configured threads are those of the pool. -/
def mat (c : EpCfg) : List (List Eid) := (c.dyn.parMatrix c.dyn.workers).getD []

/-- The elements in the order in which they are handed over. -/
def tasks (c : EpCfg) : List Eid := (mat c).flatten

/-- The state: `eng` is the caller of `run` and the engine (its `queue` holds what the current step hands over and is empty
between steps; its `jobs` are not used), `pool` the queues and threads, `elt t` the element of the closure of task `t`,
`next` the number of tasks handed over so far, `job w` where thread `w` is inside `parallelRunOne`
(GDynamicEngine.cpp:270-288), `todo` what the caller still has to hand over. -/
structure PpSt where
  eng : ParSt
  pool : PoolSt
  elt : Task → Eid
  next : Nat
  job : Thr → Option PJob
  todo : List Put

/-- Who moves.  `st` is what an element returns if the step ends it, `run` the flag that `dispatch` reads, `addr` the
address of the closure, `pre` whether a `try_lock` succeeds. -/
inductive PpAct where
  /-- `run()` is called -/
  | begin
  /-- a step of the caller of `run` -/
  | main (run : Bool) (addr : Nat)
  /-- a step of a thread of the pool -/
  | work (w : Thr) (pre : Bool) (st : CStatus)
  /-- the caller wakes up without notification -/
  | spurious
deriving DecidableEq

namespace PpSt

/-- The step of the pool that hands task `t` over (GDynamicEngine.cpp:237-239,243-244). -/
def putAct (c : EpCfg) (run : Bool) (addr : Nat) (t : Task) : Put → PAct
  | .plain e => .submit t (c.bind e) run addr
  | .tid _ i en lk => .pushTid t i en lk

/-- The caller has moved to `e`; what it handed over in this step goes to the pool. -/
def flush (c : EpCfg) (run : Bool) (addr : Nat) (e : ParSt) (s : PpSt) : Option PpSt :=
  match e.queue with
  | [] => some { s with eng := e }
  | _ :: _ =>
    match s.todo with
    | [] => none
    | u :: us =>
      match s.pool.step c.pool (putAct c run addr s.next u) with
      | none => none
      | some p => some { s with eng := { e with queue := [] }, pool := p,
                                elt := fun t => if t = s.next then u.elt else s.elt t, next := s.next + 1, todo := us }

/-- Thread `w` is at `o` inside `parallelRunOne`. -/
def setJob (s : PpSt) (w : Thr) (o : Option PJob) : PpSt := { s with job := fun k => if k = w then o else s.job k }

/-- A step of a thread: inside `parallelRunOne` one step of the engine's code (GDynamicEngine.cpp:270-288), otherwise one
step of the pool's code (Thread/UThreadPrimary.h:91-132, Thread/UThreadSecondary.h:68-102); the call of the task
(Thread/UThreadBase.h:83-98) enters `parallelRunOne`. -/
def workStep (c : EpCfg) (s : PpSt) (w : Thr) (pre : Bool) (st : CStatus) : Option PpSt :=
  match s.job w with
  | some j =>
    match ParSt.jobStep (tasks c).length s.eng st j with
    | none => none
    | some (e, o) => some { s.setJob w o with eng := e }
  | none =>
    match s.pool.step c.pool (w.act pre) with
    | none => none
    | some p => some (({ s with pool := p } : PpSt).setJob w
        (match w.pc s.pool with | .hand (t :: _) => some (.start (s.elt t)) | _ => none))

/-- One step; `none` = not possible now. -/
def step (c : EpCfg) (s : PpSt) : PpAct → Option PpSt
  | .begin => (ParSt.step (tasks c) (tasks c).length c.dyn.workers c.epoch s.eng .begin).map
      fun e => { s with eng := e, todo := matPuts 0 (mat c) }
  | .main run addr =>
    match ParSt.step (tasks c) (tasks c).length c.dyn.workers c.epoch s.eng (.main .ok) with
    | none => none
    | some e => flush c run addr e s
  | .work w pre st => workStep c s w pre st
  | .spurious => (ParSt.step (tasks c) (tasks c).length c.dyn.workers c.epoch s.eng .spurious).map
      fun e => { s with eng := e }

/-- After `init` of the pipeline: engine set up (GDynamicEngine.cpp:12-26), pool started (UThreadPool.cpp:47-89). -/
def init (c : EpCfg) : PpSt := ⟨ParSt.init, PoolSt.init c.secs, fun _ => 0, 0, fun _ => none, []⟩

/-- The state after `n` steps of an infinite schedule; impossible steps are skipped. -/
def trace (c : EpCfg) (σ : Nat → PpAct) : Nat → PpSt
  | 0 => init c
  | n + 1 => ((trace c σ n).step c (σ n)).getD (trace c σ n)

end PpSt
end CGraph.ParPool
