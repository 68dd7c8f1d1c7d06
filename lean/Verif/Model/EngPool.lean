import Verif.Model.PoolRun
import Verif.Model.Dynamic

/-! # The dynamic engine on the threads and queues of the pool

`DynSt` leaves open how tasks get from `execute` to a thread; `PoolSt` leaves open what tasks do.  Here both are put
together: every task that the engine hands over is routed to one of the queues of the pool, popped or stolen by one of
its threads, and executed there with the code of the engine, which hands over further tasks.

Simplified: the pool is the pipeline's own, has a fixed number of threads, and is used for nothing else; dag type
common. -/
namespace CGraph.EngPool

/-- A thread of the pool (UThreadPool.h:207-208 `primary_threads_`, `secondary_threads_`). -/
inductive Thr where
  /-- primary thread `i` -/
  | p (i : Int)
  /-- secondary thread `j` -/
  | s (j : Nat)
deriving DecidableEq

/-- What the engine and the pool were configured with: the elements and their dependencies, `binding_index_`
(GElement.h:452), `pipeline_wait_busy_epoch_` (UThreadPoolConfig.h:28), the configuration of the pool and the
number of its secondary threads. -/
structure EpCfg where
  g : Graph
  bind : Eid → Int
  epoch : Nat
  pool : PoolCfg
  secs : Nat

/-- The engine's view. -/
def EpCfg.dyn (c : EpCfg) : DynCfg := ⟨c.g, c.bind, c.pool.defaultSize.toNat + c.secs, c.epoch⟩

/-- The state: `eng` is the engine and the caller of `run` (its `queue` holds what the current step hands over and is
empty between steps; its `jobs` are not used), `pool` the queues and threads, `elt t` the element that the closure of
task `t` executes (GDynamicEngine.cpp:133-134), `next` the number of tasks handed over so far, `job w` where thread
`w` is inside `innerExec`. -/
structure EpSt where
  eng : DynSt
  pool : PoolSt
  elt : Task → Eid
  next : Nat
  job : Thr → Option Job

/-- Who moves.  `st` is what an element returns if the step ends it, `run` the flag that `dispatch` reads, `addr` the
address of the closure, `pre` whether a `try_lock` succeeds. -/
inductive EpAct where
  /-- `run()` is called -/
  | begin
  /-- a step of the caller of `run` -/
  | main (st : CStatus) (run : Bool) (addr : Nat)
  /-- a step of a thread of the pool -/
  | work (w : Thr) (pre : Bool) (st : CStatus) (run : Bool) (addr : Nat)
  /-- the caller wakes up without notification -/
  | spurious
deriving DecidableEq

/-- The step of the thread in the pool (see `PoolSt.step`). -/
def Thr.act : Thr → Bool → PAct
  | .p i, b => .prim i b
  | .s j, b => .sec j b

/-- Where the thread is in the pool. -/
def Thr.pc (p : PoolSt) : Thr → WPc
  | .p i => p.prim i
  | .s j => p.sec j

namespace EpSt

/-- GDynamicEngine.cpp:133-134, UThreadPool.inl:58-71: tasks for the elements `xs` are handed over, each routed by
`execute` with the element's binding index. -/
def submit (c : EpCfg) (run : Bool) (addr : Nat) : List Eid → EpSt → Option EpSt
  | [], s => some s
  | x :: xs, s =>
    match s.pool.step c.pool (.submit s.next (c.bind x) run addr) with
    | none => none
    | some p => submit c run addr xs
      { s with pool := p, elt := fun t => if t = s.next then x else s.elt t, next := s.next + 1 }

/-- The engine has moved to `e`; what it handed over in this step goes to the pool. -/
def flush (c : EpCfg) (run : Bool) (addr : Nat) (e : DynSt) (s : EpSt) : Option EpSt :=
  submit c run addr e.queue { s with eng := { e with queue := [] } }

/-- Thread `w` is at `o` inside `innerExec`. -/
def setJob (s : EpSt) (w : Thr) (o : Option Job) : EpSt := { s with job := fun k => if k = w then o else s.job k }

/-- A step of a thread: inside `innerExec` one step of the engine's code (GDynamicEngine.cpp:124-203), otherwise one
step of the pool's code (Thread/UThreadPrimary.h:91-132, Thread/UThreadSecondary.h:68-102); the call of the task
(Thread/UThreadBase.h:83-98) enters `innerExec`. -/
def workStep (c : EpCfg) (s : EpSt) (w : Thr) (pre : Bool) (st : CStatus) (run : Bool) (addr : Nat) : Option EpSt :=
  match s.job w with
  | some j =>
    match DynSt.jobStep c.dyn s.eng st j with
    | none => none
    | some (e, o) => flush c run addr e (s.setJob w o)
  | none =>
    match s.pool.step c.pool (w.act pre) with
    | none => none
    | some p => some (({ s with pool := p } : EpSt).setJob w
        (match w.pc s.pool with | .hand (t :: _) => some (.exec (s.elt t)) | _ => none))

/-- One step; `none` = not possible now. -/
def step (c : EpCfg) (s : EpSt) : EpAct → Option EpSt
  | .begin => (DynSt.step c.dyn s.eng .begin).map (fun e => { s with eng := e })
  | .main st run addr =>
    match DynSt.step c.dyn s.eng (.main st) with
    | none => none
    | some e => flush c run addr e s
  | .work w pre st run addr => workStep c s w pre st run addr
  | .spurious => (DynSt.step c.dyn s.eng .spurious).map (fun e => { s with eng := e })

/-- After `init` of the pipeline: engine set up (GDynamicEngine.cpp:12-26), pool started (UThreadPool.cpp:47-89). -/
def init (c : EpCfg) : EpSt := ⟨DynSt.init c.dyn, PoolSt.init c.secs, fun _ => 0, 0, fun _ => none⟩

/-- The state after `n` steps of an infinite schedule; impossible steps are skipped. -/
def trace (c : EpCfg) (σ : Nat → EpAct) : Nat → EpSt
  | 0 => init c
  | n + 1 => ((trace c σ n).step c (σ n)).getD (trace c σ n)

end EpSt
end CGraph.EngPool
