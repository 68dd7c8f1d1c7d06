import Verif.Model.EngPool
import Verif.Model.StaticRun
import Verif.Model.Engines

/-! # The static engine on the threads and queues of the pool

`StaticSt` leaves open how tasks get from `commit` to a thread.  Here every task that `run` commits is routed to one of
the queues of the pool, popped or stolen by one of its threads, and executed there.

Simplified: the pool is the pipeline's own, has a fixed number of threads, and is used for nothing else. -/
namespace CGraph.StatPool
open EngPool (Thr EpCfg)

/-- What the engine and the pool were configured with: the elements and their dependencies, what `left_depend_` held
before `setup`, `binding_index_` (GElement.h:452), `isMacro` (GElement.cpp:340-342), what `fatProcessor` of an element
returns in the `k`-th run, the configuration of the pool and the number of its secondary threads. -/
structure SpCfg where
  g : Graph
  left0 : Eid → Int
  bind : Eid → Int
  isMac : Eid → Bool
  fp : Nat → Eid → CStatus
  pool : PoolCfg
  secs : Nat

namespace SpCfg

/-- `element_mat_` (GStaticEngine.cpp:13-45). -/
def mat (c : SpCfg) : List (List Eid) := (c.g.staticSetup c.left0).1

/-- GStaticEngine.cpp:55 `isMacro() && isDefaultBinding()` (GElement.cpp:598-600). -/
def direct (c : SpCfg) (x : Eid) : Bool := c.isMac x && c.bind x == -1

/-- The pool in the words of `EngPool` (the engine's own settings there do not matter). -/
def ep (c : SpCfg) : EpCfg := ⟨c.g, c.bind, 0, c.pool, c.secs⟩

end SpCfg

/-- The state: `eng` is the caller of `run` and what has become of the elements (its `queued` is empty between steps:
what was committed is in the pool), `pool` the queues and threads, `elt t` the element that the closure of task `t`
executes (GStaticEngine.cpp:59-61), `next` the number of tasks committed so far, `runs` the number of earlier runs. -/
structure SpSt where
  eng : StaticSt
  pool : PoolSt
  elt : Task → Eid
  next : Nat
  runs : Nat

/-- Who moves: `run` is the flag that `dispatch` reads, `addr` the address of the closure, `pre` whether a `try_lock`
succeeds. -/
inductive SpAct where
  /-- `run()` is called again -/
  | begin
  /-- a step of the caller of `run` -/
  | main (run : Bool) (addr : Nat)
  /-- a step of a thread of the pool -/
  | work (w : Thr) (pre : Bool)
deriving DecidableEq

namespace SpSt

/-- The caller has moved to `e`; what it committed in this step (UThreadPool.inl:15-25) is routed by `execute`
(58-71) with the element's binding index. -/
def commit (c : SpCfg) (run : Bool) (addr : Nat) (e : StaticSt) (s : SpSt) : Option SpSt :=
  match e.queued with
  | [] => some { s with eng := e }
  | x :: _ =>
    match s.pool.step c.pool (.submit s.next (c.bind x) run addr) with
    | none => none
    | some p => some { s with eng := { e with queued := [] }, pool := p,
                              elt := fun t => if t = s.next then x else s.elt t, next := s.next + 1 }

/-- What a step of a thread at `w` means for the elements: the call of a task (Thread/UThreadBase.h:83-98) begins
`fatProcessor` of its element, its end makes the future ready (GStaticEngine.cpp:59-61). -/
def effect (s : SpSt) : WPc → StaticSt
  | .hand (t :: _) =>
    { s.eng with running := s.elt t :: s.eng.running, trace := s.eng.trace ++ [.start (s.elt t)] }
  | .busy t _ =>
    { s.eng with running := s.eng.running.erase (s.elt t), finished := s.elt t :: s.eng.finished,
                 trace := s.eng.trace ++ [.finish (s.elt t)] }
  | _ => s.eng

/-- One step; `none` = not possible now. -/
def step (c : SpCfg) (s : SpSt) : SpAct → Option SpSt
  | .begin => if s.eng.ret.isSome then some { s with eng := StaticSt.init c.mat, runs := s.runs + 1 } else none
  | .main run addr =>
    match StaticSt.step c.direct (c.fp s.runs) s.eng .main with
    | none => none
    | some e => commit c run addr e s
  | .work w pre => (s.pool.step c.pool (w.act pre)).map fun p => { s with eng := s.effect (w.pc s.pool), pool := p }

/-- The pipeline is initialised (engine set up, pool started: UThreadPool.cpp:47-89) and `run()` has been called for
the first time. -/
def init (c : SpCfg) : SpSt := ⟨StaticSt.init c.mat, PoolSt.init c.secs, fun _ => 0, 0, 0⟩

/-- The state after `n` steps of an infinite schedule; impossible steps are skipped. -/
def trace (c : SpCfg) (σ : Nat → SpAct) : Nat → SpSt
  | 0 => init c
  | n + 1 => ((trace c σ n).step c (σ n)).getD (trace c σ n)

end SpSt
end CGraph.StatPool
