import Verif.Model.Queues
import Verif.Model.Status

/-! # UThreadPool: configuration, routing, steal targets, secondary threads, task groups

Paths are relative to /repo/src/UtilsCtrl/ThreadPool. -/
namespace CGraph

/-- UThreadPoolConfig.h:21-41, the fields that influence routing and thread management. -/
structure PoolCfg where
  defaultSize : Int := 8
  secondarySize : Int := 0
  maxSize : Int := 8
  stealRange : Int := 7
  localBatch : Int := 2
  poolBatch : Int := 2
  stealBatch : Int := 2
  ttl : Int := 10
  batch : Bool := false
  monitorOn : Bool := false
  monitorSpan : Int := 5
  deliverRunning : Bool := false
deriving DecidableEq

namespace PoolCfg

/-- UThreadPoolConfig.h:43-59 `check` (only called by GPipeline::setUniqueThreadPoolConfig, GPipeline.cpp:241). -/
def check (c : PoolCfg) : Bool :=
  if c.defaultSize < 0 || c.secondarySize < 0 then false
  else if c.defaultSize + c.secondarySize > c.maxSize then false
  else if c.monitorOn && c.monitorSpan ≤ 0 then false
  else true

/-- UThreadPoolConfig.h:66-69 `calcStealRange`. -/
def calcStealRange (c : PoolCfg) : Int := min c.stealRange (c.defaultSize - 1)

/-- Thread/UThreadPrimary.h:254-261 `buildStealTargets` (`%` on `int` is truncated). -/
def stealTargets (c : PoolCfg) (index : Int) : List Int :=
  (List.range c.calcStealRange.toNat).map (fun i : Nat => (index + (i : Int) + 1).tmod c.defaultSize)

end PoolCfg

/-! ## Routing -/

/-- UThreadPoolDefine.h:41 `CGRAPH_DEFAULT_TASK_STRATEGY`. -/
def defaultStrategy : Int := -1
/-- UThreadPoolDefine.h:42 `CGRAPH_POOL_TASK_STRATEGY`. -/
def poolStrategy : Int := -2
/-- UThreadPoolDefine.h:43 `CGRAPH_LONG_TIME_TASK_STRATEGY`. -/
def longTimeStrategy : Int := -101
/-- UThreadPoolDefine.h:44 `CGRAPH_TRIGGER_ALL_THREAD_STRATEGY`. -/
def triggerAllStrategy : Int := -102

/-- The value of a 32 bit signed counter after an overflowing addition (`std::atomic<int>::fetch_add` wraps);
CIndex is `int` (CBasic/CValType.h:28). -/
def wrap32 (x : Int) : Int := (x + 2147483648) % 4294967296 - 2147483648

/-- UThreadPool.cpp:209-224 `dispatch`.  `cur` is `cur_index_`, `running i` the flag `is_running_` of primary
thread `i`.  Result: chosen index and new counter; `none` is the division by zero. -/
def PoolCfg.dispatch (c : PoolCfg) (running : Int → Bool) (cur orig : Int) : Option (Int × Int) :=
  if orig = defaultStrategy then
    if c.maxSize = 0 then none
    else
      let r := cur.tmod c.maxSize
      if !c.deliverRunning && decide (0 ≤ r) && decide (r < c.defaultSize) && running r then
        some (triggerAllStrategy, wrap32 (cur + 1))
      else some (r, wrap32 (cur + 1))
  else some (orig, cur)

/-- The queue a task is put in (UThreadPool.inl:61-70). -/
inductive Dest where
  | primary (i : Int)
  | priority
  | shared (wake : Bool)
deriving DecidableEq, Repr

/-- UThreadPool.inl:61-70: the branches of `execute` after `dispatch`. -/
def PoolCfg.place (c : PoolCfg) (i : Int) : Dest :=
  if 0 ≤ i ∧ i < c.defaultSize then .primary i
  else if i = longTimeStrategy then .priority
  else if i = triggerAllStrategy then .shared true
  else .shared false

/-- UThreadPool.inl:58-71 `execute`: the queue and the new counter. -/
def PoolCfg.execute (c : PoolCfg) (running : Int → Bool) (cur index : Int) : Option (Dest × Int) :=
  (c.dispatch running cur index).map (fun r => (c.place r.1, r.2))

/-- UThreadPool.inl:75-82 `executeWithTid`: the queue. -/
def PoolCfg.placeTid (c : PoolCfg) (tid : Int) : Dest :=
  if 0 ≤ tid ∧ tid < c.defaultSize then .primary tid else .shared false

/-! ## Secondary threads -/

/-- A secondary thread: `done_` (true while it is to go on, Thread/UThreadBase.h:25,242) and `cur_ttl_`
(Thread/UThreadSecondary.h:121). -/
structure SecThread where
  done : Bool
  ttl : Int
deriving DecidableEq, Repr

/-- Thread/UThreadSecondary.h:109-118 `freeze`; `running` is `is_running_` as observed. -/
def SecThread.freeze (cfgTtl : Int) (running : Bool) (t : SecThread) : SecThread × Bool :=
  let n := if running then min (t.ttl + 1) cfgTtl else t.ttl - 1
  ({ t with ttl := n }, decide (n ≤ 0) && t.done)

/-- UThreadPool.h:203-213, the part about threads: is_init_, number of primary threads, secondary threads, and
the number of tasks in `priority_task_queue_`. -/
structure PoolMgr where
  isInit : Bool
  prims : Nat
  secs : List SecThread
  prio : Nat
deriving DecidableEq, Repr

namespace PoolMgr

/-- UThreadPool.cpp:13-20 construction without autoInit. -/
def empty : PoolMgr := ⟨false, 0, [], 0⟩

/-- UThreadPool.cpp:230-231: `realSize` in `createSecondaryThread`; the sizes fit in an `int`. -/
def realSize (c : PoolCfg) (size : Int) (secs : Nat) : Int :=
  min size (c.maxSize - c.defaultSize - (secs : Int))

/-- UThreadPool.cpp:234-239: add `n` fresh secondary threads (Thread/UThreadSecondary.h:30). -/
def addSecs (c : PoolCfg) (n : Int) (s : PoolMgr) : PoolMgr :=
  { s with secs := s.secs ++ List.replicate n.toNat ⟨true, c.ttl⟩ }

/-- UThreadPool.cpp:227-242 `createSecondaryThread`, when nobody else changes the list between the size test and
the insertion. -/
def createSecondary (c : PoolCfg) (size : Int) (s : PoolMgr) : PoolMgr :=
  s.addSecs c (realSize c size s.secs.length)

/-- UThreadPool.cpp:47-89 `init` (thread start never fails). -/
def init (c : PoolCfg) (s : PoolMgr) : PoolMgr :=
  if s.isInit then s
  else { ({ s with prims := s.prims + c.defaultSize.toNat } : PoolMgr).createSecondary c c.secondarySize with
    isInit := true }

/-- UThreadPool.cpp:200-204: mark the first `size` threads. -/
def markSecs : List SecThread → Int → List SecThread
  | [], _ => []
  | t :: ts, n => if n > 0 then { t with done := false } :: markSecs ts (n - 1) else t :: ts

/-- UThreadPool.cpp:186-206 `releaseSecondaryThread`: state and whether the call succeeded. -/
def release (size : Int) (s : PoolMgr) : PoolMgr × Bool :=
  let live := s.secs.filter (·.done)
  if size > (live.length : Int) then ({ s with secs := live }, false)
  else ({ s with secs := markSecs live size }, true)

/-- UThreadPool.cpp:268-270: one pass of `freeze` over the list; `obs` gives the observed `is_running_` flags. -/
def freezePass (c : PoolCfg) (obs : Nat → Bool) : Nat → List SecThread → List SecThread
  | _, [] => []
  | k, t :: ts =>
    let r := t.freeze c.ttl (obs k)
    if r.2 then freezePass c obs (k + 1) ts else r.1 :: freezePass c obs (k + 1) ts

/-- UThreadPool.cpp:257-270: one round of `monitor` after its pause; `busy` = all primary threads running. -/
def monitorRound (c : PoolCfg) (busy : Bool) (obs : Nat → Bool) (s : PoolMgr) : PoolMgr :=
  let s1 := if (decide (s.prims ≠ 0) && busy) || decide (s.prio ≠ 0) then s.createSecondary c 1 else s
  { s1 with secs := freezePass c obs 0 s1.secs }

/-- UThreadPool.inl:41-54 `commitWithPriority`. -/
def commitPrio (c : PoolCfg) (s : PoolMgr) : PoolMgr :=
  let s1 := if s.secs.isEmpty then s.createSecondary c 1 else s
  { s1 with prio := s1.prio + 1 }

/-- UThreadPool.inl:58-71 `execute` with the long-time strategy. -/
def commitLong (s : PoolMgr) : PoolMgr := { s with prio := s.prio + 1 }

/-- A secondary thread takes a task from the priority queue (Thread/UThreadBase.h:54-61,69-76). -/
def servePrio (s : PoolMgr) : PoolMgr := { s with prio := s.prio - 1 }

/-- UThreadPool.cpp:141-178 `destroy`; the priority queue keeps its tasks. -/
def destroy (s : PoolMgr) : PoolMgr :=
  if s.isInit then { s with isInit := false, prims := 0, secs := [] } else s

/-- Events on the thread management; `serve` is possible only when a live secondary thread exists. -/
inductive Op where
  | init | create (n : Int) | release (n : Int) | monitor (busy : Bool) (obs : List Bool)
  | commitPrio | commitLong | serve | destroy
deriving DecidableEq

/-- One event. -/
def step (c : PoolCfg) (s : PoolMgr) : Op → PoolMgr
  | .init => s.init c
  | .create n => s.createSecondary c n
  | .release n => (s.release n).1
  | .monitor b o => s.monitorRound c b (fun k => o.getD k false)
  | .commitPrio => s.commitPrio c
  | .commitLong => s.commitLong
  | .serve => if s.secs.any (·.done) then s.servePrio else s
  | .destroy => s.destroy

/-- A history from a fresh pool. -/
def run (c : PoolCfg) (ops : List Op) : PoolMgr := ops.foldl (step c) empty

/-- UThreadPool.cpp:230-238 split where the code takes the lock: `leftSize` is computed before `st_mutex_` is
taken, so several callers can compute it from the same list.  `size k` = caller `k` computes `realSize`;
`insert k` = it then adds its threads. -/
inductive RaceAct where
  | size (k : Nat) (n : Int) | insert (k : Nat)
deriving DecidableEq

/-- Pool plus what each caller has computed. -/
structure Race where
  pool : PoolMgr
  want : Nat → Option Int

/-- One step of the callers of `createSecondaryThread`. -/
def Race.step (c : PoolCfg) (s : Race) : RaceAct → Race
  | .size k n => { s with want := fun j => if j = k then some (realSize c n s.pool.secs.length) else s.want j }
  | .insert k =>
    match s.want k with
    | none => s
    | some n => ⟨s.pool.addSecs c n, fun j => if j = k then none else s.want j⟩

end PoolMgr

/-! ## Task groups -/

/-- What `wait_until` on one future does (UThreadPool.cpp:106-108): `fin` is the time the task finished (`none` =
never), `seen` the time the call returned.  It returns ready iff the task had finished, and returns without it only
at or after the deadline. -/
structure FutureObs where
  fin : Option Nat
  seen : Nat
deriving DecidableEq

/-- The task had finished when the wait returned. -/
def FutureObs.ready (o : FutureObs) : Bool :=
  match o.fin with
  | none => false
  | some t => decide (t ≤ o.seen)

/-- The outcome of a `submit` call. -/
structure SubmitOut where
  status : CStatus
  callbacks : List CStatus
  handed : Nat

/-- UThreadPool.cpp:92-121 `submit`.  `now` is the clock after the tasks were committed; `obs` has one entry per
task; `hasCb` says whether the group has a finish callback.  `std::future_status::deferred` cannot occur for
futures of a packaged_task. -/
def submitGroup (isInit hasCb : Bool) (obs : List FutureObs) : SubmitOut :=
  if !isInit then ⟨CStatus.err "init status is not suitable", [], 0⟩
  else
    let st := obs.foldl (fun st o => if o.ready then st else st.add (CStatus.err "thread status timeout")) CStatus.ok
    ⟨st, if hasCb then [st] else [], obs.length⟩

/-- UThreadPool.cpp:103-104: the deadline. -/
def submitDeadline (now groupTtl callTtl : Nat) : Nat := now + min groupTtl callTtl

/-- `wait_until(deadline)` (C++ standard): the wait of each future ends when the task has finished or at/after
the deadline. -/
def validObs (deadline : Nat) (o : FutureObs) : Prop := o.ready = true ∨ deadline ≤ o.seen

end CGraph
