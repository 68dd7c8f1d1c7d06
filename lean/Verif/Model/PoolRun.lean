import Verif.Model.Pool

/-! # UThreadPool: the worker threads as a transition system

Every access to a queue holds that queue's mutex, so each queue operation is one step; whether a `try_lock` or the
unlocked `empty()` test in front of it succeeds is an oracle bit.  Condition variables only shorten waits: every
wait of a worker has a time limit (Thread/UThreadPrimary.h:127, Thread/UThreadSecondary.h:97), so a wait is a step
back to the loop.  Tasks are numbers; a task throwing an exception out of the pool is not modelled. -/
namespace CGraph

/-- A task. -/
abbrev Task := Nat

/-- Where a worker is (Thread/UThreadPrimary.h:91-109, Thread/UThreadSecondary.h:68-102,
Thread/UThreadBase.h:152-164). -/
inductive WPc where
  /-- about to test `done_` -/
  | loop
  /-- about to pop from its own queue -/
  | pop
  /-- about to try the remaining steal targets -/
  | steal (rest : List Int)
  /-- about to pop from the shared queue -/
  | pool
  /-- about to pop from the priority queue (secondary threads) -/
  | prio
  /-- found nothing: `fatWait` / `waitRunTask` -/
  | wait
  /-- holds tasks to be run -/
  | hand (ts : List Task)
  /-- executing a task, more to follow -/
  | busy (t : Task) (ts : List Task)
  /-- the thread function has returned -/
  | exited
deriving DecidableEq, Repr

/-- The tasks a worker holds but has not started. -/
def WPc.held : WPc → List Task
  | .hand ts => ts
  | .busy _ ts => ts
  | _ => []

/-- The task a worker is executing. -/
def WPc.exec : WPc → List Task
  | .busy t _ => [t]
  | _ => []

/-- State of pool and workers (UThreadPool.h:203-213, Thread/UThreadPrimary.h:264-268). -/
structure PoolSt where
  /-- queues of the primary threads -/
  wsq : Int → List Task
  /-- the mutex of queue `i` is held across calls (Queue/UWorkStealingQueue.h:45-53) -/
  locked : Int → Bool
  /-- shared queue -/
  shared : AQueue Task
  /-- priority queue -/
  prioq : PQueue Task
  /-- `cur_index_` -/
  cur : Int
  /-- primary workers -/
  prim : Int → WPc
  /-- `done_` of the primary workers -/
  pgo : Int → Bool
  /-- number of secondary threads created so far -/
  nsec : Nat
  /-- secondary workers -/
  sec : Nat → WPc
  /-- `done_` of the secondary workers -/
  sgo : Nat → Bool
  /-- tasks accepted so far (ghost) -/
  submitted : List Task
  /-- tasks whose execution has begun (ghost) -/
  started : List Task
  /-- tasks whose execution has ended (ghost) -/
  finished : List Task

/-- Steps of callers (first group) and workers. -/
inductive PAct where
  /-- `execute`/`commit` with an index; `running` are the observed flags, `addr` the address used if it goes to the
  priority queue -/
  | submit (t : Task) (index : Int) (running : Bool) (addr : Nat)
  /-- `commitWithPriority` -/
  | submitPrio (t : Task) (prio : Int) (addr : Nat)
  /-- `executeWithTid` with enable and lockable -/
  | pushTid (t : Task) (tid : Int) (enable lockable : Bool)
  /-- a secondary thread is created -/
  | addSec
  /-- `done_ = false` for a primary thread (destroy) -/
  | stop (i : Int)
  /-- `done_ = false` for a secondary thread (destroy, release) -/
  | stopSec (j : Nat)
  /-- `task_queue_.reset()` (destroy) -/
  | resetShared
  /-- a step of primary thread `i` -/
  | prim (i : Int) (pre : Bool)
  /-- a step of secondary thread `j` -/
  | sec (j : Nat) (pre : Bool)
deriving DecidableEq

namespace PoolSt

/-- UThreadPool.cpp:47-89 `init`: all queues empty, all threads at the head of their loop. -/
def init (nsec : Nat) : PoolSt where
  wsq := fun _ => []
  locked := fun _ => false
  shared := AQueue.init
  prioq := []
  cur := 0
  prim := fun _ => .loop
  pgo := fun _ => true
  nsec := nsec
  sec := fun _ => .loop
  sgo := fun _ => true
  submitted := []
  started := []
  finished := []

/-- Replace queue `i`. -/
def setWsq (s : PoolSt) (i : Int) (q : List Task) : PoolSt :=
  { s with wsq := fun k => if k = i then q else s.wsq k }

/-- Replace the place of primary worker `i`. -/
def setPrim (s : PoolSt) (i : Int) (p : WPc) : PoolSt :=
  { s with prim := fun k => if k = i then p else s.prim k }

/-- Replace the place of secondary worker `j`. -/
def setSec (s : PoolSt) (j : Nat) (p : WPc) : PoolSt :=
  { s with sec := fun k => if k = j then p else s.sec k }

/-- Put a task where it was routed (UThreadPool.inl:61-70); `none` while the queue's mutex is held by a batch
(Queue/UWorkStealingQueue.h:27-34 retries). -/
def deliver (s : PoolSt) (t : Task) (addr : Nat) : Dest → Option PoolSt
  | .primary i =>
    if s.locked i then none
    else some { s.setWsq i (WsQueue.push (s.wsq i) t) with submitted := s.submitted ++ [t] }
  | .priority =>
    some { s with prioq := PQueue.push s.prioq addr longTimeStrategy t, submitted := s.submitted ++ [t] }
  | .shared _ => some { s with shared := s.shared.push t, submitted := s.submitted ++ [t] }

/-- Thread/UThreadPrimary.h:174-187 `popTask`, single or batch. -/
def popOwn (c : PoolCfg) (pre : Bool) (q : List Task) : List Task × List Task :=
  if c.batch then WsQueue.tryPopN pre q c.localBatch
  else let r := WsQueue.tryPop pre q; (r.1, r.2.toList)

/-- Thread/UThreadPrimary.h:209-210,233: one target of `stealTask`. -/
def stealFrom (c : PoolCfg) (pre : Bool) (q : List Task) : List Task × List Task :=
  if c.batch then WsQueue.tryStealN pre q c.stealBatch
  else let r := WsQueue.trySteal pre q; (r.1, r.2.toList)

/-- Thread/UThreadBase.h:55,70: the shared part of `popPoolTask`. -/
def popShared (c : PoolCfg) (pre : Bool) (q : AQueue Task) : AQueue Task × List Task :=
  if c.batch then q.tryPopN pre c.poolBatch
  else let r := q.tryPop pre; (r.1, r.2.toList)

/-- A step of a primary worker (Thread/UThreadPrimary.h:91-132, Thread/UThreadBase.h:83-98,152-164). -/
def primStep (c : PoolCfg) (s : PoolSt) (i : Int) (pre : Bool) : Option PoolSt :=
  match s.prim i with
  | .loop => some (s.setPrim i (if s.pgo i then .pop else .exited))
  | .pop =>
    let r := popOwn c (pre && !s.locked i) (s.wsq i)
    some ((s.setWsq i r.1).setPrim i (if r.2.isEmpty then .steal (c.stealTargets i) else .hand r.2))
  | .steal [] => some (s.setPrim i .pool)
  | .steal (k :: rest) =>
    let r := stealFrom c (pre && !s.locked k) (s.wsq k)
    some ((s.setWsq k r.1).setPrim i (if r.2.isEmpty then .steal rest else .hand r.2))
  | .pool =>
    let r := popShared c pre s.shared
    some (({ s with shared := r.1 } : PoolSt).setPrim i (if r.2.isEmpty then .wait else .hand r.2))
  | .prio => none
  | .wait => some (s.setPrim i .loop)
  | .hand [] => some (s.setPrim i .loop)
  | .hand (t :: ts) => some ({ s with started := s.started ++ [t] }.setPrim i (.busy t ts))
  | .busy t ts => some ({ s with finished := s.finished ++ [t] }.setPrim i (.hand ts))
  | .exited => none

/-- A step of a secondary worker (Thread/UThreadSecondary.h:68-102, Thread/UThreadBase.h:54-76). -/
def secStep (c : PoolCfg) (s : PoolSt) (j : Nat) (pre : Bool) : Option PoolSt :=
  match s.sec j with
  | .loop => some (s.setSec j (if s.sgo j then .pool else .exited))
  | .pop => none
  | .steal _ => none
  | .pool =>
    let r := popShared c pre s.shared
    some (({ s with shared := r.1 } : PoolSt).setSec j (if r.2.isEmpty then .prio else .hand r.2))
  | .prio =>
    let r := PQueue.tryPop pre s.prioq
    some (({ s with prioq := r.1 } : PoolSt).setSec j (match r.2 with | none => .wait | some e => .hand [e.val]))
  | .wait =>
    let r := s.shared.popWithTimeout (!pre)
    some (({ s with shared := r.1 } : PoolSt).setSec j (match r.2 with | none => .loop | some t => .hand [t]))
  | .hand [] => some (s.setSec j .loop)
  | .hand (t :: ts) => some ({ s with started := s.started ++ [t] }.setSec j (.busy t ts))
  | .busy t ts => some ({ s with finished := s.finished ++ [t] }.setSec j (.hand ts))
  | .exited => none

/-- One step; `none` = not possible now. -/
def step (c : PoolCfg) (s : PoolSt) : PAct → Option PoolSt
  | .submit t index running addr =>
    match c.execute (fun _ => running) s.cur index with
    | none => none
    | some (d, cur) => ({ s with cur := cur } : PoolSt).deliver t addr d
  | .submitPrio t p addr =>
    some { s with prioq := PQueue.push s.prioq addr p t, submitted := s.submitted ++ [t] }
  | .pushTid t tid enable lockable =>
    match c.placeTid tid with
    | .primary i =>
      -- Queue/UWorkStealingQueue.h:45-53: the first push of a batch takes the lock, the last one gives it back
      if enable && lockable then
        if s.locked i then none
        else some { s.setWsq i (WsQueue.push (s.wsq i) t) with
          submitted := s.submitted ++ [t], locked := fun k => if k = i then true else s.locked k }
      else if !s.locked i then none
      else some { s.setWsq i (WsQueue.push (s.wsq i) t) with
        submitted := s.submitted ++ [t],
        locked := fun k => if k = i then !enable else s.locked k }
    | _ => some { s with shared := s.shared.push t, submitted := s.submitted ++ [t] }
  | .addSec => some { s with nsec := s.nsec + 1 }
  | .stop i => some { s with pgo := fun k => if k = i then false else s.pgo k }
  | .stopSec j => some { s with sgo := fun k => if k = j then false else s.sgo k }
  | .resetShared => some { s with shared := s.shared.reset }
  | .prim i pre => if 0 ≤ i ∧ i < c.defaultSize then s.primStep c i pre else none
  | .sec j pre => if j < s.nsec then s.secStep c j pre else none

/-- Run a schedule; impossible steps are skipped. -/
def run (c : PoolCfg) (s : PoolSt) (l : List PAct) : PoolSt := l.foldl (fun s a => (s.step c a).getD s) s

end PoolSt
end CGraph
