/-! # A primary thread of the pool going to sleep, and those who wake it

One primary thread executes `loopProcess`, and any number of other threads give it tasks, steal from it, wake it or
destroy it, interleaved; each step accesses at most one of the variables and mutexes they share
(src/UtilsCtrl/ThreadPool/Thread/UThreadPrimary.h, UThreadBase.h, Queue/UWorkStealingQueue.h, UThreadPool.inl,
UThreadPool.cpp).

Simplified: steps are sequentially consistent; a call of the shared queue is one step (C108 shows that this is a
sound view), and one that only tries may fail at any time; stealing from other primary threads is a choice; executing
a task is one step; other threads of the pool are among the clients. -/
namespace CGraph.Prim
variable {α : Type}

/-- `primary_thread_busy_epoch_` (UThreadPoolConfig.h:29) and the number of tasks one round takes from the own queue: 1, or
`max_local_batch_size_` (25) with `batch_task_enable_` (39). -/
structure PrimCfg where
  busy : Int
  size : Nat

/-- A thread: the primary thread or a client. -/
inductive Who where
  | prim
  | cli (t : Nat)
deriving DecidableEq

/-- A call of a client. -/
inductive PCall (α : Type) where
  /-- `pushTask(task)` (UThreadPrimary.h:140-147) -/
  | push (v : α)
  /-- `pushTask(task, enable, lockable)` (157-166) for at least two tasks, the first locking and the last unlocking the
  queue (GDynamicEngine.cpp:232-239) -/
  | batch (v w : α) (vs : List α)
  /-- a task for the shared queue (UThreadPool.inl:69, 80) -/
  | share (v : α)
  /-- the same with the strategy that wakes all threads (UThreadPool.inl:65-67) -/
  | trigger (v : α)
  /-- `wakeupAllThread` (UThreadPool.cpp:275-293) -/
  | wakeAll
  /-- another primary thread steals (UWorkStealingQueue.h:137-149) -/
  | steal
  /-- another thread takes a task from the shared queue (UAtomicQueue.h:44-56) -/
  | grab
  /-- `destroy`, that is `reset` (UThreadBase.h:40-46, 104-118) -/
  | stop
deriving DecidableEq

/-- What is written under `mutex_`: `cur_empty_epoch_ = 0` after a push, or `done_ = false`. -/
inductive Why where
  | task
  | stop
deriving DecidableEq

/-- Where a client is. -/
inductive CPc (α : Type) where
  | idle
  /-- about to take the mutex of the queue (UWorkStealingQueue.h:28, 47) -/
  | qLock (vs : List α)
  /-- inside the queue, the tasks still to be put (29, 49) -/
  | qPut (vs : List α)
  /-- about to give the mutex of the queue back (30, 51) -/
  | qUnlock
  /-- about to take the thread's `mutex_` (UThreadPrimary.h:143, 161, UThreadBase.h:107) -/
  | lock (w : Why)
  /-- `cur_empty_epoch_ = 0` (UThreadPrimary.h:144, 162), `done_ = false` (UThreadBase.h:108) -/
  | store (w : Why)
  /-- about to give `mutex_` back (UThreadPrimary.h:145, 163, UThreadBase.h:109) -/
  | unlock (w : Why)
  /-- `cv_.notify_one()` (UThreadPrimary.h:146, 164, UThreadBase.h:111) -/
  | tell (w : Why)
  /-- `thread_.join()` (UThreadBase.h:113) -/
  | join
  /-- `task_queue_.push` (UThreadPool.inl:66, 69, 80) -/
  | sPut (v : α) (trig : Bool)
  /-- `wakeup_mutex_.try_lock()` (UThreadPool.cpp:277) -/
  | wLock
  /-- `is_running_.load()` (UThreadBase.h:127) -/
  | wLook
  /-- `cv_.notify_one()` (UThreadBase.h:128) -/
  | wTell
  /-- `wakeup_mutex_.unlock()` (UThreadPool.cpp:289) -/
  | wUnlock
  /-- about to test for emptiness (UWorkStealingQueue.h:139) -/
  | tTest
  /-- about to try the mutex of the queue (139) -/
  | tLock
  /-- about to take the back, if there is one (140-142) -/
  | tTake
  /-- about to give the mutex back (145) -/
  | tUnlock
  /-- about to take from the shared queue -/
  | gTake
deriving DecidableEq

/-- The evaluation of `ready` (UThreadPrimary.h:121-123): the first one (125), or one in `wait_for` (127), `late` when the time
is over. -/
inductive When where
  | first
  | wait (late : Bool)
deriving DecidableEq

/-- Where the primary thread is. -/
inductive WPc (α : Type) where
  /-- `is_running_ = true` (UThreadBase.h:154) -/
  | start
  /-- `while (done_)` (156, 160) -/
  | head
  /-- `popTask` (UThreadPrimary.h:93, 103): about to test for emptiness (UWorkStealingQueue.h:98, 119) -/
  | pop
  /-- about to try the mutex of the queue (98, 119) -/
  | popLock
  /-- about to take the front (99-101, 120-122) -/
  | popTake
  /-- about to give the mutex back (104, 125) -/
  | popUnlock (vs : List α)
  /-- `stealTask` (UThreadPrimary.h:93, 103) -/
  | steal
  /-- `popPoolTask` (93, 103) -/
  | shared
  /-- executes tasks (94, 105) -/
  | work (vs : List α)
  /-- `++cur_empty_epoch_` (117) -/
  | inc
  /-- `cur_empty_epoch_ >= primary_thread_busy_epoch_` (119) -/
  | cmp
  /-- about to take `mutex_` (120) -/
  | lock
  /-- about to evaluate the part `i` of `ready` (122); all before it were false -/
  | rd (w : When) (i : Nat)
  /-- `is_running_ = false` (126) -/
  | off
  /-- asleep on `cv_` (127) -/
  | sleep
  /-- woken, about to take `mutex_` again -/
  | woken (late : Bool)
  /-- `is_running_ = true` (128) -/
  | on
  /-- `cur_empty_epoch_ = 0` (130) -/
  | zero
  /-- about to give `mutex_` back (131) -/
  | unlock
  /-- left the loop -/
  | gone
deriving DecidableEq

/-- The variables of the thread: `mutex_` (UThreadBase.h:253), the mutex and the deque of `wsq_`, the shared queue,
`cur_empty_epoch_` (UThreadPrimary.h:265), `done_`, `is_running_` (UThreadBase.h:242, 244); `wakeup_mutex_` (UThreadPool.h:213); the
threads.  Ghost: the tasks put into and taken from the own queue; the rounds (newest first; whether a task was found) and how often
the thread got to `mutex_` in `fatWait`. -/
structure PrSt (α : Type) where
  owner : Option Who
  held : Option Who
  deque : List α
  pool : List α
  epoch : Int
  live : Bool
  running : Bool
  wmtx : Option Nat
  pc : WPc α
  cpc : Nat → CPc α
  pushed : List α
  taken : List α
  rounds : List Bool
  waits : Nat

/-- Who moves. -/
inductive PAct (α : Type) where
  /-- client `t` begins a call -/
  | call (t : Nat) (c : PCall α)
  /-- client `t` goes on -/
  | go (t : Nat)
  /-- the primary thread goes on; what it steals from others if it tries; whether it misses the shared queue's mutex -/
  | prim (stolen : List α) (miss : Bool)
  /-- it wakes up without notification -/
  | spurious
  /-- its time is over -/
  | expire
deriving DecidableEq

/-- Not in a call. -/
def CPc.isIdle : CPc α → Bool
  | .idle => true
  | _ => false

/-- The first step of a call. -/
def PCall.first : PCall α → CPc α
  | .push v => .qLock [v]
  | .batch v w vs => .qLock (v :: w :: vs)
  | .share v => .sPut v false
  | .trigger v => .sPut v true
  | .wakeAll => .wLock
  | .steal => .tTest
  | .grab => .gTake
  | .stop => .lock .stop

/-- After a notification. -/
def WPc.wake : WPc α → WPc α
  | .sleep => .woken false
  | p => p

namespace PrSt

/-- After `UThreadPrimary::init` (UThreadPrimary.h:28-39): nothing in the queues, the thread at its beginning. -/
def init : PrSt α :=
  ⟨none, none, [], [], 0, true, false, none, .start, fun _ => .idle, [], [], [], 0⟩

/-- Client `t` goes on at `p`. -/
def setC (s : PrSt α) (t : Nat) (p : CPc α) : PrSt α := { s with cpc := fun k => if k = t then p else s.cpc k }

/-- `cv_.notify_one()`: only the primary thread ever waits on its `cv_`. -/
def notify (s : PrSt α) : PrSt α := { s with pc := s.pc.wake }

/-- The next step of client `t`. -/
def go (s : PrSt α) (t : Nat) : PrSt α :=
  match s.cpc t with
  | .idle => s
  | .qLock vs =>
    match s.held with
    | none => { s.setC t (.qPut vs) with held := some (.cli t) }
    | some _ => s
  | .qPut [] => s.setC t .qUnlock
  | .qPut (v :: vs) => { s.setC t (.qPut vs) with deque := s.deque ++ [v], pushed := s.pushed ++ [v] }
  | .qUnlock => { s.setC t (.lock .task) with held := none }
  | .lock w =>
    match s.owner with
    | none => { s.setC t (.store w) with owner := some (.cli t) }
    | some _ => s
  | .store .task => { s.setC t (.unlock .task) with epoch := 0 }
  | .store .stop => { s.setC t (.unlock .stop) with live := false }
  | .unlock w => { s.setC t (.tell w) with owner := none }
  | .tell .task => (s.setC t .idle).notify
  | .tell .stop => (s.setC t .join).notify
  | .join =>
    match s.pc with
    | .gone => s.setC t .idle
    | _ => s
  | .sPut v trig => { s.setC t (if trig then .wLock else .idle) with pool := s.pool ++ [v] }
  | .wLock =>
    match s.wmtx with
    | none => { s.setC t .wLook with wmtx := some t }
    | some _ => s.setC t .idle
  | .wLook => s.setC t (if s.running then .wUnlock else .wTell)
  | .wTell => (s.setC t .wUnlock).notify
  | .wUnlock => { s.setC t .idle with wmtx := none }
  | .tTest => s.setC t (if s.deque.isEmpty then .idle else .tLock)
  | .tLock =>
    match s.held with
    | none => { s.setC t .tTake with held := some (.cli t) }
    | some _ => s.setC t .idle
  | .tTake => { s.setC t .tUnlock with deque := s.deque.dropLast, taken := s.taken ++ s.deque.getLast?.toList }
  | .tUnlock => { s.setC t .idle with held := none }
  | .gTake => { s.setC t .idle with pool := s.pool.tail }

/-- The part `i` of `ready` (UThreadPrimary.h:122). -/
def readyAt (s : PrSt α) : Nat → Bool
  | 0 => s.epoch == 0
  | 1 => !s.deque.isEmpty
  | 2 => !s.pool.isEmpty
  | _ => !s.live

/-- One part of `ready` is evaluated.  True: no sleep (125, 130), or `wait_for` returns.  All false: the thread goes to
sleep, giving the mutex back, or `wait_for` returns because the time is over. -/
def rdStep (s : PrSt α) (w : When) (i : Nat) : PrSt α :=
  if s.readyAt i then
    { s with pc := match w with | .first => .zero | .wait _ => .on }
  else if i < 3 then { s with pc := .rd w (i + 1) }
  else match w with
    | .first => { s with pc := .off }
    | .wait true => { s with pc := .on }
    | .wait false => { s with pc := .sleep, owner := none }

/-- The next step of the primary thread. -/
def prim (cf : PrimCfg) (s : PrSt α) (stolen : List α) (miss : Bool) : PrSt α :=
  match s.pc with
  | .start => { s with pc := .head, running := true }
  | .head => { s with pc := if s.live then .pop else .gone }
  | .pop => { s with pc := if s.deque.isEmpty then .steal else .popLock }
  | .popLock =>
    match s.held with
    | none => { s with pc := .popTake, held := some .prim }
    | some _ => { s with pc := .steal }
  | .popTake =>
    { s with pc := .popUnlock (s.deque.take cf.size), deque := s.deque.drop cf.size,
             taken := s.taken ++ s.deque.take cf.size }
  | .popUnlock vs => { s with pc := if vs.isEmpty then .steal else .work vs, held := none }
  | .steal => { s with pc := if stolen.isEmpty then .shared else .work stolen }
  | .shared =>
    match s.pool, miss with
    | v :: q, false => { s with pc := .work [v], pool := q }
    | _, _ => { s with pc := .inc }
  | .work _ => { s with pc := .head, rounds := true :: s.rounds }
  | .inc => { s with pc := .cmp, epoch := s.epoch + 1, rounds := false :: s.rounds }
  | .cmp => { s with pc := if s.epoch ≥ cf.busy then .lock else .head }
  | .lock =>
    match s.owner with
    | none => { s with pc := .rd .first 0, owner := some .prim, waits := s.waits + 1 }
    | some _ => s
  | .rd w i => s.rdStep w i
  | .off => { s with pc := .rd (.wait false) 0, running := false }
  | .sleep => s
  | .woken late =>
    match s.owner with
    | none => { s with pc := .rd (.wait late) 0, owner := some .prim }
    | some _ => s
  | .on => { s with pc := .zero, running := true }
  | .zero => { s with pc := .unlock, epoch := 0 }
  | .unlock => { s with pc := .head, owner := none }
  | .gone => s

/-- One step, with `n` clients; a client inside a call begins no other. -/
def step (cf : PrimCfg) (n : Nat) (s : PrSt α) : PAct α → PrSt α
  | .call t c => if t < n ∧ (s.cpc t).isIdle = true then s.setC t c.first else s
  | .go t => if t < n then s.go t else s
  | .prim stolen miss => s.prim cf stolen miss
  | .spurious => { s with pc := s.pc.wake }
  | .expire =>
    match s.pc with
    | .sleep => { s with pc := .woken true }
    | .woken _ => { s with pc := .woken true }
    | _ => s

/-- A schedule. -/
def run (cf : PrimCfg) (n : Nat) (l : List (PAct α)) : PrSt α := l.foldl (step cf n) init

end PrSt
end CGraph.Prim
