import Verif.Model.Queues

/-! # The pool's shared queue, one access at a time

`AQueue` treats every method as one step.  Here any number of threads execute the methods of
src/UtilsCtrl/ThreadPool/Queue/UAtomicQueue.h interleaved; each step of a thread accesses the queue or the mutex at most
once.  Threads may sleep on the condition variable.

Simplified: steps are sequentially consistent (an unlocked access next to a writing one is a data race in C++);
`setup` (160-166), which `UThreadPool::init` calls before any thread runs, is not called while the queue is in use;
moving values never throws. -/
namespace CGraph.AqConc
variable {α : Type}

/-- A call of a method. -/
inductive AqCall (α : Type) where
  /-- UAtomicQueue.h:118-130 -/
  | push (v : α)
  /-- 44-56 -/
  | tryPop
  /-- 65-77 -/
  | tryPopN (size : Int)
  /-- 105-111 -/
  | popPtr
  /-- 137-140 -/
  | empty
  /-- 31-36 -/
  | waitPop
  /-- 84-98 -/
  | popTimeout
  /-- 147-153 -/
  | reset
deriving DecidableEq

/-- What a call reported; `met` is not visible to the caller: another thread was in possession of the mutex. -/
inductive AqRes (α : Type) where
  | done
  | got (vs : List α) (met : Bool)
  | empty (b : Bool)
deriving DecidableEq

/-- Where a thread is. -/
inductive AqPc (α : Type) where
  | idle
  /-- about to evaluate `queue_.empty()` without the mutex (46, 67) -/
  | test (c : AqCall α)
  /-- about to take the mutex (32, 46, 67, 85, 106, 122, 138, 149) -/
  | lock (c : AqCall α)
  /-- inside `push` (123) -/
  | put (v : α)
  /-- inside, about to test for emptiness and for the batch size (47, 68, 107) -/
  | look (c : AqCall α) (n : Int) (acc : List α)
  /-- inside, about to take the front (34-35, 48-49, 69-70, 95-96, 108-109) -/
  | take (c : AqCall α) (n : Int) (acc : List α)
  /-- inside, about to evaluate the condition waited for (33, 87); `late` = the time is over -/
  | cond (c : AqCall α) (late : Bool)
  /-- asleep on `cv_` -/
  | sleep (c : AqCall α)
  /-- woken, about to take the mutex again -/
  | woken (c : AqCall α) (late : Bool)
  /-- inside `empty` (139) -/
  | ask
  /-- inside `reset` (150) -/
  | flag
  /-- about to give the mutex back -/
  | unlock (c : AqCall α) (r : AqRes α)
  /-- about to notify one (129) or all (152) -/
  | tell (all : Bool)
deriving DecidableEq

/-- `mutex_` (UQueueObject.h:21), `queue_`, `ready_flag_` (UAtomicQueue.h:171-172), the threads; ghost: the calls begun, and the
calls that took effect, in this order. -/
structure AqSt (α : Type) where
  owner : Option Nat
  queue : List α
  ready : Bool
  pc : Nat → AqPc α
  calls : List (Nat × AqCall α)
  log : List (Nat × AqCall α × AqRes α)

/-- Who moves. -/
inductive AqAct (α : Type) where
  /-- thread `t` begins a call -/
  | call (t : Nat) (c : AqCall α)
  /-- thread `t` goes on; if it notifies one, `k` is woken if that one sleeps -/
  | go (t k : Nat)
  /-- a sleeping thread wakes up without notification -/
  | spurious (t : Nat)
  /-- the time of a thread in `popWithTimeout` is over -/
  | expire (t : Nat)
deriving DecidableEq

/-- Not in a call. -/
def AqPc.isIdle : AqPc α → Bool
  | .idle => true
  | _ => false

/-- Asleep. -/
def AqPc.asleep : AqPc α → Bool
  | .sleep _ => true
  | _ => false

/-- After a wake-up. -/
def AqPc.wake : AqPc α → AqPc α
  | .sleep c => .woken c false
  | p => p

/-- The first step of a call. -/
def AqCall.first : AqCall α → AqPc α
  | .tryPop => .test .tryPop
  | .tryPopN n => .test (.tryPopN n)
  | c => .lock c

/-- The first step inside, with the mutex. -/
def AqCall.enter : AqCall α → AqPc α
  | .push v => .put v
  | .tryPop => .look .tryPop 0 []
  | .tryPopN n => .look (.tryPopN n) n []
  | .popPtr => .look .popPtr 0 []
  | .empty => .ask
  | .waitPop => .cond .waitPop false
  | .popTimeout => .cond .popTimeout false
  | .reset => .flag

namespace AqSt

/-- No thread in a call, queue empty and ready (UAtomicQueue.h:25, 171-172). -/
def init : AqSt α := ⟨none, [], true, fun _ => .idle, [], []⟩

/-- Thread `t` goes on at `p`. -/
def setPc (s : AqSt α) (t : Nat) (p : AqPc α) : AqSt α := { s with pc := fun k => if k = t then p else s.pc k }

/-- The call of thread `t` took effect now; it goes on at `p`. -/
def finish (s : AqSt α) (t : Nat) (c : AqCall α) (r : AqRes α) (p : AqPc α) : AqSt α :=
  { s.setPc t p with log := s.log ++ [(t, c, r)] }

/-- `mutex_.try_lock()`, or one attempt of `lock()`: the removals without waiting give up when the mutex is taken (46,
67), `push` yields and tries again (121-128), the others wait. -/
def tryLock (s : AqSt α) (t : Nat) (c : AqCall α) (inn : AqPc α) : AqSt α :=
  match s.owner, c with
  | none, _ => { s.setPc t inn with owner := some t }
  | some _, .tryPop => s.finish t .tryPop (.got [] true) .idle
  | some _, .tryPopN n => s.finish t (.tryPopN n) (.got [] true) .idle
  | some _, _ => s

/-- UAtomicQueue.h:47, 68 (`n` counts down from the batch size), 107. -/
def lookStep (s : AqSt α) (t : Nat) (c : AqCall α) (n : Int) (acc : List α) : AqSt α :=
  if s.queue.isEmpty then s.setPc t (.unlock c (.got acc false))
  else match c with
    | .tryPopN _ => if n > 0 then s.setPc t (.take c (n - 1) acc) else s.setPc t (.unlock c (.got acc false))
    | _ => s.setPc t (.take c n acc)

/-- `queue_.front()` is moved out, `queue_.pop()`; on to the end or the next test (68). -/
def takeStep (s : AqSt α) (t : Nat) (c : AqCall α) (n : Int) (acc : List α) : AqSt α :=
  match s.queue with
  | [] => s
  | x :: q =>
    { s.setPc t (match c with
        | .tryPopN _ => .look c n (acc ++ [x])
        | _ => .unlock c (.got (acc ++ [x]) false)) with queue := q }

/-- UAtomicQueue.h:33 for `waitPop`, 86-93 for `popWithTimeout`: when the condition does not hold the mutex is given back and the
thread sleeps, or leaves if its time is over. -/
def condStep (s : AqSt α) (t : Nat) (c : AqCall α) (late : Bool) : AqSt α :=
  match c with
  | .waitPop =>
    if s.queue.isEmpty then { s.setPc t (.sleep c) with owner := none } else s.setPc t (.take c 0 [])
  | _ =>
    if s.queue.isEmpty && s.ready then
      if late then s.setPc t (.unlock c (.got [] false)) else { s.setPc t (.sleep c) with owner := none }
    else if s.queue.isEmpty || !s.ready then s.setPc t (.unlock c (.got [] false))
    else s.setPc t (.take c 0 [])

/-- The thread that `notify_one` wakes: any that sleeps. -/
def pick (n : Nat) (s : AqSt α) (k : Nat) : Option Nat :=
  if k < n ∧ (s.pc k).asleep = true then some k else (List.range n).find? fun i => (s.pc i).asleep

/-- `notify_one` (129) and `notify_all` (152). -/
def notify (n : Nat) (s : AqSt α) (all : Bool) (k : Nat) : AqSt α :=
  if all then { s with pc := fun i => (s.pc i).wake }
  else match s.pick n k with
    | none => s
    | some i => s.setPc i (s.pc i).wake

/-- What follows the release of the mutex. -/
def after : AqCall α → AqPc α
  | .push _ => .tell false
  | .reset => .tell true
  | _ => .idle

/-- The next step of thread `t` (of `n`). -/
def go (n : Nat) (s : AqSt α) (t k : Nat) : AqSt α :=
  match s.pc t with
  | .idle => s
  | .test c => if s.queue.isEmpty then s.finish t c (.got [] s.owner.isSome) .idle else s.setPc t (.lock c)
  | .lock c => s.tryLock t c c.enter
  | .put v => { s.setPc t (.unlock (.push v) .done) with queue := s.queue ++ [v] }
  | .look c m acc => s.lookStep t c m acc
  | .take c m acc => s.takeStep t c m acc
  | .cond c late => s.condStep t c late
  | .sleep _ => s
  | .woken c late => s.tryLock t c (.cond c late)
  | .ask => s.setPc t (.unlock .empty (.empty s.queue.isEmpty))
  | .flag => { s.setPc t (.unlock .reset .done) with ready := false }
  | .unlock c r => { s.finish t c r (after c) with owner := none }
  | .tell all => (s.setPc t .idle).notify n all k

/-- One step of one of `n` threads; a thread inside a call begins no other. -/
def step (n : Nat) (s : AqSt α) : AqAct α → AqSt α
  | .call t c =>
    if t < n ∧ (s.pc t).isIdle = true then { s.setPc t c.first with calls := s.calls ++ [(t, c)] } else s
  | .go t k => if t < n then s.go n t k else s
  | .spurious t => s.setPc t (s.pc t).wake
  | .expire t =>
    match s.pc t with
    | .sleep .popTimeout => s.setPc t (.woken .popTimeout true)
    | .woken .popTimeout _ => s.setPc t (.woken .popTimeout true)
    | _ => s

/-- A schedule. -/
def run (n : Nat) (l : List (AqAct α)) : AqSt α := l.foldl (step n) init

end AqSt

/-- How a step accesses the queue. -/
inductive Access where
  | none
  | read
  | write
deriving DecidableEq

/-- The access of the next step at `p`. -/
def AqPc.access : AqPc α → Access
  | .test _ => .read
  | .put _ => .write
  | .look .. => .read
  | .take .. => .write
  | .cond .. => .read
  | .ask => .read
  | _ => .none

end CGraph.AqConc
