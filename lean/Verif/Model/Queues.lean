/-
Models of the queues in src/UtilsCtrl/ThreadPool/Queue, of USemaphore and of USpinLock.
-/
namespace CGraph

/-! ## UAtomicRingBufferQueue -/

/-- src/UtilsCtrl/ThreadPool/Queue/UQueueDefine.h `URingBufferPushStrategy`. -/
inductive PushStrategy where
  | WAIT | REPLACE | DROP
deriving DecidableEq, Repr

/-- UAtomicRingBufferQueue.h:143-151.  `slots` is the vector of shared pointers (`none` = null), `len` its
size. Every method body runs under `mutex_`, hence one model step per method (the condition variables
appear as the outcome `blocked`). -/
structure Ring (α : Type) where
  head : Nat
  tail : Nat
  capacity : Nat
  len : Nat
  slots : Nat → Option α

namespace Ring
variable {α : Type}

/-- UAtomicRingBufferQueue.h:24-29 constructor followed by `setCapacity n` (41-45), as done by
src/GraphCtrl/GraphMessage/GMessage.h. -/
def create (n : Nat) : Ring α := ⟨0, 0, n, n, fun _ => none⟩

/-- UAtomicRingBufferQueue.h:128-131 `isFull`; `none` for the division by zero. -/
def isFull (q : Ring α) : Option Bool :=
  if q.capacity = 0 then none else some (q.head == (q.tail + 1) % q.capacity)

/-- UAtomicRingBufferQueue.h:137-139 `isEmpty`. -/
def isEmpty (q : Ring α) : Bool := q.head == q.tail

/-- Outcome of a push call at the moment it takes the lock. -/
inductive PushOut where
  | pushed | replaced | dropped | blocked
deriving DecidableEq, Repr

/-- UAtomicRingBufferQueue.h:79-80: write the slot (undefined when out of range) and advance the tail. -/
def write (q : Ring α) (v : α) : Option (Ring α) :=
  if q.tail < q.len ∧ q.capacity ≠ 0 then
    some { q with slots := fun i => if i = q.tail then some v else q.slots i
                  tail := (q.tail + 1) % q.capacity }
  else none

/-- UAtomicRingBufferQueue.h:63-83 `push`.  With WAIT on a full queue the caller sleeps on `push_cv_`
without changing anything (`blocked`); the call is retried later, when the predicate holds. -/
def push (q : Ring α) (v : α) (s : PushStrategy) : Option (Ring α × PushOut) :=
  match q.isFull with
  | none => none
  | some false => (q.write v).map (fun q' => (q', .pushed))
  | some true =>
    match s with
    | .WAIT => some (q, .blocked)
    | .REPLACE =>
      ({ q with head := (q.head + 1) % q.capacity }.write v).map (fun q' => (q', .replaced))
    | .DROP => some (q, .dropped)

/-- UAtomicRingBufferQueue.h:93-109 `waitPopWithTimeout`: `some (q', some x)` = success with value `x`
(the moved-out shared pointer, possibly null), `some (q, none)` = timeout (the queue stayed empty). -/
def pop (q : Ring α) : Option (Ring α × Option (Option α)) :=
  if q.isEmpty then some (q, none)
  else if q.head < q.len ∧ q.capacity ≠ 0 then
    some ({ q with slots := fun i => if i = q.head then none else q.slots i
                   head := (q.head + 1) % q.capacity }, some (q.slots q.head))
  else none

/-- UAtomicRingBufferQueue.h:115-121 `clear`: the vector is emptied but `capacity_` is kept. -/
def clear (q : Ring α) : Ring α := { q with len := 0, head := 0, tail := 0 }

end Ring

/-! ## ULockFreeRingBufferQueue (one producer, one consumer) -/

/-- Program counter of the producer inside `push` (ULockFreeRingBufferQueue.h:36-47). -/
inductive ProdPc (α : Type) where
  | idle
  /-- after line 37/38: current tail loaded; spinning at line 40 -/
  | spin (curTail : Nat) (v : α)
  /-- the test at line 40 was false; about to write the slot (45) -/
  | write (curTail : Nat) (v : α)
  /-- slot written; about to store the tail (46) -/
  | publish (curTail : Nat) (v : α)
deriving DecidableEq

/-- Program counter of the consumer inside `tryPop` (ULockFreeRingBufferQueue.h:54-66). -/
inductive ConsPc (α : Type) where
  | idle
  /-- after line 55: head loaded -/
  | loaded (curHead : Nat)
  /-- line 56 found the queue non-empty; about to move the value out (61) -/
  | take (curHead : Nat)
  /-- value moved out; about to store the head (64) -/
  | publish (curHead : Nat) (v : Option α)
deriving DecidableEq

/-- Shared memory plus the two program counters; `pushed`/`popped`/`fails` are histories (ghost).
Simplifications: sequentially consistent memory; the slot type is `Option α` (the source declares
`vector<unique_ptr<T>>` and assigns a `T&&`, which is only well typed for pointer-like `T`). -/
structure LfRing (α : Type) where
  head : Nat
  tail : Nat
  buf : Nat → Option α
  prod : ProdPc α
  cons : ConsPc α
  pushed : List α
  popped : List (Option α)

/-- Scheduler choices: who moves, and which value a new `push` call brings. -/
inductive LfAct (α : Type) where
  | startPush (v : α)
  | prodStep
  | startPop
  | consStep
deriving DecidableEq

namespace LfRing
variable {α : Type}

/-- ULockFreeRingBufferQueue.h:22-26 constructor. -/
def init : LfRing α := ⟨0, 0, fun _ => none, .idle, .idle, [], []⟩

/-- One micro-step (one shared memory access) of ULockFreeRingBufferQueue.h:36-47 / 54-66.  A step that
does not apply leaves the state unchanged. -/
def step (cap : Nat) (s : LfRing α) : LfAct α → LfRing α
  | .startPush v =>
    match s.prod with
    | .idle => { s with prod := .spin s.tail v }
    | _ => s
  | .prodStep =>
    match s.prod with
    | .idle => s
    | .spin t v => if (t + 1) % cap = s.head then s else { s with prod := .write t v }
    | .write t v =>
      { s with buf := fun i => if i = t then some v else s.buf i, prod := .publish t v }
    | .publish t v => { s with tail := (t + 1) % cap, prod := .idle, pushed := s.pushed ++ [v] }
  | .startPop =>
    match s.cons with
    | .idle => { s with cons := .loaded s.head }
    | _ => s
  | .consStep =>
    match s.cons with
    | .idle => s
    | .loaded h => if h = s.tail then { s with cons := .idle } else { s with cons := .take h }
    | .take h =>
      { s with buf := fun i => if i = h then none else s.buf i, cons := .publish h (s.buf h) }
    | .publish h v => { s with head := (h + 1) % cap, cons := .idle, popped := s.popped ++ [v] }

/-- Run a schedule. -/
def run (cap : Nat) (s : LfRing α) (l : List (LfAct α)) : LfRing α := l.foldl (step cap) s

end LfRing

/-! ## UWorkStealingQueue -/

/-- UWorkStealingQueue.h:185-186 (front = head of the list).  All bodies run under `mutex_`; whether the
unlocked `empty()` pre-check and `try_lock` succeed is an oracle input. -/
abbrev WsQueue (α : Type) := List α

namespace WsQueue
variable {α : Type}

/-- UWorkStealingQueue.h:26-35 `push` (retries until the lock is taken). -/
def push (q : WsQueue α) (v : α) : WsQueue α := q ++ [v]

/-- UWorkStealingQueue.h:61-69 `tryPush`. -/
def tryPush (locked : Bool) (q : WsQueue α) (v : α) : WsQueue α × Bool :=
  if locked then (q ++ [v], true) else (q, false)

/-- UWorkStealingQueue.h:76-87 batch `push`. -/
def pushAll (q : WsQueue α) (vs : List α) : WsQueue α := q ++ vs

/-- UWorkStealingQueue.h:95-108 `tryPop`; `pre` is the outcome of `!deque_.empty() && try_lock()`. -/
def tryPop (pre : Bool) (q : WsQueue α) : WsQueue α × Option α :=
  if pre then
    match q with
    | [] => ([], none)
    | x :: q => (q, some x)
  else (q, none)

/-- UWorkStealingQueue.h:137-149 `trySteal` (takes the back). -/
def trySteal (pre : Bool) (q : WsQueue α) : WsQueue α × Option α :=
  if pre then
    match q.getLast? with
    | none => (q, none)
    | some x => (q.dropLast, some x)
  else (q, none)

/-- UWorkStealingQueue.h:120-124: the batch loop `while (!empty && n--)`; `n` is a C++ `int`, so a
negative `n` never stops the loop. -/
def popLoop (q : WsQueue α) (n : Int) (acc : List α) : WsQueue α × List α :=
  match q with
  | [] => ([], acc)
  | x :: q => if n = 0 then (x :: q, acc) else popLoop q (n - 1) (acc ++ [x])

/-- UWorkStealingQueue.h:117-129 batch `tryPop`: remaining queue and the values appended. -/
def tryPopN (pre : Bool) (q : WsQueue α) (n : Int) : WsQueue α × List α :=
  if pre then popLoop q n [] else (q, [])

/-- UWorkStealingQueue.h:161-165: batch steal loop on the reversed queue (back first). -/
def stealLoop (r : List α) (n : Int) (acc : List α) : List α × List α :=
  match r with
  | [] => ([], acc)
  | x :: r => if n = 0 then (x :: r, acc) else stealLoop r (n - 1) (acc ++ [x])

/-- UWorkStealingQueue.h:158-170 batch `trySteal`. -/
def tryStealN (pre : Bool) (q : WsQueue α) (n : Int) : WsQueue α × List α :=
  if pre then
    let r := stealLoop q.reverse n []
    (r.1.reverse, r.2)
  else (q, [])

end WsQueue

/-! ## UAtomicQueue -/

/-- UAtomicQueue.h:170-172. -/
structure AQueue (α : Type) where
  queue : List α
  ready : Bool
deriving DecidableEq

namespace AQueue
variable {α : Type}

/-- UAtomicQueue.h:25,171-172 default construction. -/
def init : AQueue α := ⟨[], true⟩

/-- UAtomicQueue.h:118-130 `push`. -/
def push (q : AQueue α) (v : α) : AQueue α := { q with queue := q.queue ++ [v] }

/-- UAtomicQueue.h:44-56 `tryPop`; `pre` = outcome of `!queue_.empty() && mutex_.try_lock()`. -/
def tryPop (pre : Bool) (q : AQueue α) : AQueue α × Option α :=
  if pre then
    match q.queue with
    | [] => (q, none)
    | x :: r => ({ q with queue := r }, some x)
  else (q, none)

/-- UAtomicQueue.h:68-72: loop `while (!empty && n-- > 0)`. -/
def popLoop (q : List α) (n : Int) (acc : List α) : List α × List α :=
  match q with
  | [] => ([], acc)
  | x :: q => if n > 0 then popLoop q (n - 1) (acc ++ [x]) else (x :: q, acc)

/-- UAtomicQueue.h:65-77 batch `tryPop`. -/
def tryPopN (pre : Bool) (q : AQueue α) (n : Int) : AQueue α × List α :=
  if pre then
    let r := popLoop q.queue n []
    ({ q with queue := r.1 }, r.2)
  else (q, [])

/-- UAtomicQueue.h:84-98 `popWithTimeout`, at the moment the wait ends: `timedOut` says that the
predicate was still false when the time was over. -/
def popWithTimeout (timedOut : Bool) (q : AQueue α) : AQueue α × Option α :=
  if timedOut then (q, none)
  else
    match q.queue with
    | [] => (q, none)
    | x :: r => if q.ready then ({ q with queue := r }, some x) else (q, none)

/-- UAtomicQueue.h:147-153 `reset`. -/
def reset (q : AQueue α) : AQueue α := { q with ready := false }

/-- UAtomicQueue.h:160-166 `setup`: discards the contents. -/
def setup (_q : AQueue α) : AQueue α := ⟨[], true⟩

end AQueue

/-! ## UAtomicPriorityQueue -/

/-- An entry of the priority queue: `std::unique_ptr<T>` at heap address `addr`, pointing to a task with
its priority (UAtomicPriorityQueue.h:70-74). -/
structure PqEntry (α : Type) where
  addr : Nat
  prio : Int
  val : α
deriving DecidableEq, Repr

/-- UAtomicPriorityQueue.h:89: `std::priority_queue<std::unique_ptr<T>>` with the default comparator
`std::less<std::unique_ptr<T>>`, which compares the addresses.  The heap is modelled by the multiset of
its entries (a list). -/
abbrev PQueue (α : Type) := List (PqEntry α)

namespace PQueue
variable {α : Type} [DecidableEq α]

/-- UAtomicPriorityQueue.h:70-74 `push`; `addr` is where the allocator put the task. -/
def push (q : PQueue α) (addr : Nat) (prio : Int) (v : α) : PQueue α := q ++ [⟨addr, prio, v⟩]

/-- `priority_queue_.top()` (UAtomicPriorityQueue.h:32): an entry that is maximal for `std::less` on
addresses. -/
def top : PQueue α → Option (PqEntry α)
  | [] => none
  | e :: q =>
    match top q with
    | none => some e
    | some m => if e.addr < m.addr then some m else some e

/-- UAtomicPriorityQueue.h:28-40 `tryPop` with the lock obtained (`pre`). -/
def tryPop (pre : Bool) (q : PQueue α) : PQueue α × Option (PqEntry α) :=
  if pre then
    match top q with
    | none => (q, none)
    | some m => (q.erase m, some m)
  else (q, none)

end PQueue

/-- src/UtilsCtrl/ThreadPool/Task/UTask.h:62-64 `operator<` on the priorities (unused by the queue). -/
def UTask.lt (a b : Int) : Bool := decide (a ≥ b)

/-! ## USemaphore -/

/-- USemaphore.h:43-46; `sleeping` are the threads blocked in `wait`, `done` the completed waits and
`signals` the signals so far (histories). -/
structure Sema where
  cnt : Int
  sleeping : List Nat
  done : List Nat
  signals : Nat
deriving DecidableEq, Repr

/-- What can happen to a semaphore: a call, or the scheduler letting a notified (or spuriously woken)
thread re-evaluate its predicate. -/
inductive SemaAct where
  | signal (wake : Option Nat)
  | wait (t : Nat)
  | spurious (t : Nat)
deriving DecidableEq

namespace Sema

/-- Initial semaphore (USemaphore.h:44). -/
def init : Sema := ⟨0, [], [], 0⟩

/-- A sleeping thread re-evaluates the predicate `cnt_ < 0` (USemaphore.h:38-40). -/
def recheck (s : Sema) (t : Nat) : Sema :=
  if t ∈ s.sleeping ∧ s.cnt < 0 then
    { s with sleeping := s.sleeping.erase t, done := t :: s.done }
  else s

/-- USemaphore.h:24-30 `signal` (with the thread chosen by `notify_one`, which re-checks its predicate)
and 35-41 `wait`. -/
def step (s : Sema) : SemaAct → Sema
  | .signal wake =>
    let s' : Sema := { s with cnt := s.cnt + 1, signals := s.signals + 1 }
    if s'.cnt ≤ 0 then
      match wake with
      | some t => recheck s' t
      | none => s'
    else s'
  | .wait t =>
    let s' : Sema := { s with cnt := s.cnt - 1 }
    if s'.cnt < 0 then { s' with done := t :: s'.done } else { s' with sleeping := t :: s'.sleeping }
  | .spurious t => recheck s t

end Sema

/-! ## USpinLock -/

/-- Where a thread is with respect to the lock. -/
inductive SpinPc where
  | outside | spinning | holding
deriving DecidableEq, Repr

/-- USpinLock.h:46 and the program counters of the threads. -/
structure Spin where
  flag : Bool
  pc : Nat → SpinPc

/-- A thread's action: enter `lock()`, one `test_and_set` inside the loop, `tryLock()`, `unlock()`. -/
inductive SpinAct where
  | enter (t : Nat)
  | tas (t : Nat)
  | tryLock (t : Nat)
  | unlock (t : Nat)
deriving DecidableEq

namespace Spin

/-- Initial lock (`ATOMIC_FLAG_INIT`). -/
def init : Spin := ⟨false, fun _ => .outside⟩

/-- Set one thread's program counter. -/
def setPc (s : Spin) (t : Nat) (p : SpinPc) : Spin :=
  { s with pc := fun u => if u = t then p else s.pc u }

/-- USpinLock.h:23-27 `lock` (one iteration per step), 41-43 `tryLock`, 32-35 `unlock`.
Threads unlock only when they hold the lock (documented usage). -/
def step (s : Spin) : SpinAct → Spin
  | .enter t => if s.pc t = .outside then s.setPc t .spinning else s
  | .tas t =>
    if s.pc t = .spinning then
      (if s.flag then s else { s.setPc t .holding with flag := true })
    else s
  | .tryLock t =>
    if s.pc t = .outside then
      (if s.flag then s else { s.setPc t .holding with flag := true })
    else s
  | .unlock t => if s.pc t = .holding then { s.setPc t .outside with flag := false } else s

/-- Run a schedule. -/
def run (l : List SpinAct) : Spin := l.foldl step init

end Spin
end CGraph
