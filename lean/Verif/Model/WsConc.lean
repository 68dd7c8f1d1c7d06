import Verif.Model.Queues

/-! # The work stealing queue, one access at a time

`WsQueue` treats every method as one step.  Here any number of threads execute the methods of
src/UtilsCtrl/ThreadPool/Queue/UWorkStealingQueue.h interleaved; each step of a thread accesses the deque or the mutex
at most once.

Simplified: steps are sequentially consistent (an unlocked access next to a writing one is a data race in C++; see
`Race`); copying and moving values never throws. -/
namespace CGraph.WsConc
variable {α : Type}

/-- A call of a method.  `batch vs` are the consecutive calls of `push(value, enable, lockable)` that one thread makes
for the values `vs` (GDynamicEngine.cpp:232-239; the first locks, the last unlocks). -/
inductive WqCall (α : Type) where
  /-- `push(value)` (UWorkStealingQueue.h:26-35) -/
  | push (v : α)
  /-- `tryPush(value)` (61-69) -/
  | tryPush (v : α)
  /-- `push(values)` (76-87) -/
  | pushAll (vs : List α)
  /-- `push(value, enable, lockable)` (45-53) for each value -/
  | batch (vs : List α)
  /-- `tryPop` (95-108), `trySteal` with `back` (137-149); with a batch size 117-129, 158-170 -/
  | rem (back : Bool) (size : Option Int)
  /-- `isEmpty` (177-179) -/
  | isEmpty
deriving DecidableEq

/-- What a call reported; `met` is not visible to the caller: another thread was in possession of the mutex. -/
inductive WqRes (α : Type) where
  /-- pushed, or not (only `tryPush`) -/
  | pushed (b : Bool)
  /-- the values removed -/
  | got (vs : List α) (met : Bool)
  /-- the answer of `isEmpty` -/
  | empty (b : Bool) (met : Bool)
deriving DecidableEq

/-- Where a thread is. -/
inductive WqPc (α : Type) where
  | idle
  /-- about to evaluate `deque_.empty()` without the mutex (98, 119, 139, 160, 178) -/
  | test (c : WqCall α)
  /-- about to take the mutex (28, 47, 63, 78, 98, 119, 139, 160) -/
  | lock (c : WqCall α)
  /-- inside, `todo` still to be emplaced (29, 49, 64, 79-81) -/
  | put (c : WqCall α) (todo : List α)
  /-- inside, about to evaluate `!deque_.empty() && n--` (99, 120, 140, 161); `acc` removed so far -/
  | look (back : Bool) (size : Option Int) (n : Int) (acc : List α)
  /-- inside, about to take the front or back (100-101, 121-122, 141-142, 162-163) -/
  | take (back : Bool) (size : Option Int) (n : Int) (acc : List α)
  /-- about to give the mutex back (30, 51, 65, 82, 104, 125, 145, 166) -/
  | unlock (c : WqCall α) (r : WqRes α)
deriving DecidableEq

/-- `mutex_` (UQueueObject.h:21), `deque_` (UWorkStealingQueue.h:186, front = head of the list), the threads; ghost: the calls
begun, and the calls that took effect, in this order. -/
structure WqSt (α : Type) where
  owner : Option Nat
  deque : List α
  pc : Nat → WqPc α
  calls : List (Nat × WqCall α)
  log : List (Nat × WqCall α × WqRes α)

/-- Thread `t` begins a call, or makes its next step. -/
inductive WqAct (α : Type) where
  | call (t : Nat) (c : WqCall α)
  | go (t : Nat)
deriving DecidableEq

/-- The first step of a call. -/
def WqCall.first : WqCall α → WqPc α
  | .push v => .lock (.push v)
  | .tryPush v => .lock (.tryPush v)
  | .pushAll vs => .lock (.pushAll vs)
  | .batch vs => .lock (.batch vs)
  | .rem b m => .test (.rem b m)
  | .isEmpty => .test .isEmpty

/-- The first step inside, with the mutex. -/
def WqCall.enter : WqCall α → WqPc α
  | .push v => .put (.push v) [v]
  | .tryPush v => .put (.tryPush v) [v]
  | .pushAll vs => .put (.pushAll vs) vs
  | .batch vs => .put (.batch vs) vs
  | .rem b m => .look b m (m.getD 0) []
  | .isEmpty => .idle

namespace WqSt

/-- No thread in a call, queue empty (UWorkStealingQueue.h:181). -/
def init : WqSt α := ⟨none, [], fun _ => .idle, [], []⟩

/-- Thread `t` goes on at `p`. -/
def setPc (s : WqSt α) (t : Nat) (p : WqPc α) : WqSt α := { s with pc := fun k => if k = t then p else s.pc k }

/-- Thread `t` returns; its call took effect now. -/
def finish (s : WqSt α) (t : Nat) (c : WqCall α) (r : WqRes α) : WqSt α :=
  { s.setPc t .idle with log := s.log ++ [(t, c, r)] }

/-- `mutex_.try_lock()`, or one attempt of `lock()`: `tryPush` and the removals give up when the mutex is taken (63, 98, 119, 139,
160), `push` yields and tries again (27-34, 77-86), `lock` waits (47). -/
def tryLock (s : WqSt α) (t : Nat) (c : WqCall α) : WqSt α :=
  match s.owner, c with
  | none, c => { s.setPc t c.enter with owner := some t }
  | some _, .tryPush v => s.finish t (.tryPush v) (.pushed false)
  | some _, .rem b m => s.finish t (.rem b m) (.got [] true)
  | some _, _ => s

/-- `!deque_.empty() && n--` (120, 161; `n` counts down from the batch size, 0 ends the loop) or `!deque_.empty()`
(99, 140). -/
def lookStep (s : WqSt α) (t : Nat) (b : Bool) (m : Option Int) (n : Int) (acc : List α) : WqSt α :=
  if s.deque.isEmpty then s.setPc t (.unlock (.rem b m) (.got acc false))
  else match m with
    | none => s.setPc t (.take b m n acc)
    | some _ => if n = 0 then s.setPc t (.unlock (.rem b m) (.got acc false)) else s.setPc t (.take b m (n - 1) acc)

/-- `deque_.front()`, `pop_front()`, or `back()`, `pop_back()`; on to the end (103, 144) or the next test (120, 161). -/
def takeStep (s : WqSt α) (t : Nat) (b : Bool) (m : Option Int) (n : Int) (acc : List α) : WqSt α :=
  match (if b then s.deque.getLast? else s.deque.head?) with
  | none => s
  | some x =>
    { s.setPc t (match m with
        | none => .unlock (.rem b m) (.got (acc ++ [x]) false)
        | some _ => .look b m n (acc ++ [x])) with
      deque := if b then s.deque.dropLast else s.deque.tail }

/-- The next step of thread `t`. -/
def go (s : WqSt α) (t : Nat) : WqSt α :=
  match s.pc t with
  | .idle => s
  | .test (.rem b m) =>
    if s.deque.isEmpty then s.finish t (.rem b m) (.got [] s.owner.isSome) else s.setPc t (.lock (.rem b m))
  | .test c => s.finish t c (.empty s.deque.isEmpty s.owner.isSome)
  | .lock c => s.tryLock t c
  | .put c (v :: vs) => { s.setPc t (.put c vs) with deque := s.deque ++ [v] }
  | .put c [] => s.setPc t (.unlock c (.pushed true))
  | .look b m n acc => s.lookStep t b m n acc
  | .take b m n acc => s.takeStep t b m n acc
  | .unlock c r => { s.finish t c r with owner := none }

/-- One step; a thread inside a call begins no other. -/
def step (s : WqSt α) : WqAct α → WqSt α
  | .call t c => if s.pc t matches .idle then { s.setPc t c.first with calls := s.calls ++ [(t, c)] } else s
  | .go t => s.go t

/-- A schedule. -/
def run (l : List (WqAct α)) : WqSt α := l.foldl step init

end WqSt

/-- How a step accesses the deque. -/
inductive Access where
  | none
  | read
  | write
deriving DecidableEq

/-- The access of the next step at `p`. -/
def WqPc.access : WqPc α → Access
  | .test _ => .read
  | .put _ (_ :: _) => .write
  | .look .. => .read
  | .take .. => .write
  | _ => .none

end CGraph.WsConc
