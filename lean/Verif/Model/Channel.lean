import Verif.Model.Queues

/-! # A message channel used by many threads: blocked senders and receivers

`Ring` has one atomic step per call.  Here a call is several steps: it may sleep on a condition variable, be woken, and
it notifies after it has released the mutex.

Simplified: what happens between locking and unlocking `mutex_` is one step; `clear` and `setCapacity` are not called
while the channel is in use. -/
namespace CGraph.Chan

/-- Where a thread is. -/
inductive ChPc (α : Type) where
  /-- not in a call -/
  | idle
  /-- UAtomicRingBufferQueue.h:65, about to lock -/
  | send (v : α) (s : PushStrategy)
  /-- 69, asleep on `push_cv_` -/
  | sendSleep (v : α)
  /-- 69, woken, about to lock again and to test `!isFull()` -/
  | sendWoken (v : α)
  /-- 82, the mutex is released, about to notify `pop_cv_` -/
  | tellRecv
  /-- 96, about to lock -/
  | recv
  /-- 98, asleep on `pop_cv_` -/
  | recvSleep
  /-- 98-99, woken before the time is over, about to lock again and to test `!isEmpty()` -/
  | recvWoken
  /-- 98-99, the time is over, about to lock again and to test `!isEmpty()` a last time -/
  | recvLate
  /-- 107, the mutex is released, about to notify `push_cv_` -/
  | tellSend
deriving DecidableEq

/-- What became of a call (recorded where it takes effect, under the mutex). -/
inductive ChEv (α : Type) where
  /-- a send -/
  | sent (v : α) (s : PushStrategy) (o : Ring.PushOut)
  /-- a receive got what the slot held -/
  | got (v : Option α)
  /-- a receive gave up -/
  | timeout
deriving DecidableEq

/-- The channel and its threads. -/
structure ChSt (α : Type) where
  ring : Ring α
  pc : Nat → ChPc α
  log : List (Nat × ChEv α)

/-- Who moves. -/
inductive ChAct (α : Type) where
  /-- thread `t` calls `push` -/
  | callSend (t : Nat) (v : α) (s : PushStrategy)
  /-- thread `t` calls `waitPopWithTimeout` -/
  | callRecv (t : Nat)
  /-- thread `t` goes on; if it notifies, `k` is the thread that is woken if that one sleeps there -/
  | step (t k : Nat)
  /-- a sleeping thread wakes up without notification -/
  | spurious (t : Nat)
  /-- the time of a sleeping receiver is over -/
  | expire (t : Nat)

variable {α : Type}

/-- Asleep on `push_cv_`. -/
def ChPc.inPush : ChPc α → Bool
  | .sendSleep _ => true
  | _ => false

/-- Asleep on `pop_cv_`. -/
def ChPc.inPop : ChPc α → Bool
  | .recvSleep => true
  | _ => false

/-- A sleeping thread after its wake-up. -/
def ChPc.woken : ChPc α → ChPc α
  | .sendSleep v => .sendWoken v
  | .recvSleep => .recvWoken
  | p => p

namespace ChSt

/-- Thread `t` is at `p`. -/
def setPc (s : ChSt α) (t : Nat) (p : ChPc α) : ChSt α := { s with pc := fun k => if k = t then p else s.pc k }

/-- The thread that `notify_one` wakes: any that sleeps there. -/
def pick (n : Nat) (s : ChSt α) (on : ChPc α → Bool) (k : Nat) : Option Nat :=
  if k < n ∧ on (s.pc k) = true then some k else (List.range n).find? fun i => on (s.pc i)

/-- `notify_one` (UAtomicRingBufferQueue.h:82, 107). -/
def notify (n : Nat) (s : ChSt α) (on : ChPc α → Bool) (k : Nat) : ChSt α :=
  match s.pick n on k with
  | none => s
  | some i => s.setPc i (s.pc i).woken

/-- UAtomicRingBufferQueue.h:64-81: a sender holds the mutex. -/
def doSend (s : ChSt α) (t : Nat) (v : α) (st : PushStrategy) : Option (ChSt α) :=
  match s.ring.push v st with
  | none => none
  | some (_, .blocked) => some (s.setPc t (.sendSleep v))
  | some (q, .dropped) => some ({ s with ring := q, log := s.log ++ [(t, ChEv.sent v st .dropped)] }.setPc t .idle)
  | some (q, o) => some ({ s with ring := q, log := s.log ++ [(t, ChEv.sent v st o)] }.setPc t .tellRecv)

/-- UAtomicRingBufferQueue.h:95-106: a receiver holds the mutex; `late` if its time is over. -/
def doRecv (s : ChSt α) (t : Nat) (late : Bool) : Option (ChSt α) :=
  match s.ring.pop with
  | none => none
  | some (q, none) =>
    if late then some ({ s with ring := q, log := s.log ++ [(t, ChEv.timeout)] }.setPc t .idle)
    else some (s.setPc t .recvSleep)
  | some (q, some v) => some ({ s with ring := q, log := s.log ++ [(t, ChEv.got v)] }.setPc t .tellSend)

/-- One step of one of `n` threads; `none` = not possible now. -/
def step (n : Nat) (s : ChSt α) : ChAct α → Option (ChSt α)
  | .callSend t v st => if t < n then (match s.pc t with | .idle => some (s.setPc t (.send v st)) | _ => none) else none
  | .callRecv t => if t < n then (match s.pc t with | .idle => some (s.setPc t .recv) | _ => none) else none
  | .step t k =>
    if t < n then
      match s.pc t with
      | .send v st => s.doSend t v st
      | .sendWoken v => s.doSend t v .WAIT
      | .tellRecv => some ((s.setPc t .idle).notify n ChPc.inPop k)
      | .recv => s.doRecv t false
      | .recvWoken => s.doRecv t false
      | .recvLate => s.doRecv t true
      | .tellSend => some ((s.setPc t .idle).notify n ChPc.inPush k)
      | _ => none
    else none
  | .spurious t =>
    if t < n ∧ ((s.pc t).inPush || (s.pc t).inPop) = true then some (s.setPc t (s.pc t).woken) else none
  | .expire t => if t < n ∧ (s.pc t).inPop = true then some (s.setPc t .recvLate) else none

/-- A fresh channel of the given size (GMessage.h:23-27); nobody is in a call. -/
def init (size : Nat) : ChSt α := ⟨Ring.create size, fun _ => .idle, []⟩

/-- The states of an infinite schedule; impossible steps are skipped. -/
def trace (n size : Nat) (σ : Nat → ChAct α) : Nat → ChSt α
  | 0 => init size
  | m + 1 => ((trace n size σ m).step n (σ m)).getD (trace n size σ m)

end ChSt
end CGraph.Chan
