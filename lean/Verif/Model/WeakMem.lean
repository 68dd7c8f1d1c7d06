import Verif.Spec.WeakMem

/-! # The lock-free ring and the spin lock on memory with out-of-date reads

Every step appends the operations on shared memory that the code performs to a log; a load takes the position that it reads from as
an oracle.  Which logs are possible is said by `Spec.Coherent`. -/
namespace CGraph
open Spec

/-! ### ULockFreeRingBufferQueue, one producer (thread 0) and one consumer (thread 1) -/

/-- `head_` and `tail_` (ULockFreeRingBufferQueue.h:70-71); `ext n` are other atomics by which threads tell each other things. -/
inductive RLoc where
  | head
  | tail
  | ext (n : Nat)
deriving DecidableEq

abbrev RAct := WAct RLoc Nat Nat

/-- Inside `push` (ULockFreeRingBufferQueue.h:36-47). -/
inductive RProd (α : Type) where
  | idle
  | spin (t : Nat) (v : α)
  | write (t : Nat) (v : α)
  | publish (t : Nat) (v : α)
deriving DecidableEq

/-- Inside `tryPop` (ULockFreeRingBufferQueue.h:54-66). -/
inductive RCons (α : Type) where
  | idle
  | loaded (h : Nat)
  | take (h : Nat)
  | publish (h : Nat) (v : Option α)
deriving DecidableEq

/-- Ring, both threads, histories and the log.  `fails` are the positions of the loads after which `tryPop` returned false.  The slot type is `Option α` as in `LfRing`. -/
structure WRing (α : Type) where
  buf : Nat → Option α
  prod : RProd α
  cons : RCons α
  pushed : List α
  popped : List (Option α)
  fails : List Nat
  log : List RAct

/-- Who moves; `src` is what the load of this step, if any, reads from. -/
inductive WRAct (α : Type) where
  | startPush (v : α) (src : Option Nat)
  | prodStep (src : Option Nat)
  | startPop (src : Option Nat)
  | consStep (src : Option Nat)
  /-- thread `t` tells something with a release store, outside of `push` and `tryPop` -/
  | signal (t n : Nat)
  /-- thread `t` hears something with an acquire load -/
  | wait (t n : Nat) (src : Option Nat)

namespace WRing
variable {α : Type}

/-- ULockFreeRingBufferQueue.h:22-26 constructor: both indices are 0 before the threads start. -/
def init : WRing α := ⟨fun _ => none, .idle, .idle, [], [], [], []⟩

/-- The value a load returns. -/
def val (log : List RAct) : Option Nat → Nat
  | none => 0
  | some i => match log[i]? with
    | some ⟨_, .store _ _ v⟩ => v
    | _ => 0

/-- Thread `t` performs operations. -/
def put (s : WRing α) (t : Nat) (ops : List (WOp RLoc Nat Nat)) : WRing α :=
  { s with log := s.log ++ ops.map (fun o => ⟨t, o⟩) }

/-- The thread is not inside `push` or `tryPop`; threads other than 0 and 1 never are. -/
def outside (s : WRing α) (t : Nat) : Bool :=
  (t ≠ 0 || match s.prod with | .idle => true | _ => false) && (t ≠ 1 || match s.cons with | .idle => true | _ => false)

/-- One access of ULockFreeRingBufferQueue.h:36-47 / 54-66, with the memory order written there. -/
def step (cap : Nat) (s : WRing α) : WRAct α → WRing α
  | .startPush v src =>
    match s.prod with
    -- 37 relaxed
    | .idle => { s.put 0 [.load .tail false src (val s.log src)] with prod := .spin (val s.log src) v }
    | _ => s
  | .prodStep src =>
    match s.prod with
    | .idle => s
    -- 40 acquire
    | .spin t v =>
      let s' := s.put 0 [.load .head true src (val s.log src)]
      if (t + 1) % cap = val s.log src then s' else { s' with prod := .write t v }
    -- 45: the old pointer is replaced
    | .write t v =>
      { s.put 0 [.write t] with buf := fun i => if i = t then some v else s.buf i, prod := .publish t v }
    -- 46 release
    | .publish t v =>
      { s.put 0 [.store .tail true ((t + 1) % cap)] with prod := .idle, pushed := s.pushed ++ [v] }
  | .startPop src =>
    match s.cons with
    -- 55 relaxed
    | .idle => { s.put 1 [.load .head false src (val s.log src)] with cons := .loaded (val s.log src) }
    | _ => s
  | .consStep src =>
    match s.cons with
    | .idle => s
    -- 56 acquire
    | .loaded h =>
      let s' := s.put 1 [.load .tail true src (val s.log src)]
      if h = val s.log src then { s' with cons := .idle, fails := s.fails ++ [s.log.length] } else { s' with cons := .take h }
    -- 61: moving out reads the pointer and leaves null
    | .take h =>
      { s.put 1 [.read h, .write h] with
        buf := fun i => if i = h then none else s.buf i, cons := .publish h (s.buf h) }
    -- 63-64 release
    | .publish h v =>
      { s.put 1 [.store .head true ((h + 1) % cap)] with cons := .idle, popped := s.popped ++ [v] }
  | .signal t n => if s.outside t then s.put t [.store (.ext n) true 0] else s
  | .wait t n src => if s.outside t then s.put t [.load (.ext n) true src (val s.log src)] else s

/-- Run a schedule. -/
def run (cap : Nat) (s : WRing α) (l : List (WRAct α)) : WRing α := l.foldl (step cap) s

end WRing

/-! ### USpinLock -/

abbrev SpAct := WAct Unit Nat Bool

/-- What threads do with the lock and with the memory that it protects. -/
inductive SpOp where
  /-- one `test_and_set` of `lock` (USpinLock.h:25) -/
  | lock (t : Nat) (src : Option Nat)
  /-- `tryLock` (USpinLock.h:41-43) -/
  | tryLock (t : Nat) (src : Option Nat)
  /-- `unlock` (USpinLock.h:32-35) -/
  | unlock (t : Nat)
  /-- memory is read -/
  | read (t : Nat) (c : Nat)
  /-- memory is written -/
  | write (t : Nat) (c : Nat)

/-- `holds t`: thread `t` has got the lock and has not called `unlock`.  Nothing else is shared but the log. -/
structure SpSt where
  holds : Nat → Bool
  log : List SpAct

namespace SpSt

/-- USpinLock.h:46: the flag is clear. -/
def init : SpSt := ⟨fun _ => false, []⟩

/-- The value a `test_and_set` returns. -/
def val (log : List SpAct) : Option Nat → Bool
  | none => false
  | some i => match log[i]? with
    | some ⟨_, .store _ _ v⟩ => v
    | some ⟨_, .rmw _ _ _ _ _ v⟩ => v
    | _ => false

/-- One operation.  The lock is used as intended: a thread that has the lock does not lock again, only it unlocks, and the memory is
touched only by a thread that has the lock; other requests are skipped. -/
def step (s : SpSt) : SpOp → SpSt
  -- 25: acquire; the loop goes on while the flag was set
  | .lock t src =>
    if s.holds t then s
    else
      let old := val s.log src
      { holds := fun u => if u = t then !old else s.holds u,
        log := s.log ++ [⟨t, .rmw () true false src old true⟩] }
  -- 42: sequentially consistent
  | .tryLock t src =>
    if s.holds t then s
    else
      let old := val s.log src
      { holds := fun u => if u = t then !old else s.holds u,
        log := s.log ++ [⟨t, .rmw () true true src old true⟩] }
  -- 34: release
  | .unlock t =>
    if s.holds t then
      { holds := fun u => if u = t then false else s.holds u, log := s.log ++ [⟨t, .store () true false⟩] }
    else s
  | .read t c => if s.holds t then { s with log := s.log ++ [⟨t, .read c⟩] } else s
  | .write t c => if s.holds t then { s with log := s.log ++ [⟨t, .write c⟩] } else s

/-- Run a schedule. -/
def run (s : SpSt) (l : List SpOp) : SpSt := l.foldl step s

end SpSt
end CGraph
