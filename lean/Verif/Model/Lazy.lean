import Verif.Spec.WeakMem

/-! # A singleton created at the first use, by many threads

`src/UtilsCtrl/Singleton/USingleton.h` with `USingletonType::LAZY`, as `GMessageManagerSingleton` has it
(src/GraphCtrl/GraphMessage/GMessageManagerSingleton.h:17-29, .cpp:20).  Every step appends the operations on shared memory that the
code performs to a log; a load takes the position that it reads from as an oracle.  Which logs are possible is said by
`Spec.Coherent`.

Simplified: `handle_` is a plain pointer, so that unordered accesses of it already have no meaning in C++; here it behaves like an
atomic with relaxed accesses, which is what compilers make of it at best.  The object is one memory cell, written by its
constructor.  The destructor of `USingleton` (86-91), run when the program ends, is left out. -/
namespace CGraph.Lazy
open Spec

/-- `lock_` and `handle_` (USingleton.h:96-97); `ext n` are other atomics by which threads tell each other things. -/
inductive LzLoc where
  | mtx
  | handle
  | ext (n : Nat)
deriving DecidableEq

abbrev LzOp := WOp LzLoc Nat Nat

/-- Where a thread is in `get` (USingleton.h:41-48) and `create` (73-80). -/
inductive LzPc where
  | out
  /-- 75, about to lock -/
  | lock
  /-- 76 -/
  | test
  /-- 77, about to allocate and construct -/
  | make
  /-- 77, about to assign -/
  | store (p : Nat)
  /-- 79, end of the lock's scope -/
  | unlock
  /-- 46 -/
  | last
deriving DecidableEq

/-- Between locking and unlocking. -/
def LzPc.inSec : LzPc → Bool
  | .test | .make | .store _ | .unlock => true
  | _ => false

/-- `owner` of the mutex, position of the last unlock, number of objects made, what `get` returned to each thread (`results`, ghost,
and the last of each thread in `known`), and the log. -/
structure LzSt where
  pc : Nat → LzPc
  owner : Option Nat
  lastUnlock : Option Nat
  made : Nat
  known : Nat → Option Nat
  results : List (Nat × Nat)
  log : List (WAct LzLoc Nat Nat)

/-- Who moves; `src` is what the load of this step, if any, reads from. -/
inductive LzAct where
  /-- thread `t` calls `get`, or goes on in it -/
  | go (t : Nat) (src : Option Nat)
  /-- thread `t` uses the object that it got -/
  | use (t : Nat)
  /-- thread `t`, outside of `get`, tells something with a release store -/
  | signal (t n : Nat)
  /-- thread `t`, outside of `get`, hears something with an acquire load -/
  | wait (t n : Nat) (src : Option Nat)

namespace LzSt

/-- USingleton.h:96: no object. -/
def init : LzSt := ⟨fun _ => .out, none, none, 0, fun _ => none, [], []⟩

/-- The value a load returns. -/
def val (log : List (WAct LzLoc Nat Nat)) : Option Nat → Nat
  | none => 0
  | some i => match log[i]? with
    | some ⟨_, .store _ _ v⟩ => v
    | _ => 0

/-- Thread `t` performs an operation and is at `p`. -/
def put (s : LzSt) (t : Nat) (o : LzOp) (p : LzPc) : LzSt :=
  { s with log := s.log ++ [⟨t, o⟩], pc := fun u => if u = t then p else s.pc u }

/-- One access. -/
def step (s : LzSt) : LzAct → LzSt
  | .go t src =>
    match s.pc t with
    -- USingleton.h:74
    | .out => s.put t (.load .handle false src (val s.log src)) (if val s.log src = 0 then .lock else .last)
    -- 75: waits while another thread has the mutex; the last unlock synchronises with it
    | .lock =>
      match s.owner with
      | none => { s.put t (.rmw .mtx true false s.lastUnlock 0 1) .test with owner := some t }
      | some _ => s
    -- 76
    | .test => s.put t (.load .handle false src (val s.log src)) (if val s.log src = 0 then .make else .unlock)
    -- 77: a new address
    | .make => { s.put t (.write (s.made + 1)) (.store (s.made + 1)) with made := s.made + 1 }
    -- 77
    | .store p => s.put t (.store .handle false p) .unlock
    -- 79
    | .unlock => { s.put t (.store .mtx true 0) .last with owner := none, lastUnlock := some s.log.length }
    -- 46-47
    | .last =>
      { s.put t (.load .handle false src (val s.log src)) .out with
        known := fun u => if u = t then some (val s.log src) else s.known u, results := s.results ++ [(t, val s.log src)] }
  | .use t =>
    match s.pc t, s.known t with
    | .out, some p => s.put t (.read p) .out
    | _, _ => s
  | .signal t n => if s.pc t = .out then s.put t (.store (.ext n) true 0) .out else s
  | .wait t n src => if s.pc t = .out then s.put t (.load (.ext n) true src (val s.log src)) .out else s

/-- Run a schedule. -/
def run (s : LzSt) (l : List LzAct) : LzSt := l.foldl step s

end LzSt
end CGraph.Lazy
