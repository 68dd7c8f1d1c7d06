import Verif.Model.Param

/-! # The parameter manager used by many threads, one access at a time

`PStore` treats every call as one step.  Here any number of threads execute `create`, `get`, `removeByKey`, `getKeys`, `clear`
(src/GraphCtrl/GraphParam/GParamManager.{inl,cpp}) interleaved, `get` together with what `getGParam` of the wrapper does after it
(GParamManagerWrapper.h:43-51).  Each step of a thread accesses the map, an object or a mutex at most once.

Simplified: steps are sequentially consistent (an unlocked access next to a writing one is a data race in C++, see
`Race`); looking a key up is one step, and so is modifying the map; `concerned_params_` belongs to the calling element and is left
out; after an access to a freed object nothing is said any more (`bad`).  `CGRAPH_DELETE_PTR` (UtilsDefine.h:91-95) also
overwrites the pointer in the map with null just before the entry is erased or the map is cleared; this is part of
the erasing step: who finds the entry in between dereferences freed memory here, freed memory or null in the code. -/
namespace CGraph.ParamConc

/-- A call. -/
inductive PmCall where
  /-- `create<ty>(key, bt)` -/
  | create (ty : Nat) (key : String) (bt : Bool)
  /-- `removeByKey(key)` -/
  | remove (key : String)
  /-- `getKeys()` -/
  | keys
  /-- `clear()` -/
  | clear
  /-- `getGParam<ty>(key)` by an element with this name (or session) -/
  | get (name : String) (ty : Nat) (key : String)
deriving DecidableEq

/-- What a call returns: whether the status is OK, the keys, or a pointer. -/
inductive PmRes where
  | done (b : Bool)
  | keys (l : List String)
  | ptr (p : Option Nat)
deriving DecidableEq

/-- Where a thread is. -/
inductive PmPc where
  | idle
  /-- about to take `mutex_` (GParamManager.inl:22, GParamManager.cpp:50,79,93) -/
  | lock (c : PmCall)
  /-- about to read the map: `find` (GParamManager.inl:23,42, GParamManager.cpp:80), the keys (94-97), the pointers (51) -/
  | find (c : PmCall)
  /-- `create`, about to compare the type of the object found (GParamManager.inl:27) -/
  | type (ty : Nat) (key : String) (bt : Bool) (p : Nat)
  /-- `create`, about to make the object (GParamManager.inl:31-33) -/
  | alloc (ty : Nat) (key : String) (bt : Bool)
  /-- `create`, about to insert it (GParamManager.inl:34) -/
  | insert (ty : Nat) (key : String) (bt : Bool) (p : Nat)
  /-- `removeByKey`, about to delete the object (GParamManager.cpp:85) -/
  | del (key : String) (p : Nat)
  /-- `removeByKey`, about to erase the entry (GParamManager.cpp:86) -/
  | erase (key : String)
  /-- `clear`, these objects still to be deleted (GParamManager.cpp:51-53), then the map is cleared (55) -/
  | wipe (ps : List Nat)
  /-- about to give `mutex_` back and return -/
  | unlock (c : PmCall) (r : PmRes)
  /-- `get`, about to compare the type of the object found (GParamManager.inl:52) -/
  | gType (name : String) (ty : Nat) (key : String) (p : Nat)
  /-- `addBacktrace`, about to read the flag (GParam.cpp:28) -/
  | gFlag (name : String) (ty : Nat) (key : String) (p : Nat)
  /-- `addBacktrace`, about to take the spin lock (GParam.cpp:32) -/
  | gSpin (name : String) (ty : Nat) (key : String) (p : Nat)
  /-- `addBacktrace`, about to add the name (GParam.cpp:33) -/
  | gAdd (name : String) (ty : Nat) (key : String) (p : Nat)
  /-- `addBacktrace`, about to give the spin lock back (GParam.cpp:34) -/
  | gFree (name : String) (ty : Nat) (key : String) (p : Nat)
deriving DecidableEq

/-- `mutex_`, `params_map_` (GParamManager.h:82-83), the objects (`live` until deleted; `next` is the next address), the owner of
`backtrace_lock_` of each object (GParam.h:91), the threads; `bad`: a freed object was accessed.  Ghost: the calls begun, the calls
that took effect, and the calls that returned, in this order. -/
structure PmSt where
  owner : Option Nat
  map : List (String × Nat)
  obj : Nat → PObj
  live : Nat → Bool
  next : Nat
  spin : Nat → Option Nat
  pc : Nat → PmPc
  bad : Bool
  calls : List (Nat × PmCall)
  log : List (Nat × PmCall × PmRes)
  rets : List (Nat × PmCall × PmRes)

/-- Thread `t` begins a call, or makes its next step. -/
inductive PmAct where
  | call (t : Nat) (c : PmCall)
  | go (t : Nat)
deriving DecidableEq

/-- The first step of a call: all but `get` lock. -/
def PmCall.first : PmCall → PmPc
  | .get n ty k => .find (.get n ty k)
  | c => .lock c

namespace PmSt

/-- A new manager (GParamManager.cpp:13-15), no thread in a call. -/
def init : PmSt :=
  ⟨none, [], fun _ => ⟨0, "", false, UniqueArr.empty⟩, fun _ => false, 0, fun _ => none, fun _ => .idle, false, [], [], []⟩

/-- Thread `t` goes on at `p`. -/
def setPc (s : PmSt) (t : Nat) (p : PmPc) : PmSt := { s with pc := fun k => if k = t then p else s.pc k }

/-- (ghost) The call of thread `t` takes effect now. -/
def effect (s : PmSt) (t : Nat) (c : PmCall) (r : PmRes) : PmSt := { s with log := s.log ++ [(t, c, r)] }

/-- Thread `t` returns from a call. -/
def ret (s : PmSt) (t : Nat) (c : PmCall) (r : PmRes) : PmSt := { s.setPc t .idle with rets := s.rets ++ [(t, c, r)] }

/-- The call takes effect under the mutex; what is left is to give it back. -/
def leave (s : PmSt) (t : Nat) (c : PmCall) (r : PmRes) : PmSt := (s.effect t c r).setPc t (.unlock c r)

/-- An access to object `p`: `bad` if it has been freed, else go on to `s'`. -/
def touch (s : PmSt) (p : Nat) (s' : PmSt) : PmSt := if s.live p then s' else { s with bad := true }

/-- Reading the map, thread `t` in call `c` (lines see `PmPc.find`). -/
def findStep (s : PmSt) (t : Nat) : PmCall → PmSt
  | .create ty k b =>
    match s.map.lookup k with
    | some p => s.setPc t (.type ty k b p)
    | none => s.setPc t (.alloc ty k b)
  | .remove k =>
    match s.map.lookup k with
    | some p => s.setPc t (.del k p)
    | none => s.leave t (.remove k) (.done false)
  | .keys => s.leave t .keys (.keys (s.map.map Prod.fst))
  | .clear => s.setPc t (.wipe (s.map.map Prod.snd))
  | .get n ty k =>
    match s.map.lookup k with
    | some p => (s.effect t (.get n ty k) (.ptr (if (s.obj p).ty = ty then some p else none))).setPc t (.gType n ty k p)
    | none => (s.effect t (.get n ty k) (.ptr none)).ret t (.get n ty k) (.ptr none)

/-- The next step of thread `t` (lines see `PmPc`). -/
def go (s : PmSt) (t : Nat) : PmSt :=
  match s.pc t with
  | .idle => s
  | .lock c =>
    match s.owner with
    | none => { s.setPc t (.find c) with owner := some t }
    | some _ => s
  | .find c => s.findStep t c
  | .type ty k b p => s.touch p (s.leave t (.create ty k b) (.done (decide ((s.obj p).ty = ty))))
  | .alloc ty k b =>
    { s.setPc t (.insert ty k b s.next) with
      obj := fun i => if i = s.next then ⟨ty, k, b, UniqueArr.empty⟩ else s.obj i
      live := fun i => if i = s.next then true else s.live i
      next := s.next + 1 }
  | .insert ty k b p => { s.leave t (.create ty k b) (.done true) with map := s.map ++ [(k, p)] }
  | .del k p => { s.setPc t (.erase k) with live := fun i => if i = p then false else s.live i }
  | .erase k => { s.leave t (.remove k) (.done true) with map := s.map.filter (fun e => e.1 ≠ k) }
  | .wipe (p :: ps) => { s.setPc t (.wipe ps) with live := fun i => if i = p then false else s.live i }
  | .wipe [] => { s.leave t .clear (.done true) with map := [] }
  | .unlock c r => { s.ret t c r with owner := none }
  | .gType n ty k p =>
    s.touch p (if (s.obj p).ty = ty then s.setPc t (.gFlag n ty k p) else s.ret t (.get n ty k) (.ptr none))
  | .gFlag n ty k p =>
    s.touch p (if (s.obj p).btOn then s.setPc t (.gSpin n ty k p) else s.ret t (.get n ty k) (.ptr (some p)))
  | .gSpin n ty k p =>
    s.touch p (match s.spin p with
      | none => { s.setPc t (.gAdd n ty k p) with spin := fun i => if i = p then some t else s.spin i }
      | some _ => s)
  | .gAdd n ty k p =>
    s.touch p { s.setPc t (.gFree n ty k p) with
      obj := fun i => if i = p then { s.obj p with bt := (s.obj p).bt.add n } else s.obj i }
  | .gFree n ty k p =>
    s.touch p { s.ret t (.get n ty k) (.ptr (some p)) with spin := fun i => if i = p then none else s.spin i }

/-- One step; a thread inside a call begins no other. -/
def step (s : PmSt) (a : PmAct) : PmSt :=
  if s.bad then s else
  match a with
  | .call t c => if s.pc t = .idle then { s.setPc t c.first with calls := s.calls ++ [(t, c)] } else s
  | .go t => s.go t

/-- A schedule. -/
def run (l : List PmAct) : PmSt := l.foldl step init

end PmSt

/-- What a step accesses outside of `mutex_`: the map, an object without writing to it (the atomic flag of its spin lock
counts as this), its `backtrace_`, or the whole object, to free it. -/
inductive Acc where
  | none
  | mapRead
  | mapWrite
  | look (p : Nat)
  | trace (p : Nat)
  | free (p : Nat)
deriving DecidableEq

/-- The access of the next step at `p`. -/
def PmPc.acc : PmPc → Acc
  | .find _ => .mapRead
  | .type _ _ _ p => .look p
  | .insert .. => .mapWrite
  | .del _ p => .free p
  | .erase _ => .mapWrite
  | .wipe (p :: _) => .free p
  | .wipe [] => .mapWrite
  | .gType _ _ _ p => .look p
  | .gFlag _ _ _ p => .look p
  | .gSpin _ _ _ p => .look p
  | .gAdd _ _ _ p => .trace p
  | .gFree _ _ _ p => .look p
  | _ => .none

/-- Two accesses of which one writes to what the other reads or writes. -/
def Acc.conflict : Acc → Acc → Bool
  | .mapWrite, .mapRead => true
  | .mapRead, .mapWrite => true
  | .mapWrite, .mapWrite => true
  | .free p, .look q => p == q
  | .look p, .free q => p == q
  | .free p, .trace q => p == q
  | .trace p, .free q => p == q
  | .free p, .free q => p == q
  | .trace p, .trace q => p == q
  | _, _ => false

/-- Two threads are about to make conflicting accesses, neither of which waits for the other: a data race. -/
def Race (s : PmSt) (t u : Nat) : Prop := t ≠ u ∧ Acc.conflict (s.pc t).acc (s.pc u).acc = true

end CGraph.ParamConc
