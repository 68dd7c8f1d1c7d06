import Verif.Model.PubSub

/-! # The topics of the message manager, created, used and removed by many threads

`createTopic`, `removeTopic`, `sendTopicValue`, `recvTopicValue` and the first half of `clear`
(src/GraphCtrl/GraphMessage/GMessageManager.h:34-128, 263-271) executed by any number of threads, interleaved.  Each step of a thread
accesses the map, a queue or a mutex once; the queues are those of `Chan`, in which calls sleep and are woken.

Simplified: steps are sequentially consistent (an unlocked access next to a writing one is a data race in C++, see `Race`); looking a
topic up is one step, and so is modifying the map; after an access to a freed queue nothing is said any more (`bad`).  The prefix
that is put before the name (GMessageManager.h:39) is left out, and so is the type that a receiver asks for (96, a cast without check).  `CGRAPH_DELETE_PTR`
(UtilsDefine.h:91-95) also overwrites the pointer in the map with null just before the entry is erased: part of the
erasing step, so who finds the entry in between meets freed memory here, freed memory or null in the code. -/
namespace CGraph.TopicConc
open Chan

variable {α : Type}

/-- A call. -/
inductive TcCall (α : Type) where
  /-- `createTopic<ty>(key, size)` -/
  | create (key : String) (ty size : Nat)
  /-- `removeTopic(key)` -/
  | remove (key : String)
  /-- `clear()` -/
  | clear
  /-- `sendTopicValue(key, v, st)` -/
  | send (key : String) (v : α) (st : PushStrategy)
  /-- `recvTopicValue(key, ..)` -/
  | recv (key : String)
deriving DecidableEq

/-- What the manager says: whether the status is OK, or which queue a send or a receive works on. -/
inductive TcRes where
  | done (b : Bool)
  | at (p : Option Nat)
deriving DecidableEq

/-- Where a thread is. -/
inductive TcPc (α : Type) where
  | out
  /-- about to take `send_recv_mutex_` (GMessageManager.h:40,64,266) -/
  | lock (c : TcCall α)
  /-- about to read the map: `find` (GMessageManager.h:41,65,91,118), the pointers (267) -/
  | find (c : TcCall α)
  /-- `createTopic`, about to compare the type and the capacity of the queue found (GMessageManager.h:44-46) -/
  | comp (key : String) (ty size : Nat) (p : Nat)
  /-- `createTopic`, about to make the queue (GMessageManager.h:49) -/
  | alloc (key : String) (ty size : Nat)
  /-- `createTopic`, about to insert it (GMessageManager.h:50) -/
  | insert (key : String) (ty size : Nat) (p : Nat)
  /-- `removeTopic`, about to delete the queue (GMessageManager.h:70) -/
  | del (key : String) (p : Nat)
  /-- `removeTopic`, about to erase the entry (GMessageManager.h:71) -/
  | erase (key : String)
  /-- `clear`, these queues still to be deleted (GMessageManager.h:267-269), then the map is cleared (270) -/
  | wipe (ps : List Nat)
  /-- about to give the mutex back and return -/
  | unlock (c : TcCall α) (r : TcRes)
  /-- a send or a receive, about to call `send`, `recv` of the queue found (GMessageManager.h:99,126) -/
  | enter (c : TcCall α) (p : Nat)
  /-- inside `send`, `recv` of the queue (GMessage.h:43-60), or about to return from it -/
  | inside (c : TcCall α) (p : Nat)
deriving DecidableEq

/-- What a queue was created with: type and size; and (ghost) the name of its topic. -/
structure TcObj where
  key : String
  ty : Nat
  size : Nat
deriving DecidableEq

/-- `send_recv_mutex_`, `send_recv_message_map_` (GMessageManager.h:307,313), the queues (`live` until deleted; `next` is the next
address), the threads; `bad`: a freed queue was accessed.  Ghost: the calls begun, the calls as they took effect on the
map, and the calls that returned, in this order. -/
structure TcSt (α : Type) where
  owner : Option Nat
  map : List (String × Nat)
  obj : Nat → TcObj
  chan : Nat → ChSt α
  live : Nat → Bool
  next : Nat
  pc : Nat → TcPc α
  bad : Bool
  calls : List (Nat × TcCall α)
  log : List (Nat × TcCall α × TcRes)
  rets : List (Nat × TcCall α × TcRes)

/-- Thread `t` begins a call; makes its next step (`j`: whom it wakes, as in `Chan.ChAct`); wakes from its sleep in a queue, with
or without its time being over. -/
inductive TcAct (α : Type) where
  | call (t : Nat) (c : TcCall α)
  | go (t j : Nat)
  | wake (t : Nat) (late : Bool)

/-- The first step of a call: `send` and `recv` do not lock (GMessageManager.h:91,118). -/
def TcCall.first : TcCall α → TcPc α
  | .send k v st => .find (.send k v st)
  | .recv k => .find (.recv k)
  | c => .lock c

/-- Not in a call. -/
def TcPc.isOut : TcPc α → Bool
  | .out => true
  | _ => false

/-- The call of a send or a receive on the queue (GMessageManager.h:99,126; counted as an access to it). -/
def TcCall.ask (t : Nat) : TcCall α → Option (ChAct α)
  | .send _ v st => some (.callSend t v st)
  | .recv _ => some (.callRecv t)
  | _ => none

namespace TcSt

/-- A new manager (GMessageManager.h:307-313), no thread in a call. -/
def init : TcSt α :=
  ⟨none, [], fun _ => ⟨"", 0, 0⟩, fun _ => ChSt.init 0, fun _ => false, 0, fun _ => .out, false, [], [], []⟩

/-- Thread `t` goes on at `p`. -/
def setPc (s : TcSt α) (t : Nat) (p : TcPc α) : TcSt α := { s with pc := fun k => if k = t then p else s.pc k }

/-- (ghost) The call of thread `t` takes effect on the map now. -/
def effect (s : TcSt α) (t : Nat) (c : TcCall α) (r : TcRes) : TcSt α := { s with log := s.log ++ [(t, c, r)] }

/-- Thread `t` returns from a call. -/
def ret (s : TcSt α) (t : Nat) (c : TcCall α) (r : TcRes) : TcSt α := { s.setPc t .out with rets := s.rets ++ [(t, c, r)] }

/-- The call takes effect under the mutex; what is left is to give it back. -/
def leave (s : TcSt α) (t : Nat) (c : TcCall α) (r : TcRes) : TcSt α := (s.effect t c r).setPc t (.unlock c r)

/-- An access to queue `p`: `bad` if it has been freed, else go on to `s'`. -/
def touch (s : TcSt α) (p : Nat) (s' : TcSt α) : TcSt α := if s.live p then s' else { s with bad := true }

/-- A send or a receive has looked its topic up (GMessageManager.h:91-96, 118-123). -/
def useStep (s : TcSt α) (t : Nat) (c : TcCall α) (key : String) : TcSt α :=
  match s.map.lookup key with
  | some p => (s.effect t c (.at (some p))).setPc t (.enter c p)
  | none => (s.effect t c (.at none)).ret t c (.at none)

/-- Reading the map, thread `t` in call `c` (lines see `TcPc.find`). -/
def findStep (s : TcSt α) (t : Nat) : TcCall α → TcSt α
  | .create k ty sz =>
    match s.map.lookup k with
    | some p => s.setPc t (.comp k ty sz p)
    | none => s.setPc t (.alloc k ty sz)
  | .remove k =>
    match s.map.lookup k with
    | some p => s.setPc t (.del k p)
    | none => s.leave t (.remove k) (.done false)
  | .clear => s.setPc t (.wipe (s.map.map Prod.snd))
  | .send k v st => s.useStep t (.send k v st) k
  | .recv k => s.useStep t (.recv k) k

/-- A step of thread `t`, in call `c`, in queue `p` (UAtomicRingBufferQueue.h:62-110), if it is possible now. -/
def inQueue (n : Nat) (s : TcSt α) (t : Nat) (c : TcCall α) (p : Nat) (a : ChAct α) : TcSt α :=
  match (s.chan p).step n a with
  | some q => s.touch p { s.setPc t (.inside c p) with chan := fun i => if i = p then q else s.chan i }
  | none => s

/-- The next step of thread `t` (lines see `TcPc`). -/
def go (n : Nat) (s : TcSt α) (t j : Nat) : TcSt α :=
  match s.pc t with
  | .out => s
  | .lock c =>
    match s.owner with
    | none => { s.setPc t (.find c) with owner := some t }
    | some _ => s
  | .find c => s.findStep t c
  | .comp k ty sz p =>
    s.touch p (s.leave t (.create k ty sz) (.done (decide ((s.obj p).ty = ty ∧ (s.obj p).size = sz))))
  | .alloc k ty sz =>
    { s.setPc t (.insert k ty sz s.next) with
      obj := fun i => if i = s.next then ⟨k, ty, sz⟩ else s.obj i
      chan := fun i => if i = s.next then ChSt.init sz else s.chan i
      live := fun i => if i = s.next then true else s.live i
      next := s.next + 1 }
  | .insert k ty sz p => { s.leave t (.create k ty sz) (.done true) with map := s.map ++ [(k, p)] }
  | .del k p => { s.setPc t (.erase k) with live := fun i => if i = p then false else s.live i }
  | .erase k => { s.leave t (.remove k) (.done true) with map := s.map.filter (fun e => e.1 ≠ k) }
  | .wipe (p :: ps) => { s.setPc t (.wipe ps) with live := fun i => if i = p then false else s.live i }
  | .wipe [] => { s.leave t .clear (.done true) with map := [] }
  | .unlock c r => { s.ret t c r with owner := none }
  | .enter c p =>
    match c.ask t with
    | some a => s.inQueue n t c p a
    | none => s
  | .inside c p => if ((s.chan p).pc t).isIdle then s.ret t c (.at (some p)) else s.inQueue n t c p (.step t j)

/-- One step of one of `n` threads; a thread inside a call begins no other. -/
def step (n : Nat) (s : TcSt α) (a : TcAct α) : TcSt α :=
  if s.bad then s else
  match a with
  | .call t c => if t < n ∧ (s.pc t).isOut = true then { s.setPc t c.first with calls := s.calls ++ [(t, c)] } else s
  | .go t j => s.go n t j
  | .wake t late =>
    match s.pc t with
    | .inside c p => s.inQueue n t c p (if late then .expire t else .spurious t)
    | _ => s

/-- A schedule. -/
def run (n : Nat) (l : List (TcAct α)) : TcSt α := l.foldl (step n) init

end TcSt

/-- What a step accesses outside of `send_recv_mutex_`: the map, a queue (whose own mutex guards it against other users), or the
whole queue, to free it. -/
inductive Acc where
  | none
  | mapRead
  | mapWrite
  | use (p : Nat)
  | free (p : Nat)
deriving DecidableEq

/-- The access of the next step at a place (a thread about to return from a queue counts as using it). -/
def TcPc.acc : TcPc α → Acc
  | .find _ => .mapRead
  | .comp _ _ _ p => .use p
  | .insert .. => .mapWrite
  | .del _ p => .free p
  | .erase _ => .mapWrite
  | .wipe (p :: _) => .free p
  | .wipe [] => .mapWrite
  | .enter _ p => .use p
  | .inside _ p => .use p
  | _ => .none

/-- Two accesses of which one writes to what the other reads or writes. -/
def Acc.conflict : Acc → Acc → Bool
  | .mapWrite, .mapRead => true
  | .mapRead, .mapWrite => true
  | .mapWrite, .mapWrite => true
  | .free p, .use q => p == q
  | .use p, .free q => p == q
  | .free p, .free q => p == q
  | _, _ => false

/-- Two threads are about to make conflicting accesses, neither of which waits for the other: a data race. -/
def Race (s : TcSt α) (t u : Nat) : Prop := t ≠ u ∧ Acc.conflict (s.pc t).acc (s.pc u).acc = true

end CGraph.TopicConc
