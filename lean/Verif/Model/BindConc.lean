/-! # Threads that bind to topics while others publish and subscribe

`bindTopic`, `pubTopicValue`, `subTopicValue` of `src/GraphCtrl/GraphMessage/GMessageManager.h:139-158, 199-235`, one access to the
maps, to a set or to a channel per step, in any interleaving.  Only `bindTopic` locks `pub_sub_mutex_`.

Simplified: a `send` is one step that is recorded with its thread (what the channel does with it, and how it blocks, is C05, C105, C112), and so
is a `recv`; every access to a map or set is one step, although an unlocked one races (see `Race`); `conn_message_map_[connId]` (232),
whose key was found before, counts as reading.  `detachConnId`, `dropTopic` and `clear` are not called (see C55 for what they
leave behind). -/
namespace CGraph.BindConc

/-- A call. -/
inductive BcCall (α : Type) where
  | bind (key : String)
  | pub (key : String) (v : α)
  | sub (id : Nat)
deriving DecidableEq

/-- Where a thread is.  `must` and `done` are ghosts: the channels that were bound when the publication was called, and those it has been sent
to; `known`: what had been bound with this id when `subTopicValue` was called. -/
inductive BcPc (α : Type) where
  | out
  /-- about to lock (GMessageManager.h:142) -/
  | lock (key : String)
  /-- 143 `++cur_conn_id_` -/
  | count (key : String)
  /-- 144 -/
  | alloc (key : String) (id : Nat)
  /-- 145-146 -/
  | find (key : String) (id p : Nat)
  /-- 148-149 (`old`) or 152-154 -/
  | insert (key : String) (id p : Nat) (old : Bool)
  /-- 156 -/
  | conn (key : String) (id p : Nat)
  /-- 157, and giving the mutex back -/
  | unlock (key : String) (id p : Nat)
  /-- 204-207 -/
  | look (key : String) (v : α) (must : List Nat)
  /-- 210: about to take the first element of the set, or the one after `last` -/
  | next (key : String) (v : α) (must done : List Nat) (last : Option Nat)
  /-- 211 -/
  | send (key : String) (v : α) (must done : List Nat) (p : Nat)
  /-- 228-230 -/
  | subFind (id : Nat) (known : Option Nat)
  /-- 232-233 -/
  | subAt (id : Nat) (known : Option Nat)
deriving DecidableEq

/-- (ghost) A call of `bindTopic` that returned: thread, topic, connection id, channel. -/
structure Bound where
  t : Nat
  key : String
  id : Nat
  p : Nat
deriving DecidableEq

/-- (ghost) A call of `pubTopicValue` that returned: thread, topic, value; the channels bound when it was called, the ones it was sent to,
the ones in the set when it returned; whether the topic was found. -/
structure Pub (α : Type) where
  t : Nat
  key : String
  v : α
  must : List Nat
  done : List Nat
  now : List Nat
  ok : Bool
deriving DecidableEq

/-- (ghost) A call of `subTopicValue` that returned: thread, id; what had been bound with this id when it was called, the channel
it received from. -/
structure Sub where
  t : Nat
  id : Nat
  known : Option Nat
  res : Option Nat
deriving DecidableEq

/-- `pub_sub_mutex_`, `cur_conn_id_`, `pub_sub_message_map_`, `conn_message_map_` (GMessageManager.h:308-312), the addresses that have been
allocated, what was sent to each channel (with the thread), the threads, the id that each channel was made with (GMessage.h:23-26, 80); ghosts: the topic of each channel, the calls
that returned. -/
structure BcSt (α : Type) where
  owner : Option Nat
  cur : Nat
  map : String → Option (List Nat)
  conn : Nat → Option Nat
  used : List Nat
  got : Nat → List (Nat × α)
  pc : Nat → BcPc α
  idOf : Nat → Nat
  key : Nat → String
  binds : List Bound
  pubs : List (Pub α)
  subs : List Sub

/-- Thread `t` makes a call, or its next step; `p` is the address that an allocation returns. -/
inductive BcAct (α : Type) where
  | call (t : Nat) (c : BcCall α)
  | go (t p : Nat)

/-- Not in a call. -/
def BcPc.isOut : BcPc α → Bool
  | .out => true
  | _ => false

/-- The elements of a `std::set` of pointers after `last`. -/
def after (last : Option Nat) (l : List Nat) : List Nat :=
  l.filter fun p => match last with
    | none => true
    | some a => decide (a < p)

namespace BcSt

/-- A new manager (GMessageManager.h:308-312). -/
def init : BcSt α := ⟨none, 0, fun _ => none, fun _ => none, [], fun _ => [], fun _ => .out, fun _ => 0, fun _ => "", [], [], []⟩

/-- The set of a topic. -/
def set (s : BcSt α) (k : String) : List Nat := (s.map k).getD []

/-- Thread `t` goes on at `q`. -/
def setPc (s : BcSt α) (t : Nat) (q : BcPc α) : BcSt α := { s with pc := fun k => if k = t then q else s.pc k }

/-- The beginning of a call (the ghosts are taken from the calls that returned). -/
def first (s : BcSt α) : BcCall α → BcPc α
  | .bind k => .lock k
  | .pub k v => .look k v ((s.binds.filter (fun e => e.key = k)).map Bound.p)
  | .sub id => .subFind id ((s.binds.find? (fun e => e.id = id)).map Bound.p)

/-- The next step of thread `t` (lines see `BcPc`). -/
def go (s : BcSt α) (t p : Nat) : BcSt α :=
  match s.pc t with
  | .out => s
  | .lock k =>
    match s.owner with
    | none => { s.setPc t (.count k) with owner := some t }
    | some _ => s
  | .count k => { s.setPc t (.alloc k (s.cur + 1)) with cur := s.cur + 1 }
  | .alloc k id =>
    if p ∈ s.used then s else
      { s.setPc t (.find k id p) with used := p :: s.used, idOf := fun i => if i = p then id else s.idOf i, key := fun i => if i = p then k else s.key i }
  | .find k id p => s.setPc t (.insert k id p (s.map k).isSome)
  | .insert k id p old =>
    { s.setPc t (.conn k id p) with
      map := fun i => if i = k then some (if old then p :: s.set k else [p]) else s.map i }
  | .conn k id p => { s.setPc t (.unlock k id p) with conn := fun i => if i = id then some p else s.conn i }
  | .unlock k id p => { s.setPc t .out with owner := none, binds := s.binds ++ [⟨t, k, id, p⟩] }
  | .look k v must =>
    match s.map k with
    | some _ => s.setPc t (.next k v must [] none)
    | none => { s.setPc t .out with pubs := s.pubs ++ [⟨t, k, v, must, [], [], false⟩] }
  | .next k v must done last =>
    match (after last (s.set k)).min? with
    | some q => s.setPc t (.send k v must done q)
    | none => { s.setPc t .out with pubs := s.pubs ++ [⟨t, k, v, must, done, s.set k, true⟩] }
  | .send k v must done q =>
    { s.setPc t (.next k v must (done ++ [q]) (some q)) with got := fun i => if i = q then s.got i ++ [(t, v)] else s.got i }
  | .subFind id known =>
    match s.conn id with
    | some _ => s.setPc t (.subAt id known)
    | none => { s.setPc t .out with subs := s.subs ++ [⟨t, id, known, none⟩] }
  | .subAt id known => { s.setPc t .out with subs := s.subs ++ [⟨t, id, known, s.conn id⟩] }

/-- One step; a thread inside a call begins no other. -/
def step (s : BcSt α) : BcAct α → BcSt α
  | .call t c => if (s.pc t).isOut then s.setPc t (s.first c) else s
  | .go t p => s.go t p

/-- Any schedule of any number of threads. -/
def run (l : List (BcAct α)) : BcSt α := l.foldl step init

end BcSt

/-- What the next step of a thread accesses, besides `cur_conn_id_`, which only the owner of the mutex uses. -/
inductive Acc where
  | none
  | mapRead
  | mapWrite
  | setRead (k : String)
  | setWrite (k : String)
  | connRead
  | connWrite
deriving DecidableEq

/-- The access of the next step. -/
def BcPc.acc : BcPc α → Acc
  | .find .. => .mapRead
  | .insert k _ _ old => if old then .setWrite k else .mapWrite
  | .conn .. => .connWrite
  | .look .. => .mapRead
  | .next k .. => .setRead k
  | .subFind .. => .connRead
  | .subAt .. => .connRead
  | _ => .none

/-- Two accesses to the same, one of which writes. -/
def Acc.conflict : Acc → Acc → Bool
  | .mapRead, .mapWrite => true
  | .mapWrite, .mapRead => true
  | .mapWrite, .mapWrite => true
  | .setRead k, .setWrite k' => k == k'
  | .setWrite k, .setRead k' => k == k'
  | .setWrite k, .setWrite k' => k == k'
  | .connRead, .connWrite => true
  | .connWrite, .connRead => true
  | .connWrite, .connWrite => true
  | _, _ => false

/-- Two threads are about to make conflicting accesses at the same time. -/
def Race (s : BcSt α) (t u : Nat) : Prop := t ≠ u ∧ Acc.conflict (s.pc t).acc (s.pc u).acc = true

end CGraph.BindConc
