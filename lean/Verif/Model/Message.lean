import Verif.Model.Queues

/-! # Messages: topics with one queue, and topics with subscribers

`src/GraphCtrl/GraphMessage/GMessageManager.h`, `GMessage.h`.

`GMessage` is a ring buffer (Model/Queues.lean) with a connection id.  Every call is one step, except that publishing is
split into one step per subscriber, because a publisher can wait for a full queue in the middle of the loop.  Undefined
behaviour (a freed queue is touched, a queue is deleted twice, the ring divides by zero) is `none`.
Simplified: the prefixes that separate the two kinds of topics are two maps; the template argument is a number that only
`createTopic` compares (the casts to another type in `recvTopicValue` and `subTopicValue` are not judged);
`cur_conn_id_` does not overflow; addresses are never used again and sets of pointers are walked in the order of
allocation; a call that waits is a call that is made again later; the maps are accessed by one thread at a time
(`sendTopicValue`, `recvTopicValue`, `pubTopicValue` and `subTopicValue` do not take the lock). -/
namespace CGraph

/-- GMessage.h:75-76: the queue of a topic with senders and receivers, and the template argument it was made with. -/
structure MTopic (α : Type) where
  ty : Nat
  ring : Ring α

/-- GMessage.h:75-76: the queue of a connection; `freed` after `delete`. -/
structure MCell (α : Type) where
  ring : Ring α
  conn : Nat
  freed : Bool

/-- A publisher in the loop GMessageManager.h:210-212: the value, the strategy, the queues still to serve. -/
structure Flight (α : Type) where
  value : α
  strategy : PushStrategy
  todo : List Nat

/-- GMessageManager.h:306-309, with the allocated queues and the publishers at work. -/
structure MsgMgr (α : Type) where
  /-- `send_recv_message_map_`; nothing else points to these queues -/
  sr : List (String × MTopic α)
  heap : List (MCell α)
  /-- `pub_sub_message_map_` -/
  ps : List (String × List Nat)
  /-- `conn_message_map_` -/
  conn : List (Nat × Nat)
  /-- `cur_conn_id_` -/
  cur : Nat
  flights : List (Flight α)

/-- The calls; `go i` is the next step of the `i`-th publisher. -/
inductive MsgOp (α : Type) where
  | create (t : String) (ty n : Nat)
  | remove (t : String)
  | send (t : String) (v : α) (st : PushStrategy)
  | recv (t : String)
  | bind (t : String) (n : Nat)
  | detach (t : String) (c : Nat)
  | pub (t : String) (v : α) (st : PushStrategy)
  | go (i : Nat)
  | sub (c : Nat)
  | drop (t : String)
  | clear

/-- The answers.  For sends the outcome of `push` is kept (the caller only sees whether the call returned). -/
inductive MsgAns (α : Type) where
  | ok | err
  | id (c : Nat)
  | pushed (o : Ring.PushOut)
  | value (v : Option α)
  | timeout
  | returned
deriving DecidableEq

/-- `unordered_map`: assignment to a key that may exist. -/
def assocPut {κ β : Type} [DecidableEq κ] (k : κ) (v : β) (l : List (κ × β)) : List (κ × β) :=
  (k, v) :: l.filter (fun p => p.1 ≠ k)

/-- `unordered_map::erase`. -/
def assocDel {κ β : Type} [DecidableEq κ] (k : κ) (l : List (κ × β)) : List (κ × β) := l.filter (fun p => p.1 ≠ k)

/-- `unordered_map::find`. -/
def assocGet {κ β : Type} [DecidableEq κ] (k : κ) : List (κ × β) → Option β
  | [] => none
  | p :: l => if p.1 = k then some p.2 else assocGet k l

namespace MsgMgr
variable {α : Type}

/-- A new manager. -/
def new : MsgMgr α := ⟨[], [], [], [], 0, []⟩

/-- Access through a pointer: undefined when the object was deleted. -/
def deref (s : MsgMgr α) (a : Nat) : Option (MCell α) :=
  match s.heap[a]? with
  | some c => if c.freed then none else some c
  | none => none

/-- `CGRAPH_DELETE_PTR` on a list of pointers. -/
def freeAll (s : MsgMgr α) : List Nat → Option (MsgMgr α)
  | [] => some s
  | a :: l =>
    match s.deref a with
    | none => none
    | some c => freeAll { s with heap := s.heap.set a { c with freed := true } } l

/-- GMessage.h:46-48 `send` into a queue on the heap. -/
def pushTo (s : MsgMgr α) (a : Nat) (v : α) (st : PushStrategy) : Option (MsgMgr α × Ring.PushOut) :=
  match s.deref a with
  | none => none
  | some c =>
    match c.ring.push v st with
    | none => none
    | some (r, o) => some ({ s with heap := s.heap.set a { c with ring := r } }, o)

/-- GMessageManager.h:175-181: the search of `detachConnId`; every queue in front of the wanted one is looked at. -/
def findConn (s : MsgMgr α) (c : Nat) : List Nat → Option (Option Nat)
  | [] => some none
  | a :: l =>
    match s.deref a with
    | none => none
    | some m => if m.conn = c then some (some a) else findConn s c l

/-- GMessageManager.h:36-54 `createTopic`. -/
def create (s : MsgMgr α) (t : String) (ty n : Nat) : MsgMgr α × MsgAns α :=
  match assocGet t s.sr with
  | some m => (s, if m.ty = ty ∧ m.ring.capacity = n then .ok else .err)
  | none => ({ s with sr := assocPut t ⟨ty, Ring.create n⟩ s.sr }, .ok)

/-- GMessageManager.h:61-74 `removeTopic`. -/
def remove (s : MsgMgr α) (t : String) : MsgMgr α × MsgAns α :=
  match assocGet t s.sr with
  | some _ => ({ s with sr := assocDel t s.sr }, .ok)
  | none => (s, .err)

/-- GMessageManager.h:113-128 `sendTopicValue`. -/
def send (s : MsgMgr α) (t : String) (v : α) (st : PushStrategy) : Option (MsgMgr α × MsgAns α) :=
  match assocGet t s.sr with
  | none => some (s, .err)
  | some m =>
    match m.ring.push v st with
    | none => none
    | some (r, o) => some ({ s with sr := assocPut t { m with ring := r } s.sr }, .pushed o)

/-- The answer of `waitPopWithTimeout`. -/
def popped : Option (Option α) → MsgAns α
  | none => .timeout
  | some v => .value v

/-- GMessageManager.h:86-101 `recvTopicValue`. -/
def recv (s : MsgMgr α) (t : String) : Option (MsgMgr α × MsgAns α) :=
  match assocGet t s.sr with
  | none => some (s, .err)
  | some m =>
    match m.ring.pop with
    | none => none
    | some (r, v) => some ({ s with sr := assocPut t { m with ring := r } s.sr }, popped v)

/-- GMessageManager.h:139-158 `bindTopic`. -/
def bind (s : MsgMgr α) (t : String) (n : Nat) : MsgMgr α × MsgAns α :=
  let c := s.cur + 1
  let a := s.heap.length
  ({ s with cur := c
            heap := s.heap ++ [⟨Ring.create n, c, false⟩]
            ps := assocPut t ((assocGet t s.ps).getD [] ++ [a]) s.ps
            conn := assocPut c a s.conn }, .id c)

/-- GMessageManager.h:166-187 `detachConnId`; the set of the topic keeps the pointer. -/
def detach (s : MsgMgr α) (t : String) (c : Nat) : Option (MsgMgr α × MsgAns α) :=
  match assocGet t s.ps with
  | none => some (s, .err)
  | some l =>
    match s.findConn c l with
    | none => none
    | some none => some (s, .ok)
    | some (some a) => (s.freeAll [a]).map fun s => ({ s with conn := assocDel c s.conn }, .ok)

/-- GMessageManager.h:199-214 `pubTopicValue` up to the loop. -/
def pub (s : MsgMgr α) (t : String) (v : α) (st : PushStrategy) : MsgMgr α × MsgAns α :=
  match assocGet t s.ps with
  | none => (s, .err)
  | some l => ({ s with flights := s.flights ++ [⟨v, st, l⟩] }, .ok)

/-- GMessageManager.h:210-212: one round of the loop of a publisher. -/
def go (s : MsgMgr α) (i : Nat) : Option (MsgMgr α × MsgAns α) :=
  match s.flights[i]? with
  | none => some (s, .err)
  | some ⟨_, _, []⟩ => some (s, .returned)
  | some ⟨v, st, a :: l⟩ =>
    match s.pushTo a v st with
    | none => none
    | some (s', .blocked) => some (s', .pushed .blocked)
    | some (s', o) => some ({ s' with flights := s'.flights.set i ⟨v, st, l⟩ }, .pushed o)

/-- GMessageManager.h:226-235 `subTopicValue`. -/
def sub (s : MsgMgr α) (c : Nat) : Option (MsgMgr α × MsgAns α) :=
  match assocGet c s.conn with
  | none => some (s, .err)
  | some a =>
    match s.deref a with
    | none => none
    | some m =>
      match m.ring.pop with
      | none => none
      | some (r, v) => some ({ s with heap := s.heap.set a { m with ring := r } }, popped v)

/-- GMessageManager.h:242-257 `dropTopic`; `conn_message_map_` keeps the pointers. -/
def drop (s : MsgMgr α) (t : String) : Option (MsgMgr α × MsgAns α) :=
  match assocGet t s.ps with
  | none => some (s, .err)
  | some l => (s.freeAll l).map fun s => ({ s with ps := assocDel t s.ps }, .ok)

/-- GMessageManager.h:263-286 `clear`. -/
def clear (s : MsgMgr α) : Option (MsgMgr α × MsgAns α) :=
  (s.freeAll (s.ps.map (·.2)).flatten).map fun s => ({ s with sr := [], ps := [], conn := [], cur := 0 }, .ok)

/-- One call. -/
def step (s : MsgMgr α) : MsgOp α → Option (MsgMgr α × MsgAns α)
  | .create t ty n => some (s.create t ty n)
  | .remove t => some (s.remove t)
  | .send t v st => s.send t v st
  | .recv t => s.recv t
  | .bind t n => some (s.bind t n)
  | .detach t c => s.detach t c
  | .pub t v st => some (s.pub t v st)
  | .go i => s.go i
  | .sub c => s.sub c
  | .drop t => s.drop t
  | .clear => s.clear

/-- A history of calls and the answers. -/
def run (s : MsgMgr α) : List (MsgOp α) → Option (MsgMgr α × List (MsgAns α))
  | [] => some (s, [])
  | op :: ops =>
    match s.step op with
    | none => none
    | some (s', a) => (run s' ops).map fun r => (r.1, a :: r.2)

end MsgMgr
end CGraph
