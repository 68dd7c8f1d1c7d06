import Verif.Model.Channel

/-! # A topic with subscribers, used by many threads

`pubTopicValue` and `subTopicValue` (src/GraphCtrl/GraphMessage/GMessageManager.h:199-235) on the queues of the connections of
one topic, each queue as in `Chan`: a call is several steps, may sleep and is woken.  Any number of threads publish and
receive at once.

Simplified: nobody binds, detaches or drops meanwhile (the loop of `pubTopicValue` holds no lock); the set of pointers is
walked in the order of the indices (GMessageManager.h:210; which connection has which index is arbitrary); finding the topic or
the connection is part of the first step of the call. -/
namespace CGraph.PubSub
open Chan

variable {α : Type}

/-- Where a thread is in `pubTopicValue`: outside, or sending to connection `i` (GMessageManager.h:211). -/
inductive PbPc (α : Type) where
  | out
  | at (i : Nat) (v : α) (st : PushStrategy)
deriving DecidableEq

/-- The number of threads, the number of connections of the topic, and the size given to each by `bindTopic`. -/
structure PsCfg where
  n : Nat
  k : Nat
  size : Nat → Nat

/-- The queues with the threads inside them, and the publishers.  Ghost: the publications begun and those that returned. -/
structure PsSt (α : Type) where
  chan : Nat → ChSt α
  pub : Nat → PbPc α
  pubs : List (Nat × α × PushStrategy)
  done : List (Nat × α × PushStrategy)

/-- Who moves. -/
inductive PsAct (α : Type) where
  /-- thread `t` calls `pubTopicValue` -/
  | pub (t : Nat) (v : α) (st : PushStrategy)
  /-- thread `t` calls `subTopicValue` for connection `i` -/
  | sub (t i : Nat)
  /-- thread `t` goes on inside the queue of connection `i` (`j`: whom it wakes, as in `Chan.ChAct`) -/
  | go (i t j : Nat)
  /-- thread `t` goes on in the loop of `pubTopicValue` -/
  | next (t : Nat)
  /-- thread `t`, asleep in queue `i`, wakes without notification -/
  | spurious (i t : Nat)
  /-- the time of thread `t`, asleep in queue `i`, is over -/
  | expire (i t : Nat)

/-- Outside of the calls of a queue. -/
def _root_.CGraph.Chan.ChPc.isIdle : ChPc α → Bool
  | .idle => true
  | _ => false

/-- Outside of `pubTopicValue`. -/
def PbPc.isOut : PbPc α → Bool
  | .out => true
  | _ => false

namespace PsSt

/-- Nothing published yet (GMessageManager.h:141-156 for each connection). -/
def init (c : PsCfg) : PsSt α := ⟨fun i => ChSt.init (c.size i), fun _ => .out, [], []⟩

/-- Thread `t` is in no call. -/
def free (c : PsCfg) (s : PsSt α) (t : Nat) : Bool := (s.pub t).isOut && (List.range c.k).all fun i => ((s.chan i).pc t).isIdle

/-- Queue `i` becomes `q`. -/
def setChan (s : PsSt α) (i : Nat) (q : ChSt α) : PsSt α := { s with chan := fun j => if j = i then q else s.chan j }

/-- Thread `t` is at `p` of the loop. -/
def setPub (s : PsSt α) (t : Nat) (p : PbPc α) : PsSt α := { s with pub := fun j => if j = t then p else s.pub j }

/-- A step of queue `i`. -/
def inChan (c : PsCfg) (s : PsSt α) (i : Nat) (a : ChAct α) : Option (PsSt α) :=
  if i < c.k then
    match (s.chan i).step c.n a with
    | none => none
    | some q => some (s.setChan i q)
  else none

/-- GMessageManager.h:210-213: thread `t` comes to connection `i`, or to the end of the loop. -/
def enter (c : PsCfg) (s : PsSt α) (t i : Nat) (v : α) (st : PushStrategy) : Option (PsSt α) :=
  if i < c.k then
    match (s.chan i).step c.n (.callSend t v st) with
    | none => none
    | some q => some ((s.setChan i q).setPub t (.at i v st))
  else some { s.setPub t .out with done := s.done ++ [(t, v, st)] }

/-- One step; `none` = not possible now. -/
def step (c : PsCfg) (s : PsSt α) : PsAct α → Option (PsSt α)
  | .pub t v st => if t < c.n ∧ s.free c t = true then { s with pubs := s.pubs ++ [(t, v, st)] }.enter c t 0 v st else none
  | .sub t i => if t < c.n ∧ s.free c t = true then s.inChan c i (.callRecv t) else none
  | .go i t j => s.inChan c i (.step t j)
  | .next t =>
    match s.pub t with
    | .out => none
    | .at i v st => if ((s.chan i).pc t).isIdle then s.enter c t (i + 1) v st else none
  | .spurious i t => s.inChan c i (.spurious t)
  | .expire i t => s.inChan c i (.expire t)

/-- The states of an infinite schedule; impossible steps are skipped. -/
def trace (c : PsCfg) (σ : Nat → PsAct α) : Nat → PsSt α
  | 0 => init c
  | m + 1 => ((trace c σ m).step c (σ m)).getD (trace c σ m)

end PsSt

/-- The messages sent to a connection by all, in this order. -/
def allSents (q : ChSt α) : List (Nat × α × PushStrategy) :=
  q.log.filterMap fun e => match e.2 with | .sent v st _ => some (e.1, v, st) | _ => none

/-- What thread `t` did of a list of publications. -/
def ofThread (t : Nat) (l : List (Nat × α × PushStrategy)) : List (α × PushStrategy) :=
  l.filterMap fun e => if e.1 = t then some e.2 else none

/-- The messages that thread `t` has sent to a connection, in this order. -/
def sents (q : ChSt α) (t : Nat) : List (α × PushStrategy) := ofThread t (allSents q)

end CGraph.PubSub
