import Verif.Spec.Queues

/-! # What messages are meant to do

A topic with senders and receivers is a channel of its own.  A board is a list of connections, each with a channel; a
publication is delivered to the connections it was addressed to, one after the other. -/
namespace CGraph.Spec

/-- Requests to one topic. -/
inductive TopicOp (α : Type) where
  | create (ty n : Nat) | remove | send (v : α) (p : Policy) | recv | clear

/-- Answers of one topic. -/
inductive TopicAns (α : Type) where
  | done | refused
  | chan (o : ChanOut α)
deriving DecidableEq

/-- One topic: absent, or a type, a size and a channel with room for one less than the size. -/
def topicStep {α : Type} : Option (Nat × Nat × List α) → TopicOp α → Option (Nat × Nat × List α) × TopicAns α
  | none, .create ty n => (some (ty, n, []), .done)
  | some (ty', n', l), .create ty n => (some (ty', n', l), if ty' = ty ∧ n' = n then .done else .refused)
  | none, .remove => (none, .refused)
  | some _, .remove => (none, .done)
  | none, .send _ _ => (none, .refused)
  | none, .recv => (none, .refused)
  | some (ty, n, l), .send v p =>
    (some (ty, n, (chanStep (n - 1) l (.send v p)).1), .chan (chanStep (n - 1) l (.send v p)).2)
  | some (ty, n, l), .recv => (some (ty, n, (chanStep (n - 1) l .recv).1), .chan (chanStep (n - 1) l .recv).2)
  | _, .clear => (none, .done)

/-- The answers of one topic to a history. -/
def topicRun {α : Type} (s : Option (Nat × Nat × List α)) : List (TopicOp α) → List (TopicAns α)
  | [] => []
  | op :: ops => (topicStep s op).2 :: topicRun (topicStep s op).1 ops

/-- A connection: the topic, the room of its channel, the values waiting, whether its topic still exists. -/
structure Link (α : Type) where
  topic : String
  room : Nat
  queue : List α
  live : Bool

/-- A publication on its way: value, policy, the connections (by id) still to serve. -/
structure Letter (α : Type) where
  value : α
  policy : Policy
  todo : List Nat

/-- The connections, the first has id 1, and the publications. -/
structure Board (α : Type) where
  links : List (Link α)
  letters : List (Letter α)

/-- Requests to a board; `go i` delivers the `i`-th publication to its next connection. -/
inductive BoardOp (α : Type) where
  | bind (t : String) (n : Nat)
  | pub (t : String) (v : α) (p : Policy)
  | go (i : Nat)
  | sub (c : Nat)
  | drop (t : String)
  | clear

/-- Answers of a board.  `dangling`: a connection that was dropped is used. -/
inductive BoardAns (α : Type) where
  | done | refused
  | id (c : Nat)
  | chan (o : ChanOut α)
  | returned
  | dangling
deriving DecidableEq

namespace Board
variable {α : Type}

/-- The connection with an id. -/
def link (b : Board α) (c : Nat) : Option (Link α) := if c = 0 then none else b.links[c - 1]?

/-- The ids, from `k + 1` on, of the connections of a topic. -/
def idsFrom (t : String) : Nat → List (Link α) → List Nat
  | _, [] => []
  | k, l :: ls => if l.topic = t ∧ l.live = true then (k + 1) :: idsFrom t (k + 1) ls else idsFrom t (k + 1) ls

/-- The ids of the current subscribers of a topic. -/
def subscribers (b : Board α) (t : String) : List Nat := idsFrom t 0 b.links

/-- Put values into the channel of a connection. -/
def setQueue (b : Board α) (c : Nat) (q : List α) : Board α :=
  { b with links := b.links.modify (c - 1) (fun l => { l with queue := q }) }

/-- One request. -/
def step (b : Board α) : BoardOp α → Board α × BoardAns α
  | .bind t n => ({ b with links := b.links ++ [⟨t, n - 1, [], true⟩] }, .id (b.links.length + 1))
  | .pub t v p =>
    if b.subscribers t = [] then (b, .refused)
    else ({ b with letters := b.letters ++ [⟨v, p, b.subscribers t⟩] }, .done)
  | .go i =>
    match b.letters[i]? with
    | none => (b, .refused)
    | some ⟨_, _, []⟩ => (b, .returned)
    | some ⟨v, p, c :: cs⟩ =>
      match b.link c with
      | none => (b, .dangling)
      | some l =>
        if l.live then
          match chanStep l.room l.queue (.send v p) with
          | (_, .mustWait) => (b, .chan .mustWait)
          | (q, o) => ({ b.setQueue c q with letters := b.letters.set i ⟨v, p, cs⟩ }, .chan o)
        else (b, .dangling)
  | .sub c =>
    match b.link c with
    | none => (b, .refused)
    | some l =>
      if l.live then (b.setQueue c (chanStep l.room l.queue .recv).1, .chan (chanStep l.room l.queue .recv).2)
      else (b, .dangling)
  | .drop t =>
    if b.subscribers t = [] then (b, .refused)
    else ({ b with links := b.links.map fun l => if l.topic = t then { l with live := false } else l }, .done)
  | .clear =>
    -- publications on their way now point nowhere: id 0
    (⟨[], b.letters.map fun l => { l with todo := l.todo.map fun _ => 0 }⟩, .done)

/-- The answers to a history. -/
def run (b : Board α) : List (BoardOp α) → List (BoardAns α)
  | [] => []
  | op :: ops => (b.step op).2 :: run (b.step op).1 ops

end Board
end CGraph.Spec
