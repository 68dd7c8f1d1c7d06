/-
Independent specification of the queues: plain lists.
-/
namespace CGraph.Spec

/-- Overflow policy of a bounded channel. -/
inductive Policy where
  | wait | replace | drop
deriving DecidableEq, Repr

/-- Requests on a bounded channel. -/
inductive ChanOp (α : Type) where
  | send (v : α) (p : Policy)
  | recv
deriving DecidableEq

/-- Answers of a bounded channel. -/
inductive ChanOut (α : Type) where
  | accepted            -- stored, nothing lost
  | acceptedOldestLost  -- stored, the oldest pending message was discarded
  | refused             -- not stored (drop policy)
  | mustWait            -- not stored, the caller has to wait
  | got (v : α)
  | nothing             -- nothing to receive (time-out)
deriving DecidableEq

/-- A FIFO channel that keeps at most `room` messages. -/
def chanStep {α : Type} (room : Nat) (l : List α) : ChanOp α → List α × ChanOut α
  | .send v p =>
    if l.length < room then (l ++ [v], .accepted)
    else match p with
      | .wait => (l, .mustWait)
      | .replace => (l.tail ++ [v], .acceptedOldestLost)
      | .drop => (l, .refused)
  | .recv =>
    match l with
    | [] => ([], .nothing)
    | x :: l => (l, .got x)

/-- Final contents and answers of a history. -/
def chanRun {α : Type} (room : Nat) (l : List α) : List (ChanOp α) → List α × List (ChanOut α)
  | [] => (l, [])
  | op :: ops =>
    let r := chanRun room (chanStep room l op).1 ops
    (r.1, (chanStep room l op).2 :: r.2)

/-- Values stored by the channel, in order, read off requests and answers. -/
def acceptedVals {α : Type} : List (ChanOp α) → List (ChanOut α) → List α
  | .send v _ :: ops, .accepted :: os => v :: acceptedVals ops os
  | .send v _ :: ops, .acceptedOldestLost :: os => v :: acceptedVals ops os
  | _ :: ops, _ :: os => acceptedVals ops os
  | _, _ => []

/-- Values delivered, in order. -/
def deliveredVals {α : Type} : List (ChanOut α) → List α
  | [] => []
  | .got v :: os => v :: deliveredVals os
  | _ :: os => deliveredVals os

/-- Number of answers that report the loss of the oldest message. -/
def lostCount {α : Type} : List (ChanOut α) → Nat
  | [] => 0
  | .acceptedOldestLost :: os => lostCount os + 1
  | _ :: os => lostCount os

end CGraph.Spec
