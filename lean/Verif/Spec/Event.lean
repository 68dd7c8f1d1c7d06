import Verif.Model.Event

/-! # What is observed of events -/
namespace CGraph.Spec
open CGraph

/-- In the history `P`, notification `id` of event `e` asks to be waited for at the end of the run; it is made and has
returned when a later run begins to wait for events, and the pipeline is not destroyed or initialised in between. -/
def RunDue (P : List EvEv) (id e : Nat) : Prop :=
  ∃ p0 pa pb, P = p0 ++ .call id e (.async .runFinish) :: (pa ++ .waitBegin :: pb) ∧ .back id ∈ pa ∧
    .destroyBegin ∉ pa ++ pb ∧ .inited ∉ pa ++ pb

/-- In the history `P`, notification `id` of event `e` with strategy `st` is made and has returned when `destroy` is
called, in the same life of the pipeline; this call of `destroy` has not ended. -/
def DestroyDue (P : List EvEv) (st : EvStrategy) (id e : Nat) : Prop :=
  ∃ p0 p1 p2, P = p0 ++ .call id e (.async st) :: (p1 ++ .destroyBegin :: p2) ∧ .back id ∈ p1 ∧
    .destroyBegin ∉ p1 ∧ .inited ∉ p1 ∧ .destroyEnd ∉ p2

/-- Every handler is executed for a notification, after it was made, and at most once. -/
structure HandlersOK (l : List EvEv) : Prop where
  startOnce : ∀ id, l.count (.start id) ≤ 1
  handledOnce : ∀ id, l.count (.handled id) ≤ 1
  called : ∀ id p q, l = p ++ .start id :: q → ∃ e k, .call id e k ∈ p
  started : ∀ id p q, l = p ++ .handled id :: q → .start id ∈ p

end CGraph.Spec
