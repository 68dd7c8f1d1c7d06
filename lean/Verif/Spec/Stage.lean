import Verif.Model.Stage

/-! # What is observed of a stage -/
namespace CGraph.Spec
open CGraph

/-- The threads that arrived, in order. -/
def arrivals (l : List StageEv) : List Nat := l.filterMap fun | .arrive t => some t | _ => none

/-- Number of times the hook was executed. -/
def launches (l : List StageEv) : Nat := l.count .launch

/-- The threads that arrived after the latest execution of the hook. -/
def stageRound (l : List StageEv) : List Nat :=
  l.foldl (fun acc e => match e with
    | .arrive t => acc ++ [t]
    | .launch => []
    | .leave _ => acc) []

/-- Thread `t` is inside: it arrived more often than it left. -/
def inside (l : List StageEv) (t : Nat) : Prop := l.count (.leave t) < l.count (.arrive t)

/-- Thread `t` is inside and the hook was executed after it arrived. -/
def released (l : List StageEv) (t : Nat) : Prop :=
  ∃ p q, l = p ++ .arrive t :: q ∧ .launch ∈ q ∧ .leave t ∉ q

/-- A group is complete only when everybody of the previous groups has left: whoever opens a new group finds nobody
inside. -/
def Separated (l : List StageEv) : Prop :=
  ∀ p q t, l = p ++ .arrive t :: q → stageRound p = [] → ∀ u, ¬ inside p u

end CGraph.Spec
