import Verif.Model.PipeMgr

/-! # What is observed of a pipeline manager -/
namespace CGraph.Spec
open CGraph

/-- The registered pipelines. -/
def pmRegs (l : List PmEv) : List Nat :=
  l.foldl (fun acc x => match x with
    | .added p => acc ++ [p]
    | .removed p => acc.filter (· != p)
    | .cleared => []
    | _ => acc) []

/-- The callers that execute a pipeline, with the pipeline. -/
def pmHeld (l : List PmEv) : List (Nat × Nat) :=
  l.foldl (fun acc x => match x with
    | .begin t p => acc ++ [(t, p)]
    | .done t p _ => acc.filter (· != (t, p))
    | .thrown t p => acc.filter (· != (t, p))
    | _ => acc) []

/-- The pipelines whose execution ended with an exception. -/
def pmLost (l : List PmEv) : List Nat := l.filterMap fun | .thrown _ p => some p | _ => none

/-- The pipelines that were handed out and not given back. -/
def pmBusy (l : List PmEv) : List Nat := (pmHeld l).map Prod.snd ++ pmLost l

/-- The pipelines are distinct, and none is removed while it is busy. -/
def PmFair (l : List PmEv) : Prop :=
  (∀ p q x, l = p ++ .added x :: q → x ∉ pmRegs p) ∧
  (∀ p q x, l = p ++ .removed x :: q → x ∉ pmBusy p) ∧
  (∀ p q, l = p ++ .cleared :: q → pmBusy p = [])

end CGraph.Spec
