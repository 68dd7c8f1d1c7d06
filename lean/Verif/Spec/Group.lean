import Verif.Model.Group
import Verif.Spec.Element

/-! # What a group does with its children -/
namespace CGraph.Spec

/-- Calls that a group makes on a child: `isMatch` and `fatProcessor`. -/
def isKidAct : Act → Bool
  | .call _ _ => true
  | .back _ _ _ => true
  | .isMatch _ _ => true
  | _ => false

/-- The calls made on the elements `K`. -/
def acts (K : List Nat) (tr : Trace) : Trace := tr.filter fun ev => isKidAct ev && K.contains ev.id

/-- The child was processed. -/
def did (p : Phase) (k : Nat) (o : Out CStatus) : Trace := [.call k p, .back k p o]

/-- First error of a list of statuses, or OK. -/
def firstError : List CStatus → CStatus
  | [] => .ok
  | s :: ss => if s.isErr then s else firstError ss

/-- The exception. -/
def thrownBy : Out CStatus → Option Exc
  | .ret _ => none
  | .thr x => some x

/-- The status. -/
def answered : Out CStatus → Option CStatus
  | .ret s => some s
  | .thr _ => none

/-- Common outcome of several tasks: the first exception, otherwise the first error, otherwise OK. -/
def outcome (os : List (Out CStatus)) : Out CStatus :=
  match os.findSome? thrownBy with
  | some x => .thr x
  | none => .ret (firstError (os.filterMap answered))

/-- How a failing child ends the group's `run`. -/
def EndsWith (r o : Out CStatus) : Prop :=
  (∃ s, r = .ret s ∧ s.isCrash = false ∧ o = .ret s) ∨
  (∃ s, r = .ret s ∧ s.isCrash = true ∧ o = .thr (.c (" | " ++ s.info))) ∨ (∃ x, r = .thr x ∧ o = .thr x)

/-- One visited child of a serial multi-condition: not matching, or matching with its status. -/
def visit (v : Nat × Option CStatus) : Trace :=
  match v.2 with
  | none => [.isMatch v.1 (.ret false)]
  | some s => .isMatch v.1 (.ret true) :: did .run v.1 (.ret s)

/-- The child that the answer of `choose` selects: -1 stands for the last one. -/
def pick {α : Type} (i : Int) (ks : List α) : Option α :=
  if i = -1 then ks.getLast? else if i < 0 then none else ks[i.toNat]?

/-- How often `run` of element `x` was executed. -/
def runsOf (x : Nat) (tr : Trace) : Nat := tr.countP fun ev => ev == .enter x .run

mutual
/-- How often one run of the tree executes `run` of element `x`, when nothing fails, `choose` answers `ch` and `isMatch`
answers `mt`: loop counts multiply along the way from the root. -/
def times (ch : Nat → Int) (mt : Nat → Bool) (x : Nat) : Tree → Nat
  | .node e => if e.visible then e.loop * (if e.id = x then 1 else 0) else 0
  | .group k e kids =>
    if e.visible then e.loop * ((if e.id = x then 1 else 0) +
      match k with
      | .cluster => ((timesAll ch mt x kids).map Prod.snd).sum
      | .condition => ((pick (ch e.id) (timesAll ch mt x kids)).map Prod.snd).getD 0
      | .multiSerial => (((timesAll ch mt x kids).filter fun p => mt p.1).map Prod.snd).sum
      | .multiParallel => (((timesAll ch mt x kids).filter fun p => mt p.1).map Prod.snd).sum)
    else 0
/-- The same for each of the children, with its number. -/
def timesAll (ch : Nat → Int) (mt : Nat → Bool) (x : Nat) : List Tree → List (Nat × Nat)
  | [] => []
  | t :: ts => (t.id, times ch mt x t) :: timesAll ch mt x ts
end

end CGraph.Spec
