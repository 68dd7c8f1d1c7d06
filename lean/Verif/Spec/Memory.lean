import Verif.Model.Memory
import Mathlib.Data.List.Perm.Basic

/-! # Specification for ownership -/
namespace CGraph.Spec

/-- The object `x` belongs to the pipeline `p`: the pipeline itself, its parts, its elements and what they have. -/
inductive Holds (s : MemSt) (p : Nat) : Nat → Prop
  | self : Holds s p p
  | daemon {x} : x ∈ s.daemons p → Holds s p x
  | param {k x} : (k, x) ∈ s.params p → Holds s p x
  | event {k x} : (k, x) ∈ s.events p → Holds s p x
  | stage {k x} : (k, x) ∈ s.stages p → Holds s p x
  | elem {e} : e ∈ s.repo p → Holds s p e
  | aspect {e x} : e ∈ s.repo p → x ∈ s.aspects e → Holds s p x
  | eparam {e k x} : e ∈ s.repo p → (k, x) ∈ s.eparams e → Holds s p x

/-- The element that a call makes, with its pipeline. -/
def makes (s : MemSt) (o : MemOp) : List (Nat × Nat) :=
  if (s.step o).2 then
    match o with
    | .regNew p _ => [(p, s.next)]
    | .mkNode p _ => [(p, s.next)]
    | .mkGroup p _ _ => [(p, s.next)]
    | _ => []
  else []

/-- A call as it is meant: on pipelines that are not removed, with elements that this pipeline made (`made` are the
elements made so far). -/
def LegalCall (made : List (Nat × Nat)) (s : MemSt) : MemOp → Prop
  | .create => True
  | .clear => True
  | .mkGroup p els _ => p ∈ s.live ∧ ∀ e ∈ els, (p, e) ∈ made
  | .reg p e _ => p ∈ s.live ∧ (p, e) ∈ made
  | .aspect e | .pop e | .eparam e _ => ∃ p, p ∈ s.live ∧ (p, e) ∈ made
  | .remove p | .regNew p _ | .mkNode p _ | .init p _ | .destroy p | .param p _ | .rmParam p _ | .daemon p | .event p _
  | .stage p _ => p ∈ s.live

/-- A history of such calls. -/
def LegalCalls : List (Nat × Nat) → MemSt → List MemOp → Prop
  | _, _, [] => True
  | made, s, o :: l => LegalCall made s o ∧ LegalCalls (made ++ makes s o) (s.step o).1 l

/-- All registrations succeed, and no stage is registered under a key that is in use. -/
def AllFine : MemSt → List MemOp → Prop
  | _, [] => True
  | s, o :: l => (match o with
      | .regNew _ _ | .mkNode _ _ | .mkGroup _ _ _ => (s.step o).2 = true
      | .stage p k => ∀ x, (k, x) ∉ s.stages p
      | _ => True) ∧ AllFine (s.step o).1 l

end CGraph.Spec
