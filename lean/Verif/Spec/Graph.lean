import Mathlib.Logic.Relation
/-
Specification side of dependency graphs: only a relation on elements and lists of elements.
-/
namespace CGraph.Spec

/-- `r a b` reads "b depends directly on a".  No element of the list transitively depends on itself. -/
def AcyclicOn {α : Type} (r : α → α → Prop) (l : List α) : Prop := ∀ v ∈ l, ¬ Relation.TransGen r v v

/-- In the list every element comes after all elements it depends on (which are in the list). -/
def TopoOrdered {α : Type} (r : α → α → Prop) (l : List α) : Prop :=
  ∀ pre x post, l = pre ++ x :: post → ∀ d, r d x → d ∈ pre

/-- In the list of layers every element comes in a strictly later layer than all it depends on. -/
def LayerOrdered {α : Type} (r : α → α → Prop) (m : List (List α)) : Prop :=
  ∀ pre x post, m = pre ++ x :: post → ∀ v ∈ x, ∀ d, r d v → ∃ l ∈ pre, d ∈ l

end CGraph.Spec
