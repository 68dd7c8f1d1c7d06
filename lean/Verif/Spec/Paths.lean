import Mathlib.Logic.Relation
import Mathlib.Data.List.Chain
/-
Specification side of paths, antichains and redundant dependencies: only relations and lists.
-/
namespace CGraph.Spec

/-- `p` is a full path: it begins with an element of `l` without dependencies, ends with an element without
successors, and each element is followed by one of its direct successors. -/
def FullPath {α : Type} (l : List α) (deps succs : α → List α) (p : List α) : Prop :=
  (∃ f, p.head? = some f ∧ f ∈ l ∧ deps f = []) ∧ (∃ z, p.getLast? = some z ∧ succs z = []) ∧
    p.IsChain (fun a b => b ∈ succs a)

/-- `r a b` reads "b depends directly on a": neither depends transitively on the other. -/
def Independent {α : Type} (r : α → α → Prop) (a b : α) : Prop :=
  ¬ Relation.TransGen r a b ∧ ¬ Relation.TransGen r b a

/-- A set of pairwise independent elements of `l`. -/
def Antichain {α : Type} (r : α → α → Prop) (l a : List α) : Prop :=
  a.Nodup ∧ (∀ x ∈ a, x ∈ l) ∧ ∀ x ∈ a, ∀ y ∈ a, x ≠ y → Independent r x y

/-- The elements up to and including the first one that satisfies `p`. -/
def upToFirst {α : Type} (p : α → Bool) : List α → List α
  | [] => []
  | x :: xs => if p x then [x] else x :: upToFirst p xs

/-- The elements of the list form one chain: each is the only successor of the one before it, which is its
only dependency; the first has no dependency, the last no successor. -/
def IsOneChain {α : Type} (deps succs : α → List α) (l : List α) : Prop :=
  l.IsChain (fun a b => succs a = [b] ∧ deps b = [a]) ∧ (∀ f, l.head? = some f → deps f = []) ∧
    ∀ z, l.getLast? = some z → succs z = []

end CGraph.Spec
