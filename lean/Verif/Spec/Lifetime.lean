import Mathlib.Logic.Basic

/-! # Lifetime

What is observed of a pipeline that is run and destroyed: starts and ends of bodies of elements, calls of `destroy` of elements, the
deletion of the engine and accesses to it. -/
namespace CGraph.Spec

inductive LifeEv where
  | start (e : Nat)
  | over (e : Nat)
  | destroyed (e : Nat)
  | deleted
  | used
deriving DecidableEq

/-- `destroy` of an element is called only when no body of it is being executed, and none begins or ends afterwards. -/
def ElementsSafe (t : List LifeEv) : Prop :=
  ∀ pre post e, t = pre ++ .destroyed e :: post → pre.count (.start e) = pre.count (.over e) ∧ .start e ∉ post ∧ .over e ∉ post

/-- The engine is not used after it was deleted. -/
def EngineSafe (t : List LifeEv) : Prop := ∀ pre post, t = pre ++ .deleted :: post → .used ∉ post

end CGraph.Spec
