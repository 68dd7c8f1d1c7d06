import Verif.Model.Frozen

/-! # Specification for initialised elements -/
namespace CGraph.Spec

/-- Where an element is: directly in the pipeline, in a region, or in another group. -/
inductive Place where
  | top
  | inRegion
  | inPlain
deriving DecidableEq, Repr

/-- An element of a pipeline and its place. -/
inductive Placed (ts : List FTree) : Place → FTree → Prop
  | top {t} : t ∈ ts → Placed ts .top t
  | inRegion {p e cs t} : Placed ts p (.region e cs) → t ∈ cs → Placed ts .inRegion t
  | inPlain {p e cs t} : Placed ts p (.plain e cs) → t ∈ cs → Placed ts .inPlain t

/-- The element is a group. -/
def IsGroup (t : FTree) : Prop := ∀ e, t ≠ .node e

/-- An element of the pipeline that counts as initialised: every one but nodes directly in groups other than regions. -/
def Guarded (ts : List FTree) (e : Eid) : Prop := ∃ p t, Placed ts p t ∧ t.id = e ∧ (p ≠ .inPlain ∨ IsGroup t)

/-- All `init` and `destroy` calls of the history succeed: after every `init` the pipeline is initialised, after every
`destroy` it is not. -/
def NoFailure (ts : List FTree) : FzSt → List FzOp → Prop
  | _, [] => True
  | s, o :: l => (match o with
      | .init ok rest => (s.step ts (.init ok rest)).up = true
      | .destroy ok rest => (s.step ts (.destroy ok rest)).up = false
      | .set _ _ => True) ∧ NoFailure ts (s.step ts o) l

end CGraph.Spec
