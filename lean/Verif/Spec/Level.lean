import Verif.Model.Level

/-! # Specification of levels, read off the history -/
namespace CGraph.Spec

/-- The level of an element after a history: the last one set, 0 without. -/
def levelOf (e : Nat) (h : List LvEv) : Int :=
  h.foldl (fun cur ev => match ev with
    | .level x l => if x = e then l else cur
    | _ => cur) 0

/-- The registered elements. -/
def levelRegs (h : List LvEv) : List Nat :=
  h.filterMap (fun | .reg e => some e | _ => none)

/-- Smaller levels first, elements of one level by address. -/
def levelBefore (h : List LvEv) (a b : Nat) : Prop :=
  levelOf a h < levelOf b h ∨ levelOf a h = levelOf b h ∧ a < b

/-- The order in which `init` and `destroy` have to be called after a history. -/
structure LevelOrder (h : List LvEv) (order : List Nat) : Prop where
  all : order.Perm (levelRegs h)
  once : order.Nodup
  sorted : order.Pairwise (levelBefore h)

/-- No level is set after the element was registered. -/
def LevelsEarly (h : List LvEv) : Prop :=
  ∀ e l p q, h = p ++ .level e l :: q → e ∉ levelRegs p

end CGraph.Spec
