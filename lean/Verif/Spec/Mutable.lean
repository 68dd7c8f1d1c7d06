import Verif.Model.Mutable
import Verif.Spec.Graph

/-! # Specification for mutable groups -/
namespace CGraph.Spec

/-- The relation that `reshape` describes: there is an arrow from `a` to another element `b`. -/
def Arrows (ops : List RsOp) (a b : Eid) : Prop := RsOp.arrow a (some b) ∈ ops ∧ a ≠ b

/-- What a call says about the visibility of `e`. -/
def saysVis (e : Eid) : RsOp → Option Bool
  | .arrow a b => if a = e ∨ b = some e then some true else none
  | .show a => if a = e then some true else none
  | .setVisible a v => if a = e then some v else none
  | _ => none

/-- What a call says about the number of loops of `e`; an element with a timeout takes 1 only. -/
def saysLoop (timed : Bool) (e : Eid) : RsOp → Option Nat
  | .times a n => if a = e ∧ (timed = true → n = 1) then some n else none
  | .setLoop a n => if a = e ∧ (timed = true → n = 1) then some n else none
  | _ => none

/-- The last word, or a default. -/
def lastWord {α β : Type} (f : α → Option β) (d : β) (l : List α) : β := (l.filterMap f).getLast?.getD d

/-- The children are those that belong to the group, the group is mutable, and no child is related to an element outside. -/
structure MuWF (s : MuSt) : Prop where
  nodup : s.children.Nodup
  belong : ∀ e, (s.h.elt e).belong = some s.group ↔ e ∈ s.children
  isMut : (s.h.elt s.group).isMutableGroup = true
  sym : ∀ a b, b ∈ (s.h.elt a).succs ↔ a ∈ (s.h.elt b).deps
  dn : ∀ e, (s.h.elt e).deps.Nodup
  sn : ∀ e, (s.h.elt e).succs.Nodup
  irr : ∀ e, e ∉ (s.h.elt e).deps
  inD : ∀ e ∈ s.children, ∀ d ∈ (s.h.elt e).deps, d ∈ s.children
  inS : ∀ e ∈ s.children, ∀ d ∈ (s.h.elt e).succs, d ∈ s.children

/-- The same group in two states: what no run changes. -/
structure MuSame (s t : MuSt) : Prop where
  group : t.group = s.group
  children : t.children = s.children
  timed : t.timed = s.timed
  bind : t.bind = s.bind
  belong : ∀ e, (t.h.elt e).belong = (s.h.elt e).belong
  isInit : ∀ e, (t.h.elt e).isInit = (s.h.elt e).isInit
  isMut : ∀ e, (t.h.elt e).isMutableGroup = (s.h.elt e).isMutableGroup

/-- The engine finds the same in two states: relations, counters, visibility, loops and shapes of the children, and the
arrays it uses. -/
structure MuReady (s t : MuSt) : Prop where
  deps : ∀ e ∈ s.children, (t.h.elt e).deps = (s.h.elt e).deps
  succs : ∀ e ∈ s.children, (t.h.elt e).succs = (s.h.elt e).succs
  left : ∀ e ∈ s.children, (t.h.elt e).left = (s.h.elt e).left
  vis : ∀ e ∈ s.children, t.vis e = s.vis e
  loop : ∀ e ∈ s.children, t.loop e = s.loop e
  shape : ∀ e ∈ s.children, t.shape e = s.shape e
  total : t.eng.total = s.eng.total
  fronts : t.eng.fronts = s.eng.fronts
  ends : t.eng.ends = s.eng.ends
  linked : t.eng.linked = s.eng.linked
  kind : t.eng.kind = s.eng.kind
  matrix : s.eng.kind = .parallel → t.eng.matrix = s.eng.matrix

end CGraph.Spec
