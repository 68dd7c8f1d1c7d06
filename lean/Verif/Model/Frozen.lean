import Verif.Model.Graph

/-! # Which elements count as initialised

The setters of an element (`GElement.cpp:35-100, 154-190, 489-500`, `GElement.inl:48-63`, `GFunction.cpp:13-25`,
`GFence.cpp`) are refused while its `is_init_` is set; `GNode::spawn` (`GNode.cpp:25-32`) is refused while it is not.  The
flag is set and reset by whoever initialises the element: `GElementManager.cpp:19-54` for the elements of a pipeline or a
region, `GRegion.cpp:27-47` and `GGroup.cpp:17-42` for the group itself.  Simplified: the configuration of an element is one
value; what `init` and `destroy` of an element answer is given by an oracle (aspects and exceptions end up in that answer). -/
namespace CGraph

/-- Elements: nodes and adapters, regions, and all other groups (`GCluster`, `GCondition`, `GMultiCondition`, `GSome`,
`GMutable`: they use `GGroup::init` and `destroy`). -/
inductive FTree where
  | node (e : Eid)
  | region (e : Eid) (cs : List FTree)
  | plain (e : Eid) (cs : List FTree)

/-- The element at the root. -/
def FTree.id : FTree → Eid
  | .node e => e
  | .region e _ => e
  | .plain e _ => e

/-- The flags `is_init_`. -/
abbrev Flags := Eid → Bool

/-- Assignment of one flag. -/
def Flags.put (f : Flags) (e : Eid) (b : Bool) : Flags := fun x => if x = e then b else f x

mutual
/-- `fatProcessor(INIT)` of an element (`b = true`: GRegion.cpp:27-37, GGroup.cpp:17-28) or `fatProcessor(DESTROY)`
(`b = false`: GRegion.cpp:40-47, GGroup.cpp:31-42); the Boolean says whether no error is returned. -/
def FTree.fat (ok : Eid → Bool) (b : Bool) : FTree → Flags → Flags × Bool
  | .node e, f => (f, ok e)
  | .region e cs, f =>
    if (FTree.mgr ok b cs f).2 then ((FTree.mgr ok b cs f).1.put e b, true) else ((FTree.mgr ok b cs f).1, false)
  | .plain e cs, f =>
    if (FTree.all ok b cs f).2 then ((FTree.all ok b cs f).1.put e b, true) else ((FTree.all ok b cs f).1, false)

/-- GElementManager.cpp:33-37, 46-50: one after the other up to the first error; the flag of each is set after it. -/
def FTree.mgr (ok : Eid → Bool) (b : Bool) : List FTree → Flags → Flags × Bool
  | [], f => (f, true)
  | t :: l, f =>
    if (FTree.fat ok b t f).2 then FTree.mgr ok b l ((FTree.fat ok b t f).1.put t.id b)
    else ((FTree.fat ok b t f).1, false)

/-- GGroup.cpp:20-24, 34-38: all of them, errors are added up; no flag is set for the children. -/
def FTree.all (ok : Eid → Bool) (b : Bool) : List FTree → Flags → Flags × Bool
  | [], f => (f, true)
  | t :: l, f =>
    ((FTree.all ok b l (FTree.fat ok b t f).1).1, (FTree.fat ok b t f).2 && (FTree.all ok b l (FTree.fat ok b t f).1).2)
end

/-- A pipeline: `is_init_` of the pipeline, the flags of the elements, and their configurations. -/
structure FzSt where
  up : Bool
  flags : Flags
  cfg : Eid → Nat

/-- Calls.  `rest` says whether everything else in the pipeline (managers, daemons) succeeds. -/
inductive FzOp where
  | init (ok : Eid → Bool) (rest : Bool)
  | destroy (ok : Eid → Bool) (rest : Bool)
  /-- a setter on an element -/
  | set (e : Eid) (v : Nat)

namespace FzSt

/-- A new pipeline. -/
def new (cfg : Eid → Nat) : FzSt := ⟨false, fun _ => false, cfg⟩

/-- Whether a setter is accepted: CGRAPH_ASSERT_INIT_THROW_ERROR(false). -/
def accepts (s : FzSt) (e : Eid) : Bool := !s.flags e

/-- Whether `GNode::spawn` is allowed: GNode.cpp:27. -/
def spawns (s : FzSt) (e : Eid) : Bool := s.flags e

/-- GPipeline.cpp:36-53 `init`, 80-103 `destroy`, and the setters. -/
def step (ts : List FTree) (s : FzSt) : FzOp → FzSt
  | .init ok rest =>
    if s.up then s
    else { s with flags := (FTree.mgr ok true ts s.flags).1, up := (FTree.mgr ok true ts s.flags).2 && rest }
  | .destroy ok rest =>
    if s.up then { s with flags := (FTree.mgr ok false ts s.flags).1, up := !((FTree.mgr ok false ts s.flags).2 && rest) }
    else s
  | .set e v => if s.accepts e then { s with cfg := fun x => if x = e then v else s.cfg x } else s

/-- A sequence of calls. -/
def exec (ts : List FTree) (s : FzSt) : List FzOp → FzSt
  | [] => s
  | o :: l => exec ts (s.step ts o) l

end FzSt
end CGraph
