import Verif.Model.Status
/-
Model of the dependency bookkeeping of elements (src/GraphCtrl/GraphElement/GElement.cpp), of GGroup::addElement
and GMutable::setup, and of the graph handed to the engines.
-/
namespace CGraph

/-- An element pointer (`GElement *`).  Distinct numbers are distinct objects. -/
abbrev Eid := Nat

/-- GElement.h:442-468, GElementObject: the fields that matter for the dependency relation.  The two
`USmallVector`s are the lists they hold (USmallVector itself is modelled in Model/Containers and shown to
behave like such lists, C04).  `isMutableGroup` stands for `element_type_ == MUTABLE`. -/
structure Elt where
  deps : List Eid := []
  succs : List Eid := []
  left : Nat := 0
  belong : Option Eid := none
  isInit : Bool := false
  isMutableGroup : Bool := false
deriving DecidableEq

/-- All elements; elements never touched have the default fields of a fresh object. -/
structure Heap where
  elt : Eid → Elt

namespace Heap

/-- Fresh objects everywhere. -/
def empty : Heap := ⟨fun _ => {}⟩

/-- Assignment of the fields of one object. -/
def upd (h : Heap) (e : Eid) (x : Elt) : Heap := ⟨fun a => if a = e then x else h.elt a⟩

/-- USmallVector::insert with the default `isUnique = true` (USmallVector.h:38-55) on the list view. -/
def insertU (l : List Eid) (x : Eid) : List Eid := if x ∈ l then l else l ++ [x]

/-- GElement.cpp:334-337 `isMutable`. -/
def isMutable (h : Heap) (this : Eid) : Bool :=
  match (h.elt this).belong with
  | none => false
  | some b => (h.elt b).isMutableGroup

/-- GElement.cpp:169-170: `element->run_before_.insert(this); this->dependence_.insert(element);` -/
def link (h : Heap) (this e : Eid) : Heap :=
  let h1 := h.upd e { h.elt e with succs := insertU (h.elt e).succs this }
  h1.upd this { h1.elt this with deps := insertU (h1.elt this).deps e }

/-- GElement.cpp:173 / 498: `left_depend_.store(dependence_.size())`. -/
def storeLeft (h : Heap) (this : Eid) : Heap :=
  h.upd this { h.elt this with left := (h.elt this).deps.length }

/-- GElement.cpp:161-174: the loop of `addDependGElements`; `none` is a null pointer in the set.
The Boolean says whether the call returned OK. -/
def addLoop (h : Heap) (this : Eid) : List (Option Eid) → Heap × Bool
  | [] => (h.storeLeft this, true)
  | none :: _ => (h, false)
  | some e :: es =>
    if (h.elt e).belong ≠ (h.elt this).belong then (h, false)
    else if this = e then addLoop h this es
    else addLoop (h.link this e) this es

/-- GElement.cpp:154-175 `addDependGElements`.  The set is given in its iteration order. -/
def addDepend (h : Heap) (this : Eid) (es : List (Option Eid)) : Heap × Bool :=
  if !h.isMutable this && (h.elt this).isInit then (h, false)
  else addLoop h this es

/-- GElement.cpp:489-500 `removeDepend`. -/
def removeDepend (h : Heap) (this : Eid) (e : Option Eid) : Heap × Bool :=
  match e with
  | none => (h, false)
  | some e =>
    if (h.elt this).isInit then (h, false)
    else if e ∉ (h.elt this).deps then (h, false)
    else
      let h1 := h.upd this { h.elt this with deps := (h.elt this).deps.erase e }
      let h2 := h1.upd e { h1.elt e with succs := (h1.elt e).succs.erase this }
      (h2.storeLeft this, true)

/-- GGroup.cpp:45-56 `addElement`: only `belong_` matters here. -/
def adopt (h : Heap) (group e : Eid) : Heap := h.upd e { h.elt e with belong := some group }

/-- `is_init_` set or cleared by GElementManager.cpp:36, 49 and the groups' init/destroy. -/
def setInit (h : Heap) (e : Eid) (b : Bool) : Heap := h.upd e { h.elt e with isInit := b }

/-- GMutable.cpp:79-86 `setup`, dependency part: both vectors of every child are cleared;
`left_depend_` is not touched. -/
def mutableSetup (h : Heap) : List Eid → Heap
  | [] => h
  | c :: cs => mutableSetup (h.upd c { h.elt c with deps := [], succs := [] }) cs

end Heap

/-- Calls that change the relation while a pipeline is being built. -/
inductive GraphOp where
  | addDepend (this : Eid) (es : List (Option Eid))
  | removeDepend (this : Eid) (e : Option Eid)
  | adopt (group e : Eid)
  | setInit (e : Eid) (b : Bool)
  | markMutable (e : Eid)
deriving DecidableEq

/-- One call (the result status dropped). -/
def Heap.step (h : Heap) : GraphOp → Heap
  | .addDepend t es => (h.addDepend t es).1
  | .removeDepend t e => (h.removeDepend t e).1
  | .adopt g e => h.adopt g e
  | .setInit e b => h.setInit e b
  | .markMutable e => h.upd e { h.elt e with isMutableGroup := true }

/-- The view an engine gets: the elements of a `GSortedGElementPtrSet` in iteration order
(GElementSorter.h:27-29: by level, then by address) with the two adjacency vectors. -/
structure Graph where
  elems : List Eid
  deps : Eid → List Eid
  succs : Eid → List Eid

/-- The graph seen through a heap. -/
def Heap.graph (h : Heap) (elems : List Eid) : Graph :=
  ⟨elems, fun e => (h.elt e).deps, fun e => (h.elt e).succs⟩

end CGraph
