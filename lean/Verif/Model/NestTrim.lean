import Verif.Model.Optimizer

/-! # `trim` of a pipeline with groups inside of groups

The elements and their dependencies are those of `Heap`; `kids none` are the elements of the pipeline and `kids (some g)`
the elements of the group `g`, in the order of the sets (GSortedGElementPtrSet). -/

namespace CGraph

/-- A pipeline: which elements are regions, and what is inside of the pipeline and of every group.
GRegion.h:53 `manager_`, GElementManager.h:102 `manager_elements_`, GElementDefine.h:26 `REGION`. -/
structure TrimCfg where
  kids : Option Eid → List Eid
  isRegion : Eid → Bool

namespace Heap

/-- GTrimOptimizer.h:31-54: the loop of `trim` over the elements of one level, with the recursion into regions
(GTrimOptimizer.h:51-53).  `sub` is `GTrimOptimizer::trim` for the elements of the region; GRegion.cpp:117-124
`GRegion::trim` throws when the region is initialised already (`none`).  A region always has its manager
(GRegion.cpp:18). -/
def nestTrimLoop (c : TrimCfg) (sub : List Eid → Heap → Option (Heap × Nat)) (elems : List Eid) (m : Graph.Mat) :
    List Eid → Heap × Nat → Option (Heap × Nat)
  | [], r => some r
  | cur :: rest, r =>
    let r1 := trimRemove cur (trimCandidates (r.1.graph elems) m cur) r
    if c.isRegion cur then
      if (r1.1.elt cur).isInit then none
      else (sub (c.kids (some cur)) r1.1).bind fun q => nestTrimLoop c sub elems m rest (q.1, r1.2 + q.2)
    else nestTrimLoop c sub elems m rest r1

/-- GTrimOptimizer.h:26-57 `trim` for one level.  The first number bounds the depth of the nesting, `fuel` the length
of a path; `none`: an exception is thrown, or one of the bounds is not enough (for a cycle no bound is enough). -/
def nestTrim (c : TrimCfg) (fuel : Nat) : Nat → List Eid → Heap → Option (Heap × Nat)
  | 0, _, _ => none
  | f + 1, elems, h =>
    ((h.graph elems).collectPaths fuel).bind fun paths =>
      nestTrimLoop c (nestTrim c fuel f) elems ((h.graph elems).buildGraph paths 1 0 0) elems (h, 0)

/-- GPipeline.cpp:267-271 `trim`, GElementManager.cpp:172-174 `trim`: the elements of the pipeline.  The check that the pipeline
is not initialised (GPipeline.cpp:268) is not part of this definition.
`depth` bounds how deep groups are nested (0: no groups). -/
def trimPipeline (c : TrimCfg) (fuel depth : Nat) (h : Heap) : Option (Heap × Nat) := nestTrim c fuel (depth + 1) (c.kids none) h

end Heap
end CGraph
