import Verif.Model.Optimizer

/-! # `GPipeline::checkSeparate` with groups

`GraphPipeline/GPipeline.cpp:301-323`, `GraphElement/_GOptimizer/GSeparateOptimizer.h` and the `isSeparate` functions of the
groups.  Everything that is only read here is a function of the element: `belong_`, kind, members, relations. -/
namespace CGraph

/-- What kind of element it is, as far as `isSeparate` distinguishes. -/
inductive SepKind where
  | node
  | region
  | cluster
  | condition
  | multiSerial
  | multiParallel
  | some
  /-- `GMutable` -/
  | mutab
deriving DecidableEq, Repr

/-- The elements of a pipeline as `checkSeparate` sees them. -/
structure SepCfg where
  /-- `belong_` (GElement.h:447); `none` is the null pointer of elements registered in the pipeline -/
  belong : Eid → Option Eid
  kind : Eid → SepKind
  /-- `children_` (GGroup.h), for a region the same elements in `manager_elements_` (GRegion.cpp:62-67) -/
  kids : Eid → List Eid
  /-- `element_manager_->manager_elements_` -/
  top : List Eid
  /-- `dependence_` -/
  deps : Eid → List Eid
  /-- `run_before_` -/
  succs : Eid → List Eid
  /-- `repository_.find` (GElementRepository.cpp:21-24) -/
  known : Eid → Bool

namespace SepCfg

/-- GElement.cpp:582-589: the path from the element upwards (`getDeepPath(true)`).  `none`: not ended within the fuel (a
cycle of `belong_`). -/
def climb (c : SepCfg) : Nat → Eid → Option (List Eid)
  | 0, _ => none
  | f + 1, e =>
    match c.belong e with
    | none => some [e]
    | some g => (c.climb f g).map (fun p => e :: p)

/-- GSeparateOptimizer.h:59-61: the last one that agrees, given both paths downwards. -/
def agree : Option Eid → List Eid → List Eid → Option Eid
  | acc, x :: xs, y :: ys => if x = y then agree (some x) xs ys else acc
  | acc, _, _ => acc

/-- GSeparateOptimizer.h:77-83: the loop of `getPatch`, on the path upwards. -/
def patchLoop (anc : Option Eid) : List Eid → Option Eid → Option Eid
  | [], p => p
  | x :: xs, p => if some x = anc then p else patchLoop anc xs (some x)

/-- GSeparateOptimizer.h:75-86 `getPatch`; `up` is the path upwards. -/
def getPatch (up : List Eid) (anc : Option Eid) (e : Eid) : Option Eid :=
  if anc = some e then none else patchLoop anc up none

/-- The members of one level as a graph: `manager_elements_` of a region or of the pipeline. -/
def level (c : SepCfg) (elems : List Eid) : Graph := ⟨elems, c.deps, c.succs⟩

/-- GSeparateOptimizer.h:27-40 with possibly null arguments: a null pointer is on no path. -/
def onPath (c : SepCfg) (fuel : Nat) (elems : List Eid) : Option Eid → Option Eid → Option Bool
  | some a, some b => (c.level elems).checkSeparate fuel a b
  | _, _ => ((c.level elems).collectPaths fuel).map (fun _ => false)

/-- The `isSeparate` functions: GGroup.cpp:121-123 (`GSome`, `GMutable`), GRegion.cpp:112-114, GCluster.cpp:56-58,
GCondition.cpp:60-62, GMultiCondition.inl:113-127.  `none` for a node: GPipeline.cpp:314 throws. -/
def isSeparate (c : SepCfg) (fuel : Nat) (g : Eid) (a b : Option Eid) : Option Bool :=
  match c.kind g with
  | .node => none
  | .region => c.onPath fuel (c.kids g) a b
  | .cluster | .condition | .multiSerial => some true
  | .multiParallel | .some | .mutab => some false

/-- GPipeline.cpp:301-323 `checkSeparate`.  `none`: does not end, or an exception. -/
def checkSeparate (c : SepCfg) (fuel : Nat) (fst snd : Eid) : Option Bool :=
  if fst = snd || !c.known fst || !c.known snd then some false
  else
    match c.climb fuel fst, c.climb fuel snd with
    | some p, some q =>
      match agree none p.reverse q.reverse with
      | some g =>
        if g = fst || g = snd then some true
        else c.isSeparate fuel g (getPatch p (some g) fst) (getPatch q (some g) snd)
      | none => c.onPath fuel c.top (getPatch p none fst) (getPatch q none snd)
    | _, _ => none

end SepCfg
end CGraph
