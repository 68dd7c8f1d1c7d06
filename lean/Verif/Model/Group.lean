import Verif.Model.Element
import Mathlib.Data.List.Dedup

/-! # Groups: cluster, condition, multi-condition

Elements form a tree.  Nodes run user code, groups run their children.  Regions and mutable groups run a graph engine
over their children and are covered by the models of the engines; the some-group has a model of its own. -/
namespace CGraph
open M

/-- Kinds of groups (GraphElement/GElementDefine.h:16-37). -/
inductive Kind where
  | cluster
  | condition
  | multiSerial
  | multiParallel
deriving DecidableEq, Repr

/-- An element with its `children_` (GElement.h:470). -/
inductive Tree where
  | node (e : Elem)
  | group (k : Kind) (e : Elem) (kids : List Tree)

/-- The element at the root. -/
def Tree.elem : Tree → Elem
  | .node e => e
  | .group _ e _ => e

/-- The number of the element at the root. -/
def Tree.id (t : Tree) : Nat := t.elem.id

/-- Record the call of `fatProcessor` of an element and its result. -/
def called (e : Nat) (p : Phase) (m : M CStatus) : M CStatus := fun w =>
  match m { w with tr := w.tr ++ [.call e p] } with
  | none => none
  | some (o, w') => some (o, { w' with tr := w'.tr ++ [.back e p o] })

/-- GGroup/GCluster/GCluster.cpp:19-27 `run`. -/
def clusterBody : List (Nat × M CStatus) → CStatus → M CStatus
  | [], st => M.pure st
  | b :: bs, st => M.bind b.2 fun r =>
      if (st.assign r).isErr then failM (st.assign r) id else clusterBody bs (st.assign r)

/-- GGroup/GCondition/GCondition.cpp:19-35 `run`; -1 is `CGRAPH_CONDITION_LAST_INDEX` (GGroup/GGroupDefine.h:17). -/
def conditionBody (U : User) (e : Nat) (bs : List (Nat × M CStatus)) : M CStatus :=
  M.bind (emit (U.choose e) (.choose e)) fun index =>
    if index = -1 ∧ bs ≠ [] then
      match bs.getLast? with
      | some b => M.bind b.2 fun r => M.pure (CStatus.ok.assign r)
      | none => M.pure CStatus.ok
    else if 0 ≤ index ∧ index < bs.length then
      match bs[index.toNat]? with
      | some b => M.bind b.2 fun r => M.pure (CStatus.ok.assign r)
      | none => M.pure CStatus.ok
    else M.pure CStatus.ok

/-- GGroup/GCondition/GMultiCondition.inl:47-59 `serialRun`. -/
def serialBody (U : User) : List (Nat × M CStatus) → CStatus → M CStatus
  | [], st => M.pure st
  | b :: bs, st => M.bind (emit (U.isMatch b.1) (.isMatch b.1)) fun m =>
      if m then
        M.bind b.2 fun r => if (st.assign r).isErr then failM (st.assign r) id else serialBody U bs (st.assign r)
      else serialBody U bs st

/-- GMultiCondition.inl:66-74: ask every child and commit the matching ones. -/
def matching (U : User) : List (Nat × M CStatus) → M (List (Nat × M CStatus))
  | [] => M.pure []
  | b :: bs => M.bind (emit (U.isMatch b.1) (.isMatch b.1)) fun m =>
      M.bind (matching U bs) fun rest => M.pure (if m then b :: rest else rest)

/-- The order in which the pool executes `n` tasks: as proposed by the surroundings, completed to a permutation. -/
def orderOf (prop : List Nat) (n : Nat) : List Nat :=
  let l := (prop.filter fun i => decide (i < n)).dedup
  l ++ (List.range n).filter fun i => !l.contains i

/-- Execute the tasks with the given positions and keep their results. -/
def runTasks (ms : List (Nat × M CStatus)) : List Nat → M (List (Nat × Out CStatus))
  | [] => M.pure []
  | i :: is =>
    match ms[i]? with
    | none => runTasks ms is
    | some b => M.bind (capture b.2) fun o => M.bind (runTasks ms is) fun rest => M.pure ((i, o) :: rest)

/-- GMultiCondition.inl:76-82: add up the results in the order of the children; `future::get` rethrows. -/
def collect : List (Option (Out CStatus)) → CStatus → M CStatus
  | [], st => M.pure st
  | none :: os, st => collect os st
  | some o :: os, st => M.bind (ofOut o) fun r => collect os (st.add r)

/-- GGroup/GCondition/GMultiCondition.inl:63-85 `parallelRun`.  Simplified: the tasks run after all children were asked,
one after the other in an arbitrary order. -/
def parallelBody (U : User) (e : Nat) (bs : List (Nat × M CStatus)) : M CStatus :=
  M.bind (matching U bs) fun ms =>
  M.bind (fun w => some (.ret (U.order e w.tr), w)) fun prop =>
  M.bind (runTasks ms (orderOf prop ms.length)) fun rs =>
    collect ((List.range ms.length).map fun i => (rs.find? fun r => r.1 == i).map (·.2)) CStatus.ok

/-- The virtual `run()` of a group. -/
def groupBody (U : User) (k : Kind) (e : Nat) (bs : List (Nat × M CStatus)) : M CStatus :=
  match k with
  | .cluster => clusterBody bs CStatus.ok
  | .condition => conditionBody U e bs
  | .multiSerial => serialBody U bs CStatus.ok
  | .multiParallel => parallelBody U e bs

mutual
/-- `fatProcessor(RUN)` of an element of the tree (GElement.cpp:221-286 with the virtual `run`). -/
def Tree.run (U : User) (F : Nat) : Tree → M CStatus
  | .node e => called e.id .run (fatRun U F e (nodeBody U e.id .run))
  | .group k e kids => called e.id .run (fatRun U F e (groupBody U k e.id (Tree.runs U F kids)))
/-- The same for all children. -/
def Tree.runs (U : User) (F : Nat) : List Tree → List (Nat × M CStatus)
  | [] => []
  | t :: ts => (t.id, t.run U F) :: Tree.runs U F ts
end

/-- GGroup/GGroup.cpp:17-28 `init`, 31-42 `destroy`: all children are attempted. -/
def lifeBody : List (Nat × M CStatus) → CStatus → M CStatus
  | [], st => if st.isErr then failM st id else M.pure st
  | b :: bs, st => M.bind b.2 fun r => lifeBody bs (st.add r)

mutual
/-- `fatProcessor(INIT)` / `fatProcessor(DESTROY)` of an element of the tree. -/
def Tree.life (U : User) (p : Phase) : Tree → M CStatus
  | .node e => called e.id p (fatLife U e p (nodeBody U e.id p))
  | .group _ e kids => called e.id p (fatLife U e p (lifeBody (Tree.lifes U p kids) CStatus.ok))
/-- The same for all children. -/
def Tree.lifes (U : User) (p : Phase) : List Tree → List (Nat × M CStatus)
  | [] => []
  | t :: ts => (t.id, t.life U p) :: Tree.lifes U p ts
end

mutual
/-- All numbers in the tree. -/
def Tree.ids : Tree → List Nat
  | .node e => [e.id]
  | .group _ e kids => e.id :: Tree.idsAll kids
/-- All numbers in the trees. -/
def Tree.idsAll : List Tree → List Nat
  | [] => []
  | t :: ts => t.ids ++ Tree.idsAll ts
end

end CGraph
