import Verif.Model.Separate
import Verif.Model.DagType

/-! # `makeSerial` with groups

`GPipeline::makeSerial` (GraphPipeline/GPipeline.cpp:274-296) accepts a pipeline if `checkSerializable` of its elements
answers true, and then the pool is made without threads: everything has to be executed by the caller of `run`.  Here are
the test at every depth, and what the caller executes in one run. -/
namespace CGraph

/-- A pipeline as `makeSerial` and a run see it: the structure, and for each element its settings and what user code
answers.  Simplified: every element executes one round; `choose` and `isMatch` answer the same during one run. -/
structure SerCfg extends SepCfg where
  /-- `binding_index_` (GElement.h:452) -/
  bind : Eid → Int
  /-- `isAsync()` (GElement.cpp:143-146): a timeout is set -/
  async : Eid → Bool
  /-- `engine_type_` of the manager of a region is `DYNAMIC` -/
  dynamic : Eid → Bool
  /-- the same of the pipeline -/
  topDynamic : Bool
  /-- `GCondition::choose` -/
  choose : Eid → Int
  /-- `isMatch` -/
  isMatch : Eid → Bool
  /-- the body of a node returns no error -/
  ok : Eid → Bool

/-- How a call ends.  `lost`: something was handed to the pool, which has no thread; it is not executed, and the caller
waits for it, without end or until the timeout of the element (a task with the default binding even divides by zero on its
way to the pool, UThreadPool.cpp:216, property C13). -/
inductive SerRes where
  | ok
  | err
  | lost
deriving DecidableEq, Repr

/-- The nodes whose bodies the caller has executed, and how the call ended. -/
structure SerOut where
  trace : List Eid
  res : SerRes
deriving DecidableEq, Repr

namespace SerCfg

/-- The engine of one level: elements of a region or of the pipeline. -/
def dyn (c : SerCfg) (elems : List Eid) : DynCfg := ⟨⟨elems, c.deps, c.succs⟩, c.bind, 0, 0⟩

/-- `isSerializable`: GElement.cpp:514-516 (node), GGroup.cpp:90-99 (cluster, condition), GMultiCondition.inl:97-109,
GRegion.cpp:103-109 with GElementManager.cpp:139-169, GSome.cpp:82-84, GMutable.cpp:66-68.  `false` when the fuel ends. -/
def serializable (c : SerCfg) : Nat → Eid → Bool
  | 0, _ => false
  | f + 1, e =>
    match c.kind e with
    | .node => true
    | .cluster | .condition | .multiSerial => (c.kids e).all (c.serializable f)
    | .multiParallel => if (c.kids e).length > 1 then false else (c.kids e).all (c.serializable f)
    | .region => c.dynamic e &&
        (c.dyn (c.kids e)).g.checkSerializable (fun i => c.serializable f i && !c.async i)
    | .some | .mutab => false

/-- GPipeline.cpp:282-283 with GElementManager.cpp:139-169: `makeSerial` accepts the pipeline (before init, with a pool
of its own). -/
def accepts (c : SerCfg) (fuel : Nat) : Bool :=
  c.topDynamic && (c.dyn c.top).g.checkSerializable (fun i => c.serializable fuel i && !c.async i)

/-- One after the other until something else than success: GCluster.cpp:19-27, GMultiCondition.inl:48-60. -/
def seqRun (f : Eid → SerOut) : List Eid → SerOut
  | [] => ⟨[], .ok⟩
  | e :: es =>
    match (f e).res with
    | .ok => ⟨(f e).trace ++ (seqRun f es).trace, (seqRun f es).res⟩
    | _ => f e

/-- GDynamicEngine.cpp:291-304: the loop of `serialRunAll`. -/
def walk (g : Graph) (f : Eid → SerOut) : Nat → Eid → SerOut
  | 0, _ => ⟨[], .lost⟩
  | n + 1, e =>
    match (f e).res, g.succs e with
    | .ok, s :: _ => ⟨(f e).trace ++ (walk g f n s).trace, (walk g f n s).res⟩
    | _, _ => f e

/-- GDynamicEngine.cpp:124-203: `process(e, true)`, `innerExec` and `afterElementRun`, as far as the caller executes
elements itself; with several dependants all but one are handed to the pool. -/
def proc (d : DynCfg) (f : Eid → SerOut) : Nat → Eid → SerOut
  | 0, _ => ⟨[], .lost⟩
  | n + 1, e =>
    if d.isDefault e then
      match (f e).res, d.g.succs e with
      | .ok, [s] => ⟨(f e).trace ++ (proc d f n s).trace, (proc d f n s).res⟩
      | .ok, _ :: _ :: _ => ⟨(f e).trace, .lost⟩
      | _, _ => f e
    else ⟨[], .lost⟩

/-- GDynamicEngine.cpp:30-48 `run` and 50-63 `commonRunAll`; with several first elements all but one are handed to the
pool; a level without dependencies is refused for a pool without threads (108-109). -/
def levelRun (d : DynCfg) (f : Eid → SerOut) : SerOut :=
  match d.dagType with
  | .serial =>
    match d.fronts with
    | [] => ⟨[], .ok⟩
    | e :: _ => walk d.g f (d.g.elems.length + 1) e
  | .common =>
    match d.fronts with
    | [e] => proc d f (d.g.elems.length + 1) e
    | _ => ⟨[], .lost⟩
  | .parallel => ⟨[], .lost⟩

/-- GCondition.cpp:19-35: the child that is executed. -/
def chosen (c : SerCfg) (e : Eid) : Option Eid :=
  if c.choose e = -1 then (c.kids e).getLast?
  else if 0 ≤ c.choose e then (c.kids e)[(c.choose e).toNat]?
  else none

/-- GElement.cpp:247 with the `run` of the element; 535-554 `asyncRun`.  Groups that `isSerializable` refuses and other
engines are not modelled here: `lost`. -/
def exec (c : SerCfg) : Nat → Eid → SerOut
  | 0, _ => ⟨[], .lost⟩
  | f + 1, e =>
    if c.async e then ⟨[], .lost⟩
    else
      match c.kind e with
      | .node => ⟨[e], if c.ok e then .ok else .err⟩
      | .cluster => seqRun (c.exec f) (c.kids e)
      | .condition =>
        match c.chosen e with
        | some k => c.exec f k
        | none => ⟨[], .ok⟩
      | .multiSerial => seqRun (c.exec f) ((c.kids e).filter c.isMatch)
      | .multiParallel => if (c.kids e).any c.isMatch then ⟨[], .lost⟩ else ⟨[], .ok⟩
      | .region => levelRun (c.dyn (c.kids e)) (c.exec f)
      | .some | .mutab => ⟨[], .lost⟩

/-- One run of the pipeline. -/
def execAll (c : SerCfg) (fuel : Nat) : SerOut := levelRun (c.dyn c.top) (c.exec fuel)

end SerCfg
end CGraph
