import Verif.Model.Graph
import Verif.Model.Engines
import Verif.Model.DagType

/-! # Mutable groups

`src/GraphCtrl/GraphElement/GGroup/GMutable/GMutable.cpp` with the operators of `GElement.cpp:42-66, 103-140`,
`GElementManager.cpp:108-122, 177-185` and `GDynamicEngine.cpp:13-27`.  Every run of a mutable group first forgets the
relations of its children, lets the user build new ones (`reshape`), and hands the children to a dynamic engine that has
kept its arrays since the last run.  Simplified: `reshape` is the list of calls that it makes and the code that it returns;
it does not change the vector of children that it gets by reference. -/
namespace CGraph

/-- What the dynamic engine of the group keeps between runs: GDynamicEngine.h:107-114, GEngine.h:114. -/
structure MuEng where
  /-- `total_element_arr_`, `front_element_arr_`, `total_end_size_` -/
  total : List Eid
  fronts : List Eid
  ends : Nat
  /-- `linked_size_`, `dag_type_`, `parallel_element_matrix_` -/
  linked : Nat
  kind : DagType
  matrix : List (List Eid)
deriving DecidableEq

/-- GMutable.cpp:29, GElementManager.cpp:108-122: a new engine, set up for no elements. -/
def MuEng.fresh : MuEng := ⟨[], [], 0, 0, .serial, []⟩

/-- A mutable group and the elements around it. -/
structure MuSt where
  h : Heap
  /-- `visible_`, `loop_`, and whether `timeout_ > 0` -/
  vis : Eid → Bool
  loop : Eid → Nat
  timed : Eid → Bool
  /-- `shape_`, `binding_index_` -/
  shape : Eid → Shape
  bind : Eid → Int
  /-- the group, and its children in the order of the sorted set -/
  group : Eid
  children : List Eid
  eng : MuEng

/-- Calls of `reshape` on elements. -/
inductive RsOp where
  /-- `*a-->b` (also `&`, which is the same with the first element of the expression); `none` is a null pointer -/
  | arrow (a : Eid) (b : Option Eid)
  /-- `*a--` alone -/
  | show (a : Eid)
  /-- `*a * n` -/
  | times (a : Eid) (n : Nat)
  /-- `a->setLoop(n)` -/
  | setLoop (a : Eid) (n : Nat)
  /-- `a->setVisible(v)` -/
  | setVisible (a : Eid) (v : Bool)
deriving DecidableEq

/-- What a run of the group comes to before the engine runs: `reshape` failed or threw, the engine refused the relations
(and runs nevertheless), the engine threw, or everything is prepared. -/
inductive MuOut where
  | refused
  | notDag
  | threw
  | ready
deriving DecidableEq, Repr

namespace MuSt

/-- CGRAPH_ASSERT_MUTABLE_INIT_THROW_ERROR(false): the element is initialised and not a child of a mutable group. -/
def frozen (s : MuSt) (e : Eid) : Bool := !s.h.isMutable e && (s.h.elt e).isInit

/-- GElement.cpp:61-66 `setVisible`; the Boolean says whether it did not throw. -/
def setVis (s : MuSt) (e : Eid) (v : Bool) : MuSt × Bool :=
  if s.frozen e then (s, false) else ({ s with vis := fun x => if x = e then v else s.vis x }, true)

/-- GElement.cpp:42-50 `setLoop`. -/
def putLoop (s : MuSt) (e : Eid) (n : Nat) : MuSt × Bool :=
  if s.frozen e then (s, false)
  else if s.timed e && n != 1 then (s, false)
  else ({ s with loop := fun x => if x = e then n else s.loop x }, true)

/-- GElement.cpp:114-124 `operator>`. -/
def greater (s : MuSt) (a : Eid) (b : Option Eid) : MuSt × Bool :=
  match b with
  | none => (s, false)
  | some b =>
    if s.frozen a then (s, false)
    else
      let r := s.h.addDepend b [some a]
      if !r.2 then ({ s with h := r.1 }, false)
      else
        let s1 := (({ s with h := r.1 } : MuSt).setVis a true)
        if !s1.2 then s1 else s1.1.setVis b true

/-- One call; the Boolean says whether it did not throw.  GElement.cpp:103-111, 132-140: `--` and `*` catch. -/
def call (s : MuSt) : RsOp → MuSt × Bool
  | .arrow a b => (s.setVis a true).1.greater a b
  | .show a => ((s.setVis a true).1, true)
  | .times a n => ((s.putLoop a n).1, true)
  | .setLoop a n => s.putLoop a n
  | .setVisible a v => s.setVis a v

/-- The calls of `reshape`, up to the first that throws. -/
def calls (s : MuSt) : List RsOp → MuSt × Bool
  | [] => (s, true)
  | o :: l => if (s.call o).2 then calls (s.call o).1 l else ((s.call o).1, false)

/-- GMutable.cpp:79-86 `setup`.  The setters cannot throw here (children of a mutable group are not frozen, and a loop of 1
is always allowed). -/
def setup (s : MuSt) : MuSt :=
  { s with
    h := s.h.mutableSetup s.children
    vis := fun e => if e ∈ s.children then false else s.vis e
    loop := fun e => if e ∈ s.children then 1 else s.loop e }

/-- The relations that the engine gets.  `workers` and `epoch` do not matter here. -/
def cfg (s : MuSt) : DynCfg := ⟨s.h.graph s.children, s.bind, 1, 0⟩

/-- GEngine.h:77, 95-98: the counters of the children are set. -/
def resetLeft (s : MuSt) : MuSt :=
  { s with h := ⟨fun e => if e ∈ s.children then { s.h.elt e with left := (s.h.elt e).deps.length } else s.h.elt e⟩ }

/-- GDynamicEngine.cpp:13-27 `setup` with `mark`, `calcShape`, `analysisDagType` and `analysisParallelMatrix`; `thd` is the
number of threads of the configuration. -/
def engSetup (s : MuSt) (thd : Nat) : MuSt × MuOut :=
  if !s.cfg.g.isDag (fun e => ((s.h.elt e).left : Int)) then (s.resetLeft, .notDag)
  else
    let s1 := { s.resetLeft with shape := fun e => if e ∈ s.children then s.cfg.shapeOf e else s.shape e }
    match s.cfg.dagType with
    | .parallel =>
      match s.cfg.parMatrix thd with
      | none => ({ s1 with eng := ⟨s.children, s.cfg.fronts, s.cfg.totalEnd, s.cfg.linkedSize, .parallel, []⟩ }, .threw)
      | some m => ({ s1 with eng := ⟨s.children, s.cfg.fronts, s.cfg.totalEnd, s.cfg.linkedSize, .parallel, m⟩ }, .ready)
    | k => ({ s1 with eng := ⟨s.children, s.cfg.fronts, s.cfg.totalEnd, s.cfg.linkedSize, k, s.eng.matrix⟩ }, .ready)

/-- GMutable.cpp:37-51 `run` up to the engine's `run`: `setup`, `reshape` (its calls and its code), `process`. -/
def run (s : MuSt) (ops : List RsOp) (code : Int) (thd : Nat) : MuSt × MuOut :=
  let r := s.setup.calls ops
  if !r.2 || decide (code < 0) then (r.1, .refused) else r.1.engSetup thd

/-- GMutable.cpp:26-34 `init`: a new engine. -/
def init (s : MuSt) : MuSt := { s with eng := .fresh }

/-- GMutable.cpp:54-63 `destroy`: all children visible. -/
def destroy (s : MuSt) : MuSt := { s with vis := fun e => if e ∈ s.children then true else s.vis e }

/-- GDynamicEngine.cpp:291-304 `serialRunAll` with the arrays of the engine as they are: the elements whose `fatProcessor`
is called within `n` rounds.  `fp` are the codes that the elements return. -/
def serialRun (s : MuSt) (fp : Eid → CStatus) (n : Nat) : List Eid :=
  match s.eng.fronts with
  | [] => []
  | f :: _ => (DynCfg.serialLoop s.cfg.g fp n f CStatus.ok).1

end MuSt

/-- Life of the group. -/
inductive MuOp where
  | init
  | run (ops : List RsOp) (code : Int) (thd : Nat)
  | destroy

/-- A group with its state: initialised or not.  `seen` is ghost: which children were visible when `init` or `destroy` of
the group went over them (GGroup.cpp: `fatProcessor` of an invisible child does nothing, GElement.cpp:224-230). -/
structure MuLife where
  s : MuSt
  up : Bool
  seen : List (List Eid)

/-- One call of the pipeline.  The children are passed over by GGroup.cpp:17-42 `init`, `destroy`. -/
def MuLife.step (l : MuLife) : MuOp → MuLife
  | .init => if l.up then l else ⟨l.s.init, true, l.seen ++ [l.s.init.children.filter l.s.init.vis]⟩
  | .run ops code thd => if l.up then { l with s := (l.s.run ops code thd).1 } else l
  | .destroy => if l.up then ⟨l.s.destroy, false, l.seen ++ [l.s.destroy.children.filter l.s.destroy.vis]⟩ else l

end CGraph
