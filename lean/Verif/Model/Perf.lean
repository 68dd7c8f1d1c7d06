import Verif.Model.Group

/-! # Performance analysis of a pipeline

`src/GraphCtrl/GraphPipeline/_GPerf/GPerf.cpp`, `GPerfAspect.h`: `perf` gives every element of the repository one more
aspect, executes the pipeline once, marks a longest path (`Verif.Model.Optimizer`), prints, and takes the aspects away.

Aspects are numbers: even numbers are aspects of the user, `2 p + 1` is the aspect that writes into the record (`GPerfInfo`)
at address `p`.  Elements are processed one after the other (which one is next is any function of what has happened);
managers other than that of the elements are left out.  Aspects that user code adds while the pipeline is executed take
effect after it. -/
namespace CGraph
open M

/-- The record a perf aspect writes to. -/
def perfRec (a : Nat) : Option Nat := if a % 2 = 1 then some (a / 2) else none

/-- The record that is written during an event: GPerfAspect.h:28-45 (`beginRun` and `finishRun` only). -/
def perfWrites : Act → Option Nat
  | .beginA _ a .run _ => perfRec a
  | .finishA _ a .run _ _ => perfRec a
  | _ => none

/-- The aspect called by an event. -/
def Act.aspect : Act → Option Nat
  | .beginA _ a _ _ | .finishA _ a _ _ _ | .crashA _ a _ | .timeoutA _ a _ => some a
  | _ => none

/-- Calls of a perf aspect. -/
def Act.isPerf (ev : Act) : Bool := (ev.aspect.bind perfRec).isSome

/-- What user code has noticed: perf aspects do not call it. -/
def strip (tr : Trace) : Trace := tr.filter (fun ev => !ev.isPerf)

/-- The user's code together with perf aspects, which always succeed: GPerfAspect.h:28-45, and the defaults of
GAspect.cpp for the functions that are not overridden there. -/
def withPerf (U : User) : User where
  prep := fun e t => U.prep e (strip t)
  beginA := fun e a p t => if (perfRec a).isSome then .ret .ok else U.beginA e a p (strip t)
  finishA := fun e a p st t => if (perfRec a).isSome then .ret () else U.finishA e a p st (strip t)
  crashA := fun e a t => if (perfRec a).isSome then .ret () else U.crashA e a (strip t)
  timeoutA := fun e a t => if (perfRec a).isSome then .ret () else U.timeoutA e a (strip t)
  body := fun e p t => U.body e p (strip t)
  hold := fun e t => U.hold e (strip t)
  check := fun e t => U.check e (strip t)
  crashed := fun e m t => U.crashed e m (strip t)
  state := fun e t => U.state e (strip t)
  ready := fun e t => U.ready e (strip t)
  choose := fun e t => U.choose e (strip t)
  isMatch := fun e t => U.isMatch e (strip t)
  order := fun e t => U.order e (strip t)

mutual
/-- The elements with the aspects they have at the moment. -/
def Tree.withAsp (asp : Nat → List Nat) : Tree → Tree
  | .node e => .node { e with aspects := asp e.id }
  | .group k e kids => .group k { e with aspects := asp e.id } (Tree.withAsps asp kids)
/-- The same for a list. -/
def Tree.withAsps (asp : Nat → List Nat) : List Tree → List Tree
  | [] => []
  | t :: ts => t.withAsp asp :: Tree.withAsps asp ts
end

/-- The engine: `next` says which element is executed next, or that the run is over; out of fuel = still running.
The status is that of the first failure (GDynamicEngine.cpp:116-130, GStaticEngine.cpp, GTopoEngine.cpp). -/
def engineLoop (next : Trace → Option Nat) (ms : List (Nat × M CStatus)) : Nat → CStatus → M CStatus
  | 0, _ => diverge
  | f + 1, st => M.bind (fun w => some (.ret (next w.tr), w)) fun i =>
    match i with
    | none => M.pure st
    | some i =>
      match ms[i]? with
      | none => M.pure st
      | some b => M.bind b.2 fun r => engineLoop next ms f (st.add r)

/-- GPipeline.cpp:106-124 `process`, with GElementManager.cpp:23-40, 43-54 for `init` and `destroy`. -/
def processElems (U : User) (next : Trace → Option Nat) (F : Nat) (ts : List Tree) : M CStatus :=
  M.bind (clusterBody (Tree.lifes U .init ts) CStatus.ok) fun st =>
    if st.isErr then failM st id
    else M.bind (engineLoop next (Tree.runs U F ts) F CStatus.ok) fun r =>
      M.bind (clusterBody (Tree.lifes U .destroy ts) CStatus.ok) fun d => M.pure ((st.add r).add d)

/-- The parts of a pipeline that `perf` changes. -/
structure PfSt where
  /-- the elements of the pipeline; all of them are in `repository_` -/
  trees : List Tree
  /-- the aspects of each element -/
  asp : Nat → List Nat
  /-- `perf_info_` of each element, GElement.h:464 -/
  info : Nat → Option Nat
  /-- allocated records -/
  live : List Nat
  /-- address of the next record -/
  next : Nat
  /-- a record was written after it had been deleted -/
  ub : Bool

/-- User code, the engine, and what user code adds to the aspects of the elements while the pipeline is executed. -/
structure PfEnv where
  user : User
  next : Trace → Option Nat
  added : Trace → Nat → List Nat
  fuel : Nat

namespace PfSt

/-- The elements in `repository_`. -/
def ids (s : PfSt) : List Nat := Tree.idsAll s.trees

/-- GPerf.cpp:39-53 `inject`. -/
def inject : List Nat → PfSt → PfSt
  | [], s => s
  | e :: es, s => inject es { s with
      asp := fun x => if x = e then s.asp e ++ [2 * s.next + 1] else s.asp x
      info := fun x => if x = e then some s.next else s.info x
      live := s.next :: s.live
      next := s.next + 1 }

/-- GPerf.cpp:82-90 `recover` with GElement.cpp:519-532 `popLastAspect` (nothing happens without aspects) and
`CGRAPH_DELETE_PTR`. -/
def recover : List Nat → PfSt → PfSt
  | [], s => s
  | e :: es, s => recover es { s with
      asp := fun x => if x = e then (s.asp e).dropLast else s.asp x
      info := fun x => if x = e then none else s.info x
      live := match s.info e with | some p => s.live.erase p | none => s.live }

/-- `process()`: outcome (`none` = does not return), what happened, and the state afterwards. -/
def process (E : PfEnv) (s : PfSt) (w : World) : Option (Out CStatus × World × PfSt) :=
  match processElems (withPerf E.user) (fun t => E.next (strip t)) E.fuel (Tree.withAsps s.asp s.trees) w with
  | none => none
  | some (o, w') => some (o, w', { s with
      asp := fun e => s.asp e ++ (E.added (strip w'.tr) e).map (2 * ·)
      ub := s.ub || (w'.tr.drop w.tr.length).any (fun ev =>
        match perfWrites ev with | some p => !s.live.contains p | none => false) })

/-- GPerf.cpp:16-36 `perf`.  `markLongestPath` and `dump` change nothing but the records and succeed. -/
def perf (E : PfEnv) (s : PfSt) (w : World) : Option (Out CStatus × World × PfSt) :=
  match process E (inject s.ids s) w with
  | some (.ret st, w', s') => if st.isErr then some (.ret st, w', s') else some (.ret .ok, w', recover s.ids s')
  | r => r

/-- Calls of a user between which the pipeline is not initialised. -/
inductive Op where
  /-- `addGAspect` -/
  | add (e a : Nat)
  | process
  | perf

/-- One call; the first component says that the call has returned without an error. -/
def step (E : PfEnv) (s : PfSt) (w : World) : Op → Option (Bool × World × PfSt)
  | .add e a => some (true, w, { s with asp := fun x => if x = e then s.asp e ++ [2 * a] else s.asp x })
  | .process => (s.process E w).map fun r => (match r.1 with | .ret st => !st.isErr | .thr _ => false, r.2)
  | .perf => (s.perf E w).map fun r => (match r.1 with | .ret st => !st.isErr | .thr _ => false, r.2)

end PfSt
end CGraph
