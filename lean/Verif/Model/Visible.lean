import Verif.Model.Dynamic
import Verif.Spec.HappensBefore

/-! # Memory operations of the dynamic engine

Every step of `Model/Dynamic.lean` is given the operations on shared memory that the code performs in it, in their order and with
their memory order.  The state of the engine is not changed by this: `Visible.step` is `DynSt.step` with a record.  Simplified: the
atomic flag `done_` of elements, the queues' own memory and the memory of user code are left out; a task handed to the pool
and taken from it synchronises (the queues are protected by mutexes, see `Model/Queues.lean` and C09); two tasks that are executed by
one pool thread after each other count as different threads, which takes orderings away. -/
namespace CGraph
namespace Visible
open Spec

/-- Shared memory: `left_depend_` of an element (GElement.h:465), `finished_end_size_` (GDynamicEngine.h:110), the mutex of
`locker_` (116), `status_lock_` (117) and the plain object `cur_status_` (111). -/
inductive Loc where
  | left (e : Eid)
  | fin
  | mtx
  | stMtx
  | status
deriving DecidableEq

/-- What is noted: begin and return of `run` (with whether the status is an error), start and end of the body of an element. -/
inductive Mk where
  | begin
  | ev (e : Ev)
  | ret (err : Bool)
deriving DecidableEq

abbrev Op := MemOp Loc (Nat × Mk)
abbrev Act := MemAct Loc (Nat × Mk)

/-- `process` handing a task to the pool (GDynamicEngine.cpp:124-136): `cur_status_` is read first; `n` is the number of the task. -/
def postOps (s : DynSt) (n : Nat) : List Op := .read .status :: if s.status.isErr then [] else [.send n]

/-- GDynamicEngine.cpp:124-203: the operations of `DynSt.jobStep`; `n` is the number of the task that is handed over, if any. -/
def jobOps (c : DynCfg) (s : DynSt) (st : CStatus) (n : Nat) : Job → List Op
  -- 140 refresh, GElement.cpp:25-28; 141
  | .exec e => [.store (.left e), .note (s.nrun, .ev (.start e))]
  | .body e => if st.isNotErr then [.note (s.nrun, .ev (.finish e))] else []
  -- 157
  | .after _ => [.read .status]
  -- 166: operator-- is a read-modify-write, sequentially consistent
  | .nIter _ (x :: _) _ => [.rmw (.left x)]
  | .nIter _ [] _ => []
  | .nPost .. => postOps s n
  | .rIter _ (_ :: _ :: _) => postOps s n
  | .rIter _ _ => []
  -- 125, 129-135
  | .proc e => .read .status :: if s.status.isErr then [] else if c.isDefault e then [] else [.send n]
  -- 188, memory_order_acq_rel
  | .tailInc _ => [.rmw .fin]
  -- 190-191
  | .tailNotify => [.lock .mtx, .unlock .mtx]
  -- 147-148
  | .errSet _ => [.lock .stMtx, .read .status, .write .status, .unlock .stMtx]
  | .errNotify => []

/-- GDynamicEngine.cpp:47: the status is copied. -/
def retOps (s : DynSt) : List Op := [.read .status, .note (s.nrun, .ret s.status.isErr)]

/-- GDynamicEngine.cpp:30-63, 206-226: the operations of the caller. -/
def mainOps (c : DynCfg) (s : DynSt) (st : CStatus) (n : Nat) : List Op :=
  match s.main with
  | .idle => []
  | .fronts [] => []
  | .fronts [x] => .read .status :: if s.status.isErr then [] else if c.isDefault x then [] else [.send n]
  | .fronts (_ :: _ :: _) => postOps s n
  | .inline j => jobOps c s st n j
  | .poll 0 => []
  -- 211, memory_order_acquire
  | .poll (_ + 1) => .load .fin :: if s.fin ≥ c.totalEnd then retOps s else []
  -- 217
  | .lock => [.lock .mtx]
  -- 224, memory_order_acquire; the status is not looked at when the first condition holds
  | .check => .load .fin :: ((if s.fin ≥ c.totalEnd then [] else [.read .status]) ++
      if s.fin ≥ c.totalEnd ∨ s.status.isErr then .unlock .mtx :: retOps s else [])
  | .preSleep => [.unlock .mtx]
  | .asleep => []
  | .waking => [.lock .mtx]

/-- GDynamicEngine.cpp:31, 307-315 prepareRun, 57. -/
def beginOps (c : DynCfg) (s : DynSt) : List Op :=
  .read .status :: ((if s.status.isOK then [] else c.g.elems.map (fun e => .store (.left e)) ++ [.write .status]) ++
    [.store .fin, .note (s.nrun + 1, .begin)])

/-- The engine and what it has done to memory.  `qt` and `jt` are the numbers of the tasks in `queue` and `jobs`, which
number the threads too; the caller is thread 0; `next` is the next number. -/
structure VSt where
  s : DynSt
  qt : List Nat
  jt : List Nat
  next : Nat
  log : List Act

namespace VSt

/-- A task is handed over. -/
def sends (ops : List Op) : Bool := ops.any (fun o => match o with | .send _ => true | _ => false)

/-- Thread `t` performs `ops`. -/
def put (v : VSt) (t : Nat) (ops : List Op) : VSt :=
  { v with log := v.log ++ ops.map (fun o => ⟨t, o⟩),
           qt := if sends ops then v.qt ++ [v.next] else v.qt,
           next := if sends ops then v.next + 1 else v.next }

/-- `DynSt.step` with the record of GDynamicEngine.cpp:30-63, 124-226. -/
def step (c : DynCfg) (v : VSt) (a : DynAct) : Option VSt :=
  match DynSt.step c v.s a with
  | none => none
  | some s' =>
    match a with
    | .begin => some { v.put 0 (beginOps c v.s) with s := s' }
    | .main st => some { v.put 0 (mainOps c v.s st v.next) with s := s' }
    | .take i =>
      let n := v.qt.getD i 0
      some { v with s := s', qt := v.qt.eraseIdx i, jt := v.jt ++ [n], log := v.log ++ [⟨n, .recv n⟩] }
    | .work i st =>
      match v.s.jobs[i]? with
      | none => none
      | some j =>
        let v' := v.put (v.jt.getD i 0) (jobOps c v.s st v.next j)
        match DynSt.jobStep c v.s st j with
        | some (_, none) => some { v' with s := s', jt := v.jt.eraseIdx i }
        | _ => some { v' with s := s' }
    | .spurious => some { v with s := s' }

/-- After `setup` (GDynamicEngine.cpp:13-27). -/
def init (c : DynCfg) : VSt := ⟨DynSt.init c, [], [], 1, []⟩

/-- Run a schedule; disabled choices are skipped. -/
def run (c : DynCfg) (v : VSt) : List DynAct → VSt
  | [] => v
  | a :: as => run c ((step c v a).getD v) as

end VSt
end Visible
end CGraph
