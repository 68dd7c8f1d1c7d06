import Verif.Model.Dynamic
import Verif.Spec.Lifetime

/-! # Destroying a pipeline

`GPipeline::destroy` (src/GraphCtrl/GraphPipeline/GPipeline.cpp:80-103) with the dynamic engine of `Model/Dynamic.lean` and the thread pool,
which is the pipeline's own or a shared one (`GSchedule`).  Simplified: the other managers are left out; the caller calls `destroy` when
`run` is not going on (`asyncRun` is not modelled here); a pool that is being deleted goes on with its tasks until its threads happen to have
none, and drops what is left in its queues (`UThreadPool::destroy`, C20).  Once the engine is used after its deletion the behaviour is
undefined; the model goes on as if nothing had happened. -/
namespace CGraph
namespace Lifetime
open Spec

/-- Where the caller is in `destroy`: not called; waiting for the threads of its own pool (GPipeline.cpp:91, GSchedule.cpp:35-44); destroying
elements (GPipeline.cpp:96, GElementManager.cpp:46-50), `rest` are to come; engine deleted (52); returned because of an error (48). -/
inductive Phase where
  | alive
  | closing
  | elems (rest : List Eid)
  | freed
  | stopped
deriving DecidableEq

/-- Whether a thread at this place reads or writes members of the engine next (GDynamicEngine.cpp:124-203): `cur_status_`,
`finished_end_size_`, `locker_`, `status_lock_`.  Bodies and the counters of dependencies belong to the elements. -/
def touches : Job → Bool
  | .exec _ => false
  | .body _ => false
  | .nIter .. => false
  | .rIter _ [] => false
  | .rIter _ [_] => false
  | _ => true

/-- What is observed of a step of a thread at `j` (GDynamicEngine.cpp:140-141). -/
def jobEvs : Job → List LifeEv
  | .exec e => [.start e]
  | .body e => [.over e]
  | j => if touches j then [.used] else []

/-- Choices: of the engine; of `destroy` in its steps; `i` is the element that comes next, `ok` whether its `destroy` succeeds. -/
inductive Act where
  | dyn (a : DynAct)
  | destroy
  | joined
  | one (i : Nat) (ok : Bool)
  | delete
deriving DecidableEq

structure LSt where
  s : DynSt
  phase : Phase
  log : List LifeEv

namespace LSt

/-- GPipeline.cpp:80-103, GSchedule.cpp:35-44, GElementManager.cpp:43-54; `own`: the pool is the pipeline's own (`GScheduleType::UNIQUE`). -/
def step (c : DynCfg) (own : Bool) (l : LSt) : Act → Option LSt
  | .dyn a =>
    match DynSt.step c l.s a with
    | none => none
    | some s' =>
      match a with
      | .begin => if l.phase = .alive then some { l with s := s' } else none
      | .main _ =>
        -- the caller is in `run`, not in `destroy`
        match l.s.main with
        | .inline j => some { l with s := s', log := l.log ++ jobEvs j }
        | _ => some { l with s := s', log := l.log ++ [.used] }
      | .take _ => if own = false ∨ l.phase = .alive ∨ l.phase = .closing then some { l with s := s' } else none
      | .work i _ =>
        match l.s.jobs[i]? with
        | none => none
        | some j => some { l with s := s', log := l.log ++ jobEvs j }
      | .spurious => some { l with s := s' }
  | .destroy =>
    -- GPipeline.cpp:90-91; a shared pool is left alone
    if l.s.main = .idle ∧ l.phase = .alive then
      some { l with phase := if own then .closing else .elems c.g.elems }
    else none
  | .joined =>
    if l.phase = .closing ∧ l.s.jobs = [] then some { l with s := { l.s with queue := [] }, phase := .elems c.g.elems } else none
  | .one i ok =>
    match l.phase with
    | .elems rest =>
      match rest[i]? with
      | none => none
      | some e =>
        -- GElementManager.cpp:47-48
        some { l with phase := if ok then .elems (rest.eraseIdx i) else .stopped, log := l.log ++ [.destroyed e] }
    | _ => none
  | .delete => if l.phase = .elems [] then some { l with phase := .freed, log := l.log ++ [.deleted] } else none

/-- After `init` (GPipeline.cpp:36-53). -/
def init (c : DynCfg) : LSt := ⟨DynSt.init c, .alive, []⟩

/-- Execute a schedule; steps that are not possible are skipped. -/
def run (c : DynCfg) (own : Bool) (l : LSt) : List Act → LSt
  | [] => l
  | a :: as => run c own ((step c own l a).getD l) as

end LSt
end Lifetime
end CGraph
