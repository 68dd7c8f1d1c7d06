import Verif.Model.Graph
/-
Model of GStaticEngine::run (src/GraphCtrl/GraphElement/_GEngine/GStaticEngine/GStaticEngine.cpp:48-77) as a
transition system: the calling thread and the pool's threads interleave arbitrarily.
-/
namespace CGraph

/-- What happens to an element. -/
inductive Ev where
  | start (e : Eid)
  | finish (e : Eid)
deriving DecidableEq

/-- GStaticEngine.cpp:48-77: `layers` = rows of `element_mat_` not yet entered; `toCommit` = rest of the inner
loop 54-64; `macros` 53; `futures` 52 not yet waited for; `queued` = committed tasks no thread has taken yet
(in which queue they wait is irrelevant here); `running` = bodies being executed by pool threads; `finished` =
futures that are ready; `macroRunning` = the macro the caller is executing (66-68); `trace` = observable
events, oldest first. -/
structure StaticSt where
  layers : List (List Eid)
  toCommit : List Eid
  macros : List Eid
  macroRunning : Option Eid
  futures : List Eid
  queued : List Eid
  running : List Eid
  finished : List Eid
  status : CStatus
  ret : Option (Res CStatus)
  trace : List Ev

/-- Which thread moves. -/
inductive StaticAct where
  | main
  | take (e : Eid)
  | done (e : Eid)
deriving DecidableEq

namespace StaticSt

/-- Entry of `run`. -/
def init (mat : List (List Eid)) : StaticSt :=
  ⟨mat, [], [], none, [], [], [], [], CStatus.ok, none, []⟩

/-- One step; `none` = not enabled.  `direct e` stands for `e->isMacro() && e->isDefaultBinding()`,
`fp e` for the status `fatProcessor` returns. -/
def step (direct : Eid → Bool) (fp : Eid → CStatus) (s : StaticSt) : StaticAct → Option StaticSt
  | .take e =>
    -- a pool thread takes a committed task
    if e ∈ s.queued then
      some { s with queued := s.queued.erase e, running := e :: s.running, trace := s.trace ++ [.start e] }
    else none
  | .done e =>
    -- the task ends, its future becomes ready
    if e ∈ s.running then
      some { s with running := s.running.erase e, finished := e :: s.finished,
                    trace := s.trace ++ [.finish e] }
    else none
  | .main =>
    if s.ret.isSome then none
    else match s.macroRunning with
    | some e =>
      -- 67: `status += macro->fatProcessor(RUN)` returns
      some { s with macroRunning := none, status := s.status.add (fp e), trace := s.trace ++ [.finish e] }
    | none =>
      match s.toCommit with
      | e :: es =>
        -- 54-63
        if direct e then some { s with toCommit := es, macros := s.macros ++ [e] }
        else some { s with toCommit := es, futures := s.futures ++ [e], queued := s.queued ++ [e] }
      | [] =>
        match s.macros with
        | e :: es => some { s with macros := es, macroRunning := some e, trace := s.trace ++ [.start e] }
        | [] =>
          match s.futures with
          | e :: es =>
            -- 70-72: `status += future.get()`
            if e ∈ s.finished then some { s with futures := es, status := s.status.add (fp e) } else none
          | [] =>
            -- 73 and the loop head 51 (with status OK the check does nothing before the first layer)
            match checkStatus s.status with
            | some r => some { s with ret := some r }
            | none =>
              match s.layers with
              | [] => some { s with ret := some (.ret s.status) }
              | l :: ls => some { s with layers := ls, toCommit := l }

/-- Run a schedule; disabled choices are skipped. -/
def run (direct : Eid → Bool) (fp : Eid → CStatus) (s : StaticSt) : List StaticAct → StaticSt
  | [] => s
  | a :: as => run direct fp ((s.step direct fp a).getD s) as

end StaticSt
end CGraph
