import Verif.Model.Dynamic
/-
Special cases of GDynamicEngine: classification of the DAG, serial execution, partition for the fully parallel
case and its execution by pool threads
(src/GraphCtrl/GraphElement/_GEngine/GDynamicEngine/GDynamicEngine.cpp:84-121, 229-304).
-/
namespace CGraph

/-- GEngineDefine.h: GEngineDagType. -/
inductive DagType where
  | common | serial | parallel
deriving DecidableEq

namespace DynCfg

/-- GEngine.h:48,54 `linked_size_`. -/
def linkedSize (c : DynCfg) : Nat := (c.g.elems.filter c.isLink).length

/-- GDynamicEngine.cpp:84-99 `analysisDagType`. -/
def dagType (c : DynCfg) : DagType :=
  if c.g.elems.isEmpty || (decide (c.fronts.length = 1) && decide (c.g.elems.length - 1 = c.linkedSize)) then .serial
  else if decide (c.g.elems.length = c.totalEnd) && decide (c.fronts.length = c.totalEnd) then .parallel
  else .common

/-- GDynamicEngine.cpp:113-120: the loop that cuts the rows; `fuel` bounds the number of rounds
(`parMatrix` passes enough). -/
def parLoop (elems : List Eid) (total per : Nat) : Nat → Nat → List (List Eid)
  | 0, _ => []
  | fuel + 1, cur =>
    if cur < total then
      let curEnd := if cur + per < total then cur + per else total
      ((elems.drop cur).take (curEnd - cur)) :: parLoop elems total per fuel (cur + per)
    else []

/-- GDynamicEngine.cpp:102-121 `analysisParallelMatrix`; `none` = throws.  `thd` is
`default_thread_size_ + secondary_thread_size_`. -/
def parMatrix (c : DynCfg) (thd : Nat) : Option (List (List Eid)) :=
  if thd = 0 then none
  else
    let per := c.totalEnd / thd + (if c.totalEnd % thd ≠ 0 then 1 else 0)
    if per = 0 then none
    else some (parLoop c.g.elems c.totalEnd per (c.totalEnd + 1) 0)

/-- GDynamicEngine.cpp:291-304 `serialRunAll`, the loop: executed elements and final status.  `fuel` bounds the
number of rounds. -/
def serialLoop (g : Graph) (fp : Eid → CStatus) : Nat → Eid → CStatus → List Eid × CStatus
  | 0, _, st => ([], st)
  | fuel + 1, cur, st =>
    let st' := st.add (fp cur)
    match g.succs cur with
    | [] => ([cur], st')
    | x :: _ =>
      if st'.isErr then ([cur], st')
      else
        let r := serialLoop g fp fuel x st'
        (cur :: r.1, r.2)

/-- GDynamicEngine.cpp:291-304 `serialRunAll`. -/
def serialRunAll (c : DynCfg) (fp : Eid → CStatus) (st : CStatus) : List Eid × CStatus :=
  match c.fronts with
  | [] => ([], st)
  | f :: _ => serialLoop c.g fp (c.g.elems.length + 1) f st

end DynCfg

/-- Where a thread is inside `parallelRunOne` (270-288): `start e` before the check (271), `body e` inside
`fatProcessor` (275), `errSet e st` before 279, `inc e` before the `fetch_add` (283), `chk` before reading the
status (284), `notify` before the locked notification (285-286). -/
inductive PJob where
  | start (e : Eid)
  | body (e : Eid)
  | errSet (e : Eid) (st : CStatus)
  | inc (e : Eid)
  | chk
  | notify
deriving DecidableEq

/-- The caller (229-267): `push rest` in the loops 232-246 (hand-over of the remaining tasks, in any of the
pool's queues); the others as in `MainPc`. -/
inductive PMain where
  | idle
  | push (rest : List Eid)
  | poll (n : Nat)
  | lock
  | check
  | preSleep
  | asleep
  | waking
deriving DecidableEq

/-- State of a fully parallel run; `num` is `parallel_run_num_`, `done` (ghost) lists the elements counted in
it, the rest as in `DynSt`. -/
structure ParSt where
  status : CStatus
  num : Nat
  queue : List Eid
  jobs : List PJob
  main : PMain
  trace : List Ev
  failed : List (Eid × CStatus)
  done : List Eid
  nrun : Nat
  lastRet : Option CStatus

namespace ParSt

/-- `locker_.cv_.notify_one()`. -/
def notify (s : ParSt) : ParSt := if s.main = .asleep then { s with main := .waking } else s

/-- One step inside `parallelRunOne` (270-288). -/
def jobStep (total : Nat) (s : ParSt) (st : CStatus) : PJob → Option (ParSt × Option PJob)
  | .start e =>
    if s.status.isErr then some (s, none)
    else some ({ s with trace := s.trace ++ [.start e] }, some (.body e))
  | .body e =>
    if st.isErr then some ({ s with trace := s.trace ++ [.finish e], failed := s.failed ++ [(e, st)] },
      some (.errSet e st))
    else some ({ s with trace := s.trace ++ [.finish e] }, some (.inc e))
  | .errSet e st' => some ({ s with status := s.status.add st' }, some (.inc e))
  | .inc e => some ({ s with num := s.num + 1, done := s.done ++ [e] },
      some (if s.num + 1 ≥ total then .notify else .chk))
  | .chk => some (s, if s.status.isErr then some .notify else none)
  | .notify => if s.main = .check ∨ s.main = .preSleep then none else some (s.notify, none)

/-- 47: `return cur_status_`. -/
def ret (s : ParSt) : ParSt := { s with main := .idle, lastRet := some s.status }

/-- One step of the system (229-288); `tasks` is the matrix read row by row, `workers`, `epoch` as in
`DynCfg`.  `wakeupAllThread` (248-251) only affects sleeping pool threads, which are not modelled. -/
def step (tasks : List Eid) (total workers epoch : Nat) (s : ParSt) : DynAct → Option ParSt
  | .begin =>
    if s.main = .idle then
      some { s with status := if s.status.isOK then s.status else s.status.reset,
                    num := 0, main := .push tasks, trace := [], failed := [], done := [],
                    nrun := s.nrun + 1, lastRet := none }
    else none
  | .main _ =>
    match s.main with
    | .idle => none
    | .push [] => some { s with main := .poll epoch }
    | .push (x :: rest) => some { s with queue := s.queue ++ [x], main := .push rest }
    | .poll 0 => some { s with main := .lock }
    | .poll (n + 1) => if s.num ≥ total then some s.ret else some { s with main := .poll n }
    | .lock => some { s with main := .check }
    | .check => if s.num ≥ total ∨ s.status.isErr then some s.ret else some { s with main := .preSleep }
    | .preSleep => some { s with main := .asleep }
    | .asleep => none
    | .waking => some { s with main := .check }
  | .take i =>
    match s.queue[i]? with
    | none => none
    | some e =>
      if s.jobs.length < workers then
        some { s with queue := s.queue.eraseIdx i, jobs := s.jobs ++ [.start e] }
      else none
  | .work i st =>
    match s.jobs[i]? with
    | none => none
    | some j =>
      match jobStep total s st j with
      | none => none
      | some (s', some j') => some { s' with jobs := s.jobs.set i j' }
      | some (s', none) => some { s' with jobs := s.jobs.eraseIdx i }
  | .spurious => if s.main = .asleep then some { s with main := .waking } else none

/-- Before the first run. -/
def init : ParSt := ⟨CStatus.ok, 0, [], [], .idle, [], [], [], 0, none⟩

/-- Run a schedule; disabled choices are skipped. -/
def run (tasks : List Eid) (total workers epoch : Nat) (s : ParSt) : List DynAct → ParSt
  | [] => s
  | a :: as => run tasks total workers epoch ((step tasks total workers epoch s a).getD s) as

end ParSt
end CGraph
