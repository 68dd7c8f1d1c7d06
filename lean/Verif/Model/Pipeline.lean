import Verif.Model.Element

/-! # The pipeline: registration, life cycle and runs

`src/GraphCtrl/GraphPipeline/GPipeline.{cpp,inl}` with the managers it drives (`GParamManager.cpp`, `GEventManager.cpp`,
`GElementManager.cpp`, `GStageManager.h`, `GDaemonManager.cpp`, `GElementRepository.cpp`, `_GSchedule/GSchedule.cpp`).

Components are numbers.  Whatever a component does is decided by an environment: it sees all calls made so far and answers
a call with a status or an exception.  Simplified: the hash maps and pointer sets are walked in the order of registration;
the children of groups are not listed (they are driven by their group); allocation of objects succeeds; the analysis and
configuration calls that only read or set options are one operation. -/
namespace CGraph

/-- The managers of a pipeline (GPipeline.h). -/
inductive CompKind where
  | param | event | elem | stage | daemon
deriving DecidableEq, Repr

/-- A call made by the pipeline to one of its parts. -/
inductive PCall where
  /-- `new UThreadPool` (GSchedule.cpp:22), or the check that the shared pool is ready (26) -/
  | pool
  /-- `checkSuitable` of an element (GElementRepository.cpp:125) -/
  | suit (e : Nat)
  /-- a new engine and its `setup` (GElementManager.cpp:108-122) -/
  | engine
  | init (k : CompKind) (i : Nat)
  | destroy (k : CompKind) (i : Nat)
  /-- `addElementInfo` and `addManagers` of an element being registered (GPipeline.cpp:386-389) -/
  | info (e : Nat)
  /-- `setup` of a parameter -/
  | setup (i : Nat)
  /-- the engine executes the graph -/
  | run
  /-- the results of asynchronous elements are collected (GElementRepository.cpp:44-59) -/
  | collect
  /-- waiting for the asynchronous notifications of an event (GEventManager.cpp:87) -/
  | wait (i : Nat)
  /-- `reset` of a parameter -/
  | reset (i : Nat) (s : CStatus)
deriving DecidableEq, Repr

/-- What the parts do: the answer to a call, and the state pushed by `cancel`, `suspend`, `resume` calls made while the
engine ran (`none` = no such call). -/
structure PEnv where
  answer : List PCall → PCall → Res CStatus
  pushed : List PCall → Option EState

/-- GPipeline.h: the members, plus `calls`, everything that was called so far, and `ub`, set when the engine is run
through a null pointer or with a deleted pool. -/
structure Pipe where
  isInit : Bool
  params : List Nat
  events : List Nat
  elems : List Nat
  stages : List Nat
  daemons : List Nat
  /-- `schedule_.type_ == UNIQUE` -/
  unique : Bool
  /-- `unique_tp_` points to a pool -/
  poolUp : Bool
  /-- `element_manager_->engine_` is not null -/
  engineUp : Bool
  /-- `repository_.cur_state_` -/
  state : EState
  calls : List PCall
  ub : Bool
deriving DecidableEq

namespace Pipe

/-- GPipeline.cpp:16-23: a new pipeline. -/
def new : Pipe := ⟨false, [], [], [], [], [], true, false, false, .normal, [], false⟩

/-- One call to a part. -/
def call (env : PEnv) (s : Pipe) (c : PCall) : Pipe × Res CStatus :=
  ({ s with calls := s.calls ++ [c] }, env.answer s.calls c)

/-- Sequencing: an exception ends the function. -/
def andThen (x : Pipe × Res CStatus) (f : Pipe → CStatus → Pipe × Res CStatus) : Pipe × Res CStatus :=
  match x with
  | (s, .throw m) => (s, .throw m)
  | (s, .ret r) => f s r

/-- UtilsDefine.h:123-129 `CGRAPH_FUNCTION_CHECK_STATUS` followed by the rest of the function. -/
def checked (s : Pipe) (st : CStatus) (f : Pipe → Pipe × Res CStatus) : Pipe × Res CStatus :=
  match checkStatus st with
  | some r => (s, r)
  | none => f s

/-- The loops `for (auto& x : map) status += x->f();` of the managers (GParamManager.cpp:25-33, 40-43, 69-72;
GEventManager.cpp:15-20, 27-29; GStageManager.h:30-32, 38-40; GDaemonManager.cpp:20-23, 31-34). -/
def sumAll (env : PEnv) (c : Nat → PCall) : List Nat → CStatus → Pipe → Pipe × Res CStatus
  | [], st, s => (s, .ret st)
  | i :: l, st, s => andThen (call env s (c i)) fun s r => sumAll env c l (st.add r) s

/-- The loops that stop at the first error (GElementManager.cpp:33-37, 46-50; GElementRepository.cpp:118-132):
`status = x->f(); CHECK`. -/
def untilErr (env : PEnv) (c : Nat → PCall) : List Nat → CStatus → Pipe → Pipe × Res CStatus
  | [], st, s => (s, .ret st)
  | i :: l, st, s =>
    andThen (call env s (c i)) fun s r => checked s (st.assign r) fun s => untilErr env c l (st.assign r) s

/-- The loops without a result (GParamManager.cpp:60-64, GEventManager.cpp:86-88). -/
def each (env : PEnv) (c : Nat → PCall) : List Nat → CStatus → Pipe → Pipe × Res CStatus
  | [], st, s => (s, .ret st)
  | i :: l, st, s => andThen (call env s (c i)) fun s _ => each env c l st s

/-- GElementRepository.cpp:62-77 `pushAllState`; only the state of the repository is kept here. -/
def push (s : Pipe) (st : EState) : Pipe := { s with state := st }

/-- GSchedule.cpp:13-32 `init`. -/
def scheduleInit (env : PEnv) (s : Pipe) : Pipe × Res CStatus :=
  andThen (call env { s with poolUp := false } .pool) fun s r =>
    checked s r fun s => ({ s with poolUp := s.unique }, .ret CStatus.ok)

/-- GElementRepository.cpp:115-137 `init`. -/
def repoInit (env : PEnv) (s : Pipe) : Pipe × Res CStatus :=
  andThen (untilErr env .suit s.elems CStatus.ok s) fun s st =>
    checked s st fun s => (s.push .normal, .ret (st.assign CStatus.ok))

/-- GPipeline.cpp:359-376 `initEnv`. -/
def initEnv (env : PEnv) (s : Pipe) : Pipe × Res CStatus :=
  andThen (scheduleInit env s) fun s st =>
    checked s st fun s => andThen (repoInit env s) fun s r => (s, .ret (st.add r))

/-- GElementManager.cpp:23-40 `init`, 108-122 `initEngine`. -/
def elemInit (env : PEnv) (s : Pipe) : Pipe × Res CStatus :=
  andThen (call env { s with engineUp := true } .engine) fun s r =>
    checked s r fun s => untilErr env (.init .elem) s.elems r s

/-- GElementManager.cpp:43-54 `destroy`. -/
def elemDestroy (env : PEnv) (s : Pipe) : Pipe × Res CStatus :=
  andThen (untilErr env (.destroy .elem) s.elems CStatus.ok s) fun s st =>
    checked s st fun s => ({ s with engineUp := false }, .ret st)

/-- UtilsDefine.h:104-107: what the guard of the life cycle returns. -/
def refused : Res CStatus := .ret (CStatus.err "init status is not suitable")

/-- UtilsDefine.h:109-111: what the throwing guard does. -/
def refusedThrow : Res CStatus := .throw "[CException] init status is not suitable"

/-- `status += x` where `x` is itself a sequence of calls. -/
def plus (st : CStatus) (x : Pipe × Res CStatus) (f : Pipe → CStatus → Pipe × Res CStatus) : Pipe × Res CStatus :=
  andThen x fun s r => f s (st.add r)

/-- GPipeline.cpp:36-53 `init`. -/
def init (env : PEnv) (s : Pipe) : Pipe × Res CStatus :=
  if s.isInit then (s, refused)
  else
    plus CStatus.ok (initEnv env s) fun s st =>
    checked s st fun s =>
    plus st (sumAll env (.init .param) s.params CStatus.ok s) fun s st =>
    plus st (sumAll env (.init .event) s.events CStatus.ok s) fun s st =>
    plus st (elemInit env s) fun s st =>
    plus st (sumAll env (.init .stage) s.stages CStatus.ok s) fun s st =>
    plus st (sumAll env (.init .daemon) s.daemons CStatus.ok s) fun s st =>
    checked s st fun s => ({ s with isInit := true }, .ret st)

/-- GPipeline.cpp:72, GElementManager.cpp:57-62: the engine runs; `engine_` is not tested, nor whether the pool it was
given still exists. -/
def engineRun (env : PEnv) (s : Pipe) : Pipe × Res CStatus :=
  let s := { s with ub := s.ub || !s.engineUp || (s.unique && !s.poolUp) }
  let x := call env s .run
  ({ x.1 with state := (env.pushed s.calls).getD x.1.state }, x.2)

/-- GPipeline.cpp:56-77 `run`.  `reset` of the event manager and of the parameters return nothing. -/
def run (env : PEnv) (s : Pipe) : Pipe × Res CStatus :=
  if !s.isInit then (s, refused)
  else
    plus CStatus.ok (sumAll env .setup s.params CStatus.ok (s.push .normal)) fun s st =>
    checked s st fun s =>
    andThen (engineRun env s) fun s r =>
    plus (st.assign r) (call env s .collect) fun s st =>
    andThen (each env .wait s.events st s) fun s st =>
    each env (fun i => .reset i st) s.params st s

/-- GPipeline.cpp:80-103 `destroy`; GSchedule.cpp:35-44 deletes the pool. -/
def destroy (env : PEnv) (s : Pipe) : Pipe × Res CStatus :=
  if !s.isInit then (s, refused)
  else
    plus CStatus.ok (sumAll env (.destroy .event) s.events CStatus.ok { s.push .normal with poolUp := false })
      fun s st =>
    plus st (sumAll env (.destroy .daemon) s.daemons CStatus.ok s) fun s st =>
    plus st (elemDestroy env s) fun s st =>
    plus st (sumAll env (.destroy .stage) s.stages CStatus.ok s) fun s st =>
    plus st (sumAll env (.destroy .param) s.params CStatus.ok s) fun s st =>
    checked s st fun s => ({ s with isInit := false }, .ret st)

/-- GPipeline.cpp:111-120: the loop of `process`. -/
def loop (env : PEnv) : Nat → CStatus → Pipe → Pipe × Res CStatus
  | 0, st, s => (s, .ret st)
  | n + 1, st, s =>
    if !st.isErr && s.state ≠ .cancel then plus st (run env s) fun s st => loop env n st s else (s, .ret st)

/-- GPipeline.cpp:106-124 `process`. -/
def process (env : PEnv) (n : Nat) (s : Pipe) : Pipe × Res CStatus :=
  andThen (init env s) fun s st =>
  checked s st fun s =>
  andThen (loop env n st s) fun s st =>
  plus st (destroy env s) fun s st => (s, .ret st)

/-- GPipeline.inl:20-54, GPipeline.cpp:379-396: registration of an element. -/
def register (env : PEnv) (e : Nat) (s : Pipe) : Pipe × Res CStatus :=
  if s.isInit then (s, refused)
  else if e ∈ s.elems then (s, .ret (CStatus.err "register duplicate"))
  else
    andThen (call env s (.info e)) fun s r =>
    checked s r fun s => ({ s with elems := s.elems ++ [e] }, .ret r)

/-- The calls of the interface. -/
inductive Op where
  | init | run | destroy
  | process (n : Nat)
  /-- `cancel`, `suspend`, `resume` (GPipeline.cpp:181-197) -/
  | control (st : EState)
  /-- `registerGElement`, `registerGNode`, `registerGGroup` -/
  | register (e : Nat)
  /-- `addGEvent` (GPipeline.inl:238-248); refused when the key exists -/
  | addEvent (i : Nat)
  /-- `addGStage` (GPipeline.inl:254-262); the map keeps the first of two equal keys (GStageManager.h:71) -/
  | addStage (i : Nat)
  /-- `addGDaemon` (GPipeline.inl:201-232): a new object every time -/
  | addDaemon (i : Nat)
  /-- `createGParam` for a new key; not guarded (GParamManagerWrapper.h:30-33) -/
  | addParam (i : Nat)
  /-- `setSharedThreadPool` (GPipeline.cpp:252-257), with a pool or with null -/
  | setShared (on : Bool)
deriving DecidableEq

/-- One call of the interface. -/
def step (env : PEnv) (s : Pipe) : Op → Pipe × Res CStatus
  | .init => init env s
  | .run => run env s
  | .destroy => destroy env s
  | .process n => process env n s
  | .control st => if !s.isInit then (s, refused) else (s.push st, .ret CStatus.ok)
  | .register e => register env e s
  | .addEvent i =>
    if s.isInit then (s, refusedThrow)
    else if i ∈ s.events then (s, .throw "event has been register")
    else ({ s with events := s.events ++ [i] }, .ret CStatus.ok)
  | .addStage i =>
    if s.isInit then (s, refusedThrow)
    else ({ s with stages := if i ∈ s.stages then s.stages else s.stages ++ [i] }, .ret CStatus.ok)
  | .addDaemon i =>
    if s.isInit then (s, refusedThrow)
    else ({ s with daemons := s.daemons ++ [i] }, .ret CStatus.ok)
  | .addParam i =>
    ({ s with params := if i ∈ s.params then s.params else s.params ++ [i] }, .ret CStatus.ok)
  | .setShared on =>
    if s.isInit then (s, refusedThrow)
    else ({ s with unique := !on, poolUp := false }, .ret CStatus.ok)

/-- A history of calls of the interface. -/
def steps (env : PEnv) (s : Pipe) (ops : List Op) : Pipe := ops.foldl (fun s op => (step env s op).1) s

end Pipe
end CGraph
