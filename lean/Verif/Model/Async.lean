import Verif.Model.Status

/-! # Elements with a timeout, and fences

`GElement.cpp:232-262` (`fatProcessor`), `535-565` (`asyncRun`, `getAsyncResult`), `GAdapter/GFence/GFence.cpp:62-71`,
`GElementRepository.cpp:36-57` (`setup`, `reset`), `GPipeline.cpp:56-77` (`run`).

A pipeline has `n` elements, all of them with a timeout, and `m` fences; other elements play no part.  The bodies are
executed by the pool (Model/PoolRun.lean) at any time after they were committed; the engine calls elements and fences at
any time during a run, every one at most once (C24-C28).  All steps are interleaved arbitrarily; whether a body is ready
in time is decided by the schedule.  `async_result_` is a plain `std::future`: that two threads use it at once, which is
a data race, is recorded as an event.  Simplified: aspects, suspension, cancelling and groups are left out; the default
crash handler; the engine returns when every call it began has returned (C30 is about that); a fence and the elements
are called by engine threads and not by each other. -/
namespace CGraph

/-- What a body does: return a status or throw. -/
inductive ARes where
  | ret (st : CStatus)
  | thrown (what : String)
deriving DecidableEq, Repr

/-- GElement.cpp:284-287, 369-372: the status of a call whose body did this. -/
def ARes.status : ARes → CStatus
  | .ret st => st
  | .thrown w => ⟨STATUS_CRASH, w⟩

/-- What became of a committed body. -/
inductive ATk where
  | queued
  | running
  | done (r : ARes)
deriving DecidableEq, Repr

/-- A committed body; its number is its place in the list. -/
structure ATask where
  elem : Nat
  run : ATk
deriving DecidableEq, Repr

/-- Where the call of an element is in the present run. -/
inductive APc where
  /-- not called -/
  | ready
  /-- GElement.cpp:543: waits for body `id` -/
  | waiting (id : Nat)
  /-- GElement.cpp:254: `asyncRun` has returned; `late`: after a timeout -/
  | ended (st : CStatus) (late : Bool)
  /-- returned to the engine -/
  | back
deriving DecidableEq, Repr

/-- Where a fence is in the present run (GFence.cpp:65-68). -/
inductive FPc where
  | ready
  /-- about to ask the elements `l` -/
  | at (l : List Nat) (st : CStatus)
  /-- GElement.cpp:559-560: the future of `e` was valid and had number `id`; `get` comes next -/
  | get (e id : Nat) (l : List Nat) (st : CStatus)
  | back
deriving DecidableEq, Repr

/-- Where `run` of the pipeline is. -/
inductive ARun where
  | idle
  | engine
  /-- GElementRepository.cpp:46-56 -/
  | reset (l : List Nat)
deriving DecidableEq, Repr

/-- What can be seen from outside. -/
inductive AEv where
  | runBegin
  | commit (e id : Nat)
  | bodyBegin (e id : Nat)
  | bodyEnd (e id : Nat) (r : ARes)
  /-- the waiting time of the element is over -/
  | late (e : Nat)
  /-- `isHold` was true: the body is executed again; `late`: after a timeout -/
  | again (e : Nat) (late : Bool)
  | elemRet (e : Nat) (st : CStatus)
  | fenceBegin (f : Nat)
  | fenceRet (f : Nat) (st : CStatus)
  | runRet (st : CStatus)
  /-- an exception leaves `run` of the pipeline -/
  | runThrow
  /-- two threads use the future of `e` at once -/
  | race (e : Nat)
deriving DecidableEq, Repr

/-- What the pipeline consists of. -/
structure ACfg where
  n : Nat
  m : Nat
  /-- the strategy is `HOLD_BY_PIPELINE` -/
  hold : Nat → Bool
  /-- `fence_elements_` -/
  waits : Nat → List Nat
  /-- the fence was registered as depending on the elements it waits for -/
  deps : Nat → Bool

/-- State. -/
structure ASt where
  tasks : List ATask
  /-- `async_result_` -/
  fut : Nat → Option Nat
  /-- `cur_state_` is `TIMEOUT` -/
  tmo : Nat → Bool
  pc : Nat → APc
  fpc : Nat → FPc
  run : ARun
  status : CStatus
  hist : List AEv

/-- Steps. -/
inductive AAct where
  /-- `run` of the pipeline is called -/
  | run
  /-- the engine calls an element -/
  | call (e : Nat)
  /-- a worker of the pool begins a body -/
  | take (id : Nat)
  /-- a body ends -/
  | finish (id : Nat) (r : ARes)
  /-- the body is ready in time -/
  | inTime (e : Nat)
  /-- the waiting time is over -/
  | late (e : Nat)
  /-- `isHold` returns true -/
  | again (e : Nat)
  /-- `isHold` returns false: the call returns -/
  | ret (e : Nat)
  /-- the engine calls a fence -/
  | fence (f : Nat)
  /-- the next step of a fence -/
  | fenceStep (f : Nat)
  /-- the engine returns -/
  | engineEnd
  /-- the next step of `reset` -/
  | resetStep
deriving DecidableEq, Repr

namespace ASt

/-- A pipeline that has been initialised. -/
def new : ASt := ⟨[], fun _ => none, fun _ => false, fun _ => .ready, fun _ => .ready, .idle, .ok, []⟩

/-- Change of a map. -/
def setAt {β : Type} (f : Nat → β) (e : Nat) (x : β) : Nat → β := fun k => if k = e then x else f k

/-- The result of body `id`, if it has ended. -/
def result (s : ASt) (id : Nat) : Option ARes :=
  match s.tasks[id]? with
  | some ⟨_, .done r⟩ => some r
  | _ => none

/-- GElement.cpp:539-541: the body is committed; an earlier future is overwritten without waiting. -/
def commit (s : ASt) (e : Nat) : ASt :=
  { s with tasks := s.tasks ++ [⟨e, .queued⟩], fut := setAt s.fut e (some s.tasks.length),
           pc := setAt s.pc e (.waiting s.tasks.length), hist := s.hist ++ [.commit e s.tasks.length] }

/-- One more event. -/
def emit (s : ASt) (x : AEv) : ASt := { s with hist := s.hist ++ [x] }

/-- Everything the engine called has returned. -/
def quiet (c : ACfg) (s : ASt) : Bool :=
  (List.range c.n).all (fun e => s.pc e = .ready || s.pc e = .back) &&
  (List.range c.m).all (fun f => s.fpc f = .ready || s.fpc f = .back)

/-- One step; `none` when it is not possible. -/
def step (c : ACfg) (s : ASt) : AAct → Option ASt
  | .run =>
    -- GPipeline.cpp:68: `setup` does nothing because the repository is in the state NORMAL
    if s.run = .idle then
      some { s with run := .engine, status := .ok, pc := fun _ => .ready, fpc := fun _ => .ready,
                    hist := s.hist ++ [.runBegin] }
    else none
  | .call e =>
    if s.run = .engine ∧ s.pc e = .ready ∧ e < c.n then
      -- GElement.cpp:242: an element that is not in the state NORMAL does nothing
      if s.tmo e then some { s with pc := setAt s.pc e (.ended .ok false) }
      else some (s.commit e)
    else none
  | .take id =>
    match s.tasks[id]? with
    | some ⟨e, .queued⟩ => some ({ s with tasks := s.tasks.set id ⟨e, .running⟩ }.emit (.bodyBegin e id))
    | _ => none
  | .finish id r =>
    match s.tasks[id]? with
    | some ⟨e, .running⟩ => some ({ s with tasks := s.tasks.set id ⟨e, .done r⟩ }.emit (.bodyEnd e id r))
    | _ => none
  | .inTime e =>
    -- GElement.cpp:543-545, 559-560, 284-287
    match s.pc e with
    | .waiting id =>
      if s.fut e = some id then
        match s.result id with
        | some r => some { s with fut := setAt s.fut e none, pc := setAt s.pc e (.ended (CStatus.ok.add r.status) false) }
        | none => none
      else some ({ s with pc := setAt s.pc e (.ended .ok false) }.emit (.race e))
    | _ => none
  | .late e =>
    -- GElement.cpp:546-551
    match s.pc e with
    | .waiting id =>
      if (s.result id).isSome then none
      else if c.hold e then
        some ({ s with tmo := setAt s.tmo e true, pc := setAt s.pc e (.ended .ok true) }.emit (.late e))
      else some ({ s with pc := setAt s.pc e (.ended (.err "running time") true) }.emit (.late e))
    | _ => none
  | .again e =>
    -- GElement.cpp:254
    match s.pc e with
    | .ended st late => if st.isOK then some ((s.emit (.again e late)).commit e) else none
    | _ => none
  | .ret e =>
    match s.pc e with
    | .ended st _ =>
      some ({ s with pc := setAt s.pc e .back, status := s.status.add st }.emit (.elemRet e st))
    | _ => none
  | .fence f =>
    if s.run = .engine ∧ s.fpc f = .ready ∧ f < c.m ∧ (c.deps f = true → ∀ e ∈ c.waits f, s.pc e = .back) then
      some ({ s with fpc := setAt s.fpc f (.at (c.waits f) .ok) }.emit (.fenceBegin f))
    else none
  | .fenceStep f =>
    match s.fpc f with
    | .at [] st =>
      some ({ s with fpc := setAt s.fpc f .back, status := s.status.add st }.emit (.fenceRet f st))
    | .at (e :: l) st =>
      match s.fut e with
      | none => some { s with fpc := setAt s.fpc f (.at l st) }
      | some id =>
        match s.pc e with
        | .waiting _ => some ({ s with fpc := setAt s.fpc f (.get e id l st) }.emit (.race e))
        | _ => some { s with fpc := setAt s.fpc f (.get e id l st) }
    | .get e id l st =>
      if s.fut e = some id then
        match s.result id with
        | some (.ret r) =>
          some { s with fut := setAt s.fut e none, fpc := setAt s.fpc f (.at l (st.add r)) }
        | some (.thrown w) =>
          -- the exception leaves the loop of GFence.cpp:65 and is caught in `fatProcessor` of the fence
          some { s with fut := setAt s.fut e none, fpc := setAt s.fpc f (.at [] ⟨STATUS_CRASH, w⟩) }
        | none => none
      else some ({ s with fpc := setAt s.fpc f (.at l st) }.emit (.race e))
    | _ => none
  | .engineEnd =>
    if s.run = .engine ∧ s.quiet c then some { s with run := .reset ((List.range c.n).filter c.hold) } else none
  | .resetStep =>
    match s.run with
    | .reset [] => some ({ s with run := .idle }.emit (.runRet s.status))
    | .reset (e :: l) =>
      match s.fut e with
      | none => some { s with tmo := setAt s.tmo e false, run := .reset l }
      | some id =>
        match s.result id with
        | some (.ret r) =>
          some { s with fut := setAt s.fut e none, tmo := setAt s.tmo e false, status := s.status.add r, run := .reset l }
        | some (.thrown _) => some ({ s with fut := setAt s.fut e none, run := .idle }.emit .runThrow)
        | none => none
    | _ => none

/-- Execute a schedule; steps that are not possible are skipped. -/
def exec (c : ACfg) (s : ASt) : List AAct → ASt
  | [] => s
  | a :: as => exec c ((s.step c a).getD s) as

end ASt
end CGraph
