import Verif.Model.Status

/-! # GElement: running one element with its aspects

User code is an arbitrary function of everything that happened before (the trace of calls so far), so it may answer
differently at every call and may throw.  A computation gives an outcome and the extended trace, or `none` when it does
not return.  Statuses are passed by value without loss (see C02 for the copy constructor). -/
namespace CGraph

/-- A C++ exception: `CException` (CBasic/CException.h:20-41) with its text, or any other type. -/
inductive Exc where
  | c (what : String)
  | other (what : String)
deriving DecidableEq, Repr

/-- Outcome of a call. -/
inductive Out (α : Type) where
  | ret (a : α)
  | thr (x : Exc)
deriving DecidableEq, Repr

/-- CBasic/CFuncType.h:29-33 `CFunctionType`. -/
inductive Phase where
  | init
  | run
  | destroy
deriving DecidableEq, Repr

/-- GraphElement/GElementDefine.h:40-45 `GElementState`. -/
inductive EState where
  | normal
  | cancel
  | suspend
  | timeout
deriving DecidableEq, Repr

/-- GraphElement/GElementDefine.h:49-53 `GElementTimeoutStrategy`. -/
inductive TimeoutStrategy where
  | asError
  | holdByPipeline
  | noHold
deriving DecidableEq, Repr

/-- What happens while an element (its number comes first) is processed; every call is recorded with its outcome. -/
inductive Act where
  /-- `prepareRun()` -/
  | prep (e : Nat) (r : Out CStatus)
  /-- a begin aspect -/
  | beginA (e a : Nat) (p : Phase) (r : Out CStatus)
  /-- a finish aspect, with the status it is given -/
  | finishA (e a : Nat) (p : Phase) (st : CStatus) (r : Out Unit)
  /-- `enterCrashed` of an aspect -/
  | crashA (e a : Nat) (r : Out Unit)
  /-- `enterTimeout` of an aspect -/
  | timeoutA (e a : Nat) (r : Out Unit)
  /-- `init`, `run` or `destroy` is called -/
  | enter (e : Nat) (p : Phase)
  /-- `init`, `run` or `destroy` has returned or thrown -/
  | leave (e : Nat) (p : Phase) (r : Out CStatus)
  /-- `isHold()` -/
  | hold (e : Nat) (r : Out Bool)
  /-- `checkRunResult()` -/
  | check (e : Nat) (r : Out CStatus)
  /-- `crashed(ex)` -/
  | crashed (e : Nat) (what : String) (r : Out CStatus)
  /-- the state was read -/
  | state (e : Nat) (s : EState)
  /-- the asynchronous execution was ready in time or not -/
  | ready (e : Nat) (b : Bool)
  /-- `choose()` of a condition -/
  | choose (e : Nat) (r : Out Int)
  /-- `isMatch()` -/
  | isMatch (e : Nat) (r : Out Bool)
  /-- `fatProcessor` of the element is called -/
  | call (e : Nat) (p : Phase)
  /-- `fatProcessor` of the element has returned or thrown -/
  | back (e : Nat) (p : Phase) (r : Out CStatus)
deriving DecidableEq, Repr

/-- The element an event belongs to. -/
def Act.id : Act → Nat
  | .prep e _ | .beginA e _ _ _ | .finishA e _ _ _ _ | .crashA e _ _ | .timeoutA e _ _ | .enter e _ | .leave e _ _
  | .hold e _ | .check e _ | .crashed e _ _ | .state e _ | .ready e _ | .choose e _ | .isMatch e _ | .call e _
  | .back e _ _ => e

/-- Everything that happened. -/
abbrev Trace := List Act

/-- User code and surroundings. -/
structure User where
  prep : Nat → Trace → Out CStatus
  beginA : Nat → Nat → Phase → Trace → Out CStatus
  finishA : Nat → Nat → Phase → CStatus → Trace → Out Unit
  crashA : Nat → Nat → Trace → Out Unit
  timeoutA : Nat → Nat → Trace → Out Unit
  body : Nat → Phase → Trace → Out CStatus
  hold : Nat → Trace → Out Bool
  check : Nat → Trace → Out CStatus
  crashed : Nat → String → Trace → Out CStatus
  state : Nat → Trace → EState
  ready : Nat → Trace → Bool
  choose : Nat → Trace → Out Int
  isMatch : Nat → Trace → Out Bool
  /-- the order in which a group's parallel tasks are executed -/
  order : Nat → Trace → List Nat

/-- Configuration of an element (GraphElement/GElement.h:441-462). -/
structure Elem where
  id : Nat
  name : String
  visible : Bool
  loop : Nat
  /-- `aspect_manager_`; no manager and an empty one behave alike (GElement.cpp:212-213) -/
  aspects : List Nat
  timeout : Int
  strategy : TimeoutStrategy
deriving DecidableEq, Repr

/-- Trace and the flags `is_prepared_` (GraphElement/GElement.h:462). -/
structure World where
  tr : Trace
  prepared : Nat → Bool

/-- A computation. -/
def M (α : Type) : Type := World → Option (Out α × World)

namespace M

/-- Plain value. -/
def pure {α : Type} (a : α) : M α := fun w => some (.ret a, w)

/-- Sequence; exceptions propagate. -/
def bind {α β : Type} (m : M α) (f : α → M β) : M β := fun w =>
  match m w with
  | none => none
  | some (.ret a, w') => f a w'
  | some (.thr x, w') => some (.thr x, w')

instance : Monad M where
  pure := M.pure
  bind := M.bind

/-- `throw`. -/
def throw {α : Type} (x : Exc) : M α := fun w => some (.thr x, w)

/-- Does not return. -/
def diverge {α : Type} : M α := fun _ => none

/-- Call user code and record it. -/
def emit {α : Type} (f : Trace → Out α) (mk : Out α → Act) : M α := fun w =>
  some (f w.tr, { w with tr := w.tr ++ [mk (f w.tr)] })

/-- `catch (const CException& ex)` (GElement.cpp:280): other exceptions pass. -/
def catchC {α : Type} (m : M α) (h : String → M α) : M α := fun w =>
  match m w with
  | some (.thr (.c msg), w') => h msg w'
  | r => r

/-- The outcome as a value (a `std::future` holds it). -/
def capture {α : Type} (m : M α) : M (Out α) := fun w =>
  match m w with
  | none => none
  | some (o, w') => some (.ret o, w')

/-- `future::get`: value or exception. -/
def ofOut {α : Type} (o : Out α) : M α := fun w => some (o, w)

/-- Record that a function was called and how it ended. -/
def bracket (e : Nat) (p : Phase) (m : M CStatus) : M CStatus := fun w =>
  match m { w with tr := w.tr ++ [.enter e p] } with
  | none => none
  | some (o, w') => some (o, { w' with tr := w'.tr ++ [.leave e p o] })

/-- Read `is_prepared_`. -/
def getPrepared (e : Nat) : M Bool := fun w => some (.ret (w.prepared e), w)

/-- Write `is_prepared_`. -/
def setPrepared (e : Nat) (b : Bool) : M Unit := fun w =>
  some (.ret (), { w with prepared := fun k => if k = e then b else w.prepared k })

end M

open M

/-- UtilsDefine.h:123-129 `CGRAPH_FUNCTION_CHECK_STATUS` on an error status: throw for a crash code
(CBasic/CException.h:22-29 puts " | " in front), return it otherwise. -/
def failM {α : Type} (st : CStatus) (f : CStatus → α) : M α :=
  if st.isCrash then M.throw (.c (" | " ++ st.info)) else M.pure (f st)

/-- GraphAspect/GAspectManager.cpp:23-65 `reflect` for the begin kinds. -/
def doBegin (U : User) (e : Nat) (p : Phase) : List Nat → CStatus → M CStatus
  | [], st => M.pure st
  | a :: as, st => M.bind (emit (U.beginA e a p) (.beginA e a p)) fun r =>
      if (st.assign r).isErr then failM (st.assign r) id else doBegin U e p as (st.assign r)

/-- GraphAspect/GAspectManager.cpp:23-65 `reflect` for the finish kinds: nothing is returned by the aspects. -/
def doFinish (U : User) (e : Nat) (p : Phase) (st : CStatus) : List Nat → M Unit
  | [] => M.pure ()
  | a :: as => M.bind (emit (U.finishA e a p st) (.finishA e a p st)) fun _ => doFinish U e p st as

/-- GraphAspect/GAspectManager.cpp:54-55 `ENTER_CRASHED`. -/
def doCrash (U : User) (e : Nat) : List Nat → M Unit
  | [] => M.pure ()
  | a :: as => M.bind (emit (U.crashA e a) (.crashA e a)) fun _ => doCrash U e as

/-- GraphAspect/GAspectManager.cpp:51-52 `ENTER_TIMEOUT`. -/
def doTimeout (U : User) (e : Nat) : List Nat → M Unit
  | [] => M.pure ()
  | a :: as => M.bind (emit (U.timeoutA e a) (.timeoutA e a)) fun _ => doTimeout U e as

/-- GElement.cpp:143-146 `isAsync`. -/
def Elem.isAsync (e : Elem) : Bool := e.timeout != 0

/-- GElement.cpp:535-564 `asyncRun`, `getAsyncResult`.  Simplified: the body runs to its end before the deadline is
looked at; in the code it goes on in another thread when it is late.  The state written at 550 is part of the
surroundings (`User.state`). -/
def asyncRun (U : User) (e : Elem) (body : M CStatus) : M CStatus :=
  M.bind (capture body) fun o =>
  M.bind (emit (fun t => .ret (U.ready e.id t)) (fun r => .ready e.id (match r with | .ret b => b | .thr _ => false)))
    fun ready =>
    if ready then ofOut o
    else M.bind (doTimeout U e.id e.aspects) fun _ =>
      if e.strategy = .asError then
        M.pure (CStatus.err ("[" ++ e.name ++ "] running time more than [" ++ toString e.timeout ++ "]ms"))
      else M.pure CStatus.ok

/-- GElement.cpp:246-254: the `do … while` around the body; the first argument bounds the number of repetitions and
stands for waiting long enough (out of fuel = still running).  `checkSuspend()` has no effect besides waiting. -/
def holdLoop (U : User) (e : Elem) (body : M CStatus) : Nat → CStatus → M CStatus
  | 0, _ => diverge
  | f + 1, st =>
    M.bind (bracket e.id .run (if e.isAsync then asyncRun U e body else body)) fun r =>
    M.bind (emit (U.hold e.id) (.hold e.id)) fun h =>
      if h && (st.add r).isOK then holdLoop U e body f (st.add r) else M.pure (st.add r)

/-- GElement.cpp:242-256: the loop of `RUN`; the result says whether the function returned inside it (245). -/
def rounds (U : User) (F : Nat) (e : Elem) (body : M CStatus) : Nat → CStatus → M (CStatus × Bool)
  | 0, st => M.pure (st, false)
  | n + 1, st =>
    if st.isOK then
      M.bind (emit (fun t => .ret (U.state e.id t)) (fun r => .state e.id (match r with | .ret s => s | .thr _ => .normal)))
        fun s =>
        if s = .normal then
          M.bind (doBegin U e.id .run e.aspects CStatus.ok) fun b =>
          if (st.add b).isErr then failM (st.add b) fun s => (s, true)
          else
            M.bind (holdLoop U e body F (st.add b)) fun st' =>
            M.bind (doFinish U e.id .run st' e.aspects) fun _ => rounds U F e body n st'
        else M.pure (st, false)
    else M.pure (st, false)

/-- GElement.cpp:235-240: `prepareRun` the first time. -/
def prepare (U : User) (e : Elem) : M (CStatus × Bool) :=
  M.bind (getPrepared e.id) fun p =>
    if p then M.pure (CStatus.ok, false)
    else M.bind (emit (U.prep e.id) (.prep e.id)) fun r =>
      if (CStatus.ok.assign r).isErr then failM (CStatus.ok.assign r) fun s => (s, true)
      else M.bind (setPrepared e.id true) fun _ => M.pure (CStatus.ok.assign r, false)

/-- CBasic/CFuncType.h:49-51: position text put in front of the message thrown at GElement.cpp:258. -/
def locRun : String := "GElement.cpp | fatProcessor | line = [258]"

/-- GElement.cpp:280-283: the handler.  Simplified: `status = crashed(ex)` keeps the old text when the element already
had a status with the same code (see `CStatus.assign`); here the new one is taken. -/
def onCrash (U : User) (e : Elem) (msg : String) : M CStatus :=
  M.bind (doCrash U e.id e.aspects) fun _ => emit (U.crashed e.id msg) (.crashed e.id msg)

/-- GElement.cpp:234-260: the `RUN` branch inside the `try`. -/
def runBranch (U : User) (F : Nat) (e : Elem) (body : M CStatus) : M CStatus :=
  M.bind (prepare U e) fun p =>
    if p.2 then M.pure p.1
    else M.bind (rounds U F e body e.loop p.1) fun r =>
      if r.2 then M.pure r.1
      else M.bind (emit (U.check e.id) (.check e.id)) fun c =>
        if c.isErr then M.throw (.c (locRun ++ " | " ++ c.info)) else M.pure r.1

/-- GElement.cpp:221-286 `fatProcessor(RUN)`; `body` is the virtual `run()`. -/
def fatRun (U : User) (F : Nat) (e : Elem) (body : M CStatus) : M CStatus :=
  if e.visible then catchC (runBranch U F e body) (onCrash U e) else M.pure CStatus.ok

/-- GElement.cpp:261-276: `INIT` and `DESTROY` branches. -/
def lifeBranch (U : User) (e : Elem) (p : Phase) (body : M CStatus) : M CStatus :=
  M.bind (if p = .init then setPrepared e.id false else M.pure ()) fun _ =>
  M.bind (doBegin U e.id p e.aspects CStatus.ok) fun b =>
    if b.isErr then failM b id
    else M.bind (bracket e.id p body) fun r =>
      M.bind (doFinish U e.id p (b.assign r) e.aspects) fun _ => M.pure (b.assign r)

/-- GElement.cpp:221-286 `fatProcessor(INIT)` / `fatProcessor(DESTROY)`. -/
def fatLife (U : User) (e : Elem) (p : Phase) (body : M CStatus) : M CStatus :=
  if e.visible then catchC (lifeBranch U e p body) (onCrash U e) else M.pure CStatus.ok

/-- The body of a node: user code. -/
def nodeBody (U : User) (e : Nat) (p : Phase) : M CStatus := fun w => some (U.body e p w.tr, w)

/-- GElement.cpp:345-348: the default `crashed`. -/
def defaultCrashed (what : String) : CStatus := ⟨STATUS_CRASH, what⟩

/-! ## Configuration -/

/-- The configuration fields of an element that the setters guard (GElement.h:444-456). -/
structure Cfg where
  loop : Nat
  timeout : Int
  strategy : TimeoutStrategy
  isInit : Bool
  /-- the element belongs to a `GMutable` (GElement.cpp:334-342) -/
  isMutable : Bool
deriving DecidableEq, Repr

/-- Defaults (GElement.h:444-456, GElementDefine.h:33-36). -/
def Cfg.fresh : Cfg := ⟨1, 0, .asError, false, false⟩

/-- GElement.cpp:42-50 `setLoop`; `none` = exception, nothing written. -/
def Cfg.setLoop (c : Cfg) (n : Nat) : Option Cfg :=
  if c.isInit && !c.isMutable then none
  else if c.timeout > 0 && n != 1 then none
  else some { c with loop := n }

/-- GElement.cpp:80-90 `setTimeout`; `none` = exception. -/
def Cfg.setTimeout (c : Cfg) (t : Int) (s : TimeoutStrategy) : Option Cfg :=
  if c.isInit then none
  else if t < 0 then none
  else if c.loop > 1 && t != 0 then none
  else some { c with timeout := t, strategy := s }

/-- Calls on an element that matter for its configuration.  `operator*` (132-140), `addElementInfo` (187) and
GMutable.cpp:83 go through `setLoop`; GSome.cpp:33 goes through `setTimeout`. -/
inductive CfgOp where
  | setLoop (n : Nat)
  | setTimeout (t : Int) (s : TimeoutStrategy)
  | init (b : Bool)
  | join (mutable : Bool)
deriving DecidableEq, Repr

/-- One call; a refused call leaves the element as it was. -/
def Cfg.step (c : Cfg) : CfgOp → Cfg
  | .setLoop n => (c.setLoop n).getD c
  | .setTimeout t s => (c.setTimeout t s).getD c
  | .init b => { c with isInit := b }
  | .join b => { c with isMutable := b }

/-! ## The list of aspects -/

/-- `aspect_manager_` of an element: absent or a list (GElement.h:462, GAspectManager.h:60). -/
structure Aspects where
  mgr : Option (List Nat)
  isInit : Bool
deriving DecidableEq, Repr

/-- GElement.inl:18-45 `addGAspect` with GAspectManager.cpp:68-73 `add`. -/
def Aspects.add (m : Aspects) (a : Nat) : Aspects :=
  { m with mgr := some ((m.mgr.getD []) ++ [a]) }

/-- GElement.cpp:519-532 `popLastAspect` with GAspectManager.cpp:93-101 `popLast`; `false` = error status. -/
def Aspects.pop (m : Aspects) : Aspects × Bool :=
  if m.isInit then (m, false)
  else match m.mgr with
    | none => (m, false)
    | some [] => (m, false)
    | some (a :: as) =>
      if ((a :: as).dropLast).length = 0 then ({ m with mgr := none }, true)
      else ({ m with mgr := some (a :: as).dropLast }, true)

/-- The aspects that `doAspect` walks over (GElement.cpp:208-218). -/
def Aspects.list (m : Aspects) : List Nat := m.mgr.getD []

end CGraph
