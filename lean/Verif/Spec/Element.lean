import Verif.Model.Element

/-! # Reading the trace of one element -/
namespace CGraph.Spec

/-- Events that are not calls of `fatProcessor` into the element: notes about asynchronous execution, calls made by the
surrounding group, and calls of `fatProcessor` itself. -/
def isNote : Act → Bool
  | .ready _ _ => true
  | .timeoutA _ _ _ => true
  | .choose _ _ => true
  | .isMatch _ _ => true
  | .call _ _ => true
  | .back _ _ _ => true
  | _ => false

/-- The calls made for element `e` itself. -/
def own (e : Nat) (tr : Trace) : Trace := tr.filter fun ev => ev.id == e && !isNote ev

/-- The call, forgetting its status. -/
def shape : Act → Act
  | .prep e _ => .prep e (.ret .ok)
  | .beginA e a p _ => .beginA e a p (.ret .ok)
  | .finishA e a p _ _ => .finishA e a p .ok (.ret ())
  | .leave e p _ => .leave e p (.ret .ok)
  | .check e _ => .check e (.ret .ok)
  | ev => ev

/-- The sequence of calls for `e`. -/
def calls (e : Nat) (tr : Trace) : Trace := (own e tr).map shape

/-- One repetition inside a round: body, then the question whether to hold. -/
def once (e : Nat) (again : Bool) : Trace := [.enter e .run, .leave e .run (.ret .ok), .hold e (.ret again)]

/-- A round: state test, all begin aspects, the body `k + 1` times, all finish aspects. -/
def round (e : Nat) (aspects : List Nat) (k : Nat) : Trace :=
  .state e .normal :: aspects.map (fun a => .beginA e a .run (.ret .ok)) ++
    (List.replicate k (once e true)).flatten ++ once e false ++
    aspects.map (fun a => .finishA e a .run .ok (.ret ()))

/-- The call failed: error status or exception. -/
def failed : Out CStatus → Bool
  | .ret s => s.isErr
  | .thr _ => true

/-- The call threw. -/
def thrown {α : Type} : Out α → Bool
  | .ret _ => false
  | .thr _ => true

/-- A call after which the element must not run its body again. -/
def failing : Act → Bool
  | .prep _ r => failed r
  | .beginA _ _ _ r => failed r
  | .leave _ _ r => failed r
  | .finishA _ _ _ _ r => thrown r
  | .hold _ r => thrown r
  | _ => false

/-- The body is entered. -/
def isEnter : Act → Bool
  | .enter _ _ => true
  | _ => false

/-- The error status a call returned. -/
def errOf : Act → Option CStatus
  | .prep _ (.ret s) => if s.isErr then some s else none
  | .beginA _ _ _ (.ret s) => if s.isErr then some s else none
  | .leave _ _ (.ret s) => if s.isErr then some s else none
  | _ => none

/-- The exception thrown by a call. -/
def excOf : Act → Option Exc
  | .prep _ (.thr x) => some x
  | .beginA _ _ _ (.thr x) => some x
  | .leave _ _ (.thr x) => some x
  | .finishA _ _ _ _ (.thr x) => some x
  | .hold _ (.thr x) => some x
  | .check _ (.thr x) => some x
  | .crashA _ _ (.thr x) => some x
  | .crashed _ _ (.thr x) => some x
  | _ => none

/-- Why an exception is raised inside the element: the call threw it; a begin aspect or `prepareRun` returned the crash
code; `checkRunResult` returned an error. -/
inductive causes : Act → Exc → Prop
  | thrown {a : Act} {x : Exc} : excOf a = some x → causes a x
  | crashBegin (e a : Nat) (p : Phase) (s : CStatus) : s.isCrash = true → causes (.beginA e a p (.ret s)) (.c (" | " ++ s.info))
  | crashPrep (e : Nat) (s : CStatus) : s.isCrash = true → causes (.prep e (.ret s)) (.c (" | " ++ s.info))
  | badCheck (e : Nat) (s : CStatus) (text : String) : s.isErr = true → causes (.check e (.ret s)) (.c (text ++ " | " ++ s.info))

/-- A call of the crash handler. -/
def isCrashed : Act → Bool
  | .crashed _ _ _ => true
  | _ => false

/-- Repetitions because `isHold` said so; all bodies succeeded. -/
def repeats (e : Nat) (rs : List {s : CStatus // s.isErr = false}) : Trace :=
  rs.flatMap fun r => [.enter e .run, .leave e .run (.ret r.1), .hold e (.ret true)]

/-- The last time the body is run in a round: released, or failed, or an exception. -/
inductive LastRun (e : Nat) : Trace → Prop
  | stop (r : CStatus) (b : Bool) : b = false ∨ r.isErr = true →
      LastRun e [.enter e .run, .leave e .run (.ret r), .hold e (.ret b)]
  | holdThrows (r : CStatus) (x : Exc) : LastRun e [.enter e .run, .leave e .run (.ret r), .hold e (.thr x)]
  | runThrows (x : Exc) : LastRun e [.enter e .run, .leave e .run (.thr x)]

end CGraph.Spec
