import Verif.Model.Element

/-! # cancel, suspend and resume against a running pipeline

The elements are the numbers below `n`, element `e` has the loop count `loops e`.  Three kinds of threads are interleaved
arbitrarily: the thread inside `process`, one thread that calls `cancel`, `suspend` or `resume`, and the threads that
execute elements.  Simplified: the engine may call the elements in any order and at any time during a run (this covers
all engines); bodies succeed, and elements are neither asynchronous nor inside groups; a store of the state and the
notification after it are one step; the set of elements is walked in the order of the numbers. -/
namespace CGraph

/-- Where the execution of an element is (GElement.cpp:242-256, 441-450); the number counts the rounds left. -/
inductive RunPc where
  /-- not called in this run -/
  | out
  /-- about to test the loop condition (242) -/
  | test (l : Nat)
  /-- the test succeeded (243-246); the number counts this round too -/
  | passed (l : Nat)
  /-- inside the body (247) -/
  | body (l : Nat)
  /-- first test of `checkSuspend` (442) -/
  | check (l : Nat)
  /-- test with the mutex held (446-449) -/
  | checkLocked (l : Nat)
  /-- the test said `SUSPEND`, not blocked yet -/
  | drowsy (l : Nat)
  /-- blocked in `cv_.wait` -/
  | asleep (l : Nat)
  /-- about to ask `isHold()` (254) -/
  | hold (l : Nat)
  /-- `fatProcessor` has returned -/
  | fin
deriving DecidableEq, Repr

/-- Where the thread inside `process` is (GPipeline.cpp:106-124, 56-77); the number counts the runs left. -/
inductive ProcPc where
  /-- about to test the loop condition (110-112) -/
  | check (r : Nat)
  /-- about to call `pushAllState(NORMAL)` (67, GElementRepository.cpp:36-41) -/
  | setup (r : Nat)
  /-- inside `pushAllState(NORMAL)`, next element -/
  | push (r i : Nat)
  /-- the engine is running (71) -/
  | running (r : Nat)
  /-- about to destroy (121) or later -/
  | over
deriving DecidableEq, Repr

/-- What can be seen from outside. -/
inductive CtlEv where
  /-- a run begins to execute elements -/
  | run
  /-- a body begins -/
  | enter (e : Nat)
  /-- a body ends -/
  | leave (e : Nat)
  /-- `fatProcessor` of an element returns -/
  | fin (e : Nat)
  /-- `cancel`, `suspend` or `resume` (target state) is called -/
  | ctl (q : EState)
  /-- … and has returned -/
  | ctlDone (q : EState)
deriving DecidableEq, Repr

/-- State (GElement.h `cur_state_`, GElementRepository.h `cur_state_`). -/
structure CtlSt where
  /-- states of the elements -/
  st : Nat → EState
  /-- state kept by the repository -/
  repo : EState
  /-- the call in progress: target and next element -/
  push : Option (EState × Nat)
  main : ProcPc
  pc : Nat → RunPc
  hist : List CtlEv

/-- Steps. -/
inductive CtlAct where
  /-- `cancel`, `suspend`, `resume` begin -/
  | ctl (q : EState)
  /-- the next step of the call in progress -/
  | push
  /-- the thread inside `process` -/
  | main
  /-- the engine calls element `e` -/
  | call (e : Nat)
  /-- a step of the thread executing `e`; the answer of `isHold()` -/
  | elem (e : Nat) (hold : Bool)
  /-- a sleeping element wakes without a reason -/
  | spurious (e : Nat)
deriving DecidableEq, Repr

namespace CtlSt

/-- After `init` (GPipeline.cpp:107, GElementRepository.cpp:135): all states normal, `r` runs wanted. -/
def start (r : Nat) : CtlSt := ⟨fun _ => .normal, .normal, none, .check r, fun _ => .out, []⟩

/-- Set the place of an element. -/
def setPc (s : CtlSt) (e : Nat) (p : RunPc) : CtlSt := { s with pc := fun k => if k = e then p else s.pc k }

/-- GElementRepository.cpp:69-72: store the state of element `i`, wake it unless it is `SUSPEND`. -/
def store (s : CtlSt) (i : Nat) (q : EState) : CtlSt :=
  { s with st := fun k => if k = i then q else s.st k,
           pc := fun k => if k = i then
               (match s.pc i with
                | .asleep l => if q = .suspend then .asleep l else .checkLocked l
                | p => p)
             else s.pc k }

/-- GPipeline.cpp:110-121, 67-71: the thread inside `process`. -/
def mainStep (n : Nat) (s : CtlSt) : Option CtlSt :=
  match s.main with
  | .check r =>
    if 0 < r ∧ s.repo ≠ .cancel then some { s with main := .setup (r - 1) } else some { s with main := .over }
  | .setup r =>
    if s.repo = .normal then some { s with main := .running r, hist := s.hist ++ [.run] }
    else some { s with main := .push r 0 }
  | .push r i =>
    if i < n then some { s.store i .normal with main := .push r (i + 1) }
    else some { s with repo := .normal, main := .running r, hist := s.hist ++ [.run] }
  | .running r =>
    if (List.range n).all fun e => s.pc e = .fin then some { s with main := .check r, pc := fun _ => .out } else none
  | .over => none

/-- GElement.cpp:242-256, 441-450: a step of the thread executing element `e`. -/
def elemStep (s : CtlSt) (e : Nat) (hold : Bool) : Option CtlSt :=
  match s.pc e with
  | .out => none
  | .test l =>
    if 0 < l ∧ s.st e = .normal then some (s.setPc e (.passed l))
    else some { s.setPc e .fin with hist := s.hist ++ [.fin e] }
  | .passed l => some { s.setPc e (.body l) with hist := s.hist ++ [.enter e] }
  | .body l => some { s.setPc e (.check l) with hist := s.hist ++ [.leave e] }
  | .check l => some (s.setPc e (if s.st e = .suspend then .checkLocked l else .hold l))
  | .checkLocked l => some (s.setPc e (if s.st e = .suspend then .drowsy l else .hold l))
  | .drowsy l => some (s.setPc e (.asleep l))
  | .asleep _ => none
  | .hold l => some (s.setPc e (if hold then .passed l else .test (l - 1)))
  | .fin => none

/-- One step; `none` when it is not possible. -/
def step (n : Nat) (loops : Nat → Nat) (s : CtlSt) : CtlAct → Option CtlSt
  | .ctl q =>
    -- GPipeline.cpp:181-197, GElementRepository.cpp:64-66
    if s.push.isSome || s.main = .over then none
    else if s.repo = q then some { s with hist := s.hist ++ [.ctl q, .ctlDone q] }
    else some { s with push := some (q, 0), hist := s.hist ++ [.ctl q] }
  | .push =>
    match s.push with
    | none => none
    | some (q, i) =>
      if i < n then some { s.store i q with push := some (q, i + 1) }
      else some { s with push := none, repo := q, hist := s.hist ++ [.ctlDone q] }
  | .main => s.mainStep n
  | .call e =>
    match s.main, s.pc e with
    | .running _, .out => if e < n then some (s.setPc e (.test (loops e))) else none
    | _, _ => none
  | .elem e h => s.elemStep e h
  | .spurious e =>
    match s.pc e with
    | .asleep l => some (s.setPc e (.checkLocked l))
    | _ => none

/-- Execute a schedule; steps that are not possible are skipped. -/
def exec (n : Nat) (loops : Nat → Nat) (s : CtlSt) : List CtlAct → CtlSt
  | [] => s
  | a :: as => exec n loops ((s.step n loops a).getD s) as

end CtlSt
end CGraph
