import Verif.Model.Status

/-! # The timer of a daemon

`src/UtilsCtrl/Timer/UTimer.h`, used by `GraphDaemon/GDaemon.cpp:13-30`.

One timer thread, any number of threads that call `stop`, and a clock that moves at any time.  The steps of the timer
thread are the parts between two accesses to `is_stop_`, the condition variable or the clock; they are interleaved
arbitrarily with the steps of the callers, and a wait may end without a reason.  Simplified: time is a natural number of
milliseconds read exactly; `start` is not called while a `stop` is in progress (both write or read `future_` without a
lock, which is a data race) and is one step; the task and `modify` return and do not throw. -/
namespace CGraph

/-- Where the timer thread is in the loop (UTimer.h:46-70). -/
inductive TmPc where
  /-- 46: about to test `is_stop_` -/
  | test
  /-- 47-48: about to wait -/
  | ready
  /-- 48: asleep, until the clock reaches the deadline -/
  | asleep (deadline : Int)
  /-- 49: awake; `timeout`: the deadline was reached -/
  | awake (timeout : Bool)
  /-- 50: `is_stop_` was tested, the task is about to begin -/
  | calling
  /-- 51-52: the task is being executed, since `b` -/
  | task (b : Nat)
  /-- the thread has ended (or was never created) -/
  | done
deriving DecidableEq, Repr

/-- What can be seen from outside, with the time. -/
inductive TmEv where
  /-- `start` was called with this interval and created the thread -/
  | started (iv : Int) (at_ : Nat)
  /-- `start` was called and did nothing -/
  | ignored
  | taskBegin (at_ : Nat)
  /-- the task has returned, and `modify` has returned `ms` -/
  | taskEnd (at_ : Nat) (ms : Int)
  /-- thread `t` calls `stop` -/
  | stopCall (t : Nat) (at_ : Nat)
  | stopRet (t : Nat) (at_ : Nat)
  /-- the destructor of the user's daemon class has been executed -/
  | freed
deriving DecidableEq, Repr

/-- UTimer.h:87-92. -/
structure TmSt where
  now : Nat
  /-- `is_stop_` -/
  stop : Bool
  origin : Int
  left : Int
  pc : TmPc
  /-- the call of `stop` that changed `is_stop_`: thread, and whether `notify_one` was executed (77-84) -/
  stopper : Option (Nat × Bool)
  hist : List TmEv

/-- Steps. -/
inductive TmAct where
  | tick
  | start (iv : Int)
  | stop (t : Nat)
  /-- UTimer.h:82 -/
  | notify
  /-- UTimer.h:83: the future is ready, `stop` returns -/
  | join
  /-- the next step of the timer thread, outside of the wait and of the task -/
  | main
  /-- the wait ends because the deadline is reached -/
  | timeout
  /-- the wait ends without a reason -/
  | spurious
  /-- the task returns, then `modify` returns `ms` -/
  | finish (ms : Int)
  /-- the destructor of the user's class is executed; `~UTimer` (19-21) calls `stop` afterwards -/
  | free
deriving DecidableEq, Repr

namespace TmSt

/-- A new timer. -/
def new : TmSt := ⟨0, true, 0, 0, .done, none, []⟩

/-- UTimer.h:53-68: the next waiting time. -/
def nextLeft (origin : Int) (b now : Nat) (ms : Int) : Int :=
  if ms > 0 then ms
  else if origin > (now : Int) - b then origin - ((now : Int) - b) else origin

/-- One step; `none` when it is not possible. -/
def step (s : TmSt) : TmAct → Option TmSt
  | .tick => some { s with now := s.now + 1 }
  | .start iv =>
    -- UTimer.h:33-72
    if s.stopper ≠ none then none
    else if s.stop then
      some { s with stop := false, left := iv, origin := iv, pc := .test, hist := s.hist ++ [.started iv s.now] }
    else some { s with hist := s.hist ++ [.ignored] }
  | .stop t =>
    -- UTimer.h:77-80
    if s.stopper.map Prod.fst = some t then none
    else if s.stop then some { s with hist := s.hist ++ [.stopCall t s.now, .stopRet t s.now] }
    else some { s with stop := true, stopper := some (t, false), hist := s.hist ++ [.stopCall t s.now] }
  | .notify =>
    match s.stopper, s.pc with
    | some (t, false), .asleep _ => some { s with stopper := some (t, true), pc := .awake false }
    | some (t, false), _ => some { s with stopper := some (t, true) }
    | _, _ => none
  | .join =>
    match s.stopper, s.pc with
    | some (t, true), .done => some { s with stopper := none, hist := s.hist ++ [.stopRet t s.now] }
    | _, _ => none
  | .main =>
    match s.pc with
    | .test => some { s with pc := if s.stop then .done else .ready }
    | .ready => some { s with pc := .asleep (s.now + s.left) }
    | .awake timeout => some { s with pc := if timeout && !s.stop then .calling else .test }
    | .calling => some { s with pc := .task s.now, hist := s.hist ++ [.taskBegin s.now] }
    | _ => none
  | .timeout =>
    match s.pc with
    | .asleep d => if d ≤ s.now then some { s with pc := .awake true } else none
    | _ => none
  | .spurious =>
    match s.pc with
    | .asleep _ => some { s with pc := .awake false }
    | _ => none
  | .finish ms =>
    match s.pc with
    | .task b =>
      some { s with pc := .test, left := nextLeft s.origin b s.now ms, hist := s.hist ++ [.taskEnd s.now ms] }
    | _ => none
  | .free => some { s with hist := s.hist ++ [.freed] }

/-- Execute a schedule; steps that are not possible are skipped. -/
def exec (s : TmSt) : List TmAct → TmSt
  | [] => s
  | a :: as => exec ((s.step a).getD s) as

end TmSt
end CGraph
