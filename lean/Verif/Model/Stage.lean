import Verif.Model.Status

/-! # Stages

`src/GraphCtrl/GraphStage/GStage.cpp`, `GStageManager.h`, `GStageManagerWrapper.h`, `GPipeline.inl:250-262`.

The threads entering a stage are numbers; any number of threads takes part and every thread may enter again.  The steps
are the parts of `waiting` between two points where the mutex is given up; they are interleaved arbitrarily, and a thread
may wake without a reason.  Simplified: `launch` is user code executed under the mutex: it returns, does not throw and
does not enter the same stage; `cur_value_` does not overflow. -/
namespace CGraph

/-- Where a thread is in `waiting` (GStage.cpp:33-47). -/
inductive StagePc where
  /-- outside -/
  | out
  /-- asleep in `cv_.wait`, the mutex released -/
  | asleep
  /-- woken, about to take the mutex and to test the condition (44-46) -/
  | awake
deriving DecidableEq, Repr

/-- What can be seen from outside. -/
inductive StageEv where
  | arrive (t : Nat)
  /-- the hook is executed -/
  | launch
  | leave (t : Nat)
deriving DecidableEq, Repr

/-- Steps. -/
inductive StageAct where
  /-- thread `t` calls `enterStage` and takes the mutex -/
  | arrive (t : Nat)
  /-- thread `t` wakes without a reason -/
  | spurious (t : Nat)
  /-- thread `t` takes the mutex again and tests the condition -/
  | test (t : Nat)
deriving DecidableEq, Repr

/-- The thread of a step. -/
def StageAct.thread : StageAct → Nat
  | .arrive t | .spurious t | .test t => t

/-- GStage.h:63-66. -/
structure StageSt where
  /-- `cur_value_` -/
  cur : Nat
  pc : Nat → StagePc
  /-- everything seen so far (ghost) -/
  hist : List StageEv

namespace StageSt

/-- A new stage. -/
def init : StageSt := ⟨0, fun _ => .out, []⟩

/-- Thread `t` goes to `p`. -/
def setPc (s : StageSt) (t : Nat) (p : StagePc) : StageSt := { s with pc := fun u => if u = t then p else s.pc u }

/-- `notify_all` (GStage.cpp:40). -/
def wakeAll (s : StageSt) : StageSt := { s with pc := fun u => if s.pc u = .asleep then .awake else s.pc u }

/-- GStage.cpp:34-44: the arrival, up to falling asleep.  The condition of `cv_.wait` is tested before sleeping. -/
def arrive (n : Nat) (s : StageSt) (t : Nat) : StageSt :=
  let cur := s.cur + 1
  if cur ≥ n then { s.wakeAll with cur := 0, hist := s.hist ++ [.arrive t, .launch, .leave t] }
  else if cur = 0 ∨ cur ≥ n then { s with cur := cur, hist := s.hist ++ [.arrive t, .leave t] }
  else { s.setPc t .asleep with cur := cur, hist := s.hist ++ [.arrive t] }

/-- GStage.cpp:44-46: the condition is tested after waking. -/
def test (n : Nat) (s : StageSt) (t : Nat) : StageSt :=
  if s.cur = 0 ∨ s.cur ≥ n then { s.setPc t .out with hist := s.hist ++ [.leave t] }
  else s.setPc t .asleep

/-- One step of a stage with threshold `n`; `none` when it is not possible. -/
def step (n : Nat) (s : StageSt) : StageAct → Option StageSt
  | .arrive t => if s.pc t = .out then some (s.arrive n t) else none
  | .spurious t => if s.pc t = .asleep then some (s.setPc t .awake) else none
  | .test t => if s.pc t = .awake then some (s.test n t) else none

/-- Execute a schedule; steps that are not possible are skipped. -/
def exec (n : Nat) (s : StageSt) : List StageAct → StageSt
  | [] => s
  | a :: as => exec n ((s.step n a).getD s) as

end StageSt

/-- GStageManager.h:95 and the stages allocated so far: the threshold of each. -/
structure StageMgr where
  /-- `stage_map_`: key and address -/
  map : List (String × Nat)
  heap : List Int

namespace StageMgr

/-- A new manager. -/
def new : StageMgr := ⟨[], []⟩

/-- GPipeline.inl:250-262 `addGStage` of a pipeline that is not initialised, GStageManager.h:65-73 `create`:
`unordered_map::insert` keeps an existing entry. -/
def add (s : StageMgr) (key : String) (threshold : Int) : StageMgr × Res Unit :=
  if threshold ≤ 0 then (s, .throw "threshold value must bigger than 0")
  else
    ({ map := if (s.map.lookup key).isSome then s.map else s.map ++ [(key, s.heap.length)]
       heap := s.heap ++ [threshold] }, .ret ())

/-- GStageManager.h:80-87 `waitForReady`: the stage that is entered. -/
def find (s : StageMgr) (key : String) : Except CStatus Nat :=
  match s.map.lookup key with
  | some a => .ok a
  | none => .error (CStatus.err ("[" ++ key ++ "] is not a valid stage key"))

/-- A history of registrations. -/
def adds (ops : List (String × Int)) : StageMgr := ops.foldl (fun s o => (s.add o.1 o.2).1) new

end StageMgr
end CGraph
