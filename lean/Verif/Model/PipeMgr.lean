import Verif.Model.Status

/-! # The pipeline manager

`src/GraphCtrl/GraphPipeline/GPipelineManager.cpp`.  Pipelines are numbers.  Any number of threads calls `run`, `fetch` and
`release`; the other calls are made at any time.  `fetch` and `release` are single steps (they hold `mutex_`); `run` is
three: the test of `is_init_`, `fetch`, and `release` after the pipeline has run.  Simplified: the other calls, which
read the lists without a lock, are single steps; `init` and `destroy` of the pipelines succeed or fail as the schedule
says; null pointers are not passed. -/
namespace CGraph

/-- GPipelineManager.h:58-60. -/
structure PipeMgr where
  free : List Nat
  used : List Nat
  isInit : Bool
deriving DecidableEq, Repr

namespace PipeMgr

/-- A new manager. -/
def new : PipeMgr := ⟨[], [], false⟩

/-- GPipelineManager.cpp:15-29; `ok`: all pipelines were initialised.  The result says whether an error is returned. -/
def init (m : PipeMgr) (ok : Bool) : Bool × PipeMgr :=
  if m.isInit then (false, m)
  else if m.used ≠ [] then (false, m)
  else if ok then (true, { m with isInit := true })
  else (false, m)

/-- GPipelineManager.cpp:51-65; `ok`: all pipelines were destroyed. -/
def destroy (m : PipeMgr) (ok : Bool) : Bool × PipeMgr :=
  if !m.isInit then (false, m)
  else if m.used ≠ [] then (false, m)
  else if ok then (true, { m with isInit := false })
  else (false, m)

/-- GPipelineManager.cpp:68-79. -/
def add (m : PipeMgr) (p : Nat) : Bool × PipeMgr :=
  if m.isInit then (false, m) else (true, { m with free := m.free ++ [p] })

/-- GPipelineManager.cpp:82-97. -/
def clear (m : PipeMgr) : Bool × PipeMgr :=
  if m.isInit then (false, m) else (true, { m with free := [], used := [] })

/-- GPipelineManager.cpp:100-116. -/
def find (m : PipeMgr) (p : Nat) : Bool := m.used.any (· == p) || m.free.any (· == p)

/-- GPipelineManager.cpp:119-130 (`std::list::remove` removes all equal elements). -/
def remove (m : PipeMgr) (p : Nat) : Bool × PipeMgr :=
  if m.isInit then (false, m) else (true, { m with free := m.free.filter (· != p) })

/-- GPipelineManager.cpp:133-136. -/
def getSize (m : PipeMgr) : Nat := m.free.length + m.used.length

/-- GPipelineManager.cpp:144-156. -/
def fetch (m : PipeMgr) : Option Nat × PipeMgr :=
  match m.free with
  | [] => (none, m)
  | p :: l => (some p, { m with free := l, used := m.used ++ [p] })

/-- GPipelineManager.cpp:159-175. -/
def release (m : PipeMgr) (p : Nat) : Bool × PipeMgr :=
  if m.used.any (· == p) then (true, { m with used := m.used.filter (· != p), free := p :: m.free }) else (false, m)

end PipeMgr

/-- Where a caller is. -/
inductive PmPc where
  | out
  /-- GPipelineManager.cpp:34: the manager was initialised -/
  | checked
  /-- has got pipeline `p` -/
  | hold (p : Nat)
deriving DecidableEq, Repr

/-- What can be seen from outside. -/
inductive PmEv where
  | added (p : Nat)
  | removed (p : Nat)
  | cleared
  | inited
  | destroyed
  /-- thread `t` has got pipeline `p` and executes it -/
  | begin (t p : Nat)
  /-- thread `t` has given pipeline `p` back; `ok`: no error from `release` -/
  | done (t p : Nat) (ok : Bool)
  /-- the run of pipeline `p` ended with an exception that leaves `run` of the manager -/
  | thrown (t p : Nat)
  /-- thread `t` got an error: the manager is not initialised -/
  | notInit (t : Nat)
  /-- thread `t` got an error (or null): no free pipeline -/
  | noFree (t : Nat)
  /-- `init`, `destroy`, `add`, `remove` or `clear` returned an error -/
  | refused
deriving DecidableEq, Repr

/-- Steps. -/
inductive PmAct where
  | add (p : Nat)
  | remove (p : Nat)
  | clear
  | init (ok : Bool)
  | destroy (ok : Bool)
  /-- `run` is called -/
  | run (t : Nat)
  /-- `fetch` is called, by `run` or directly -/
  | fetch (t : Nat)
  /-- the pipeline has run; it is released -/
  | release (t : Nat)
  /-- the run of the pipeline throws -/
  | throw (t : Nat)
deriving DecidableEq, Repr

/-- Manager, callers and what was observed. -/
structure PmSt where
  mgr : PipeMgr
  pc : Nat → PmPc
  hist : List PmEv

namespace PmSt

/-- At the beginning. -/
def start : PmSt := ⟨.new, fun _ => .out, []⟩

/-- Change of one caller. -/
def setPc (s : PmSt) (t : Nat) (x : PmPc) : PmSt := { s with pc := fun u => if u = t then x else s.pc u }

/-- A call that returned, with what it leaves behind. -/
def ctl (s : PmSt) (r : Bool × PipeMgr) (x : PmEv) : PmSt :=
  { s with mgr := r.2, hist := s.hist ++ [if r.1 then x else .refused] }

/-- One step; `none` when it is not possible.  `run` is GPipelineManager.cpp:32-48. -/
def step (s : PmSt) : PmAct → Option PmSt
  | .add p => some (s.ctl (s.mgr.add p) (.added p))
  | .remove p => some (s.ctl (s.mgr.remove p) (.removed p))
  | .clear => some (s.ctl s.mgr.clear .cleared)
  | .init ok => some (s.ctl (s.mgr.init ok) .inited)
  | .destroy ok => some (s.ctl (s.mgr.destroy ok) .destroyed)
  | .run t =>
    if s.pc t = .out then
      if s.mgr.isInit then some (s.setPc t .checked) else some { s with hist := s.hist ++ [.notInit t] }
    else none
  | .fetch t =>
    match s.pc t with
    | .hold _ => none
    | _ =>
      match s.mgr.fetch with
      | (none, m) => some { s.setPc t .out with mgr := m, hist := s.hist ++ [.noFree t] }
      | (some p, m) => some { s.setPc t (.hold p) with mgr := m, hist := s.hist ++ [.begin t p] }
  | .release t =>
    match s.pc t with
    | .hold p => some { s.setPc t .out with mgr := (s.mgr.release p).2, hist := s.hist ++ [.done t p (s.mgr.release p).1] }
    | _ => none
  | .throw t =>
    match s.pc t with
    | .hold p => some { s.setPc t .out with hist := s.hist ++ [.thrown t p] }
    | _ => none

/-- Execute a schedule; steps that are not possible are skipped. -/
def exec (s : PmSt) : List PmAct → PmSt
  | [] => s
  | a :: as => exec ((s.step a).getD s) as

end PmSt
end CGraph
