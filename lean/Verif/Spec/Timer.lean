import Verif.Model.Timer

/-! # What is observed of a timer -/
namespace CGraph.Spec
open CGraph

/-- A task begins. -/
def tmBegins : TmEv → Bool
  | .taskBegin _ => true
  | _ => false

/-- A task returns. -/
def tmEnds : TmEv → Bool
  | .taskEnd _ _ => true
  | _ => false

/-- The timer is started (a `start` that is ignored does not count). -/
def tmStarts : TmEv → Bool
  | .started _ _ => true
  | _ => false

/-- Thread `t` returns from `stop`. -/
def tmRets (t : Nat) : TmEv → Bool
  | .stopRet u _ => decide (u = t)
  | _ => false

/-- `stop` is called by any thread. -/
def tmCall : TmEv → Bool
  | .stopCall _ _ => true
  | _ => false

/-- A thread returns from `stop`. -/
def tmRet : TmEv → Bool
  | .stopRet _ _ => true
  | _ => false

/-- Nobody is inside `stop`. -/
def NoStopOpen (l : List TmEv) : Prop := l.countP tmCall = l.countP tmRet

/-- No task is being executed. -/
def NoTaskOpen (l : List TmEv) : Prop := l.countP tmBegins = l.countP tmEnds

end CGraph.Spec
