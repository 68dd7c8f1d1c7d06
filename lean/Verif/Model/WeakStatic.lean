import Verif.Model.Graph
import Verif.Spec.WeakMem

/-! # The static engine on memory with out-of-date reads

`GStaticEngine::run` (GStaticEngine.cpp:48-77), run after run, with elements that may return errors or throw.  Every load names the
store it reads and goes on with the value of that store.  Elements and the caller access memory of the user. -/
namespace CGraph
namespace WeakStatic
open Spec

/-- Atomics: the place in which task `n` is handed to the pool (GStaticEngine.cpp:59, in the pool a mutex of a queue does this, see C08,
C09), and the shared state of its future (60, 71; making it ready synchronises with the return of `get`). -/
inductive SLoc where
  | task (n : Nat)
  | fut (n : Nat)
deriving DecidableEq

/-- What is marked: begin of `run`, start and end of an element, return of `run` (with success or not), and an exception of an element that
leaves `run` (GStaticEngine.cpp:48-77). -/
inductive SMk where
  | begin
  | start (e : Eid)
  | fin (e : Eid)
  | ret (ok : Bool)
  | out
deriving DecidableEq

/-- Plain memory: cells of the user, and cells that nobody writes, whose reading marks events (GStaticEngine.cpp:48-77; all variables of
`run` are local). -/
inductive SCell where
  | user (n : Nat)
  | mark (r : Nat) (m : SMk)
deriving DecidableEq

/-- An operation (GStaticEngine.cpp:48-77). -/
abbrev SOp := WOp SLoc SCell Nat
/-- An operation and its thread. -/
abbrev SLogged := WAct SLoc SCell Nat

/-- The load of `l` that reads from `src` returns 1 (GStaticEngine.cpp:59-60, 71).  All locations are 0 at first; a load that returns 0 is
repeated and is not in the log. -/
def got (log : List SLogged) (l : SLoc) : Option Nat → Bool
  | none => false
  | some i => match log[i]? with
    | some ⟨_, .store l' _ v⟩ => l' = l ∧ v = 1
    | _ => false

/-- GStaticEngine.h `element_mat_`, `isMacro() && isDefaultBinding()` (GStaticEngine.cpp:55), number of threads of the pool. -/
structure SwCfg where
  mat : List (List Eid)
  direct : Eid → Bool
  workers : Nat

/-- A task in the pool (GStaticEngine.cpp:59-61): element, number, run. -/
structure STask where
  e : Eid
  n : Nat
  r : Nat
deriving DecidableEq

/-- GStaticEngine.cpp:48-77: `row` = rows entered; `toCommit` = rest of the loop 54-64; `macros` 53; `mrun` = the macro that the caller is
executing (66-68); `futures` 52, not yet waited for; `last` = how the last run ended; `queued`, `running` = tasks, also of runs
that an exception has left; `outs` = results in futures.  Thread 0 is the caller, a task is executed by the thread of its number
(taking fewer threads only orders more).  `accs` notes accesses of memory of the user: position, run, element (`none`: the caller). -/
structure SwSt where
  nrun : Nat
  busy : Bool
  row : Nat
  toCommit : List Eid
  macros : List Eid
  mrun : Option Eid
  futures : List (Eid × Nat)
  status : CStatus
  last : Option (Res CStatus)
  queued : List STask
  running : List STask
  outs : Nat → Option (Res CStatus)
  next : Nat
  accs : List (Nat × Nat × Option Eid)
  log : List SLogged

/-- Steps (GStaticEngine.cpp:48-77).  `o` is what `fatProcessor` does: return a status or throw. -/
inductive SwAct where
  | begin
  | main (src : Option Nat) (o : Res CStatus)
  | take (i : Nat) (src : Option Nat)
  | done (i : Nat) (o : Res CStatus)
  | use (who : Option Nat) (n : Nat) (wr : Bool)

namespace SwSt

/-- Thread `t` performs `ops`. -/
def put (w : SwSt) (t : Nat) (ops : List SOp) : SwSt := { w with log := w.log ++ ops.map (fun o => ⟨t, o⟩) }

/-- An event of run `r`. -/
def ev (r : Nat) (m : SMk) : SOp := .read (.mark r m)

/-- An exception leaves `run` (GStaticEngine.cpp:67, 71): local variables are gone, committed tasks stay in the pool. -/
def leave (w : SwSt) (msg : String) : SwSt :=
  { w with busy := false, toCommit := [], macros := [], mrun := none, futures := [], last := some (.throw msg) }

/-- An access of memory of the user (GStaticEngine.cpp:60, 67, in `fatProcessor`). -/
def access (n : Nat) (wr : Bool) : SOp := if wr then .write (.user n) else .read (.user n)

/-- Element `e` (or the caller) accesses memory, in thread `t`, in or after run `r`. -/
def touch (w : SwSt) (t r : Nat) (e : Option Eid) (n : Nat) (wr : Bool) : SwSt :=
  { w.put t [access n wr] with accs := w.accs ++ [(w.log.length, r, e)] }

/-- The caller (GStaticEngine.cpp:48-77). -/
def mainStep (c : SwCfg) (w : SwSt) (src : Option Nat) (o : Res CStatus) : Option SwSt :=
  if w.busy = false then none
  else match w.mrun with
  | some e =>
    -- 67
    match o with
    | .ret st => some { w.put 0 [ev w.nrun (.fin e)] with mrun := none, status := w.status.add st }
    | .throw msg => some ((w.put 0 [ev w.nrun (.fin e), ev w.nrun .out]).leave msg)
  | none =>
    match w.toCommit with
    | e :: es =>
      -- 54-63
      if c.direct e then some { w with toCommit := es, macros := w.macros ++ [e] }
      else some { w.put 0 [.store (.task w.next) true 1] with
                    toCommit := es, futures := w.futures ++ [(e, w.next)], queued := w.queued ++ [⟨e, w.next, w.nrun⟩], next := w.next + 1 }
    | [] =>
      match w.macros with
      | e :: es => some { w.put 0 [ev w.nrun (.start e)] with macros := es, mrun := some e }
      | [] =>
        match w.futures with
        | (_, n) :: fs =>
          -- 71: `get` waits until the result is there; it may be an exception
          if got w.log (.fut n) src then
            match w.outs n with
            | some (.ret st) => some { w.put 0 [.load (.fut n) true src 1] with futures := fs, status := w.status.add st }
            | some (.throw msg) => some ((w.put 0 [.load (.fut n) true src 1, ev w.nrun .out]).leave msg)
            | none => none
          else none
        | [] =>
          -- 73, 51, 76
          match checkStatus w.status with
          | some r => some { w.put 0 [ev w.nrun (.ret false)] with busy := false, last := some r }
          | none =>
            match c.mat[w.row]? with
            | none => some { w.put 0 [ev w.nrun (.ret true)] with busy := false, last := some (.ret w.status) }
            | some l => some { w with row := w.row + 1, toCommit := l }

/-- One step (GStaticEngine.cpp:48-77).  `may e n wr`: element `e` may access cell `n` in this way. -/
def step (c : SwCfg) (may : Eid → Nat → Bool → Bool) (w : SwSt) : SwAct → Option SwSt
  | .begin =>
    -- 49
    if w.busy then none
    else some { w.put 0 [ev (w.nrun + 1) .begin] with
                  nrun := w.nrun + 1, busy := true, row := 0, toCommit := [], macros := [], mrun := none, futures := [], status := CStatus.ok }
  | .main src o => mainStep c w src o
  | .take i src =>
    -- 59-61: a thread of the pool takes a task
    match w.queued[i]? with
    | none => none
    | some t =>
      if w.running.length < c.workers ∧ got w.log (.task t.n) src then
        some { w.put t.n [.load (.task t.n) true src 1, ev t.r (.start t.e)] with queued := w.queued.eraseIdx i, running := w.running ++ [t] }
      else none
  | .done i o =>
    -- 60: the task ends, its future becomes ready
    match w.running[i]? with
    | none => none
    | some t =>
      some { w.put t.n [ev t.r (.fin t.e), .store (.fut t.n) true 1] with
               running := w.running.eraseIdx i, outs := fun k => if k = t.n then some o else w.outs k }
  | .use none n wr =>
    if w.busy = false then some (w.touch 0 w.nrun none n wr)
    else match w.mrun with
      | some e => if may e n wr then some (w.touch 0 w.nrun (some e) n wr) else none
      | none => none
  | .use (some i) n wr =>
    match w.running[i]? with
    | some t => if may t.e n wr then some (w.touch t.n t.r (some t.e) n wr) else none
    | none => none

/-- After `setup` (GStaticEngine.cpp:13-45). -/
def init : SwSt := ⟨0, false, 0, [], [], none, [], CStatus.ok, none, [], [], fun _ => none, 1, [], []⟩

/-- Run a schedule; disabled choices are skipped. -/
def run (c : SwCfg) (may : Eid → Nat → Bool → Bool) (w : SwSt) (l : List SwAct) : SwSt := l.foldl (fun w a => (step c may w a).getD w) w

end SwSt
end WeakStatic
end CGraph
