import Verif.Model.Visible
import Verif.Spec.WeakMem

/-! # The dynamic engine on memory with out-of-date reads

The engine of `Model/Dynamic.lean` (GDynamicEngine.cpp:30-63, 124-226), in runs in which no element fails, where every read of an
atomic says which write it reads and goes on with the value of that write, up to date or not.  Which choices are possible is said by
`Spec.Coherent`.  Elements read and write memory of the user. -/
namespace CGraph
namespace WeakDyn
open Spec

/-- Atomics: `left_depend_` (GElement.h:465), `finished_end_size_` (GDynamicEngine.h:110), the mutex of `locker_` (116; taking it is a
read-modify-write with acquire, giving it back a store with release), and the place in which task `n` is handed over (in the pool
a mutex of a queue does this, see C09, or C08). -/
inductive WLoc where
  | left (e : Eid)
  | fin
  | mtx
  | task (n : Nat)
deriving DecidableEq

/-- Plain memory: `cur_status_` (GDynamicEngine.h:111), cells of the user, and cells that nobody writes, whose reading marks begin and
return of a run and start and end of elements. -/
inductive WCell where
  | status
  | user (n : Nat)
  | mark (r : Nat) (m : Visible.Mk)
deriving DecidableEq

/-- An operation (GDynamicEngine.cpp:30-63, 124-226). -/
abbrev WkOp := WOp WLoc WCell Int
/-- An operation and its thread. -/
abbrev WkLogged := WAct WLoc WCell Int

/-- After `setup` (GDynamicEngine.cpp:13-27, GElement.cpp:25-28). -/
def ini (c : DynCfg) : WLoc → Int
  | .left e => (DynSt.init c).left e
  | _ => 0

/-- The value of the write that is read. -/
def rd (c : DynCfg) (log : List WkLogged) (l : WLoc) : Option Nat → Int
  | none => ini c l
  | some i => match log[i]? with
    | some ⟨_, .store _ _ v⟩ => v
    | some ⟨_, .rmw _ _ _ _ _ v⟩ => v
    | _ => 0

/-- GDynamicEngine.cpp:166, 188: the atomic that a job reads and writes next, if any. -/
def jobLoc : Job → Option WLoc
  | .nIter _ (x :: _) _ => some (.left x)
  | .tailInc _ => some .fin
  | _ => none

/-- GDynamicEngine.cpp:166, 188: what the job finds is `v`. -/
def jobView (s : DynSt) (v : Int) : Job → DynSt
  | .nIter _ (x :: _) _ => { s with left := Graph.setLeft s.left x v }
  | .tailInc _ => { s with fin := v.toNat }
  | _ => s

/-- GDynamicEngine.cpp:124-203: the operations of `DynSt.jobStep`; `n` is the number of the task that is handed over, if any; `v` is read
from `src`. -/
def jobOps (c : DynCfg) (s : DynSt) (n : Nat) (src : Option Nat) (v : Int) : Job → List WkOp
  -- 140 refresh, GElement.cpp:25-28, release
  | .exec e => [.store (.left e) true ((c.g.deps e).length : Int), .read (.mark s.nrun (.ev (.start e)))]
  | .body e => [.read (.mark s.nrun (.ev (.finish e)))]
  -- 157
  | .after _ => [.read .status]
  -- 166: operator--, sequentially consistent
  | .nIter _ (x :: _) _ => [.rmw (.left x) true true src v (v - 1)]
  | .nIter _ [] _ => []
  -- 125, 133-134
  | .nPost .. => [.read .status, .store (.task n) true 1]
  | .rIter _ (_ :: _ :: _) => [.read .status, .store (.task n) true 1]
  | .rIter _ _ => []
  | .proc e => .read .status :: if c.isDefault e then [] else [.store (.task n) true 1]
  -- 188, memory_order_acq_rel
  | .tailInc _ => [.rmw .fin true true src v (v + 1)]
  -- 190-191
  | .tailNotify => [.rmw .mtx true false src v 1, .store .mtx true 0]
  -- no element fails
  | .errSet _ => []
  | .errNotify => []

/-- GDynamicEngine.cpp:47: the status is copied. -/
def retOps (s : DynSt) : List WkOp := [.read .status, .read (.mark s.nrun (.ret false))]

/-- GDynamicEngine.cpp:166, 188, 190, 211, 217, 224: the atomic that the caller reads next, if any. -/
def mainLoc (s : DynSt) : Option WLoc :=
  match s.main with
  | .inline .tailNotify => some .mtx
  | .inline j => jobLoc j
  | .poll (_ + 1) => some .fin
  | .check => some .fin
  | .lock => some .mtx
  | .waking => some .mtx
  | _ => none

/-- GDynamicEngine.cpp:30-63, 206-226: the operations of the caller; `v` is read from `src`. -/
def mainOps (c : DynCfg) (s : DynSt) (n : Nat) (src : Option Nat) (v : Int) : List WkOp :=
  match s.main with
  | .idle => []
  | .fronts [] => []
  | .fronts [x] => .read .status :: if c.isDefault x then [] else [.store (.task n) true 1]
  | .fronts (_ :: _ :: _) => [.read .status, .store (.task n) true 1]
  | .inline j => jobOps c s n src v j
  | .poll 0 => []
  -- 211, memory_order_acquire
  | .poll (_ + 1) => .load .fin true src v :: if v.toNat ≥ c.totalEnd then retOps s else []
  -- 217
  | .lock => [.rmw .mtx true false src v 1]
  -- 224, memory_order_acquire
  | .check => .load .fin true src v :: if v.toNat ≥ c.totalEnd then .store .mtx true 0 :: retOps s else [.read .status]
  | .preSleep => [.store .mtx true 0]
  | .asleep => []
  | .waking => [.rmw .mtx true false src v 1]

/-- GDynamicEngine.cpp:206-226: the step of the caller that goes on with the number `v` of finished ends. -/
def mainStep (c : DynCfg) (s : DynSt) (v : Int) : Option DynSt :=
  match s.main with
  | .inline j => DynSt.step c (jobView s v j) (.main CStatus.ok)
  | .poll (_ + 1) => (DynSt.step c { s with fin := v.toNat } (.main CStatus.ok)).map fun s' => { s' with fin := s.fin }
  | .check => (DynSt.step c { s with fin := v.toNat } (.main CStatus.ok)).map fun s' => { s' with fin := s.fin }
  | _ => DynSt.step c s (.main CStatus.ok)

/-- The engine and what it has done to memory.  `left` and `fin` of `s` are the values written last, which no step looks at.  `qt` and
`jt` are the numbers of the tasks in `queue` and `jobs`, which number the threads too; the caller is thread 0; `next` is the next
number.  `accs` notes which element (or the caller: `none`) accessed memory of the user, in or after which run, and where in `log`. -/
structure WdSt where
  s : DynSt
  qt : List Nat
  jt : List Nat
  next : Nat
  accs : List (Nat × Nat × Option Eid)
  log : List WkLogged

/-- Steps (GDynamicEngine.cpp:30-63, 124-226).  `src` is what is read from; `use` is an access of a cell of the user, by the caller (`none`)
or by a thread of the pool. -/
inductive WkAct where
  | begin
  | main (src : Option Nat)
  | take (i : Nat) (src : Option Nat)
  | work (i : Nat) (src : Option Nat)
  | spurious
  | use (who : Option Nat) (n : Nat) (w : Bool)

namespace WdSt

/-- A task is handed over (GDynamicEngine.cpp:133-134). -/
def sends (ops : List WkOp) : Bool := ops.any (fun o => match o with | .store (.task _) _ _ => true | _ => false)

/-- Thread `t` performs `ops`. -/
def put (w : WdSt) (t : Nat) (ops : List WkOp) : WdSt :=
  { w with log := w.log ++ ops.map (fun o => ⟨t, o⟩),
           qt := if sends ops then w.qt ++ [w.next] else w.qt,
           next := if sends ops then w.next + 1 else w.next }

/-- An access of memory of the user (GDynamicEngine.cpp:141, in `fatProcessor`). -/
def access (n : Nat) (wr : Bool) : WkOp := if wr then .write (.user n) else .read (.user n)

/-- Element `e` (or the caller) accesses memory, in thread `t`. -/
def touch (w : WdSt) (t : Nat) (e : Option Eid) (n : Nat) (wr : Bool) : WdSt :=
  { w.put t [access n wr] with accs := w.accs ++ [(w.log.length, w.s.nrun, e)] }

/-- One step (GDynamicEngine.cpp:30-63, 124-226).  `may e n wr`: element `e` may access cell `n` in this way. -/
def step (c : DynCfg) (may : Eid → Nat → Bool → Bool) (w : WdSt) : WkAct → Option WdSt
  | .begin =>
    -- 31, 57 (release)
    (DynSt.step c w.s .begin).map fun s' =>
      { w.put 0 [.read .status, .store .fin true 0, .read (.mark (w.s.nrun + 1) .begin)] with s := s' }
  | .main src =>
    let v := match mainLoc w.s with | some l => rd c w.log l src | none => 0
    (mainStep c w.s v).map fun s' => { w.put 0 (mainOps c w.s w.next src v) with s := s' }
  | .take i src =>
    let n := w.qt.getD i 0
    if rd c w.log (.task n) src = 1 then
      (DynSt.step c w.s (.take i)).map fun s' =>
        { w with s := s', qt := w.qt.eraseIdx i, jt := w.jt ++ [n], log := w.log ++ [⟨n, .load (.task n) true src 1⟩] }
    else none
  | .work i src =>
    match w.s.jobs[i]? with
    | none => none
    | some j =>
      let l := match j with | .tailNotify => some .mtx | _ => jobLoc j
      let v := match l with | some l => rd c w.log l src | none => 0
      (DynSt.step c (jobView w.s v j) (.work i CStatus.ok)).map fun s' =>
        { w.put (w.jt.getD i 0) (jobOps c w.s w.next src v j) with
            s := s', jt := if s'.jobs.length < w.s.jobs.length then w.jt.eraseIdx i else w.jt }
  | .spurious => (DynSt.step c w.s .spurious).map fun s' => { w with s := s' }
  | .use none n wr =>
    match w.s.main with
    | .idle => some (w.touch 0 none n wr)
    | .inline (.body e) => if may e n wr then some (w.touch 0 (some e) n wr) else none
    | _ => none
  | .use (some i) n wr =>
    match w.s.jobs[i]? with
    | some (.body e) => if may e n wr then some (w.touch (w.jt.getD i 0) (some e) n wr) else none
    | _ => none

/-- After `setup` (GDynamicEngine.cpp:13-27). -/
def init (c : DynCfg) : WdSt := ⟨DynSt.init c, [], [], 1, [], []⟩

/-- Run a schedule; disabled choices are skipped. -/
def run (c : DynCfg) (may : Eid → Nat → Bool → Bool) (w : WdSt) (l : List WkAct) : WdSt :=
  l.foldl (fun w a => (step c may w a).getD w) w

end WdSt
end WeakDyn
end CGraph
