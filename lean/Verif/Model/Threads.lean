import Verif.Spec.Threads

/-! # The threads of a pool: their index, CPU and scheduling

`UThreadPool::init`, `destroy`, `getThreadIndex`, `createSecondaryThread` (src/UtilsCtrl/ThreadPool/UThreadPool.cpp),
`GElement::getThreadIndex` (src/GraphCtrl/GraphElement/GElement.cpp:351-357), `setSchedParam`, `setAffinity`, `calcPolicy`,
`calcPriority` (src/UtilsCtrl/ThreadPool/Thread/UThreadBase.h:170-238), on Linux.

The operating system gives a new thread any id that no living thread has, so ids come back; it grants scheduling parameters as
`Spec.schedOk` says.  Simplified: the calls on the pool are made one at a time; sizes are not negative (`reserve` throws for
others); `createSecondaryThread` is not called before `init`; a secondary thread that is to end is joined in the same step; all CPUs are below `CPU_SETSIZE`. -/
namespace CGraph.Threads
open Spec

/-- The machine: `std::hash<std::thread::id>` and `CGRAPH_CPU_NUM` (UThreadPoolDefine.h:21). -/
structure Env where
  h : Nat → Nat
  cpus : Nat

/-- UThreadPoolConfig.h:21-38, the members used here. -/
structure ThCfg where
  size : Nat
  secs : Nat
  max : Nat
  primPolicy : Int
  secPolicy : Int
  primPriority : Int
  secPriority : Int
  bind : Bool
deriving DecidableEq

/-- The initial values: UThreadPoolDefine.h:49-51, 64-69. -/
def ThCfg.default : ThCfg := ⟨8, 0, 8, 0, 0, 0, 0, false⟩

/-- UThreadBase.h:220-225, with the numbers of Linux for OTHER, RR, FIFO. -/
def calcPolicy (policy : Int) : Int := if 0 = policy ∨ 2 = policy ∨ 1 = policy then policy else 0

/-- UThreadBase.h:234-238, UThreadPoolDefine.h:34-35. -/
def calcPriority (priority : Int) : Int := if 0 ≤ priority ∧ priority ≤ 99 then priority else 0

/-- UThreadBase.h:182-187: what the operating system grants; `none` if it refuses (the thread goes on with what it inherited; a
warning is printed). -/
def setSched (policy priority : Int) : Option (Int × Int) :=
  if schedOk (calcPolicy policy) (calcPriority priority) then some (calcPolicy policy, calcPriority priority) else none

/-- UThreadBase.h:194-210: the CPU that the thread is bound to, if any. -/
def setAffinity (e : Env) (c : ThCfg) (index : Int) : Option Nat :=
  if !c.bind || e.cpus == 0 || decide (index < 0) then none else some (index.toNat % e.cpus)

/-- A running thread of the pool. -/
structure Th where
  tid : Nat
  sched : Option (Int × Int)
  cpu : Option Nat
deriving DecidableEq

/-- UThreadPrimary.h:28-39 `init`, with the index of UThreadPool.cpp:63. -/
def mkPrim (e : Env) (c : ThCfg) (i : Nat) (tid : Nat) : Th := ⟨tid, setSched c.primPolicy c.primPriority, setAffinity e c i⟩

/-- UThreadSecondary.h:25-35 `init`: not bound. -/
def mkSec (c : ThCfg) (tid : Nat) : Th := ⟨tid, setSched c.secPolicy c.secPriority, none⟩

/-- The pool: `config_`, `is_init_`, `thread_record_map_` (newest first), `primary_threads_`, `secondary_threads_`
(UThreadPool.h:203-211); the other threads of the program; (ghost) the thread that initialised the pool, until it ends. -/
structure ThSt where
  cfg : ThCfg
  isInit : Bool
  recd : List (Nat × Int)
  prims : List Th
  secs : List Th
  users : List Nat
  starter : Option Nat
deriving DecidableEq

/-- What happens: a thread of the program begins or ends; the configuration is set; thread `u` initialises the pool, which gets
threads with these ids; a secondary thread is created (by request or by the monitor), the `j`-th ends; the pool
is destroyed. -/
inductive ThOp where
  | begin (tid : Nat)
  | exit (tid : Nat)
  | setConfig (c : ThCfg)
  | init (u : Nat) (ps ss : List Nat)
  | addSec (tid : Nat)
  | endSec (j : Nat)
  | destroy

namespace ThSt

/-- The program begins with one thread (0), the pool is not initialised. -/
def start : ThSt := ⟨.default, false, [], [], [], [0], none⟩

/-- The ids in use. -/
def alive (s : ThSt) : List Nat := s.users ++ (s.prims.map Th.tid ++ s.secs.map Th.tid)

/-- UThreadPool.cpp:230-231 `leftSize`, `realSize`: how many threads are created (the loop 234 makes none if it is negative). -/
def room (c : ThCfg) (secs size : Nat) : Nat := (min (size : Int) ((c.max : Int) - c.size - secs)).toNat

/-- UThreadPool.cpp:73-75: the entries of the primary threads. -/
def initLoop (h : Nat → Nat) : Nat → List Nat → List (Nat × Int) → List (Nat × Int)
  | _, [], r => r
  | i, t :: ts, r => initLoop h (i + 1) ts ((h t, (i : Int)) :: r)

/-- UThreadPool.cpp:61-66, 73-74: the primary threads. -/
def primLoop (e : Env) (c : ThCfg) : Nat → List Nat → List Th
  | _, [] => []
  | i, t :: ts => mkPrim e c i t :: primLoop e c (i + 1) ts

/-- One operation; one that is impossible now changes nothing. -/
def step (e : Env) (s : ThSt) : ThOp → ThSt
  -- the operating system gives an id that is free
  | .begin t => if t ∈ s.alive then s else { s with users := t :: s.users }
  | .exit t => { s with users := s.users.filter (· ≠ t), starter := if s.starter = some t then none else s.starter }
  -- UThreadPool.cpp:33-39
  | .setConfig c => if s.isInit then s else { s with cfg := c }
  -- UThreadPool.cpp:47-89
  | .init u ps ss =>
    if s.isInit then s else
    if u ∈ s.users ∧ ps.length = s.cfg.size ∧ ss.length = room s.cfg s.secs.length s.cfg.secs ∧ (ps ++ ss).Nodup ∧ (∀ t ∈ ps ++ ss, t ∉ s.alive) then
      { s with
        isInit := true
        recd := initLoop e.h 0 ps [(e.h u, -1)]
        prims := primLoop e s.cfg 0 ps
        secs := ss.map (mkSec s.cfg)
        starter := some u }
    else s
  -- UThreadPool.cpp:227-242 with size 1 (several are several steps), after init
  | .addSec t =>
    if s.isInit ∧ room s.cfg s.secs.length 1 = 1 ∧ t ∉ s.alive then { s with secs := s.secs ++ [mkSec s.cfg t] } else s
  -- UThreadPool.cpp:186-207, 266-270 with the destructor of the thread
  | .endSec j => { s with secs := s.secs.eraseIdx j }
  -- UThreadPool.cpp:141-178
  | .destroy => if s.isInit then { s with isInit := false, recd := [], prims := [], secs := [], starter := none } else s

/-- Any sequence of operations. -/
def run (e : Env) (l : List ThOp) : ThSt := l.foldl (step e) start

/-- UThreadPool.cpp:130-138, called with the hash of the id of the calling thread (GElement.cpp:355-356). -/
def getThreadIndex (e : Env) (s : ThSt) (tid : Nat) : Int :=
  match s.recd.lookup (e.h tid) with
  | some k => k
  | none => -2

end ThSt

/-- (ghost) Thread `tid` is this to the pool. -/
def Is (s : ThSt) (tid : Nat) : Role → Prop
  | .primary i => ∃ t, s.prims[i]? = some t ∧ t.tid = tid
  | .secondary => ∃ t ∈ s.secs, t.tid = tid
  | .starter => s.starter = some tid
  | .stranger => tid ∈ s.users ∧ s.starter ≠ some tid

end CGraph.Threads
