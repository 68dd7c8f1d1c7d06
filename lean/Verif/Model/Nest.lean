/-! # Groups that wait, inside one thread pool

`GGroup/GRegion/GRegion.cpp:52-59` executes the inner graph with an engine of its own on the pool of the pipeline
(`_GEngine/GDynamicEngine/GDynamicEngine.cpp`); the thread that executes the region waits inside until the inner elements
have ended (`fatWait`, `parallelRunAll`).  The model has a pipeline (element 0), executed by the calling thread, and
elements 1..n, each a member of the pipeline or of another group, with dependencies between members of one group.
A group is a region, or any other group whose thread runs or waits for its members in this way (`GMutable`; a `GCluster`
is a group whose members form a chain).  The pool has `W` primary threads; queues are those of `UThreadPool.inl:54-83`.

Every thread has a stack of elements it is executing, the uppermost first.  Steps of the threads are interleaved
arbitrarily.  Simplified: elements are numbered so that a group comes before its members and a dependency before what
depends on it (every finite graph without cycles has such a numbering); all elements succeed; dependants are visited in the
order of the set; queues give out tasks in any order; no secondary threads (the default), no long-time or priority tasks;
tasks one at a time (the default). -/
namespace CGraph

/-- `binding_index_` (GElement.h:453; UThreadPoolDefine.h:48-51). -/
inductive NBind where
  /-- the default, -1 -/
  | dflt
  /-- `CGRAPH_TRIGGER_ALL_THREAD_STRATEGY`: regions and other groups (GRegion.cpp:17) -/
  | all
  /-- a given thread -/
  | thread (i : Nat)
deriving DecidableEq, Repr

/-- What a pipeline and its pool consist of. -/
structure NestCfg where
  /-- `default_thread_size_` -/
  W : Nat
  /-- `max_task_steal_range_` -/
  range : Nat
  n : Nat
  parent : Nat → Nat
  /-- members in the order of the set -/
  kids : Nat → List Nat
  deps : Nat → List Nat
  group : Nat → Bool
  bind : Nat → NBind

/-- Where an element is during one run. -/
inductive NSt where
  | wait
  /-- in the shared queue, or in the queue of a thread -/
  | queued (p : Option Nat)
  /-- a thread is executing it; a group has not handed out its members yet -/
  | entered
  /-- a group that has handed out its members -/
  | launched
  | done
deriving DecidableEq, Repr

/-- A thread is executing it. -/
def NSt.active : NSt → Bool
  | .entered | .launched => true
  | _ => false

/-- State of one run; thread `W` is the caller of the pipeline. -/
structure NestSt where
  st : Nat → NSt
  stk : Nat → List Nat

/-- Steps.  `pl` says where the elements handed out are put. -/
inductive NAct where
  /-- worker `w` takes `e` from a queue -/
  | take (w e : Nat)
  /-- the group on top of the stack of `w` hands out its first members -/
  | launch (w : Nat) (pl : Nat → Option Nat)
  /-- the element on top of the stack of `w` ends -/
  | finish (w : Nat) (pl : Nat → Option Nat)

namespace NestCfg

/-- GDynamicEngine.cpp:62-76: members without dependencies. -/
def fronts (c : NestCfg) (g : Nat) : List Nat := (c.kids g).filter (fun e => (c.deps e).isEmpty)

/-- `run_before_`. -/
def succs (c : NestCfg) (e : Nat) : List Nat := (c.kids (c.parent e)).filter (fun k => (c.deps k).contains e)

/-- GEngine.h:51-55: the element has one dependant, which depends on nothing else and has the same binding. -/
def linkable (c : NestCfg) (e : Nat) : Bool :=
  match c.succs e with
  | [k] => (c.deps k).length == 1 && c.bind e == c.bind k
  | _ => false

/-- GDynamicEngine.cpp:80-87: `ALL_SERIAL`. -/
def serial (c : NestCfg) (g : Nat) : Bool :=
  (c.kids g).isEmpty || ((c.fronts g).length == 1 && ((c.kids g).filter (fun e => !c.linkable e)).length == 1)

/-- GDynamicEngine.cpp:88: `ALL_PARALLEL`. -/
def parallel (c : NestCfg) (g : Nat) : Bool := !c.serial g && (c.kids g).all (fun e => (c.deps e).isEmpty)

/-- GDynamicEngine.cpp:103: tasks for each thread. -/
def perThread (c : NestCfg) (g : Nat) : Nat := (c.kids g).length / c.W + (if (c.kids g).length % c.W = 0 then 0 else 1)

/-- Where an element handed out may be put: GDynamicEngine.cpp:218-239 and UThreadPool.inl:54-83 with
UThreadPool.cpp:192-207 (which queue a default binding gives depends on a counter and on what the threads do). -/
def mayPlace (c : NestCfg) (e : Nat) (p : Option Nat) : Bool :=
  if c.parallel (c.parent e) && decide (1 < c.perThread (c.parent e)) then
    p == some ((c.kids (c.parent e)).idxOf e / c.perThread (c.parent e))
  else match c.bind e with
    | .dflt => p.all (fun i => decide (i < c.W))
    | .all => p == none
    | .thread i => p == if i < c.W then some i else none

/-- UThreadPrimary.h:91-97, 249-256: worker `w` can take from this queue. -/
def canTake (c : NestCfg) (w : Nat) : Option Nat → Bool
  | none => true
  | some i => w == i || (List.range (min c.range (c.W - 1))).any (fun k => (w + k + 1) % c.W == i)

/-- The first member that the thread of the group executes itself: GDynamicEngine.cpp:46-56 (`COMMON`), 265-279
(`ALL_SERIAL`), 215-239 (`ALL_PARALLEL`: none). -/
def launchPick (c : NestCfg) (g : Nat) : Option Nat :=
  if c.serial g then (c.fronts g).head?
  else if c.parallel g then none
  else (c.fronts g).getLast?.filter (fun e => c.bind e = .dflt)

/-- The element that the thread goes on with: GDynamicEngine.cpp:158-200 and 265-279; `l` are the dependants that became
ready. -/
def nextPick (c : NestCfg) (e : Nat) (l : List Nat) : Option Nat :=
  if c.serial (c.parent e) then l.head?
  else (if (c.succs e).all (fun k => (c.deps k).length == 1) then l.getLast? else l.head?).filter (fun k => c.bind k = .dflt)

end NestCfg

namespace NestSt

/-- Beginning of a run. -/
def start (c : NestCfg) : NestSt where
  st := fun e => if e = 0 then .entered else .wait
  stk := fun w => if w = c.W then [0] else []

/-- Change at one place. -/
def upd {α : Type} (f : Nat → α) (i : Nat) (x : α) : Nat → α := fun k => if k = i then x else f k

/-- The elements `l` are handed out by thread `w`, which goes on with `pick`. -/
def release (s : NestSt) (w : Nat) (l : List Nat) (pick : Option Nat) (pl : Nat → Option Nat) : NestSt where
  st := fun e => if pick = some e then .entered else if e ∈ l then .queued (pl e) else s.st e
  stk := fun v => if v = w then pick.toList ++ s.stk w else s.stk v

/-- Dependants of `e` that are ready. -/
def readySuccs (c : NestCfg) (s : NestSt) (e : Nat) : List Nat :=
  (c.succs e).filter (fun k => (c.deps k).all (fun d => s.st d = .done))

/-- One step; `none` when it is not possible. -/
def step (c : NestCfg) (s : NestSt) : NAct → Option NestSt
  | .take w e =>
    match s.st e with
    | .queued p =>
      if w < c.W ∧ s.stk w = [] ∧ c.canTake w p then some ⟨upd s.st e .entered, upd s.stk w [e]⟩ else none
    | _ => none
  | .launch w pl =>
    match s.stk w with
    | g :: _ =>
      if s.st g = .entered ∧ c.group g = true ∧ ∀ e ∈ c.fronts g, c.mayPlace e (pl e) then
        some (release ⟨upd s.st g .launched, s.stk⟩ w (c.fronts g) (c.launchPick g) pl)
      else none
    | [] => none
  | .finish w pl =>
    match s.stk w with
    | e :: r =>
      if (s.st e = .entered ∧ c.group e = false ∨ s.st e = .launched ∧ ∀ k ∈ c.kids e, s.st k = .done) ∧
          ∀ k ∈ c.succs e, c.mayPlace k (pl k) then
        let s1 : NestSt := ⟨upd s.st e .done, upd s.stk w r⟩
        some (release s1 w (readySuccs c s1 e) (c.nextPick e (readySuccs c s1 e)) pl)
      else none
    | [] => none

/-- Execute a schedule; steps that are not possible are skipped. -/
def exec (c : NestCfg) (s : NestSt) : List NAct → NestSt
  | [] => s
  | a :: as => exec c ((s.step c a).getD s) as

/-- The number of steps of a schedule that were possible. -/
def effective (c : NestCfg) (s : NestSt) : List NAct → Nat
  | [] => 0
  | a :: as =>
    match s.step c a with
    | some s' => effective c s' as + 1
    | none => effective c s as

/-- `run` of the pipeline has returned. -/
def returned (s : NestSt) : Prop := s.st 0 = .done

end NestSt
end CGraph
