import Verif.Model.Nest

/-! # Failures inside nested groups

The pipelines of `Model/Nest.lean` with elements that may fail.  Every group has an engine of its own with a status of its
own (`cur_status_`, GDynamicEngine.h:99); the thread that executes the group leaves it as soon as that status is an error,
although members may be queued or be executed by other threads.  Those go on.

Simplified as in `Model/Nest.lean`, but for failures and for the hand-out of elements, which is one step per element: the
status of the engine is looked at before each of them.  The counters of an element's dependants are changed in one step
together with its end (Model/Dynamic.lean has them one by one, for one engine); a thread that waits sees a changed status at
once (C29 is about the notification). -/
namespace CGraph

/-- Where an element is during one run. -/
inductive FStat where
  | wait
  /-- in the shared queue, or in the queue of a thread -/
  | queued (p : Option Nat)
  /-- a thread is executing it; a group has not begun to hand out its members -/
  | entered
  /-- a group that has begun to hand out its members -/
  | launched
  /-- ended without error -/
  | done
  /-- ended with an error -/
  | failed
  /-- GDynamicEngine.cpp:262-264: taken from its queue after an error, and not executed -/
  | dropped
deriving DecidableEq, Repr

/-- What a thread is doing. -/
inductive Frame where
  /-- executing the element; before the hand-out if it is a group -/
  | call (e : Nat)
  /-- handing out elements `l` of group `p`, the last of them with affinity -/
  | hand (p : Nat) (l : List Nat)
  /-- all first members of the group are handed out; waiting (or going on with the serial loop) -/
  | hold (g : Nat)
deriving DecidableEq, Repr

/-- State of one run; thread `W` is the caller of the pipeline.  `err g` is `cur_status_.isErr()` of the engine of `g`.
Ghost: `starts`, the elements whose execution was begun, in that order. -/
structure FailSt where
  st : Nat → FStat
  stk : Nat → List Frame
  err : Nat → Bool
  starts : List Nat

/-- Steps: worker `w` takes `e` from a queue; thread `w` makes one step, where `p` is the queue of an element handed out and
`ok` the answer of a body. -/
inductive FAct where
  | take (w e : Nat)
  | go (w : Nat) (p : Option Nat) (ok : Bool)
deriving DecidableEq, Repr

namespace FailSt
open NestSt (upd)

/-- Beginning of a run. -/
def start (c : NestCfg) : FailSt where
  st := fun e => if e = 0 then .entered else .wait
  stk := fun w => if w = c.W then [.call 0] else []
  err := fun _ => false
  starts := [0]

/-- Dependants of `e` that are ready. -/
def ready (c : NestCfg) (s : FailSt) (e : Nat) : List Nat :=
  (c.succs e).filter (fun k => (c.deps k).all (fun d => s.st d = .done))

/-- GDynamicEngine.cpp:158-184: the order in which they are handed out; NORMAL keeps the first for the thread itself, ROOT
and LINKABLE the last. -/
def handOrder (c : NestCfg) (e : Nat) (l : List Nat) : List Nat :=
  if (c.succs e).all (fun k => (c.deps k).length == 1) then l else l.tail ++ l.head?.toList

/-- The thread executes `x` itself: 129-131 (`process` with affinity), 291-304 (`serialRunAll`); never in
`parallelRunAll` (229-245). -/
def inl (c : NestCfg) (p x : Nat) : Bool := c.serial p || (!c.parallel p && c.bind x == .dflt)

/-- The end of an element without error, on thread `w` with `r` below: 155-161 and 291-304.  After an error nothing is
handed out. -/
def endOk (c : NestCfg) (s : FailSt) (w e : Nat) (r : List Frame) : FailSt :=
  let s1 := { s with st := upd s.st e .done }
  { s1 with stk := upd s.stk w (if s.err (c.parent e) then r else .hand (c.parent e) (handOrder c e (ready c s1 e)) :: r) }

/-- The end of an element with an error: 143-149, 266-271, 295. -/
def endErr (c : NestCfg) (s : FailSt) (w e : Nat) (r : List Frame) : FailSt :=
  { s with st := upd s.st e .failed, err := upd s.err (c.parent e) true, stk := upd s.stk w r }

/-- One step; `none` when it is not possible. -/
def step (c : NestCfg) (s : FailSt) : FAct → Option FailSt
  | .take w e =>
    match s.st e with
    | .queued p =>
      if w < c.W ∧ s.stk w = [] ∧ c.canTake w p then
        -- 262-264 parallelRunOne; 139 innerExec does not look at the status
        if c.parallel (c.parent e) && s.err (c.parent e) then some { s with st := upd s.st e .dropped }
        else some { s with st := upd s.st e .entered, stk := upd s.stk w [.call e], starts := s.starts ++ [e] }
      else none
    | _ => none
  | .go w pl ok =>
    match s.stk w with
    | [] => none
    | .call e :: r =>
      if c.group e then
        some { s with st := upd s.st e .launched, stk := upd s.stk w (.hand e (c.fronts e) :: .hold e :: r) }
      else if ok then some (endOk c s w e r)
      else some (endErr c s w e r)
    | .hand _ [] :: r => some { s with stk := upd s.stk w r }
    | .hand p (x :: l) :: r =>
      if s.err p && !c.parallel p then some { s with stk := upd s.stk w (.hand p l :: r) }
      else if l.isEmpty && inl c p x then
        some { s with st := upd s.st x .entered, stk := upd s.stk w (.call x :: r), starts := s.starts ++ [x] }
      else if c.mayPlace x pl then
        some { s with st := upd s.st x (.queued pl), stk := upd s.stk w (.hand p l :: r) }
      else none
    | .hold g :: r =>
      -- 217-225, 246-257, 47
      if s.err g then some (endErr c s w g r)
      else if (c.kids g).all (fun k => s.st k = .done) then some (endOk c s w g r)
      else none

/-- Execute a schedule; steps that are not possible are skipped. -/
def exec (c : NestCfg) (s : FailSt) : List FAct → FailSt
  | [] => s
  | a :: as => exec c ((s.step c a).getD s) as

/-- The number of steps of a schedule that were possible. -/
def effective (c : NestCfg) (s : FailSt) : List FAct → Nat
  | [] => 0
  | a :: as =>
    match s.step c a with
    | some s' => effective c s' as + 1
    | none => effective c s as

end FailSt
end CGraph
