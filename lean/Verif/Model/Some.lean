import Verif.Model.Status

/-! # GSome: returning after some of the children

The children are the numbers below `n`.  The group's thread and the tasks it gives to the pool (`w` worker threads,
not counting the group's own) are interleaved arbitrarily.  Every child is asynchronous (GSome.cpp:116-119), so its
task occupies one worker and its body needs a second one (GElement.cpp:539-543).  Simplified: children have the
default time limit of GSome.cpp:33, which is 23 days and is taken as none; the group's mutex is a step, and the plain
variables written without it (GSome.cpp:43, 46) are written atomically. -/
namespace CGraph

/-- Where the task given to the pool for a child is (GSome.cpp:55-64, GElement.cpp:221-286, 535-554). -/
inductive KidPc where
  /-- in a queue of the pool -/
  | queued
  /-- taken by a worker, about to read the child's state (GElement.cpp:242) -/
  | taken
  /-- the worker waits for the body, which is in the pool's shared queue (GElement.cpp:539-543) -/
  | waits
  /-- the body is being executed by another worker -/
  | body
  /-- `fatProcessor` has returned, the group's mutex is needed next (GSome.cpp:58) -/
  | ended (st : CStatus)
  /-- the task is over -/
  | gone
deriving DecidableEq, Repr

/-- Number of workers occupied. -/
def KidPc.uses : KidPc → Nat
  | .queued => 0
  | .taken => 1
  | .waits => 1
  | .body => 2
  | .ended _ => 1
  | .gone => 0

/-- A task for a child. -/
structure KidJob where
  kid : Nat
  pc : KidPc
deriving DecidableEq, Repr

/-- Where the group's thread is in `run` (GSome.cpp:40-79). -/
inductive SomePc where
  /-- outside `run` -/
  | idle
  /-- about to execute line 46 -/
  | reset
  /-- about to submit child `i` (54-65) -/
  | push (i : Nat)
  /-- about to take the mutex and to test the condition (67-70) -/
  | test
  /-- asleep in `cv_.wait` -/
  | asleep
  /-- holds the mutex, about to mark child `i` (72-76) -/
  | mark (i : Nat)
  /-- `run` has returned -/
  | ret (st : CStatus)
deriving DecidableEq, Repr

/-- What can be seen from outside. -/
inductive SomeEv where
  /-- `run` of the group begins; the number asked for -/
  | call (k : Nat)
  /-- the body of a child begins -/
  | enter (kid : Nat)
  /-- the body of a child ends -/
  | leave (kid : Nat) (st : CStatus)
  /-- `run` of the group returns -/
  | back (st : CStatus)
deriving DecidableEq, Repr

/-- State (GGroup/GSome/GSome.h:47-51, GElement.h `cur_state_`). -/
structure SomeSt where
  /-- `wait_num_` -/
  num : Int
  /-- `cur_status_` -/
  status : CStatus
  pc : SomePc
  jobs : List KidJob
  /-- `cur_state_` of child is `TIMEOUT` -/
  marked : Nat → Bool
  /-- everything seen so far (ghost) -/
  hist : List SomeEv

/-- Steps. -/
inductive SomeAct where
  /-- `run` of the group is called; the answer of `getWaitNum()` -/
  | call (k : Nat)
  /-- a step of the group's thread -/
  | main
  /-- the thread wakes without a reason -/
  | spurious
  /-- a worker takes task `j` -/
  | take (j : Nat)
  /-- the worker of task `j` reads the state -/
  | look (j : Nat)
  /-- another worker begins the body of task `j` -/
  | enter (j : Nat)
  /-- the body of task `j` ends -/
  | leave (j : Nat) (st : CStatus)
  /-- task `j` adds its result (GSome.cpp:58-62) -/
  | count (j : Nat)
  /-- the pipeline puts child `c` back to normal after the run (GElementRepository.cpp:44-59) -/
  | reset (c : Nat)
deriving DecidableEq, Repr

namespace SomeSt

/-- After construction. -/
def init : SomeSt := ⟨0, CStatus.ok, .idle, [], fun _ => false, []⟩

/-- Workers occupied by the tasks. -/
def used (s : SomeSt) : Nat := (s.jobs.map fun j => j.pc.uses).sum

/-- The condition waited for (GSome.cpp:69): `wait_num_ <= 0 || cur_status_.isErr()`. -/
def ready (s : SomeSt) : Bool := decide (s.num ≤ 0) || s.status.isErr

/-- Task `j` goes on to `p`. -/
def setJob (s : SomeSt) (j : Nat) (k : KidJob) (p : KidPc) : SomeSt :=
  { s with jobs := s.jobs.set j { k with pc := p } }

/-- GSome.cpp:43-45: store the number, refuse one larger than the number of children. -/
def call (n : Nat) (s : SomeSt) (k : Nat) : SomeSt :=
  if n < k then
    { s with num := k, pc := .ret (CStatus.err "num is bigger than elements size."),
             hist := s.hist ++ [.call k, .back (CStatus.err "num is bigger than elements size.")] }
  else { s with num := k, pc := .reset, hist := s.hist ++ [.call k] }

/-- GSome.cpp:46-78: the group's thread. -/
def main (n : Nat) (s : SomeSt) : Option SomeSt :=
  match s.pc with
  | .idle => none
  | .reset => some { s with status := CStatus.ok, pc := .push 0 }
  | .push i =>
    if i < n then some { s with jobs := s.jobs ++ [⟨i, .queued⟩], pc := .push (i + 1) }
    else some { s with pc := .test }
  | .test => if s.ready then some { s with pc := .mark 0 } else some { s with pc := .asleep }
  | .asleep => none
  | .mark i =>
    if i < n then some { s with marked := fun c => if c = i then true else s.marked c, pc := .mark (i + 1) }
    else some { s with pc := .ret s.status, hist := s.hist ++ [.back s.status] }
  | .ret _ => none

/-- The mutex is held by the group's thread (GSome.cpp:67-78; released while asleep). -/
def held (s : SomeSt) : Bool :=
  match s.pc with
  | .mark _ => true
  | _ => false

/-- GSome.cpp:58-62: `cur_status_ += curStatus; if (--wait_num_ <= 0 || isErr) notify_one`. -/
def count (s : SomeSt) (j : Nat) (k : KidJob) (st : CStatus) : SomeSt :=
  let s1 := { s.setJob j k .gone with num := s.num - 1, status := s.status.add st }
  if s1.ready && s1.pc = .asleep then { s1 with pc := .test } else s1

/-- One step with `w` workers and `n` children; `none` when it is not possible. -/
def step (w n : Nat) (s : SomeSt) : SomeAct → Option SomeSt
  | .call k =>
    match s.pc with
    | .idle => some (s.call n k)
    | .ret _ => some (s.call n k)
    | _ => none
  | .main => s.main n
  | .spurious => if s.pc = .asleep then some { s with pc := .test } else none
  | .take j =>
    match s.jobs[j]? with
    | some ⟨c, .queued⟩ => if s.used + 1 ≤ w then some (s.setJob j ⟨c, .queued⟩ .taken) else none
    | _ => none
  | .look j =>
    match s.jobs[j]? with
    | some ⟨c, .taken⟩ =>
      some (s.setJob j ⟨c, .taken⟩ (if s.marked c then .ended CStatus.ok else .waits))
    | _ => none
  | .enter j =>
    match s.jobs[j]? with
    | some ⟨c, .waits⟩ =>
      if s.used + 1 ≤ w then
        some { s.setJob j ⟨c, .waits⟩ .body with hist := s.hist ++ [.enter c] }
      else none
    | _ => none
  | .leave j st =>
    match s.jobs[j]? with
    | some ⟨c, .body⟩ => some { s.setJob j ⟨c, .body⟩ (.ended st) with hist := s.hist ++ [.leave c st] }
    | _ => none
  | .count j =>
    match s.jobs[j]? with
    | some ⟨c, .ended st⟩ => if s.held then none else some (s.count j ⟨c, .ended st⟩ st)
    | _ => none
  | .reset c =>
    match s.pc with
    | .ret _ =>
      -- GElementRepository.cpp:48-52: waits for the body when one was committed
      if s.jobs.any fun k => k.kid = c && (k.pc = .waits || k.pc = .body) then none
      else some { s with marked := fun d => if d = c then false else s.marked d }
    | _ => none

/-- Execute a schedule; steps that are not possible are skipped. -/
def exec (w n : Nat) (s : SomeSt) : List SomeAct → SomeSt
  | [] => s
  | a :: as => exec w n ((s.step w n a).getD s) as

end SomeSt
end CGraph
