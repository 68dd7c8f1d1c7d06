/-! # The priority queue of the pool, used by many threads

`UAtomicPriorityQueue` of `src/UtilsCtrl/ThreadPool/Queue/UAtomicPriorityQueue.h:28-84`, one lock operation or access per step, in any interleaving.

Simplified: `tryPop(T&)` (28-40) is `tryPop(values, 1)` (49-61), which reads `empty()` once more; a batch size below 0 counts as 0; the
heap is the list of its nodes, of which `top()` is the one with the greatest address: `std::priority_queue<std::unique_ptr<T>>` (89)
compares the pointers, not the tasks (see C10). -/
namespace CGraph.PqConc

/-- A call: `push(value, priority)` (70-74), `tryPop(values, n)` (49-61), `empty()` (81-84). -/
inductive PqCall (α : Type) where
  | push (v : α) (pr : Int)
  | pop (n : Nat)
  | empty

/-- A node of the heap: its address and the task with its priority, `none` once it has been moved out (lines 32, 53). -/
structure Node (α : Type) where
  addr : Nat
  val : Option (α × Int)
deriving DecidableEq

/-- Where a thread is (lines of UAtomicPriorityQueue.h). -/
inductive PqPc (α : Type) where
  | out
  /-- 71 `c_make_unique` -/
  | make (v : α) (pr : Int)
  /-- 72 -/
  | lockP (a : Nat) (x : α × Int)
  /-- 73 -/
  | ins (a : Nat) (x : α × Int)
  /-- 74, the guard gives the mutex back -/
  | unlP (a : Nat) (x : α × Int)
  /-- 30, 51 `try_lock` -/
  | tryL (n : Nat)
  /-- 31, 52 -/
  | chk (n left : Nat) (got : List (α × Int))
  /-- 32, 53 -/
  | move (n left : Nat) (got : List (α × Int))
  /-- 33, 54 -/
  | pop (n left : Nat) (got : List (α × Int))
  /-- 36, 57 -/
  | unlT (n : Nat) (got : List (α × Int))
  /-- 82 -/
  | lockE
  /-- 83 -/
  | rdE
  /-- 84, the guard gives the mutex back -/
  | unlE (b : Bool)

/-- (ghost) A call that returned, with its result. -/
inductive Ev (α : Type) where
  | push (t a : Nat) (x : α × Int)
  | pop (t n : Nat) (res : List (α × Int))
  /-- `try_lock` failed -/
  | busy (t n : Nat)
  | empty (t : Nat) (b : Bool)
deriving DecidableEq

/-- `mutex_` (UQueueObject.h:21), `priority_queue_` (UAtomicPriorityQueue.h:89), the addresses that are allocated, the threads; ghost: the calls that returned. -/
structure PqSt (α : Type) where
  owner : Option Nat
  heap : List (Node α)
  live : List Nat
  pc : Nat → PqPc α
  log : List (Ev α)

/-- Thread `t` makes a call, or its next step; `p` is the address that an allocation returns. -/
inductive PqAct (α : Type) where
  | call (t : Nat) (c : PqCall α)
  | go (t p : Nat)

/-- Not in a call. -/
def PqPc.isOut : PqPc α → Bool
  | .out => true
  | _ => false

/-- The address of `top()` (UAtomicPriorityQueue.h:89: `std::less` of `std::unique_ptr`). -/
def top (h : List (Node α)) : Option Nat := (h.map Node.addr).max?

namespace PqSt

/-- A new queue (UAtomicPriorityQueue.h:21). -/
def init : PqSt α := ⟨none, [], [], fun _ => .out, []⟩

/-- Thread `t` goes on at `q`. -/
def setPc (s : PqSt α) (t : Nat) (q : PqPc α) : PqSt α := { s with pc := fun k => if k = t then q else s.pc k }

/-- The beginning of a call. -/
def first : PqCall α → PqPc α
  | .push v pr => .make v pr
  | .pop n => .tryL n
  | .empty => .lockE

/-- The next step of thread `t` (lines see `PqPc`). -/
def go (s : PqSt α) (t p : Nat) : PqSt α :=
  match s.pc t with
  | .out => s
  | .make v pr => if p ∈ s.live then s else { s.setPc t (.lockP p (v, pr)) with live := p :: s.live }
  | .lockP a x =>
    match s.owner with
    | none => { s.setPc t (.ins a x) with owner := some t }
    | some _ => s
  | .ins a x => { s.setPc t (.unlP a x) with heap := ⟨a, some x⟩ :: s.heap }
  | .unlP a x => { s.setPc t .out with owner := none, log := s.log ++ [.push t a x] }
  | .tryL n =>
    match s.owner with
    | none => { s.setPc t (.chk n n []) with owner := some t }
    | some _ => { s.setPc t .out with log := s.log ++ [.busy t n] }
  | .chk n left got =>
    match s.heap, left with
    | _ :: _, left + 1 => s.setPc t (.move n left got)
    | _, _ => s.setPc t (.unlT n got)
  | .move n left got =>
    match top s.heap with
    | some a =>
      { s.setPc t (.pop n left (got ++ ((s.heap.find? (fun x => x.addr == a)).bind Node.val).toList)) with
        heap := s.heap.map fun x => if x.addr == a then { x with val := none } else x }
    | none => s
  | .pop n left got =>
    match top s.heap with
    | some a => { s.setPc t (.chk n left got) with heap := s.heap.filter (fun x => x.addr != a), live := s.live.filter (fun i => i != a) }
    | none => s
  | .unlT n got => { s.setPc t .out with owner := none, log := s.log ++ [.pop t n got] }
  | .lockE =>
    match s.owner with
    | none => { s.setPc t .rdE with owner := some t }
    | some _ => s
  | .rdE => s.setPc t (.unlE s.heap.isEmpty)
  | .unlE b => { s.setPc t .out with owner := none, log := s.log ++ [.empty t b] }

/-- One step; a thread inside a call begins no other. -/
def step (s : PqSt α) : PqAct α → PqSt α
  | .call t c => if (s.pc t).isOut then s.setPc t (first c) else s
  | .go t p => s.go t p

/-- Any schedule of any number of threads. -/
def run (l : List (PqAct α)) : PqSt α := l.foldl step init

end PqSt

end CGraph.PqConc
