import Mathlib.Logic.Relation

/-! # Happens-before

A small part of the memory model of C++ ([intro.races], [atomics.order], [thread.mutex.requirements]), over one list of memory
operations in the order in which they take place: sequenced before, synchronises with, happens before, data race.  Nothing here
knows about the engine.  A load reads the value that was written last; consume, fences and relaxed operations do not occur. -/
namespace CGraph.Spec

/-- Operations: of atomics (`store` with release, `load` with acquire, `rmw` with both), of mutexes, of tasks handed to another
thread (`send`, `recv`), of plain memory (`read`, `write`), and `note`, which only says that something took place. -/
inductive MemOp (L A : Type) where
  | store (l : L)
  | load (l : L)
  | rmw (l : L)
  | lock (l : L)
  | unlock (l : L)
  | send (n : Nat)
  | recv (n : Nat)
  | read (l : L)
  | write (l : L)
  | note (a : A)
deriving DecidableEq

/-- An operation and the thread that does it. -/
structure MemAct (L A : Type) where
  tid : Nat
  op : MemOp L A
deriving DecidableEq

variable {L A : Type}

/-- Sequenced before: same thread, earlier. -/
def SeqBefore (t : List (MemAct L A)) (i j : Nat) : Prop :=
  i < j ∧ ∃ a b, t[i]? = some a ∧ t[j]? = some b ∧ a.tid = b.tid

/-- The operations by themselves are such that the first may synchronise with the second. -/
def Pairs : MemOp L A → MemOp L A → Prop
  | .store l, .load l' => l = l'
  | .store l, .rmw l' => l = l'
  | .rmw l, .load l' => l = l'
  | .rmw l, .rmw l' => l = l'
  | .unlock l, .lock l' => l = l'
  | .send n, .recv n' => n = n'
  | _, _ => False

/-- Another `store` to the location in between ends the release sequence. -/
def Breaks : MemOp L A → MemOp L A → Prop
  | .store l, .store l' => l = l'
  | .rmw l, .store l' => l = l'
  | _, _ => False

/-- Synchronises with: the second reads a value of the release sequence that the first one heads; or unlock and a later lock;
or handing over and taking one task. -/
def Synchronizes (t : List (MemAct L A)) (i j : Nat) : Prop :=
  i < j ∧ ∃ a b, t[i]? = some a ∧ t[j]? = some b ∧ Pairs a.op b.op ∧
    ∀ k c, i < k → k < j → t[k]? = some c → ¬ Breaks a.op c.op

/-- Happens before. -/
def HappensBefore (t : List (MemAct L A)) : Nat → Nat → Prop :=
  Relation.TransGen (fun i j => SeqBefore t i j ∨ Synchronizes t i j)

/-- Two accesses of plain memory that conflict. -/
def Conflict : MemOp L A → MemOp L A → Prop
  | .read l, .write l' => l = l'
  | .write l, .read l' => l = l'
  | .write l, .write l' => l = l'
  | _, _ => False

/-- A data race: conflicting accesses of different threads, neither of which happens before the other. -/
def Race (t : List (MemAct L A)) (i j : Nat) : Prop :=
  ∃ a b, t[i]? = some a ∧ t[j]? = some b ∧ a.tid ≠ b.tid ∧ Conflict a.op b.op ∧
    ¬ HappensBefore t i j ∧ ¬ HappensBefore t j i

/-- It is noted at `i` that `a` took place. -/
def NotedAt (t : List (MemAct L A)) (i : Nat) (a : A) : Prop := ∃ tid, t[i]? = some ⟨tid, .note a⟩

end CGraph.Spec
