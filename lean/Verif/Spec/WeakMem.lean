import Mathlib.Logic.Relation

/-! # Memory with out-of-date reads

A part of the memory model of C++ ([intro.races], [atomics.order]) in which a load of an atomic may return an older value.  An
execution is a list of operations; every load says which write it reads.  The order of the writes to one location is the order of
the list.  Nothing here knows about CGraph.  Left out: a load that reads from a write later in the list (no known machine does
it), consume, fences and the single order of sequentially consistent operations (leaving that out allows more executions). -/
namespace CGraph.Spec

/-- Operations of atomic locations `L` with values `V`, and of plain memory cells `C`.  `src` is the position of the write that is
read, `none` for the initial value. -/
inductive WOp (L C V : Type) where
  | load (l : L) (acq : Bool) (src : Option Nat) (v : V)
  | store (l : L) (rel : Bool) (v : V)
  | rmw (l : L) (acq rel : Bool) (src : Option Nat) (old new : V)
  | read (c : C)
  | write (c : C)
deriving DecidableEq

/-- An operation and the thread that does it. -/
structure WAct (L C V : Type) where
  tid : Nat
  op : WOp L C V
deriving DecidableEq

variable {L C V : Type}

/-- The operation writes `v` to the atomic `l`. -/
def WOp.Writes (l : L) (v : V) : WOp L C V → Prop
  | .store l' _ v' => l' = l ∧ v' = v
  | .rmw l' _ _ _ _ v' => l' = l ∧ v' = v
  | _ => False

/-- The operation writes to the atomic `l`. -/
def WOp.isWrite [DecidableEq L] (l : L) : WOp L C V → Bool
  | .store l' _ _ => l' = l
  | .rmw l' _ _ _ _ _ => l' = l
  | _ => false

/-- How many writes to `l` are before position `n`. -/
def writesBefore [DecidableEq L] (t : List (WAct L C V)) (l : L) (n : Nat) : Nat :=
  (t.take n).countP fun a => a.op.isWrite l

/-- The operation reads `v` of the atomic `l` from `src`. -/
def WOp.Reads (l : L) (src : Option Nat) (v : V) : WOp L C V → Prop
  | .load l' _ src' v' => l' = l ∧ src' = src ∧ v' = v
  | .rmw l' _ _ src' v' _ => l' = l ∧ src' = src ∧ v' = v
  | _ => False

/-- The operation is a read-modify-write that reads from `src`. -/
def WOp.Modifies (src : Option Nat) : WOp L C V → Prop
  | .rmw _ _ _ src' _ _ => src' = src
  | _ => False

/-- A write with release. -/
def WOp.Releases : WOp L C V → Prop
  | .store _ rel _ => rel = true
  | .rmw _ _ rel _ _ _ => rel = true
  | _ => False

/-- A read with acquire, from `src`. -/
def WOp.Acquires (src : Option Nat) : WOp L C V → Prop
  | .load _ acq src' _ => acq = true ∧ src' = src
  | .rmw _ acq _ src' _ _ => acq = true ∧ src' = src
  | _ => False

/-- The release sequence headed by `i`: itself and read-modify-writes of what is in it. -/
inductive RelSeq (t : List (WAct L C V)) (i : Nat) : Nat → Prop
  | head : RelSeq t i i
  | next {k m : Nat} {a : WAct L C V} : RelSeq t i k → t[m]? = some a → a.op.Modifies (some k) → RelSeq t i m

/-- Same thread, earlier. -/
def WSeq (t : List (WAct L C V)) (i j : Nat) : Prop :=
  i < j ∧ ∃ a b, t[i]? = some a ∧ t[j]? = some b ∧ a.tid = b.tid

/-- Synchronises with. -/
def WSync (t : List (WAct L C V)) (i j : Nat) : Prop :=
  i < j ∧ ∃ a b k, t[i]? = some a ∧ t[j]? = some b ∧ a.op.Releases ∧ b.op.Acquires (some k) ∧ RelSeq t i k

/-- Happens before. -/
def WHb (t : List (WAct L C V)) : Nat → Nat → Prop := Relation.TransGen (fun i j => WSeq t i j ∨ WSync t i j)

/-- The executions that the memory model allows, for given initial values. -/
structure Coherent (ini : L → V) (t : List (WAct L C V)) : Prop where
  /-- a read returns what its source wrote -/
  rf : ∀ (j : Nat) (a : WAct L C V) (l : L) (src : Option Nat) (v : V), t[j]? = some a → a.op.Reads l src v →
    match src with
    | none => v = ini l
    | some i => i < j ∧ ∃ b, t[i]? = some b ∧ b.op.Writes l v
  /-- a read does not return a value that was overwritten by a write that happens before it -/
  wr : ∀ (j k : Nat) (a b : WAct L C V) (l : L) (src : Option Nat) (v w : V), t[j]? = some a → a.op.Reads l src v →
    t[k]? = some b → b.op.Writes l w → WHb t k j → ∃ i, src = some i ∧ k ≤ i
  /-- later reads do not go back -/
  rr : ∀ (j k : Nat) (a b : WAct L C V) (l : L) (src src' : Option Nat) (v w : V), t[j]? = some a →
    a.op.Reads l src v → t[k]? = some b → b.op.Reads l src' w → WHb t k j →
    ∀ i', src' = some i' → ∃ i, src = some i ∧ i' ≤ i
  /-- a read-modify-write reads the last value -/
  at' : ∀ (j k : Nat) (a b : WAct L C V) (l : L) (src : Option Nat) (v w : V), t[j]? = some a → a.op.Reads l src v →
    a.op.Modifies src → t[k]? = some b → b.op.Writes l w → k < j → ∃ i, src = some i ∧ k ≤ i

/-- Two accesses of plain memory that conflict. -/
def WConflict : WOp L C V → WOp L C V → Prop
  | .read c, .write c' => c = c'
  | .write c, .read c' => c = c'
  | .write c, .write c' => c = c'
  | _, _ => False

/-- A data race. -/
def WRace (t : List (WAct L C V)) (i j : Nat) : Prop :=
  ∃ a b, t[i]? = some a ∧ t[j]? = some b ∧ a.tid ≠ b.tid ∧ WConflict a.op b.op ∧ ¬ WHb t i j ∧ ¬ WHb t j i

/-- A step inside a critical section, seen from outside: memory is touched, the flag was found clear, or the flag is cleared. -/
def InSection : WOp Unit Nat Bool → Prop
  | .read _ => True
  | .write _ => True
  | .rmw _ _ _ _ old _ => old = false
  | .store _ _ _ => True
  | .load _ _ _ _ => False

/-- An access of plain memory. -/
def PlainAccess {L C V : Type} : WOp L C V → Prop
  | .read _ => True
  | .write _ => True
  | _ => False

end CGraph.Spec
