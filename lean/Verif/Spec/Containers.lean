/-
Independent specifications for the containers: plain lists and histories.
-/
namespace CGraph.Spec

/-! ## Ordered set -/

/-- Operations on an ordered collection. -/
inductive SetOp (α : Type) where
  | insert (x : α) (unique : Bool)
  | remove (x : α)
  | clear
deriving DecidableEq

/-- What the collection holds after one operation, as a plain list in insertion order. -/
def setStep {α : Type} [DecidableEq α] (l : List α) : SetOp α → List α
  | .insert x u => if u = true ∧ x ∈ l then l else l ++ [x]
  | .remove x => l.erase x
  | .clear => []

/-! ## Least recently used -/

/-- Operations on a cache. -/
inductive LruOp (K V : Type) where
  | put (k : K) (v : V)
  | get (k : K)
  | clear
deriving DecidableEq

/-- The past of a cache: keys used (newest first) and pairs put (newest first). -/
structure LruHist (K V : Type) where
  uses : List K
  puts : List (K × V)

/-- Distinct keys, most recent use first. -/
def recent {K : Type} [DecidableEq K] : List K → List K
  | [] => []
  | k :: l => k :: (recent l).filter (fun x => x ≠ k)

/-- `k` is one of the `cap` most recently used distinct keys. -/
def hit {K V : Type} [DecidableEq K] (cap : Nat) (h : LruHist K V) (k : K) : Prop :=
  k ∈ (recent h.uses).take cap

instance {K V : Type} [DecidableEq K] (cap : Nat) (h : LruHist K V) (k : K) :
    Decidable (hit cap h k) := inferInstanceAs (Decidable (_ ∈ _))

/-- Specification of one operation: new past and answer. -/
def lruStep {K V : Type} [DecidableEq K] (cap : Nat) (h : LruHist K V) :
    LruOp K V → LruHist K V × Option V
  | .put k v => (⟨k :: h.uses, (k, v) :: h.puts⟩, none)
  | .get k => if hit cap h k then (⟨k :: h.uses, h.puts⟩, h.puts.lookup k) else (h, none)
  | .clear => (⟨[], []⟩, none)

/-- Specification of a history: answers in order. -/
def lruRun {K V : Type} [DecidableEq K] (cap : Nat) (h : LruHist K V) :
    List (LruOp K V) → List (Option V)
  | [] => []
  | op :: ops => (lruStep cap h op).2 :: lruRun cap (lruStep cap h op).1 ops

end CGraph.Spec
