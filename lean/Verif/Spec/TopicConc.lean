/-! # What a directory of queues used by many threads promises

The directory holds entries of a name, a type, a size and the identity of the queue.  A history is the list of calls in the
order in which they took effect, each with what it reported. -/
namespace CGraph.Spec

/-- A call: make a queue of a type and a size under a name, take a name away, take everything away, look for the queue of a name. -/
inductive TdCall where
  | make (key : String) (ty size : Nat)
  | drop (key : String)
  | clear
  | look (key : String)
deriving DecidableEq

/-- What a call reported. -/
inductive TdRes where
  | done (b : Bool)
  | at (p : Option Nat)
deriving DecidableEq

/-- A name, a type, a size and a queue. -/
abbrev TdDir := List (String × Nat × Nat × Nat)

/-- The queue of `key` is `p`, of this type and size. -/
def TdHas (m : TdDir) (key : String) (ty size p : Nat) : Prop := (key, ty, size, p) ∈ m

/-- There is no queue of `key`. -/
def TdFree (m : TdDir) (key : String) : Prop := ∀ ty size p, (key, ty, size, p) ∉ m

/-- The call may report `r` on a directory `m`, leaving `m'`.  Making a queue succeeds if one of the same type and size is there
or if there was none; a new queue is none of those in the directory. -/
def TdStep (m : TdDir) : TdCall → TdRes → TdDir → Prop
  | .make key ty size, .done true, m' => (m' = m ∧ ∃ p, TdHas m key ty size p) ∨
      (TdFree m key ∧ ∃ p, (∀ e ∈ m, e.2.2.2 ≠ p) ∧ m' = m ++ [(key, ty, size, p)])
  | .make key ty size, .done false, m' => m' = m ∧ ∃ ty' size' p, ¬ (ty' = ty ∧ size' = size) ∧ TdHas m key ty' size' p
  | .drop key, .done true, m' => ¬ TdFree m key ∧ m' = m.filter (fun e => e.1 ≠ key)
  | .drop key, .done false, m' => TdFree m key ∧ m' = m
  | .clear, .done true, m' => m' = []
  | .look key, .at (some p), m' => m' = m ∧ ∃ ty size, TdHas m key ty size p
  | .look key, .at none, m' => m' = m ∧ TdFree m key
  | _, _, _ => False

/-- The history `h` leads from a directory `m` to `m'`. -/
inductive TdHist (m : TdDir) : List (Nat × TdCall × TdRes) → TdDir → Prop
  | nil : TdHist m [] m
  | snoc {m' m'' : TdDir} {h : List (Nat × TdCall × TdRes)} (t : Nat) {c : TdCall} {r : TdRes}
      (a : TdHist m h m') (b : TdStep m' c r m'') : TdHist m (h ++ [(t, c, r)]) m''

/-- The call may take `key` away. -/
def TdCall.takes (key : String) : TdCall → Bool
  | .drop k => k == key
  | .clear => true
  | _ => false

end CGraph.Spec
