/-! # What a typed store used by many threads promises

The store holds entries of a key, a type and the identity of the object.  A history is the list of calls in the order in
which they took effect, each with what it reported. -/
namespace CGraph.Spec

/-- A call: make an object of a type under a key, take a key away, ask for the keys, take everything away, look for an
object of a type under a key. -/
inductive TsCall where
  | make (ty : Nat) (key : String)
  | drop (key : String)
  | keys
  | clear
  | look (ty : Nat) (key : String)
deriving DecidableEq

/-- What a call reported. -/
inductive TsRes where
  | done (b : Bool)
  | keys (l : List String)
  | obj (p : Option Nat)
deriving DecidableEq

/-- The object stored under `key` is `p`, of type `ty`. -/
def TsHas (m : List (String × Nat × Nat)) (key : String) (ty p : Nat) : Prop := (key, ty, p) ∈ m

/-- Nothing is stored under `key`. -/
def TsFree (m : List (String × Nat × Nat)) (key : String) : Prop := ∀ ty p, (key, ty, p) ∉ m

/-- The call may report `r` on a store that holds `m`, leaving `m'`.  Making an object succeeds if one of the same type is
there or if nothing was there; a new object is none of those in the store. -/
def TsStep (m : List (String × Nat × Nat)) : TsCall → TsRes → List (String × Nat × Nat) → Prop
  | .make ty key, .done true, m' => (m' = m ∧ ∃ p, TsHas m key ty p) ∨
      (TsFree m key ∧ ∃ p, (∀ e ∈ m, e.2.2 ≠ p) ∧ m' = m ++ [(key, ty, p)])
  | .make ty key, .done false, m' => m' = m ∧ ∃ ty' p, ty' ≠ ty ∧ TsHas m key ty' p
  | .drop key, .done true, m' => ¬ TsFree m key ∧ m' = m.filter (fun e => e.1 ≠ key)
  | .drop key, .done false, m' => TsFree m key ∧ m' = m
  | .keys, .keys l, m' => m' = m ∧ l.Nodup ∧ ∀ k, k ∈ l ↔ ¬ TsFree m k
  | .clear, .done true, m' => m' = []
  | .look ty key, .obj (some p), m' => m' = m ∧ TsHas m key ty p
  | .look ty key, .obj none, m' => m' = m ∧ ∀ p, ¬ TsHas m key ty p
  | _, _, _ => False

/-- The history `h` leads from a store with `m` to one with `m'`. -/
inductive TsHist (m : List (String × Nat × Nat)) : List (Nat × TsCall × TsRes) → List (String × Nat × Nat) → Prop
  | nil : TsHist m [] m
  | snoc {m' m'' : List (String × Nat × Nat)} {h : List (Nat × TsCall × TsRes)} (t : Nat) {c : TsCall} {r : TsRes}
      (a : TsHist m h m') (b : TsStep m' c r m'') : TsHist m (h ++ [(t, c, r)]) m''

/-- The call may take `key` away. -/
def TsCall.takes (key : String) : TsCall → Bool
  | .drop k => k == key
  | .clear => true
  | _ => false

end CGraph.Spec
