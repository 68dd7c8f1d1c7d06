/-! # What a double-ended task queue used by many threads promises

A history is the list of calls in the order in which they took effect, each with what it reported. -/
namespace CGraph.Spec

/-- A call: `add` appends (`many = false`: gives up when the queue is in use), `rem` removes from the front or, with
`back`, from the end; at most `limit` values (`none` = no limit); `ask` asks whether the queue is empty. -/
inductive DqCall (α : Type) where
  | add (vs : List α) (insist : Bool)
  | rem (back : Bool) (limit : Option Nat)
  | ask
deriving DecidableEq

/-- What a call reported: stored or not, the values removed, empty or not.  `met`: another thread was inside the queue. -/
inductive DqRes (α : Type) where
  | stored (b : Bool)
  | got (vs : List α) (met : Bool)
  | empty (b : Bool) (met : Bool)
deriving DecidableEq

/-- The call may report `r` on a queue that holds `q` (oldest first), leaving `q'`. -/
def DqStep {α : Type} (q : List α) : DqCall α → DqRes α → List α → Prop
  | .add vs _, .stored true, q' => q' = q ++ vs
  | .add _ insist, .stored false, q' => insist = false ∧ q' = q
  | .rem back limit, .got vs met, q' =>
      (if back then q = q' ++ vs.reverse else q = vs ++ q') ∧
      ((met = true ∧ vs = []) ∨ ((∀ k, limit = some k → vs.length ≤ k) ∧ (q' = [] ∨ limit = some vs.length)))
  | .ask, .empty b met, q' => q' = q ∧ (met = false → (b = true ↔ q = []))
  | _, _, _ => False

/-- The history `h` leads from a queue with `q` to one with `q'`. -/
inductive DqHist {α : Type} : List α → List (Nat × DqCall α × DqRes α) → List α → Prop
  | nil (q : List α) : DqHist q [] q
  | snoc {q q' q'' : List α} {h : List (Nat × DqCall α × DqRes α)} (t : Nat) {c : DqCall α} {r : DqRes α}
      (a : DqHist q h q') (b : DqStep q' c r q'') : DqHist q (h ++ [(t, c, r)]) q''

end CGraph.Spec
