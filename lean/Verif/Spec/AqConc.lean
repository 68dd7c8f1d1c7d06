/-! # What a closable first-in first-out queue used by many threads promises -/
namespace CGraph.Spec

/-- A call: append; remove at most `limit` values without waiting; wait for a value; wait for a value for some time;
ask whether it is empty; close. -/
inductive FqCall (α : Type) where
  | add (v : α)
  | rem (limit : Nat)
  | await
  | awaitFor
  | ask
  | close
deriving DecidableEq

/-- What a call reported.  `met`: another thread was inside the queue. -/
inductive FqRes (α : Type) where
  | done
  | got (vs : List α) (met : Bool)
  | empty (b : Bool)
deriving DecidableEq

/-- The contents (oldest first), and whether the queue is open. -/
abbrev FqState (α : Type) := List α × Bool

/-- The call may report `r` in state `s`, leaving `s'`. -/
def FqStep {α : Type} (s : FqState α) : FqCall α → FqRes α → FqState α → Prop
  | .add v, .done, s' => s' = (s.1 ++ [v], s.2)
  | .rem limit, .got vs met, s' =>
      s = (vs ++ s'.1, s'.2) ∧
      ((met = true ∧ vs = []) ∨ (vs.length ≤ limit ∧ (s'.1 = [] ∨ vs.length = limit)))
  | .await, .got vs _, s' => ∃ x, vs = [x] ∧ s = (x :: s'.1, s'.2)
  | .awaitFor, .got vs _, s' =>
      (s.2 = true ∧ ∃ x, vs = [x] ∧ s = (x :: s'.1, s'.2)) ∨ (vs = [] ∧ s' = s ∧ (s.2 = false ∨ s.1 = []))
  | .ask, .empty b, s' => s' = s ∧ (b = true ↔ s.1 = [])
  | .close, .done, s' => s' = (s.1, false)
  | _, _, _ => False

/-- The history `h` leads from one state to another. -/
inductive FqHist {α : Type} : FqState α → List (Nat × FqCall α × FqRes α) → FqState α → Prop
  | nil (s : FqState α) : FqHist s [] s
  | snoc {s s' s'' : FqState α} {h : List (Nat × FqCall α × FqRes α)} (t : Nat) {c : FqCall α} {r : FqRes α}
      (a : FqHist s h s') (b : FqStep s' c r s'') : FqHist s (h ++ [(t, c, r)]) s''

end CGraph.Spec
