import Verif.Model.PqConc
/-! # A bag of tasks that is used by one call at a time

What the calls of C117 have to look like: tasks with the addresses they are stored at; nothing here has threads, locks or steps. -/
namespace CGraph.Spec.PqConc
open CGraph.PqConc

/-- Tasks (with priority) and where they are. -/
abbrev Bag (α : Type) := List (Nat × (α × Int))

/-- Take up to `n` tasks, the greatest address first. -/
def takeN : Nat → Bag α → List (α × Int) × Bag α
  | 0, b => ([], b)
  | n + 1, b =>
    match (b.map Prod.fst).max? with
    | none => ([], b)
    | some a =>
      (((b.find? (fun e => e.1 == a)).map Prod.snd).toList ++ (takeN n (b.filter fun e => e.1 != a)).1,
        (takeN n (b.filter fun e => e.1 != a)).2)

/-- One call with the result it had: the bag afterwards, or `none` if the call cannot have this result. -/
def one [DecidableEq α] (b : Bag α) : Ev α → Option (Bag α)
  | .push _ a x => if a ∈ b.map Prod.fst then none else some ((a, x) :: b)
  | .pop _ n res => if res = (takeN n b).1 then some (takeN n b).2 else none
  | .busy _ _ => some b
  | .empty _ e => if e = b.isEmpty then some b else none

/-- Calls one after the other. -/
def replay [DecidableEq α] (l : List (Ev α)) : Option (Bag α) := l.foldl (fun b e => b.bind (one · e)) (some [])

/-- The tasks that were pushed. -/
def pushed (l : List (Ev α)) : List (α × Int) := l.filterMap fun
  | .push _ _ x => some x
  | _ => none

/-- The tasks that were handed out. -/
def popped (l : List (Ev α)) : List (α × Int) := l.flatMap fun
  | .pop _ _ r => r
  | _ => []

end CGraph.Spec.PqConc
