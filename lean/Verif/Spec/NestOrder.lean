import Verif.Spec.Nest

/-! # Specification for the order of nested elements -/
namespace CGraph.Spec

/-- `x` is `g` itself or lies, at any depth, inside of the group `g`. -/
inductive Inside (c : NestCfg) (g : Nat) : Nat → Prop where
  | self : Inside c g g
  | member {x : Nat} : 1 ≤ x → x ≤ c.n → Inside c g (c.parent x) → Inside c g x

/-- `d` has to be executed before `e`: directly, or through others of the same group. -/
inductive Needs (c : NestCfg) (d : Nat) : Nat → Prop where
  | direct {e : Nat} : d ∈ c.deps e → Needs c d e
  | through {m e : Nat} : Needs c d m → m ∈ c.deps e → Needs c d e

/-- What a user sees of a run. -/
inductive NEv where
  | start (e : Nat)
  | stop (e : Nat)
deriving DecidableEq, Repr

/-- The element has been started. -/
def hasBegun : NSt → Bool
  | .wait | .queued _ => false
  | .entered | .launched | .done => true

/-- The element has ended. -/
def hasEnded : NSt → Bool
  | .done => true
  | _ => false

/-- What is seen when the states of the elements `0..n` change: elements end, others are started. -/
def seen (n : Nat) (s t : Nat → NSt) : List NEv :=
  ((List.range (n + 1)).filter (fun e => !hasEnded (s e) && hasEnded (t e))).map NEv.stop ++
  ((List.range (n + 1)).filter (fun e => !hasBegun (s e) && hasBegun (t e))).map NEv.start

/-- What is seen during an execution. -/
def watch (c : NestCfg) (s : NestSt) : List NAct → List NEv
  | [] => []
  | a :: as => seen c.n s.st ((s.step c a).getD s).st ++ watch c ((s.step c a).getD s) as

/-- What is seen of a run, from its beginning. -/
def runLog (c : NestCfg) (as : List NAct) : List NEv :=
  seen c.n (fun _ => .wait) (NestSt.start c).st ++ watch c (NestSt.start c) as

/-- The elements executed at the moment that are no groups: user code that runs at the same time. -/
def bodies (c : NestCfg) (s : NestSt) : List Nat :=
  (List.range (c.n + 1)).filter (fun e => hasBegun (s.st e) && !hasEnded (s.st e) && !c.group e)

end CGraph.Spec
