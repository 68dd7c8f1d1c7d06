import Verif.Model.Async

/-! # What is observed of elements with a timeout -/
namespace CGraph.Spec
open CGraph

/-- What happened since the latest run began. -/
def lastRun (l : List AEv) : List AEv :=
  l.foldl (fun acc x => match x with
    | .runBegin => []
    | _ => acc ++ [x]) []

/-- Body of `e` committed. -/
def isCommit (e : Nat) : AEv → Bool
  | .commit k _ => decide (k = e)
  | _ => false

/-- Body of `e` begins. -/
def isBody (e : Nat) : AEv → Bool
  | .bodyBegin k _ => decide (k = e)
  | _ => false

/-- Body of `e` ends. -/
def isBodyEnd (e : Nat) : AEv → Bool
  | .bodyEnd k _ _ => decide (k = e)
  | _ => false

/-- A body has failed: it returned a negative code or threw. -/
def bodyFailed : ARes → Bool
  | .ret st => decide (st.code < 0)
  | .thrown _ => true

/-- What the call of an element has to return when its body did this: the error of the body, a crash (code -996, the text
of the exception), and otherwise success. -/
def asyncOutcome : ARes → CStatus
  | .ret st => if st.code < 0 then st else ⟨0, ""⟩
  | .thrown w => ⟨-996, w⟩

/-- No future was used by two threads at once, no exception has left `run` of the pipeline, and no body was repeated
because of `isHold` after its timeout. -/
def AClean (l : List AEv) : Prop := (∀ e, .race e ∉ l) ∧ .runThrow ∉ l ∧ ∀ e, .again e true ∉ l

/-- No exception has left `run`, no body was repeated after its timeout. -/
def ACalm (l : List AEv) : Prop := .runThrow ∉ l ∧ ∀ e, .again e true ∉ l

/-- Every fence depends on the elements it waits for, and no element is awaited by two fences. -/
def FencesApart (c : ACfg) : Prop :=
  (∀ f, c.deps f = true) ∧ ∀ f g e, e ∈ c.waits f → e ∈ c.waits g → f = g

end CGraph.Spec
