/-! # Vocabulary for C98: elements that pass a call on to a function of the user -/
namespace CGraph.Spec

/-- The functions of an ann node that a user can write. -/
inductive AnnFunc where
  | train | search | insert | update | remove | loadModel | saveModel | edition
deriving DecidableEq, Repr

/-- What can be observed of one execution of an ann node. -/
inductive AnnEv where
  | prepared
  | called (f : AnnFunc)
  | refreshed
deriving DecidableEq, Repr

/-- The choice that a user makes by the value that `prepareParam` returns: the values are those of the public enumeration. -/
def Chosen : Int → AnnFunc → Prop
  | 1, .train => True
  | 2, .search => True
  | 3, .insert => True
  | 4, .update => True
  | 5, .remove => True
  | 6, .loadModel => True
  | 7, .saveModel => True
  | 8, .edition => True
  | _, _ => False

/-- The three phases a function can be given for. -/
inductive Phase where
  | init | run | destroy
deriving DecidableEq, Repr

/-- What happens to a function element; `set` is a call of `setFunction` with the outcome the caller saw. -/
inductive FnEv (F : Type) where
  | set (p : Phase) (f : Option F) (accepted : Bool)
  | call (p : Phase) (executed : Option F)

/-- The function that was given last for the phase. -/
def lastGiven {F : Type} (p : Phase) : List (FnEv F) → Option F
  | [] => none
  | .set q (some f) true :: past => if q = p then some f else lastGiven p past
  | _ :: past => lastGiven p past

/-- Every call executes what was given last before it (newest event first). -/
def CallsLast {F : Type} : List (FnEv F) → Prop
  | [] => True
  | .call p x :: past => x = lastGiven p past ∧ CallsLast past
  | _ :: past => CallsLast past

end CGraph.Spec
