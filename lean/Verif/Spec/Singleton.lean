import Verif.Model.Singleton

/-! # Specification for the singleton adapter -/
namespace CGraph.Spec

/-- The life of the shared object. -/
inductive ObjSt where
  | fresh
  | initing
  | ready (runs : Nat)
  | ending
deriving DecidableEq, Repr

/-- What may happen to the object next: `init` when it is not initialised, `run` while it is initialised, `destroy` when it
is initialised and not running. -/
def objStep : ObjSt → SgEv → Option ObjSt
  | .fresh, .initB _ => some .initing
  | .initing, .initE _ c => some (if c = 0 then .ready 0 else .fresh)
  | .ready n, .runB _ _ => some (.ready (n + 1))
  | .ready (n + 1), .runE _ => some (.ready n)
  | .ready 0, .desB _ => some .ending
  | .ending, .desE _ c => some (if c = 0 then .fresh else .ready 0)
  | _, _ => none

/-- A history of the object. -/
def objRun : ObjSt → List SgEv → Option ObjSt
  | o, [] => some o
  | o, e :: l => match objStep o e with
    | none => none
    | some o' => objRun o' l

/-- The history is a sequence of lives. -/
def Lives (h : List SgEv) : Prop := objRun .fresh h ≠ none

/-- Leaving out the runs. -/
def cycles (h : List SgEv) : List SgEv :=
  h.filter (fun e => match e with | .runB _ _ => false | .runE _ => false | _ => true)

/-- At most one pipeline is in use. -/
def OneInUse (s : SgSt) : Prop := ∀ q r, s.ph q ≠ .down → s.ph r ≠ .down → q = r

/-- The pipeline is inside `init` or `destroy`. -/
def changing : SgPh → Bool
  | .ini _ _ => true
  | .des _ _ => true
  | _ => false

/-- At most one pipeline is inside `init` or `destroy`. -/
def OneChanging (s : SgSt) : Prop := ∀ q r, changing (s.ph q) = true → changing (s.ph r) = true → q = r

/-- `init` and `destroy` of the object answer with OK or an error. -/
def Codes (l : List SgAct) : Prop := ∀ q c, SgAct.ret q c ∈ l → c ≤ 0

end CGraph.Spec
