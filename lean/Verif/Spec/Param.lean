import Verif.Model.Param

/-! Specification of the parameter manager by the history of calls alone; histories are newest call first. -/
namespace CGraph.Spec

/-- The creation in force for a key: the calls made before it, the type and whether access is recorded. -/
def holder : List ParamOp → String → Option (List ParamOp × Nat × Bool)
  | [], _ => none
  | .create t k b :: past, key =>
    match holder past key with
    | some c => some c
    | none => if k = key then some (past, t, b) else none
  | .remove k :: past, key => if k = key then none else holder past key
  | .clear :: _, _ => none
  | .get _ _ _ _ :: past, key => holder past key
  | .clean _ :: past, key => holder past key

/-- A call `get` answered with a parameter. -/
def obtains (past : List ParamOp) (ty : Nat) (key : String) : Prop :=
  ∃ c b, holder past key = some (c, ty, b)

/-- The names of those who obtained the parameter now stored under the key, oldest first. -/
def accesses : List ParamOp → String → List String
  | [], _ => []
  | .get _ name t k :: past, key =>
    if k = key ∧ (holder past key).map (fun c => c.2.1) = some t then accesses past key ++ [name]
    else accesses past key
  | .remove k :: past, key => if k = key then [] else accesses past key
  | .clean k :: past, key => if k = key then [] else accesses past key
  | .clear :: _, _ => []
  | .create _ _ _ :: past, key => accesses past key

/-- The creations of the parameters that `who` ever obtained, with their keys. -/
def usedBy : List ParamOp → Nat → List (String × List ParamOp)
  | [], _ => []
  | .get w _ t k :: past, who =>
    match holder past k with
    | some (c, t', _) => if w = who ∧ t' = t then usedBy past who ++ [(k, c)] else usedBy past who
    | none => usedBy past who
  | .create _ _ _ :: past, who => usedBy past who
  | .remove _ :: past, who => usedBy past who
  | .clean _ :: past, who => usedBy past who
  | .clear :: past, who => usedBy past who

end CGraph.Spec
