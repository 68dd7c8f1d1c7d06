import Verif.Model.Codec

/-! # Well-formed values -/
namespace CGraph.Spec
open CGraph

mutual
/-- Value `v` is of type `t`. -/
def OfTy (env : REnv) : RVal → RTy → Prop
  | .fixed b, .fixed n => b.length = n
  | .str _, .str => True
  | .vec l, .vec t => OfTyAll env l t
  | .obj l, .cls c => OfTyFields env l (env c)
  | _, _ => False

def OfTyAll (env : REnv) : List RVal → RTy → Prop
  | [], _ => True
  | v :: l, t => OfTy env v t ∧ OfTyAll env l t

def OfTyFields (env : REnv) : List RVal → List (UInt8 × RTy) → Prop
  | [], [] => True
  | v :: l, f :: fs => OfTy env v f.2 ∧ OfTyFields env l fs
  | _, _ => False
end

mutual
/-- Bound for the steps that are needed to read a value. -/
def readSteps : RVal → Nat
  | .fixed _ => 1
  | .str _ => 1
  | .vec l => 1 + readStepsAll l
  | .obj l => 1 + readStepsAll l

def readStepsAll : List RVal → Nat
  | [] => 1
  | v :: l => 1 + readSteps v + readStepsAll l
end

end CGraph.Spec
