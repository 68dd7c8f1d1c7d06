import Mathlib.Analysis.InnerProductSpace.PiL2

/-! Vectors as points of Mathlib's Euclidean space. -/
namespace CGraph.Spec

/-- The coordinates of a vector. -/
def coords {n : Nat} (a : EuclideanSpace ℝ (Fin n)) : List ℝ := List.ofFn (fun i => a i)

/-- The sizes up to which one may rely on the check: the square is not a multiple of `2^64`. -/
def Sized (needCheck : Bool) (n : Nat) : Prop := needCheck = true → n * n % 2 ^ 64 ≠ 0

end CGraph.Spec
