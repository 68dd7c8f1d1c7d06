import Verif.Model.Status
import Mathlib.Analysis.SpecialFunctions.Sqrt

/-! # Distances between vectors (`UDistanceCalculator`, `UEuclideanDistance`, `UCosineDistance`)

Vectors are given as `std::vector` (UDistanceCalculator.h:54-59, 69-82, 107-109).  Floating point numbers are modelled by real
numbers: rounding and overflow are not modelled; dividing zero by zero is. -/

namespace CGraph
namespace Distance

/-- What a calculation yields: a number, not-a-number, or the loop has read behind the end of a vector. -/
inductive DOut
  | num (r : ℝ) | nan | ub

/-- UEuclideanDistance.h:18-19 with its template parameter `needSqrt`; UCosineDistance.h:16-17. -/
inductive Kind
  | euclid (needSqrt : Bool) | cosine
deriving DecidableEq

/-- UEuclideanDistance.h:24-26: the loop over the first `dim1` coordinates; `v2[i]` exists for `i < dim2` only. -/
def sqLoop : List ℝ → List ℝ → ℝ → Option ℝ
  | [], _, r => some r
  | x :: xs, y :: ys, r => sqLoop xs ys (r + (x - y) ^ 2)
  | _ :: _, [], _ => none

/-- UCosineDistance.h:25-29: the product and the squared lengths. -/
def cosLoop : List ℝ → List ℝ → ℝ → ℝ → ℝ → Option (ℝ × ℝ × ℝ)
  | [], _, r, a, b => some (r, a, b)
  | x :: xs, y :: ys, r, a, b => cosLoop xs ys (r + x * y) (a + x * x) (b + y * y)
  | _ :: _, [], _, _, _ => none

/-- UEuclideanDistance.h:21-30 and UCosineDistance.h:19-33 `calc`.  For cosine a length of zero makes the product zero too, so
that zero is divided by zero. -/
noncomputable def calcDist : Kind → List ℝ → List ℝ → DOut
  | .euclid needSqrt, v1, v2 =>
    match sqLoop v1 v2 0 with
    | none => .ub
    | some r => .num (if needSqrt then Real.sqrt r else r)
  | .cosine, v1, v2 =>
    match cosLoop v1 v2 0 0 0 with
    | none => .ub
    | some (r, a, b) =>
      if Real.sqrt a * Real.sqrt b = 0 then .nan else .num (r / (Real.sqrt a * Real.sqrt b))

/-- UEuclideanDistance.h:33-43 `check`; UDistance.inl:18-29 `check`, which cosine inherits.  `CSize` has 64 bits.  Whether
`data()` of an empty vector is null is not specified; it is an error in both cases, with the text of the second here. -/
def check : Kind → Nat → Nat → CStatus
  | .euclid _, d1, d2 =>
    if d1 ≠ d2 ∨ d1 * d2 % 2 ^ 64 = 0 then .err "euclidean distance dim error" else .ok
  | .cosine, d1, d2 => if d1 * d2 % 2 ^ 64 = 0 then .err "input dim error" else .ok

/-- UDistanceCalculator.h:34-44 `calculate`, called from 54-59 with the sizes; the last argument is the value `result` has
before. -/
noncomputable def calculate (k : Kind) (needCheck : Bool) (v1 v2 : List ℝ) (result : DOut) : CStatus × DOut :=
  let status := if needCheck then check k v1.length v2.length else .ok
  if status.isErr then (status, result) else (.ok, calcDist k v1 v2)

/-- UDistanceCalculator.h:76-80: the loop of the batch. -/
noncomputable def batchLoop (k : Kind) (needCheck : Bool) (query : List ℝ) :
    List (List ℝ) → CStatus → List DOut → CStatus × List DOut
  | [], st, rs => (st, rs)
  | node :: nodes, st, rs =>
    let q := calculate k needCheck query node (.num 0)
    batchLoop k needCheck query nodes (st.add q.1) (rs ++ [q.2])

/-- UDistanceCalculator.h:69-82 `calculate` for several vectors; `results` is cleared first (74). -/
noncomputable def batch (k : Kind) (needCheck : Bool) (query : List ℝ) (nodes : List (List ℝ)) : CStatus × List DOut :=
  batchLoop k needCheck query nodes .ok []

/-- UDistance.inl:37-40: the squared length. -/
def lenLoop : List ℝ → ℝ → ℝ
  | [], r => r
  | x :: xs, r => lenLoop xs (r + x * x)

/-- UDistance.inl:32-48 `normalize`, for floating point types: what the coordinates are afterwards.  If the length is zero all
are zero, and zero times infinity is not a number. -/
noncomputable def normalizeDist (v : List ℝ) : List DOut :=
  if Real.sqrt (lenLoop v 0) = 0 then v.map (fun _ => .nan)
  else v.map (fun x => .num (x * (1 / Real.sqrt (lenLoop v 0))))

/-- UDistanceCalculator.h:91-99 `normalize`, called from 107-109 with the size: the vector is checked against itself. -/
noncomputable def normalize (k : Kind) (needCheck : Bool) (v : List ℝ) : CStatus × List DOut :=
  let status := if needCheck then check k v.length v.length else .ok
  if status.isErr then (status, v.map .num) else (.ok, normalizeDist v)

/-- UDistance.inl:37-40 for an integral type (no overflow). -/
def lenLoopInt : List ℤ → ℤ → ℤ
  | [], r => r
  | x :: xs, r => lenLoopInt xs (r + x * x)

/-- UDistance.inl:32-48 for an integral `TSrc`: the denominator (42) is converted to `TSrc`.  For the zero vector the conversion of
infinity is undefined (`none`). -/
noncomputable def normalizeInt (v : List ℤ) : Option (List ℤ) :=
  if lenLoopInt v 0 = 0 then none
  else some (v.map (fun x => x * ⌊1 / Real.sqrt ((lenLoopInt v 0 : ℤ) : ℝ)⌋))

end Distance
end CGraph
