import Verif.Model.Graph
import Verif.Model.Dynamic
/-
Models of src/GraphCtrl/GraphElement/_GOptimizer/*.h, of GElementManager::checkSerializable and of
GPerf::markLongestPath.
-/
namespace CGraph
namespace Graph

/-- GOptimizer.h:27-40 `collect`.  The C++ recursion has no bound; `none` means that `fuel` nested calls were
not enough (for a cyclic graph no number is, see `collect_diverges`). -/
def collect (g : Graph) : Nat → Eid → List Eid → List (List Eid) → Option (List (List Eid))
  | 0, _, _, _ => none
  | fuel + 1, e, curPath, paths =>
    let curPath' := curPath ++ [e]
    match g.succs e with
    | [] => some (paths ++ [curPath'])
    | s :: ss => (s :: ss).foldlM (fun ps c => collect g fuel c curPath' ps) paths

/-- GOptimizer.h:47-57 `collectPaths`. -/
def collectPaths (g : Graph) (fuel : Nat) : Option (List (List Eid)) :=
  g.elems.foldlM (fun ps e => if (g.deps e).isEmpty then g.collect fuel e [] ps else some ps) []

/-- `std::distance(elements.begin(), elements.find(e))`: the position, or the size if `e` is not there. -/
def pos (g : Graph) (e : Eid) : Nat := g.elems.idxOf e

/-- `std::vector<std::vector<int>>`, as a function of the two indices. -/
abbrev Mat := Nat → Nat → Int

/-- `graph[x][y] = v`. -/
def setMat (m : Mat) (x y : Nat) (v : Int) : Mat := fun a b => if a = x ∧ b = y then v else m a b

/-- GOptimizer.h:77-87, inner loop over `j` for one `i`. -/
def markRow (g : Graph) (father son : Int) (x : Eid) : List Eid → Mat → Mat
  | [], m => m
  | y :: ys, m => markRow g father son x ys (setMat (setMat m (g.pos x) (g.pos y) father) (g.pos y) (g.pos x) son)

/-- GOptimizer.h:78-86, the two loops over one path. -/
def markPath (g : Graph) (father son : Int) : List Eid → Mat → Mat
  | [], m => m
  | x :: ys, m => markPath g father son ys (markRow g father son x ys m)

/-- GOptimizer.h:68-89 `buildGraph`. -/
def buildGraph (g : Graph) (paths : List (List Eid)) (father son unlink : Int) : Mat :=
  paths.foldl (fun m p => markPath g father son p m) (fun _ _ => unlink)

/-- GMaxParaOptimizer.h:60-75, the lambda `backtrace` (its loop counter as an argument); the result is the new
value of `maxCliqueSize`. -/
def backtrace (m : Mat) (n : Nat) (i : Nat) (clique : List Nat) (cliqueSize : Nat) (maxSize : Nat) : Nat :=
  if i < n then
    if cliqueSize + n - i ≤ maxSize then maxSize
    else
      let maxSize' := if clique.all (fun j => m j i == 1) then
        backtrace m n (i + 1) (clique ++ [i]) (cliqueSize + 1) maxSize else maxSize
      backtrace m n (i + 1) clique cliqueSize maxSize'
  else max clique.length maxSize
termination_by n - i

/-- GMaxParaOptimizer.h:37-48 `getMaxParaSize`. -/
def getMaxParaSize (g : Graph) (fuel : Nat) : Option Nat :=
  (g.collectPaths fuel).map (fun paths => backtrace (g.buildGraph paths 0 0 1) g.elems.length 0 [] 0 0)

/-- GSeparateOptimizer.h:27-40 `checkSeparate`. -/
def checkSeparate (g : Graph) (fuel : Nat) (fst snd : Eid) : Option Bool :=
  (g.collectPaths fuel).map (fun paths => paths.any (fun p => decide (fst ∈ p) && decide (snd ∈ p)))

/-- GElementManager.cpp:139-169 `checkSerializable` for the dynamic engine; `elemOk` is
`isSerializable() && !isAsync()` of the single elements. -/
def checkSerializable (g : Graph) (elemOk : Eid → Bool) : Bool :=
  g.elems.all (fun e => elemOk e && decide ((g.succs e).length ≤ 1) && decide ((g.deps e).length ≤ 1)) &&
  decide ((g.elems.filter (fun e => (g.deps e).isEmpty)).length = 1) &&
  decide ((g.elems.filter (fun e => (g.succs e).isEmpty)).length = 1)

/-- GPerf.cpp:62-72: the loop of `markLongestPath`.  Times are natural numbers (ticks); the C++ adds doubles
and rounding is not modelled. -/
def longestLoop (cost : Eid → Nat) : List (List Eid) → Nat → List Eid → List Eid
  | [], _, best => best
  | p :: ps, maxTs, best =>
    let curTs := (p.map cost).sum
    if curTs ≥ maxTs then longestLoop cost ps curTs p else longestLoop cost ps maxTs best

/-- GPerf.cpp:56-79 `markLongestPath`: the elements whose flag is set (the flags are false before, GPerf.cpp:49). -/
def markLongestPath (g : Graph) (fuel : Nat) (cost : Eid → Nat) : Option (Eid → Bool) :=
  (g.collectPaths fuel).map (fun paths => fun e => decide (e ∈ longestLoop cost paths 0 []))

end Graph

namespace Heap

/-- GTrimOptimizer.h:33-43: the candidates of one element. -/
def trimCandidates (g : Graph) (m : Graph.Mat) (cur : Eid) : List Eid :=
  (g.deps cur).flatMap (fun a => ((g.deps cur).filter (fun b => m (g.pos a) (g.pos b) == 1)).map (fun _ => a))

/-- GTrimOptimizer.h:45-49. -/
def trimRemove (this : Eid) : List Eid → Heap × Nat → Heap × Nat
  | [], r => r
  | c :: cs, (h, n) =>
    let r := h.removeDepend this (some c)
    trimRemove this cs (r.1, if r.2 then n + 1 else n)

/-- GTrimOptimizer.h:31-54: the loop over the elements; the recursion into regions (51-53) works on the disjoint
elements of the region and is in `nestTrimLoop` (Model/NestTrim.lean). -/
def trimLoop (elems : List Eid) (m : Graph.Mat) : List Eid → Heap × Nat → Heap × Nat
  | [], r => r
  | cur :: rest, r => trimLoop elems m rest (trimRemove cur (trimCandidates (r.1.graph elems) m cur) r)

/-- GTrimOptimizer.h:26-57 `trim`. -/
def trim (h : Heap) (elems : List Eid) (fuel : Nat) : Option (Heap × Nat) :=
  ((h.graph elems).collectPaths fuel).map (fun paths =>
    trimLoop elems ((h.graph elems).buildGraph paths 1 0 0) elems (h, 0))

end Heap
end CGraph
