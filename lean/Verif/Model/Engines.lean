import Verif.Model.Graph
/-
Models of GEngine.h (getTopo, isDag, calcShape), GTopoEngine.cpp, GStaticEngine.cpp and the classification
functions of GDynamicEngine.cpp.
-/
namespace CGraph
namespace Graph

/-- Assignment to `left_depend_` of one element.  `Int` instead of the unsigned `CSize`: a decrement below
zero gives a negative number here and 2^64-1 there; both are different from 0, which is all that is tested
in the functions of this file. -/
def setLeft (left : Eid → Int) (e : Eid) (v : Int) : Eid → Int := fun a => if a = e then v else left a

/-- GEngine.h:88-92 (and GStaticEngine.cpp:33-38): for all successors decrement; those reaching zero are
pushed to the back. -/
def decAll (left : Eid → Int) (out : List Eid) : List Eid → (Eid → Int) × List Eid
  | [] => (left, out)
  | e :: es =>
    let left' := setLeft left e (left e - 1)
    decAll left' (if left' e = 0 then out ++ [e] else out) es

/-- GEngine.h:83-93: the worklist loop.  `fuel` bounds the number of iterations
(`Lemmas/Kahn: topoLoop_fuel` shows that the number of elements suffices). -/
def topoLoop (g : Graph) : Nat → (Eid → Int) → List Eid → List Eid → List Eid
  | 0, _, _, res => res
  | _ + 1, _, [], res => res
  | n + 1, left, c :: q, res =>
    topoLoop g n (decAll left q (g.succs c)).1 (decAll left q (g.succs c)).2 (res ++ [c])

/-- GEngine.h:77: counters of the listed elements are reset to the number of dependencies; counters of
elements outside the set keep whatever they had (`left0`). -/
def initLeft (g : Graph) (left0 : Eid → Int) : Eid → Int :=
  fun e => if e ∈ g.elems then ((g.deps e).length : Int) else left0 e

/-- GEngine.h:73-100 `getTopo`. -/
def getTopo (g : Graph) (left0 : Eid → Int) : List Eid :=
  topoLoop g (g.elems.length + 1) (g.initLeft left0) (g.elems.filter (fun e => g.initLeft left0 e = 0)) []

/-- GEngine.h:107-110 `isDag`. -/
def isDag (g : Graph) (left0 : Eid → Int) : Bool := (g.getTopo left0).length == g.elems.length

/-! ### Topology engine -/

/-- GTopoEngine.cpp:13-21 `setup`: `some order` on success. -/
def topoSetup (g : Graph) (left0 : Eid → Int) : Option (List Eid) :=
  if (g.getTopo left0).length ≠ g.elems.length then none else some (g.getTopo left0)

end Graph

/-- GTopoEngine.cpp:24-31 `run`: result of the call and the elements whose `fatProcessor` was called, in
order.  `fp e` is the status returned by element `e`. -/
def topoRun (fp : Eid → CStatus) : List Eid → CStatus → List Eid × Res CStatus
  | [], st => ([], .ret st)
  | e :: es, st =>
    match checkStatus (st.add (fp e)) with
    | some r => ([e], r)
    | none => (e :: (topoRun fp es (st.add (fp e))).1, (topoRun fp es (st.add (fp e))).2)

namespace Graph

/-! ### Static engine -/

/-- GStaticEngine.cpp:32-39: the next layer. -/
def nextLayer (g : Graph) (left : Eid → Int) (cur : List Eid) : (Eid → Int) × List Eid :=
  cur.foldl (fun s e => decAll s.1 s.2 (g.succs e)) (left, [])

/-- GStaticEngine.cpp:28-40: layers, with a bound on the number of iterations. -/
def layerLoop (g : Graph) : Nat → (Eid → Int) → List Eid → List (List Eid) → List (List Eid)
  | 0, _, _, mat => mat
  | _ + 1, _, [], mat => mat
  | n + 1, left, c :: cs, mat =>
    layerLoop g n (g.nextLayer left (c :: cs)).1 (g.nextLayer left (c :: cs)).2 (mat ++ [c :: cs])

/-- GStaticEngine.cpp:13-45 `setup`: element matrix and success flag. `refresh` (GElement.cpp:25-28) is
the counter reset. -/
def staticSetup (g : Graph) (left0 : Eid → Int) : List (List Eid) × Bool :=
  let mat := g.layerLoop (g.elems.length + 1) (g.initLeft left0)
    (g.elems.filter (fun e => (g.deps e).isEmpty)) []
  (mat, (mat.map List.length).sum == g.elems.length)

end Graph
end CGraph
