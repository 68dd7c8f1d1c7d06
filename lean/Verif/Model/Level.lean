/-! # The sorted set of elements and their levels

`src/GraphCtrl/GraphElement/GElementSorter.h`, `GElementManager.cpp`, `GElement::setLevel`, and the index computed by
`GOptimizer::buildGraph`.  An element is the number of its address.  `std::set` is a binary search tree: an insertion and a
search go down the tree by the comparator, which reads the levels as they are at that moment; after an insertion the tree is
rebalanced by some function `bal` that does not change the in-order sequence (the theorems hold for all of these).
Simplified: `init` and `destroy` of the elements succeed (failures are in `Verif.Model.Pipeline`); the search stops at the
first node equivalent to the key. -/
namespace CGraph

/-- The tree of a `std::set<GElementPtr, GElementSorter>`, GElementSorter.h:32. -/
inductive LvTree where
  | leaf
  | node (l : LvTree) (e : Nat) (r : LvTree)
deriving DecidableEq, Repr

/-- GElementSorter.h:27-29. -/
def lvLess (lv : Nat → Int) (a b : Nat) : Bool :=
  if lv a = lv b then decide (a < b) else decide (lv a < lv b)

namespace LvTree

/-- Iteration from `begin()` to `end()`. -/
def toList : LvTree → List Nat
  | leaf => []
  | node l e r => l.toList ++ e :: r.toList

/-- `emplace` before rebalancing, GElementManager.cpp:70 and GRegion.cpp:64. -/
def insert (lv : Nat → Int) (e : Nat) : LvTree → LvTree
  | leaf => node leaf e leaf
  | node l x r =>
    if lvLess lv e x then node (l.insert lv e) x r
    else if lvLess lv x e then node l x (r.insert lv e)
    else node l x r

/-- `find(e)` as the position of the iterator returned, `size()` for `end()`: GElementManager.cpp:80 and
`std::distance(elements.begin(), elements.find(..))` in GOptimizer.h:80-82. -/
def index (lv : Nat → Int) (e : Nat) : LvTree → Nat
  | leaf => 0
  | node l x r =>
    if lvLess lv e x then
      (let i := l.index lv e
       if i = l.toList.length then l.toList.length + 1 + r.toList.length else i)
    else if lvLess lv x e then l.toList.length + 1 + r.index lv e
    else l.toList.length

end LvTree

/-- What can be observed. -/
inductive LvEv where
  /-- `setLevel` has set the level of an element -/
  | level (e : Nat) (l : Int)
  /-- an element was registered -/
  | reg (e : Nat)
  /-- the `init` functions that `GElementManager::init` called, in order -/
  | inits (l : List Nat)
  /-- the `destroy` functions that `GElementManager::destroy` called, in order -/
  | destroys (l : List Nat)
  /-- `GElementManager::find` answered -/
  | found (e : Nat) (r : Bool)
  /-- the row or column of an element in the matrix of `buildGraph`, and the size of the matrix -/
  | index (e : Nat) (i : Nat) (size : Nat)
deriving DecidableEq, Repr

/-- The calls of a user. -/
inductive LvAct where
  | setLevel (e : Nat) (l : Int)
  | reg (e : Nat)
  | init
  | destroy
  | find (e : Nat)
  | index (e : Nat)
deriving DecidableEq, Repr

/-- `level_` of each element (GElement.h:451, default 0), `manager_elements_` (GElementManager.h:102), `is_init_`. -/
structure LvSt where
  lv : Nat → Int
  tree : LvTree
  isInit : Bool
  hist : List LvEv

namespace LvSt

/-- A new pipeline. -/
def start : LvSt := ⟨fun _ => 0, .leaf, false, []⟩

/-- One call.  `setLevel`: GElement.cpp:53-58 (throws when initialised, so nothing happens); registration: GPipeline.inl:20-56
(refused when initialised; an element is registered once); `init`, `destroy`: GElementManager.cpp:23-56. -/
def step (bal : LvTree → LvTree) (s : LvSt) : LvAct → LvSt
  | .setLevel e l =>
    if s.isInit then s
    else { s with lv := fun x => if x = e then l else s.lv x, hist := s.hist ++ [.level e l] }
  | .reg e =>
    if s.isInit then s
    else if s.tree.toList.contains e then s
    else { s with tree := bal (s.tree.insert s.lv e), hist := s.hist ++ [.reg e] }
  | .init => if s.isInit then s else { s with isInit := true, hist := s.hist ++ [.inits s.tree.toList] }
  | .destroy => if s.isInit then { s with isInit := false, hist := s.hist ++ [.destroys s.tree.toList] } else s
  | .find e =>
    { s with hist := s.hist ++ [.found e (decide (s.tree.index s.lv e ≠ s.tree.toList.length))] }
  | .index e => { s with hist := s.hist ++ [.index e (s.tree.index s.lv e) s.tree.toList.length] }

/-- A sequence of calls. -/
def exec (bal : LvTree → LvTree) (s : LvSt) : List LvAct → LvSt
  | [] => s
  | a :: l => exec bal (s.step bal a) l

end LvSt
end CGraph
