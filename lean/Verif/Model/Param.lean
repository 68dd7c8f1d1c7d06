import Verif.Model.Status
import Verif.Model.Containers

/-! # The parameter manager

`src/GraphCtrl/GraphParam/GParamManager.{inl,cpp}`, `GParam.cpp` and the calls offered to elements in
`GParamManagerWrapper.h`.  Types are numbers and `typeid(..) == typeid(..)` is equality of numbers: the exact dynamic
type, never a base class.  Comparing `typeid(..).name()` by pointer (GParamManager.inl:27) is taken as the same test.
Memory is a list: an address is a position, `none` is freed memory, addresses are not used again.  Allocation never
fails.  The variants ending in `_4py` are not modelled. -/
namespace CGraph

/-- A `GParam` object (GParam.h:66-72). -/
structure PObj where
  ty : Nat
  key : String
  btOn : Bool
  bt : UniqueArr String

/-- `params_map_` (GParamManager.h), the objects it points to, and `concerned_params_` of every owner of the wrapper
(GParamManagerWrapper.h:137), as pairs of an owner and an address. -/
structure PStore where
  heap : List (Option PObj)
  map : List (String × Nat)
  concerned : List (Nat × Nat)

/-- One call. -/
inductive ParamOp where
  /-- `createGParam<ty>(key, bt)` -/
  | create (ty : Nat) (key : String) (bt : Bool)
  /-- `getGParam<ty>(key)` called on the owner `who` whose name (or session, if unnamed) is `name` -/
  | get (who : Nat) (name : String) (ty : Nat) (key : String)
  /-- `removeGParam(key)` -/
  | remove (key : String)
  /-- `cleanBacktrace()` on the parameter now stored under `key` -/
  | clean (key : String)
  /-- `clear()` -/
  | clear
deriving DecidableEq

/-- What a call returns. -/
inductive ParamAns where
  | status (s : CStatus)
  | ptr (p : Option Nat)
  | unit
deriving DecidableEq

namespace PStore

/-- GParamManager.h: a new manager. -/
def empty : PStore := ⟨[], [], []⟩

/-- `params_map_.find(key)` (used at GParamManager.inl:23, 42 and GParamManager.cpp:80). -/
def find (s : PStore) (key : String) : Option Nat := s.map.lookup key

/-- What an address points to; `none` when nothing is there any more. -/
def load (s : PStore) (p : Nat) : Option PObj := (s.heap[p]?).join

/-- GParamManager.inl:20-36 `create`.  The object in the map is alive: `none` of `load` does not occur (proved), it is
treated like a type mismatch. -/
def create (s : PStore) (ty : Nat) (key : String) (bt : Bool) : PStore × CStatus :=
  match s.find key with
  | some p =>
    (s, if (s.load p).map PObj.ty = some ty then CStatus.ok else CStatus.err ("create [" ++ key ++ "] param duplicate"))
  | none =>
    ({ s with heap := s.heap ++ [some ⟨ty, key, bt, UniqueArr.empty⟩]
              map := s.map ++ [(key, s.heap.length)] }, CStatus.ok)

/-- GParamManager.inl:41-53 `get`. -/
def get (s : PStore) (ty : Nat) (key : String) : Option Nat :=
  match s.find key with
  | none => none
  | some p => if (s.load p).map PObj.ty = some ty then some p else none

/-- GParam.cpp:26-37 `addBacktrace`: the status it returns is ignored by its caller (GParamManagerWrapper.h:48). -/
def addBacktrace (o : PObj) (trace : String) : PObj :=
  if o.btOn then { o with bt := o.bt.add trace } else o

/-- GParamManagerWrapper.h:43-51 `getGParam`.  `concerned_params_` is a `std::set`: inserted once. -/
def getGParam (s : PStore) (who : Nat) (name : String) (ty : Nat) (key : String) : PStore × Option Nat :=
  match s.get ty key with
  | none => (s, none)
  | some p =>
    ({ s with heap := s.heap.modify p (Option.map (fun o => addBacktrace o name))
              concerned := if (who, p) ∈ s.concerned then s.concerned else s.concerned ++ [(who, p)] }, some p)

/-- GParamManager.cpp:77-88 `removeByKey`. -/
def remove (s : PStore) (key : String) : PStore × CStatus :=
  match s.find key with
  | none => (s, CStatus.err ("param [" ++ key ++ "] no find"))
  | some p => ({ s with heap := s.heap.set p none, map := s.map.filter (fun e => e.1 ≠ key) }, CStatus.ok)

/-- GParam.cpp:40-48 `cleanBacktrace` on the object stored under `key`. -/
def clean (s : PStore) (key : String) : PStore :=
  match s.find key with
  | none => s
  | some p =>
    { s with heap := s.heap.modify p (Option.map (fun o => if o.btOn then { o with bt := o.bt.clear } else o)) }

/-- GParamManager.cpp:48-57 `clear`. -/
def clear (s : PStore) : PStore :=
  { s with heap := s.map.foldl (fun h e => h.set e.2 none) s.heap, map := [] }

/-- GParamManager.cpp:91-100 `getKeys`; the order of the hash map is not modelled. -/
def keys (s : PStore) : List String := s.map.map Prod.fst

/-- GParam.cpp:13-23 `getBacktrace` through a pointer; the outer `none` is a freed object. -/
def backtrace (s : PStore) (p : Nat) : Option (Res (List String)) :=
  (s.load p).map fun o =>
    if o.btOn then .ret o.bt.arr else .throw ("no enable backtrace for [" ++ o.key ++ "] param")

/-- GParamManagerWrapper.h:92-98 `getConcernedGParamKeys`; `none` when a freed object is read.  Simplified: the set is
ordered by address in memory, here by time of insertion. -/
def concernedKeys (s : PStore) (who : Nat) : Option (List String) :=
  (s.concerned.filter (fun e => e.1 = who)).mapM fun e => (s.load e.2).map PObj.key

/-- One call and its answer. -/
def step (s : PStore) : ParamOp → PStore × ParamAns
  | .create ty key bt => ((s.create ty key bt).1, .status (s.create ty key bt).2)
  | .get who name ty key => ((s.getGParam who name ty key).1, .ptr (s.getGParam who name ty key).2)
  | .remove key => ((s.remove key).1, .status (s.remove key).2)
  | .clean key => (s.clean key, .unit)
  | .clear => (s.clear, .status CStatus.ok)

/-- The manager after a history of calls, newest call first. -/
def after : List ParamOp → PStore
  | [] => empty
  | op :: past => ((after past).step op).1

end PStore
end CGraph
