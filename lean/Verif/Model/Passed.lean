import Mathlib.Logic.Function.Basic

/-! # Passed parameters: `addEParam`/`getEParam`, `setAParam`/`getAParam`, `setDParam`, `setSParam`

The caller's program is a list of operations on pointer variables; memory is explicit, so that a private copy, an alias and
a deleted object can be told apart. -/

namespace CGraph
namespace Passed

/-- Who holds the parameter.  GElement.h:458 `local_params_` (one parameter per key); GAspectObject.h:64, GDaemonObject.h:75,
GStage.h:64 `param_` (one parameter; its key is 0 here).  Aspects have `getAParam`, a daemon or stage is handed its parameter
in the callback (GDaemon.cpp:16, GStage.cpp:38). -/
inductive Holder
  | element | aspect | callback
deriving DecidableEq, Repr

/-- An object derived from GPassedParam (GPassedParam.h:18-26): its dynamic type and its content.  `mine` is a ghost: the
object was created by the caller. -/
structure Cell where
  ty : Nat
  val : Nat
  mine : Bool
deriving DecidableEq, Repr

/-- Memory, the parameters of every holder (an entry of the map may hold a null pointer), which holders are initialised or
deleted, and the caller's pointer variables. Addresses are not used twice. -/
structure St where
  mem : Nat → Option Cell
  next : Nat
  tbl : Nat → List (Nat × Option Nat)
  inited : Nat → Bool
  gone : Nat → Bool
  vars : Nat → Option Nat

/-- What the caller sees; `ub`: a deleted object or a null pointer has been used. -/
inductive Out
  | done | thrown | isNull | got | val (v : Nat) | ub
deriving DecidableEq, Repr

/-- What the caller can do.  `set h k i T throws`: hand the object of variable `i` to holder `h` as a `T`; `throws`: the
user's `clone` throws. `get h k T j`: put the pointer the holder answers into variable `j`. -/
inductive Op
  | new (i ty v : Nat) | del (i : Nat) | write (i v : Nat) | read (i : Nat)
  | set (h k i T : Nat) (throws : Bool) | get (h k T j : Nat)
  | initialise (h : Nat) | drop (h : Nat)
deriving DecidableEq, Repr

def init : St := ⟨fun _ => none, 0, fun _ => [], fun _ => false, fun _ => false, fun _ => none⟩

/-- `std::unordered_map::find`; the order of the entries does not matter. -/
def find (l : List (Nat × Option Nat)) (k : Nat) : Option (Option Nat) := (l.find? (fun p => p.1 = k)).map (·.2)

/-- `map[key] = value`. -/
def put (l : List (Nat × Option Nat)) (k : Nat) (v : Option Nat) : List (Nat × Option Nat) :=
  (k, v) :: l.filter (fun p => p.1 ≠ k)

/-- UtilsDefine.h:91-95 `CGRAPH_DELETE_PTR`: nothing for a null pointer, otherwise delete; `none`: deleted twice. -/
def delPtr (mem : Nat → Option Cell) : Option Nat → Option (Nat → Option Cell)
  | none => some mem
  | some b => if (mem b).isSome then some (Function.update mem b none) else none

/-- GElement.cpp:19-21 (and GAspectObject.cpp:26, GDaemonObject.h:26, GStage.cpp:23 with at most one entry): the destructor
deletes the parameters. -/
def delAll : List (Nat × Option Nat) → (Nat → Option Cell) → Option (Nat → Option Cell)
  | [], mem => some mem
  | p :: l, mem => (delPtr mem p.2).bind (delAll l)

/-- The content of a freshly constructed object. -/
def fresh (T : Nat) : Cell := ⟨T, 0, false⟩

/-- GElement.inl:48-62 `addEParam` (after the checks), GAspectObject.inl:18-27 `setAParam`, GDaemonObject.inl:17-26
`setDParam`, GStage.inl:17-26 `setSParam`: delete the old object (the entry becomes null), create a `T`, `clone`.  An element
stores the new object after `clone`, the others before.  `clone` is the user's; it copies the content.  `new` does not
fail. -/
def store (kind : Holder) (s : St) (h k a T : Nat) (throws : Bool) : St × Out :=
  match delPtr s.mem ((find (s.tbl h) k).getD none) with
  | none => (s, .ub)
  | some mem1 =>
    let tbl1 := if (find (s.tbl h) k).isSome then Function.update s.tbl h (put (s.tbl h) k none) else s.tbl
    let c := s.next
    let mem2 := Function.update mem1 c (some (fresh T))
    let tbl2 := Function.update tbl1 h (put (tbl1 h) k (some c))
    match mem2 a with
    | none => (s, .ub)
    | some ob =>
      if throws then
        ({ s with mem := mem2, next := c + 1, tbl := if kind = .element then tbl1 else tbl2 }, .thrown)
      else
        ({ s with mem := Function.update mem2 c (some { fresh T with val := ob.val }), next := c + 1, tbl := tbl2 }, .done)

/-- One operation.  `set`: GElement.inl:49-50 refuses after init and refuses null, the others ignore null.  `get`:
GElement.inl:66-75 (`typeid` of a null pointer throws), GAspectObject.inl:32-42 (the names of types are compared; equal names
mean equal types here), callbacks get the pointer.  A deleted holder must not be used. -/
def step (kind : Nat → Holder) (s : St) : Op → St × Out
  | .new i ty v =>
    ({ s with mem := Function.update s.mem s.next (some ⟨ty, v, true⟩), next := s.next + 1,
              vars := Function.update s.vars i (some s.next) }, .done)
  | .del i =>
    match s.vars i with
    | none => (s, .done)
    | some a => match delPtr s.mem (some a) with
      | none => (s, .ub)
      | some m => ({ s with mem := m }, .done)
  | .write i v =>
    match (s.vars i).bind s.mem, s.vars i with
    | some ob, some a => ({ s with mem := Function.update s.mem a (some { ob with val := v }) }, .done)
    | _, _ => (s, .ub)
  | .read i =>
    match (s.vars i).bind s.mem with
    | some ob => (s, .val ob.val)
    | none => (s, .ub)
  | .set h k i T throws =>
    if s.gone h then (s, .ub)
    else if kind h = .element ∧ s.inited h = true then (s, .thrown)
    else match s.vars i with
      | none => (s, if kind h = .element then .thrown else .done)
      | some a => store (kind h) s h k a T throws
  | .get h k T j =>
    if s.gone h then (s, .ub)
    else match find (s.tbl h) k with
      | none =>
        if kind h = .aspect then (s, .thrown) else ({ s with vars := Function.update s.vars j none }, .isNull)
      | some none =>
        if kind h = .callback then ({ s with vars := Function.update s.vars j none }, .isNull) else (s, .thrown)
      | some (some b) =>
        match s.mem b with
        | none => (s, .ub)
        | some ob =>
          if kind h = .callback ∨ ob.ty = T then ({ s with vars := Function.update s.vars j (some b) }, .got)
          else ({ s with vars := Function.update s.vars j none }, .isNull)
  | .initialise h => if s.gone h then (s, .ub) else ({ s with inited := Function.update s.inited h true }, .done)
  | .drop h =>
    if s.gone h then (s, .ub)
    else match delAll (s.tbl h) s.mem with
      | none => (s, .ub)
      | some m => ({ s with mem := m, tbl := Function.update s.tbl h [], gone := Function.update s.gone h true }, .done)

/-- A program; it ends at the first undefined behaviour. -/
def run (kind : Nat → Holder) : List Op → St → List Out × St
  | [], s => ([], s)
  | op :: ops, s =>
    let r := step kind s op
    if r.2 = .ub then ([.ub], r.1)
    else let q := run kind ops r.1; (r.2 :: q.1, q.2)

end Passed
end CGraph
