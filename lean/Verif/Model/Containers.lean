/-
Models of src/UtilsCtrl/Container/USmallVector.h, USerialUniqueArray.h and src/UtilsCtrl/Lru/ULru.h.
`none` as a result stands for undefined behaviour (out-of-bounds access, dereferencing a dead iterator).
-/
namespace CGraph

/-- USmallVector.h:20-26,144-147: `data_` is the heap array (its length is `capacity_`), `cur` is
`cur_index_`.  `T` is any type with decidable equality; freshly allocated slots hold `dflt`. -/
structure SmallVec (α : Type) where
  data : List α
  cur : Nat

namespace SmallVec
variable {α : Type} [DecidableEq α]

/-- USmallVector.h:23-26 constructor: no memory, size 0. -/
def empty : SmallVec α := ⟨[], 0⟩

/-- USmallVector.h:95-100: the loop `for i < cur_index_ : if val == data_[i] → true`, from index `i`,
`n` iterations left. -/
def hasFrom (d : List α) (val : α) (i : Nat) : Nat → Bool
  | 0 => false
  | n + 1 => if d[i]? = some val then true else hasFrom d val (i + 1) n

/-- USmallVector.h:92-103 `hasValue` (the null check is subsumed: no memory implies `cur = 0`). -/
def hasValue (v : SmallVec α) (val : α) : Bool := hasFrom v.data val 0 v.cur

/-- USmallVector.h:38-55 `insert`.  `step` is the template parameter `CAPACITY`; writing past the array
(possible only for `step = 0`) is `none`. -/
def insert (step : Nat) (dflt : α) (v : SmallVec α) (val : α) (isUnique : Bool := true) :
    Option (SmallVec α) :=
  if isUnique && v.hasValue val then some v
  else
    let data := if v.cur ≥ v.data.length then v.data ++ List.replicate step dflt else v.data
    if v.cur < data.length then some ⟨data.set v.cur val, v.cur + 1⟩ else none

/-- USmallVector.h:75-77: `for (j = i; j < cur_index_ - 1; j++) data_[j] = data_[j+1]`, `n` iterations
left starting at `j`. -/
def shift (d : List α) (j : Nat) : Nat → List α
  | 0 => d
  | n + 1 => shift (match d[j + 1]? with | some x => d.set j x | none => d) (j + 1) n

/-- USmallVector.h:73-82: search loop of `remove` at index `i`, `n` iterations left. -/
def removeFrom (v : SmallVec α) (val : α) (i : Nat) : Nat → SmallVec α × Bool
  | 0 => (v, false)
  | n + 1 =>
    if v.data[i]? = some val then (⟨shift v.data i (v.cur - 1 - i), v.cur - 1⟩, true)
    else removeFrom v val (i + 1) n

/-- USmallVector.h:71-84 `remove`. -/
def remove (v : SmallVec α) (val : α) : SmallVec α × Bool := removeFrom v val 0 v.cur

/-- USmallVector.h:65-69 `clear`: size 0, memory kept (contents zeroed, here `dflt`). -/
def clear (dflt : α) (v : SmallVec α) : SmallVec α := ⟨v.data.map (fun _ => dflt), 0⟩

/-- USmallVector.h:109-119 `asVector` (and the iteration `begin..end`, 137-138). -/
def toList (v : SmallVec α) : List α := v.data.take v.cur

end SmallVec

/-- USerialUniqueArray.h:59-61: a set for comparison and the array (the `std::set` is a list used only
through membership). -/
structure UniqueArr (α : Type) where
  set : List α
  arr : List α

namespace UniqueArr
variable {α : Type} [DecidableEq α]

/-- default construction. -/
def empty : UniqueArr α := ⟨[], []⟩

/-- USerialUniqueArray.h:27-33 `uniqueAdd`. -/
def add (u : UniqueArr α) (val : α) : UniqueArr α :=
  if val ∈ u.set then u else ⟨val :: u.set, u.arr ++ [val]⟩

/-- USerialUniqueArray.h:50-53 `clear`. -/
def clear (_u : UniqueArr α) : UniqueArr α := ⟨[], []⟩

end UniqueArr

/-- ULru.h:93-98.  A list iterator is modelled by the identity (`Nat`) of the node; `next` supplies fresh
identities.  `nodes` is the linked list front to back, `cache` the hash map. -/
structure Lru (K V : Type) where
  curSize : Nat
  capacity : Nat
  cache : List (K × Nat)
  nodes : List (Nat × K × V)
  next : Nat

namespace Lru
variable {K V : Type} [DecidableEq K]

/-- ULru.h:23-26 constructor (`capacity` is the template parameter). -/
def empty (capacity : Nat) : Lru K V := ⟨0, capacity, [], [], 0⟩

/-- `cache_.find(key)` (ULru.h:38,65). -/
def find (c : Lru K V) (k : K) : Option Nat := c.cache.lookup k

/-- `cache_.erase(key)` (ULru.h:42,47). -/
def eraseKey (m : List (K × Nat)) (k : K) : List (K × Nat) := m.filter (fun e => e.1 ≠ k)

/-- ULru.h:52-54: emplace at the front, point the cache at it, count it. -/
def pushFront (c : Lru K V) (k : K) (v : V) : Lru K V :=
  { c with
    nodes := (c.next, k, v) :: c.nodes
    cache := (k, c.next) :: eraseKey c.cache k
    curSize := c.curSize + 1
    next := c.next + 1 }

/-- ULru.h:37-55 `put`.  `none`: erasing a dead iterator (line 41) or `back()` of an empty list
(line 46, happens for capacity 0). -/
def put (c : Lru K V) (k : K) (v : V) : Option (Lru K V) :=
  match c.find k with
  | some it =>
    if c.nodes.any (fun n => n.1 == it) then
      some (pushFront { c with
        nodes := c.nodes.filter (fun n => n.1 ≠ it)
        cache := eraseKey c.cache k
        curSize := c.curSize - 1 } k v)
    else none
  | none =>
    if c.curSize ≥ c.capacity then
      match c.nodes.getLast? with
      | none => none
      | some b =>
        some (pushFront { c with
          cache := eraseKey c.cache b.2.1
          nodes := c.nodes.dropLast
          curSize := c.curSize - 1 } k v)
    else some (pushFront c k v)

/-- ULru.h:63-73 `get`.  The second component is the value when found. -/
def get (c : Lru K V) (k : K) : Option (Lru K V × Option V) :=
  match c.find k with
  | none => some (c, none)
  | some it =>
    match c.nodes.find? (fun n => n.1 == it) with
    | none => none
    | some n => (put c k n.2.2).map (fun c' => (c', some n.2.2))

/-- ULru.h:86-90 `clear`. -/
def clear (c : Lru K V) : Lru K V := { c with nodes := [], cache := [], curSize := 0 }

end Lru
end CGraph
