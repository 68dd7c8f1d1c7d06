/-! # The storage codec

`src/UtilsCtrl/Reflection/UReflectionSession.h`, `UReflectionType.h`, `UReflection.h`.

A type is a fixed size type (fundamental or enumeration), a string, a vector, or a class with its list of fields
(`createTrait`); classes are numbered so that a class can contain vectors of itself.  A byte is a `UInt8`.  `memcpy` outside
of the allocation is undefined behaviour: `none`.  Simplified: `size_t` is eight bytes, least significant first (x86-64,
arm64); a value of fixed size is its bytes; `std::string_view` (never read) and the compile time rejection of other types
are left out. -/
namespace CGraph

/-- Types. -/
inductive RTy where
  /-- `sizeof` bytes -/
  | fixed (n : Nat)
  | str
  | vec (t : RTy)
  /-- class number `c` -/
  | cls (c : Nat)
deriving DecidableEq, Repr

/-- UReflectionDefine.h:28-45: the fields of every class, with their ids. -/
abbrev REnv := Nat → List (UInt8 × RTy)

/-- Values. -/
inductive RVal where
  | fixed (b : List UInt8)
  | str (b : List UInt8)
  | vec (l : List RVal)
  | obj (l : List RVal)
deriving Repr

/-- The bytes of a `size_t`. -/
def le (n : Nat) : Nat → List UInt8
  | 0 => []
  | k + 1 => UInt8.ofNat (n % 256) :: le (n / 256) k

/-- The `size_t` with these bytes. -/
def unle : List UInt8 → Nat
  | [] => 0
  | b :: l => b.toNat + 256 * unle l

/-- UReflectionSession.h:17-80; `data_` points to place `base` of the allocation `data`. -/
structure RSess where
  data : List UInt8
  base : Nat
  len : Nat
  offset : Nat
deriving Repr

/-- Why a value is not read: a read outside of the allocation (undefined behaviour), or more steps than allowed in the
model. -/
inductive RErr where
  | oob
  | steps
deriving DecidableEq, Repr

namespace RSess

/-- Overwrite at `pos`. -/
def poke (data : List UInt8) (pos : Nat) (b : List UInt8) : List UInt8 :=
  data.take pos ++ b ++ data.drop (pos + b.length)

/-- UReflectionSession.h:31-34, 41-46: `memcpy` to the current place. -/
def put (s : RSess) (b : List UInt8) : Option RSess :=
  if s.base + s.offset + b.length ≤ s.data.length then
    some { s with data := poke s.data (s.base + s.offset) b, offset := s.offset + b.length }
  else none

/-- UReflectionSession.h:24-29, 36-39: `memcpy` from the current place. -/
def get (s : RSess) (n : Nat) : Except RErr (List UInt8 × RSess) :=
  if s.base + s.offset + n ≤ s.data.length then
    .ok ((s.data.drop (s.base + s.offset)).take n, { s with offset := s.offset + n })
  else .error .oob

/-- UReflectionSession.h:56-58. -/
def setPos (s : RSess) (offset : Nat) (b : List UInt8) : Option RSess :=
  if s.base + offset + b.length ≤ s.data.length then some { s with data := poke s.data (s.base + offset) b } else none

/-- UReflectionSession.h:68-70. -/
def isEmpty (s : RSess) : Bool := s.len ≤ s.offset

end RSess

/-! ## Sizes -/

mutual
/-- UReflectionType.h:117-138 `reflGetSize`. -/
def reflSize (env : REnv) : RVal → RTy → Nat
  | .fixed _, .fixed n => 1 + n
  | .str b, .str => 1 + 8 + b.length
  | .vec l, .vec t => 1 + 8 + reflSizeAll env l t
  | .obj l, .cls c => reflSizeFields env l (env c)
  | _, _ => 0

/-- The loop over the elements. -/
def reflSizeAll (env : REnv) : List RVal → RTy → Nat
  | [], _ => 0
  | v :: l, t => reflSize env v t + reflSizeAll env l t

/-- The fold over the fields. -/
def reflSizeFields (env : REnv) : List RVal → List (UInt8 × RTy) → Nat
  | v :: l, f :: fs => reflSize env v f.2 + reflSizeFields env l fs
  | _, _ => 0
end

/-! ## Writing -/

mutual
/-- UReflectionType.h:141-171 `reflWrite`.  `none`: write outside of the buffer (or a value that is not of the type). -/
def reflWrite (env : REnv) (s : RSess) : RVal → RTy → UInt8 → Option RSess
  | .fixed b, .fixed n, id => if b.length = n then (s.put [id]).bind fun s => s.put b else none
  | .str b, .str, id => (s.put [id]).bind fun s => (s.put (le b.length 8)).bind fun s => s.put b
  | .vec l, .vec t, id =>
    (s.put [id]).bind fun s =>
      (s.put (le 0 8)).bind fun s' =>
        (reflWriteAll env s' l t id).bind fun s'' => s''.setPos s.offset (le (s''.offset - s.offset - 8) 8)
  | .obj l, .cls c, _ => reflWriteFields env s l (env c)
  | _, _, _ => none

/-- The loop over the elements. -/
def reflWriteAll (env : REnv) (s : RSess) : List RVal → RTy → UInt8 → Option RSess
  | [], _, _ => some s
  | v :: l, t, id => (reflWrite env s v t id).bind fun s => reflWriteAll env s l t id

/-- The fold over the fields. -/
def reflWriteFields (env : REnv) (s : RSess) : List RVal → List (UInt8 × RTy) → Option RSess
  | [], [] => some s
  | v :: l, f :: fs => (reflWrite env s v f.2 f.1).bind fun s => reflWriteFields env s l fs
  | _, _ => none
end

/-! ## Reading -/

mutual
/-- UReflectionType.h:174-203 `reflRead` (49-113 for the fixed sizes and the strings).  The first argument bounds the
steps. -/
def reflRead (env : REnv) : Nat → RSess → RTy → Except RErr (RVal × RSess)
  | 0, _, _ => .error .steps
  | _ + 1, s, .fixed n => (s.get 1).bind fun r => (r.2.get n).bind fun r => .ok (.fixed r.1, r.2)
  | _ + 1, s, .str =>
    (s.get 1).bind fun r => (r.2.get 8).bind fun r => (r.2.get (unle r.1)).bind fun r => .ok (.str r.1, r.2)
  | f + 1, s, .vec t =>
    (s.get 1).bind fun r => (r.2.get 8).bind fun r =>
      (reflReadAll env f { data := r.2.data, base := r.2.base + r.2.offset, len := unle r.1, offset := 0 } t).bind fun l =>
        .ok (.vec l, { r.2 with offset := r.2.offset + unle r.1 })
  | f + 1, s, .cls c => (reflReadFields env f s (env c)).bind fun r => .ok (.obj r.1, r.2)

/-- UReflectionType.h:189-193: the loop over the elements. -/
def reflReadAll (env : REnv) : Nat → RSess → RTy → Except RErr (List RVal)
  | 0, _, _ => .error .steps
  | f + 1, s, t =>
    if s.isEmpty then .ok []
    else (reflRead env f s t).bind fun r => (reflReadAll env f r.2 t).bind fun l => .ok (r.1 :: l)

/-- UReflectionType.h:196-199: the fold over the fields. -/
def reflReadFields (env : REnv) : Nat → RSess → List (UInt8 × RTy) → Except RErr (List RVal × RSess)
  | 0, _, _ => .error .steps
  | _ + 1, s, [] => .ok ([], s)
  | f + 1, s, g :: gs =>
    (reflRead env f s g.2).bind fun r => (reflReadFields env f r.2 gs).bind fun q => .ok (r.1 :: q.1, q.2)
end

/-- GStorage.cpp:192-221 with UReflection.h:28-37: the bytes that are written to the file. -/
def saveBytes (env : REnv) (v : RVal) (t : RTy) : Option (List UInt8) :=
  let size := reflSize env v t
  (reflWrite env ⟨List.replicate size 0, 0, size, 0⟩ v t 0).map RSess.data

/-- GStorage.cpp:224-230 with UReflection.h:39-42: the value read from the bytes of the file. -/
def loadBytes (env : REnv) (fuel : Nat) (data : List UInt8) (t : RTy) : Except RErr RVal :=
  (reflRead env fuel ⟨data, 0, data.length, 0⟩ t).map Prod.fst

end CGraph
