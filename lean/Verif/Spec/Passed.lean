import Verif.Model.Passed

/-! What the caller of the passed parameters may rely on: holders keep values, not pointers. -/
namespace CGraph.Spec
open Passed (Op Out Holder)

/-- A value with its type. -/
structure PVal where
  ty : Nat
  val : Nat
deriving DecidableEq, Repr

/-- What a variable of the caller stands for: nothing, an object of the caller, the parameter under a key of a holder, or
something that must not be used any more. -/
inductive Ref
  | null | own (v : PVal) | lent (h k : Nat) | dead
deriving DecidableEq, Repr

/-- Holders with values; there is no memory. -/
structure PSpec where
  slot : Nat → Nat → Option PVal
  inited : Nat → Bool
  gone : Nat → Bool
  vars : Nat → Ref

def PSpec.init : PSpec := ⟨fun _ _ => none, fun _ => false, fun _ => false, fun _ => .null⟩

/-- The value a variable stands for. -/
def PSpec.value (s : PSpec) : Ref → Option PVal
  | .own v => some v
  | .lent h k => s.slot h k
  | _ => none

/-- What is lent from a parameter must not be used after the parameter has been replaced or the holder deleted. -/
def expire (vars : Nat → Ref) (p : Nat → Nat → Bool) : Nat → Ref := fun i =>
  match vars i with
  | .lent h k => if p h k then .dead else .lent h k
  | r => r

/-- One operation; `none`: the caller must not do this.  These are: using what is dead or null, deleting what is lent,
using a deleted holder, and handing to a holder the object it has lent for the same key. -/
def PSpec.step (kind : Nat → Holder) (s : PSpec) : Op → Option (PSpec × Out)
  | .new i ty v => some ({ s with vars := Function.update s.vars i (.own ⟨ty, v⟩) }, .done)
  | .del i =>
    match s.vars i with
    | .null => some (s, .done)
    | .own _ => some ({ s with vars := Function.update s.vars i .dead }, .done)
    | _ => none
  | .write i v =>
    match s.vars i with
    | .own ob => some ({ s with vars := Function.update s.vars i (.own { ob with val := v }) }, .done)
    | .lent h k =>
      some ({ s with slot := fun h' k' => if h' = h ∧ k' = k then (s.slot h k).map (fun ob => { ob with val := v })
                                          else s.slot h' k' }, .done)
    | _ => none
  | .read i => (s.value (s.vars i)).map fun ob => (s, .val ob.val)
  | .set h k i T throws =>
    if s.gone h then none
    else if kind h = .element ∧ s.inited h = true then some (s, .thrown)
    else if s.vars i = .null then some (s, if kind h = .element then .thrown else .done)
    else if s.vars i = .lent h k then none
    else (s.value (s.vars i)).map fun ob =>
      if throws then (s, .thrown)
      else ({ s with slot := fun h' k' => if h' = h ∧ k' = k then some ⟨T, ob.val⟩ else s.slot h' k',
                     vars := expire s.vars (fun h' k' => h' = h ∧ k' = k) }, .done)
  | .get h k T j =>
    if s.gone h then none
    else match s.slot h k with
      | none =>
        some (if kind h = .aspect then (s, .thrown) else ({ s with vars := Function.update s.vars j .null }, .isNull))
      | some ob =>
        some (if kind h = .callback ∨ ob.ty = T then ({ s with vars := Function.update s.vars j (.lent h k) }, .got)
              else ({ s with vars := Function.update s.vars j .null }, .isNull))
  | .initialise h => if s.gone h then none else some ({ s with inited := Function.update s.inited h true }, .done)
  | .drop h =>
    if s.gone h then none
    else some ({ s with slot := fun h' k' => if h' = h then none else s.slot h' k', gone := Function.update s.gone h true,
                        vars := expire s.vars (fun h' _ => h' = h) }, .done)

def PSpec.run (kind : Nat → Holder) : List Op → PSpec → Option (List Out × PSpec)
  | [], s => some ([], s)
  | op :: ops, s => (s.step kind op).bind fun r => (PSpec.run kind ops r.1).map fun q => (r.2 :: q.1, q.2)

/-- No `clone` of the program throws. -/
def NoThrow (ops : List Op) : Prop := ∀ op ∈ ops, ∀ h k i T, op ≠ .set h k i T true

end CGraph.Spec
