import Verif.Model.Separate

/-! # Specification for `checkSeparate`: when elements are executed -/
namespace CGraph.Spec

/-- The configuration is a pipeline: a forest of groups with dependencies between members of one group, without cycles. -/
structure SepWF (c : SepCfg) (fuel : Nat) : Prop where
  kid_iff : ∀ g e, e ∈ c.kids g ↔ c.known e = true ∧ c.belong e = some g
  top_iff : ∀ e, e ∈ c.top ↔ c.known e = true ∧ c.belong e = none
  kids_nodup : ∀ g, (c.kids g).Nodup
  top_nodup : c.top.Nodup
  parent : ∀ e g, c.known e = true → c.belong e = some g → c.known g = true ∧ c.kind g ≠ .node
  tree : ∃ depth : Eid → Nat, (∀ e g, c.belong e = some g → depth g < depth e) ∧ ∀ e, c.known e = true → depth e < fuel
  deps_of : ∀ e d, d ∈ c.deps e → c.known d = true ∧ c.known e = true ∧ c.belong d = c.belong e
  sym : ∀ d e, e ∈ c.succs d ↔ d ∈ c.deps e
  deps_nodup : ∀ e, (c.deps e).Nodup
  succs_nodup : ∀ e, (c.succs e).Nodup
  acyclic : ∃ rank : Eid → Nat, ∀ e d, d ∈ c.deps e → rank d < rank e
  fuel_kids : ∀ g, (c.kids g).length ≤ fuel
  fuel_top : c.top.length ≤ fuel

/-- `x` is `g` or lies inside of it, at any depth. -/
inductive Around (c : SepCfg) (g : Eid) : Eid → Prop where
  | self : Around c g g
  | member {x p : Eid} : c.belong x = some p → Around c g p → Around c g x

/-- Element `e` was executed from `a` to `b`. -/
structure Occ where
  e : Eid
  a : Nat
  b : Nat
deriving DecidableEq, Repr

/-- Two executions overlap in time. -/
def Occ.overlap (x y : Occ) : Prop := x.a < y.b ∧ y.a < x.b

/-- When members of a group may be executed: `used` are those that are executed, from `S` to `T`.  If `strict`, no element
fails. -/
def Fits (c : SepCfg) (strict : Bool) (k : SepKind) (kids : List Eid) (used : Eid → Prop) (S T : Eid → Nat) : Prop :=
  match k with
  | .node => ∀ i ∈ kids, ¬ used i
  | .region => (∀ i ∈ kids, used i → ∀ d ∈ c.deps i, used d ∧ T d ≤ S i) ∧ (strict = true → ∀ i ∈ kids, used i)
  | .cluster => kids.Pairwise (fun i j => used i → used j → T i ≤ S j) ∧ (strict = true → ∀ i ∈ kids, used i)
  | .condition => ∀ i ∈ kids, ∀ j ∈ kids, used i → used j → i = j
  | .multiSerial => kids.Pairwise (fun i j => used i → used j → T i ≤ S j)
  | .multiParallel => True
  | .some => strict = true → ∀ i ∈ kids, used i
  | .mutab => True

/-- `Runs c strict e s t I`: element `e` may be executed from `s` to `t` (in one or several rounds), and `I` are the
executions of `e` and of everything inside of it.  The members of a `some` group may go on after the group has ended. -/
inductive Runs (c : SepCfg) (strict : Bool) : Eid → Nat → Nat → List Occ → Prop where
  | once {e s t : Nat} (used : Eid → Bool) (S T : Eid → Nat) (I : Eid → List Occ) : s ≤ t →
      (∀ i ∈ c.kids e, used i = true → Runs c strict i (S i) (T i) (I i)) →
      (∀ i ∈ c.kids e, used i = true → s ≤ S i ∧ (c.kind e ≠ .some → T i ≤ t)) →
      Fits c strict (c.kind e) (c.kids e) (fun i => used i = true) S T →
      Runs c strict e s t (⟨e, s, t⟩ :: ((c.kids e).filter used).flatMap I)
  | again {e s m m' t : Nat} {I J : List Occ} : Runs c strict e s m I → m ≤ m' → Runs c strict e m' t J →
      Runs c strict e s t (I ++ J)

/-- An execution of the pipeline: its elements are executed like the members of a region. -/
structure RunAll (c : SepCfg) (strict : Bool) (J : List Occ) : Prop where
  ex : ∃ (used : Eid → Bool) (S T : Eid → Nat) (I : Eid → List Occ),
    (∀ i ∈ c.top, used i = true → Runs c strict i (S i) (T i) (I i)) ∧
    Fits c strict .region c.top (fun i => used i = true) S T ∧ J = (c.top.filter used).flatMap I

/-- No group of the pipeline lets its members go on after it has ended. -/
def NoSome (c : SepCfg) : Prop := ∀ e, c.known e = true → c.kind e ≠ .some

end CGraph.Spec
