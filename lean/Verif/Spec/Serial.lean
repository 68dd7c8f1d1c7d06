import Verif.Model.Serial
import Verif.Spec.Separate
import Verif.Spec.Graph
import Verif.Spec.Paths

/-! # Specification for `makeSerial` with groups: the order of one run -/
namespace CGraph.Spec

/-- `l` is an order in which the nodes inside of `e` are executed if nothing fails. -/
inductive InOrder (c : SerCfg) : Eid → List Eid → Prop where
  | node {e : Eid} : c.kind e = .node → InOrder c e [e]
  | cluster {e : Eid} (f : Eid → List Eid) : c.kind e = .cluster → (∀ i ∈ c.kids e, InOrder c i (f i)) →
      InOrder c e ((c.kids e).flatMap f)
  | last {e k : Eid} {l : List Eid} : c.kind e = .condition → c.choose e = -1 → (c.kids e).getLast? = some k →
      InOrder c k l → InOrder c e l
  | pick {e k : Eid} {l : List Eid} (n : Nat) : c.kind e = .condition → c.choose e = n → (c.kids e)[n]? = some k →
      InOrder c k l → InOrder c e l
  | default {e : Eid} : c.kind e = .condition → (c.choose e < -1 ∨ (c.kids e).length ≤ (c.choose e).toNat ∨ c.kids e = []) →
      InOrder c e []
  | multi {e : Eid} (f : Eid → List Eid) : c.kind e = .multiSerial →
      (∀ i ∈ c.kids e, c.isMatch i = true → InOrder c i (f i)) → InOrder c e (((c.kids e).filter c.isMatch).flatMap f)
  | par {e : Eid} : c.kind e = .multiParallel → c.kids e = [] → InOrder c e []
  | region {e : Eid} (f : Eid → List Eid) (o : List Eid) : c.kind e = .region → o.Perm (c.kids e) →
      TopoOrdered (fun d i => d ∈ c.deps i) o → (∀ i ∈ c.kids e, InOrder c i (f i)) → InOrder c e (o.flatMap f)

/-- `l` is an order for the whole pipeline. -/
def InOrderAll (c : SerCfg) (l : List Eid) : Prop :=
  ∃ (f : Eid → List Eid) (o : List Eid), o.Perm c.top ∧ TopoOrdered (fun d i => d ∈ c.deps i) o ∧
    (∀ i ∈ c.top, InOrder c i (f i)) ∧ l = o.flatMap f

/-- On every level with dependencies, all elements have the same binding. -/
def SameBinding (c : SerCfg) : Prop :=
  (∀ a ∈ c.top, ∀ b ∈ c.top, c.bind a = c.bind b) ∧
  ∀ g, c.known g = true → c.kind g = .region → ∀ a ∈ c.kids g, ∀ b ∈ c.kids g, c.bind a = c.bind b

/-- No element, at any depth, has a timeout, and no parallel multi-condition has a member. -/
def NothingParallel (c : SerCfg) : Prop :=
  ∀ e, c.known e = true → c.async e = false ∧ (c.kind e = .multiParallel → c.kids e = [])

/-- The elements `l` of one level form one chain and none has a timeout. -/
def ChainLevel (c : SerCfg) (l : List Eid) : Prop :=
  (∀ e ∈ l, c.async e = false) ∧ ∃ o, o ≠ [] ∧ o.Perm l ∧ IsOneChain c.deps c.succs o

/-- What `makeSerial` accepts: chains in the pipeline and in all regions, executed by the dynamic engine; no some-group, no
mutable group, and no parallel multi-condition with more than one member, at any depth. -/
def Acceptable (c : SerCfg) : Prop :=
  c.topDynamic = true ∧ ChainLevel c c.top ∧
  ∀ e, c.known e = true → c.kind e ≠ .some ∧ c.kind e ≠ .mutab ∧ (c.kind e = .multiParallel → (c.kids e).length ≤ 1) ∧
    (c.kind e = .region → c.dynamic e = true ∧ ChainLevel c (c.kids e))

end CGraph.Spec
