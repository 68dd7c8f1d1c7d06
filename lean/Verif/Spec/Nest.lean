import Verif.Model.Nest

/-! # Specification for groups that wait -/
namespace CGraph.Spec

/-- The configuration is a pipeline: a tree of groups with dependencies between members of one group, without cycles. -/
structure NestWF (c : NestCfg) : Prop where
  kid_iff : ∀ g e, e ∈ c.kids g ↔ 1 ≤ e ∧ e ≤ c.n ∧ c.parent e = g
  kids_nodup : ∀ g, (c.kids g).Nodup
  parent_lt : ∀ e, 1 ≤ e → e ≤ c.n → c.parent e < e
  parent_zero : c.parent 0 = 0
  group_of : ∀ g, c.kids g ≠ [] → c.group g = true
  group_zero : c.group 0 = true
  deps_of : ∀ e d, d ∈ c.deps e → 1 ≤ e ∧ e ≤ c.n ∧ 1 ≤ d ∧ d < e ∧ c.parent d = c.parent e

/-- A group, other than the pipeline, whose thread may have to wait for other threads. -/
def waits (c : NestCfg) (g : Nat) : Bool := c.group g && !c.serial g

/-- The number of groups whose threads may have to wait. -/
def waiting (c : NestCfg) : Nat := ((List.range c.n).filter (fun i => waits c (i + 1))).length

/-- Every worker may take tasks from the queue of every other. -/
def Covers (c : NestCfg) : Prop := c.W ≤ c.range + 1

end CGraph.Spec
