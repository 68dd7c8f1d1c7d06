import Verif.Model.NestTrim
import Mathlib.Logic.Relation

namespace CGraph.Spec

/-- `a` is recorded as a dependency of `b`. -/
def DependsOn (h : Heap) (a b : Eid) : Prop := a ∈ (h.elt b).deps

/-- `e` must wait for `d`, directly or through others. -/
def WaitsFor (h : Heap) : Eid → Eid → Prop := Relation.TransGen (DependsOn h)

/-- `e` is in the group `g` (the pipeline for `none`), or in a region in `g`, or in a region in a region in `g`, ... -/
inductive ThroughRegions (c : TrimCfg) (g : Option Eid) : Eid → Prop
  | member {e} : e ∈ c.kids g → ThroughRegions c g e
  | inside {r e} : ThroughRegions c g r → c.isRegion r = true → e ∈ c.kids (some r) → ThroughRegions c g e

/-- The configuration is a pipeline: a tree of groups (of depth at most `depth`), no element initialised, dependencies
recorded on both sides and between elements of the same group only, no cycles. -/
structure TrimWF (c : TrimCfg) (h : Heap) (depth : Nat) : Prop where
  nodup : ∀ g, (c.kids g).Nodup
  apart : ∀ g g' e, e ∈ c.kids g → e ∈ c.kids g' → g = g'
  tree : ∃ height : Eid → Nat, (∀ r e, e ∈ c.kids (some r) → height e < height r) ∧ ∀ e ∈ c.kids none, height e < depth
  fresh : ∀ e, (h.elt e).isInit = false
  sym : ∀ a b, b ∈ (h.elt a).succs ↔ a ∈ (h.elt b).deps
  deps_nodup : ∀ e, (h.elt e).deps.Nodup
  succs_nodup : ∀ e, (h.elt e).succs.Nodup
  same : ∀ a b, DependsOn h a b → ∀ g, a ∈ c.kids g ↔ b ∈ c.kids g
  acyclic : ∀ e, ¬ WaitsFor h e e

end CGraph.Spec
