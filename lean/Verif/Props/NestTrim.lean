import Verif.Lemmas.NestTrim

/-! # C91: trimming a pipeline with nested groups -/
namespace CGraph
open Spec

namespace NestTrim

theorem TInv.of {c : TrimCfg} {h : Heap} {depth : Nat} (w : TrimWF c h depth) : TInv c h where
  fresh := w.fresh
  inv := ⟨w.sym, w.deps_nodup, w.succs_nodup, fun e he => w.acyclic e (.single he)⟩
  same := w.same
  acyclic := w.acyclic

theorem waits_congr_mem {c : TrimCfg} {h h' : Heap} (i : TInv c h) {g : Option Eid}
    (hd : ∀ x ∈ c.kids g, ∀ d, d ∈ (h'.elt x).deps ↔ d ∈ (h.elt x).deps) {a b : Eid} (hb : b ∈ c.kids g) :
    WaitsFor h' a b ↔ WaitsFor h a b := by
  constructor
  · intro hab
    have : a ∈ c.kids g ∧ WaitsFor h a b := by
      induction hab using Relation.TransGen.head_induction_on with
      | single hx =>
        have hx := (hd b hb _).1 hx
        exact ⟨(i.same _ b hx g).2 hb, .single hx⟩
      | head hx _ ih =>
        have hx := (hd _ ih.1 _).1 hx
        exact ⟨(i.same _ _ hx g).2 ih.1, .head hx ih.2⟩
    exact this.2
  · intro hab
    have : a ∈ c.kids g ∧ WaitsFor h' a b := by
      induction hab using Relation.TransGen.head_induction_on with
      | single hx => exact ⟨(i.same _ b hx g).2 hb, .single ((hd b hb _).2 hx)⟩
      | head hx _ ih => exact ⟨(i.same _ _ hx g).2 ih.1, .head ((hd _ ih.1 _).2 hx) ih.2⟩
    exact this.2

/-- All that `trim` does, in terms of `kept`. -/
theorem run_spec {c : TrimCfg} {h : Heap} {depth fuel : Nat} (w : TrimWF c h depth)
    (hf : ∀ g, (c.kids g).length ≤ fuel) :
    ∃ h' n, h.trimPipeline c fuel depth = some (h', n) ∧ Post c none h h' n := by
  obtain ⟨ht, h1, h2⟩ := w.tree
  exact nest_spec ⟨w.nodup, w.apart, h1⟩ hf depth none h (TInv.of w) h2

theorem post_sub {c : TrimCfg} {g : Option Eid} {h h' : Heap} {n : Nat} (p : Post c g h h' n) (e : Eid) :
    (h'.elt e).deps.Sublist (h.elt e).deps := by
  by_cases he : ThroughRegions c g e
  · rw [p.2.1 e he]; unfold kept; exact List.filter_sublist
  · rw [p.2.2.1 e he]

/-- The elements of a level are either all reached through regions or none is. -/
theorem through_same {c : TrimCfg} (ap : ∀ g g' e, e ∈ c.kids g → e ∈ c.kids g' → g = g') {k g : Option Eid} {x y : Eid}
    (hx : x ∈ c.kids g) (hy : y ∈ c.kids g) (h : ThroughRegions c k x) : ThroughRegions c k y := by
  obtain ⟨g', h1, h2⟩ := through_level h
  rw [ap _ _ _ hx h1] at hy
  exact h2 y hy

theorem post_waits {c : TrimCfg} {h h' : Heap} {depth n : Nat} (w : TrimWF c h depth) (p : Post c none h h' n)
    {g : Option Eid} {b : Eid} (hb : b ∈ c.kids g) (a : Eid) : WaitsFor h' a b ↔ WaitsFor h a b := by
  have i := TInv.of w
  obtain ⟨ht, h1, -⟩ := w.tree
  have t : Tree c ht := ⟨w.nodup, w.apart, h1⟩
  by_cases hbt : ThroughRegions c none b
  · obtain ⟨k, n1, t1, t2, t3, t4, -, -, -⟩ := trim_deps h (c.kids g) (wf_level t i g) (acyclic_level i g) i.inv i.fresh
      (c.kids g).length (Nat.le_refl _)
    obtain ⟨k', n2, u1, -, u3, -⟩ := C32_trim_keeps_order h (c.kids g) (wf_level t i g) (acyclic_level i g) i.inv i.fresh
      (c.kids g).length (Nat.le_refl _)
    rw [t1] at u1
    obtain ⟨rfl, rfl⟩ := Prod.mk.inj (Option.some.inj u1)
    have h2 := u3 a b hb
    rw [← show WaitsFor k a b ↔ WaitsFor h' a b from
      waits_congr_mem p.1 (fun x hx d => by
        rw [t3 x hx d, p.2.1 x (through_same w.apart hb hx hbt), mem_kept]; rfl) hb]
    exact h2
  · exact waits_congr i (fun x hx => p.2.2.1 x (fun hxt => hbt (through_same w.apart hx hb hxt))) hb

end NestTrim

open NestTrim

/-- **C91** (order): trimming a pipeline ends, only removes dependencies, and in every group at every depth an element has
to wait for exactly the elements it had to wait for before; the result is a pipeline again. -/
theorem C91_order (c : TrimCfg) (h : Heap) (depth fuel : Nat) (w : TrimWF c h depth)
    (hf : ∀ g, (c.kids g).length ≤ fuel) :
    ∃ h' n, h.trimPipeline c fuel depth = some (h', n) ∧ (∀ e, (h'.elt e).deps.Sublist (h.elt e).deps) ∧
      (∀ g, ∀ b ∈ c.kids g, ∀ a, WaitsFor h' a b ↔ WaitsFor h a b) ∧ TrimWF c h' depth := by
  obtain ⟨h', n, r1, p⟩ := run_spec w hf
  refine ⟨h', n, r1, post_sub p, fun g b hb a => post_waits w p hb a, ?_⟩
  have i := p.1
  exact ⟨w.nodup, w.apart, w.tree, i.fresh, i.inv.sym, i.inv.dn, i.inv.sn, i.same, i.acyclic⟩

/-- **C91** (complete, partial: regions inside of clusters, conditions and other groups are not reached): at every level
that is reached through regions only, no remaining dependency is implied by others. -/
theorem C91_complete_partial (c : TrimCfg) (h : Heap) (depth fuel : Nat) (w : TrimWF c h depth)
    (hf : ∀ g, (c.kids g).length ≤ fuel) :
    ∃ h' n, h.trimPipeline c fuel depth = some (h', n) ∧
      ∀ e, ThroughRegions c none e → ∀ d, DependsOn h' d e → ¬ ∃ x, WaitsFor h' d x ∧ WaitsFor h' x e := by
  obtain ⟨h', n, r1, p⟩ := run_spec w hf
  refine ⟨h', n, r1, ?_⟩
  rintro e he d hd ⟨x, hdx, hxe⟩
  obtain ⟨b, hxb, hbe⟩ := Relation.TransGen.tail'_iff.1 hxe
  have hmono : ∀ a b, WaitsFor h' a b → WaitsFor h a b :=
    fun a b => Relation.TransGen.mono (fun _ y hxy => (post_sub p y).subset hxy) a b
  have hdb : WaitsFor h d b := by
    rcases Relation.reflTransGen_iff_eq_or_transGen.1 hxb with rfl | he
    · exact hmono _ _ hdx
    · exact (hmono _ _ hdx).trans (hmono _ _ he)
  unfold DependsOn at hd
  rw [p.2.1 e he, mem_kept] at hd
  exact hd.2 ⟨b, (post_sub p e).subset hbe, hdb⟩

/-- **C91** (only what is redundant goes, and all of it, partial as above): which dependencies remain. -/
theorem C91_exact_partial (c : TrimCfg) (h : Heap) (depth fuel : Nat) (w : TrimWF c h depth)
    (hf : ∀ g, (c.kids g).length ≤ fuel) :
    ∃ h' n, h.trimPipeline c fuel depth = some (h', n) ∧
      ∀ e, ThroughRegions c none e → ∀ d, DependsOn h' d e ↔
        DependsOn h d e ∧ ¬ ∃ x, WaitsFor h d x ∧ WaitsFor h x e := by
  obtain ⟨h', n, r1, p⟩ := run_spec w hf
  refine ⟨h', n, r1, ?_⟩
  intro e he d
  unfold DependsOn
  rw [p.2.1 e he, mem_kept]
  refine and_congr_right fun _ => not_congr ⟨?_, ?_⟩
  · rintro ⟨b, hb, hw⟩; exact ⟨b, hw, .single hb⟩
  · rintro ⟨x, hdx, hxe⟩
    obtain ⟨b, hxb, hbe⟩ := Relation.TransGen.tail'_iff.1 hxe
    refine ⟨b, hbe, ?_⟩
    rcases Relation.reflTransGen_iff_eq_or_transGen.1 hxb with rfl | he
    · exact hdx
    · exact hdx.trans he

/-- **C91** (number): the answer is the number of dependencies that were removed, over all levels. -/
theorem C91_count (c : TrimCfg) (h : Heap) (depth fuel : Nat) (w : TrimWF c h depth)
    (hf : ∀ g, (c.kids g).length ≤ fuel) :
    ∃ h' n, h.trimPipeline c fuel depth = some (h', n) ∧
      ∀ all : List Eid, all.Nodup → (∀ g, ∀ e ∈ c.kids g, e ∈ all) →
        n + (all.map (fun e => (h'.elt e).deps.length)).sum = (all.map (fun e => (h.elt e).deps.length)).sum := by
  obtain ⟨h', n, r1, p⟩ := run_spec w hf
  refine ⟨h', n, r1, fun all ha hal => p.2.2.2 all ha fun e he => ?_⟩
  obtain ⟨g, hg, -⟩ := through_level he
  exact hal g e hg

/-- **C91** (again): trimming a second time removes nothing and answers 0. -/
theorem C91_again (c : TrimCfg) (h : Heap) (depth fuel : Nat) (w : TrimWF c h depth)
    (hf : ∀ g, (c.kids g).length ≤ fuel) (all : List Eid) (hall : ∀ g, ∀ e ∈ c.kids g, e ∈ all) :
    ∃ h' n h'', h.trimPipeline c fuel depth = some (h', n) ∧ h'.trimPipeline c fuel depth = some (h'', 0) ∧
      ∀ e, (h''.elt e).deps = (h'.elt e).deps := by
  obtain ⟨h', n, r1, -, -, w'⟩ := C91_order c h depth fuel w hf
  obtain ⟨h1, n1, r1', hc⟩ := C91_complete_partial c h depth fuel w hf
  rw [r1] at r1'
  obtain ⟨rfl, rfl⟩ := Prod.mk.inj (Option.some.inj r1')
  obtain ⟨h'', m, r2, p⟩ := run_spec w' hf
  have heq : ∀ e, (h''.elt e).deps = (h'.elt e).deps := by
    classical
    intro e
    by_cases he : ThroughRegions c none e
    · rw [p.2.1 e he]
      unfold kept
      rw [List.filter_eq_self]
      intro d hd
      rw [decide_eq_true_eq]
      rintro ⟨b, hb, hw⟩
      exact hc e he d hd ⟨b, hw, .single hb⟩
    · exact p.2.2.1 e he
  have hm : m = 0 := by
    have := p.2.2.2 all.dedup (List.nodup_dedup _) (fun e he => by
      obtain ⟨g, hg, -⟩ := through_level he
      exact List.mem_dedup.2 (hall g e hg))
    simp only [Heap.depCount, heq] at this
    omega
  subst hm
  exact ⟨h', n, h'', r1, r2, heq⟩

/-- **C91** (outside): elements that are not reached through regions keep their dependencies, redundant or not. -/
theorem C91_unreached (c : TrimCfg) (h : Heap) (depth fuel : Nat) (w : TrimWF c h depth)
    (hf : ∀ g, (c.kids g).length ≤ fuel) (e : Eid) (he : ¬ ThroughRegions c none e) :
    ∃ h' n, h.trimPipeline c fuel depth = some (h', n) ∧ (h'.elt e).deps = (h.elt e).deps := by
  obtain ⟨h', n, r1, p⟩ := run_spec w hf
  exact ⟨h', n, r1, p.2.2.1 e he⟩

/-! ## Examples -/

/-- A pipeline `1 → 2 → 3`, `1 → 3`; `2` is a group with the region `4`, and `4` holds `5 → 6 → 7`, `5 → 7`. -/
def exNestCfg (isRegion : Eid → Bool) : TrimCfg :=
  ⟨fun g => match g with
    | none => [1, 2, 3]
    | some 2 => [4]
    | some 4 => [5, 6, 7]
    | _ => [], isRegion⟩

def exNestHeap : Heap := ⟨fun e => match e with
  | 1 => { succs := [2, 3] }
  | 2 => { deps := [1], succs := [3] }
  | 3 => { deps := [1, 2] }
  | 5 => { succs := [6, 7] }
  | 6 => { deps := [5], succs := [7] }
  | 7 => { deps := [5, 6] }
  | _ => {}⟩

theorem exNestHeap_deps (e : Eid) : (exNestHeap.elt e).deps =
    if e = 2 then [1] else if e = 3 then [1, 2] else if e = 6 then [5] else if e = 7 then [5, 6] else [] := by
  unfold exNestHeap; dsimp only; split <;> simp_all

theorem exNestHeap_succs (e : Eid) : (exNestHeap.elt e).succs =
    if e = 1 then [2, 3] else if e = 2 then [3] else if e = 5 then [6, 7] else if e = 6 then [7] else [] := by
  unfold exNestHeap; dsimp only; split <;> simp_all

theorem exNestCfg_kids (f : Eid → Bool) (g : Option Eid) : (exNestCfg f).kids g =
    if g = none then [1, 2, 3] else if g = some 2 then [4] else if g = some 4 then [5, 6, 7] else [] := by
  unfold exNestCfg; dsimp only; split <;> simp_all

theorem exNest_wf (f : Eid → Bool) : TrimWF (exNestCfg f) exNestHeap 3 where
  nodup := by intro g; rw [exNestCfg_kids]; grind
  apart := by intro g g' e; rw [exNestCfg_kids, exNestCfg_kids]; grind
  tree := by
    refine ⟨fun e => if e = 2 then 2 else if e = 4 then 1 else 0, ?_, ?_⟩
    · intro r e; rw [exNestCfg_kids]; grind
    · intro e; rw [exNestCfg_kids]; grind
  fresh := by intro e; unfold exNestHeap; dsimp only; split <;> rfl
  sym := by intro a b; rw [exNestHeap_deps, exNestHeap_succs]; grind
  deps_nodup := by intro e; rw [exNestHeap_deps]; grind
  succs_nodup := by intro e; rw [exNestHeap_succs]; grind
  same := by intro a b; unfold DependsOn; rw [exNestHeap_deps]; intro h g; rw [exNestCfg_kids]; grind
  acyclic := by
    have hlt : ∀ a b, WaitsFor exNestHeap a b → a < b := by
      intro a b hab
      have h0 : ∀ a b, DependsOn exNestHeap a b → a < b := by
        intro a b; unfold DependsOn; rw [exNestHeap_deps]; grind
      induction hab with
      | single h => exact h0 _ _ h
      | tail _ h ih => exact Nat.lt_trans ih (h0 _ _ h)
    exact fun e he => Nat.lt_irrefl _ (hlt e e he)

example : ∀ g, ((exNestCfg (fun e => e == 2 || e == 4)).kids g).length ≤ 3 := by
  intro g; rw [exNestCfg_kids]; grind

/-- All levels are reached when `2` is a region: two dependencies go. -/
example : ThroughRegions (exNestCfg (fun e => e == 2 || e == 4)) none 7 ∧
    (exNestHeap.trimPipeline (exNestCfg (fun e => e == 2 || e == 4)) 3 3).map
      (fun r => (r.2, [1, 2, 3, 4, 5, 6, 7].map (fun e => (r.1.elt e).deps))) =
      some (2, [[], [1], [2], [], [], [5], [6]]) := by
  refine ⟨?_, by decide +kernel⟩
  have h2 : ThroughRegions (exNestCfg (fun e => e == 2 || e == 4)) none 2 := .member (by decide)
  have h4 : ThroughRegions (exNestCfg (fun e => e == 2 || e == 4)) none 4 := .inside h2 rfl (by decide)
  exact .inside h4 rfl (by decide)

theorem exNest_unreached {e : Eid} (h : ThroughRegions (exNestCfg (fun e => e == 4)) none e) : e ∈ [1, 2, 3] := by
  induction h with
  | member h => exact h
  | inside _ hr he ih =>
    rename_i r e _
    have : r = 4 := by simpa [exNestCfg] using hr
    subst this
    simp at ih

/-- **C91** (complete) fails: the region `4` is inside of a cluster `2`, and the redundant dependency of `7` on `5` stays. -/
theorem C91_cluster_violated :
    ∃ (c : TrimCfg) (h : Heap), TrimWF c h 3 ∧ (∀ g, (c.kids g).length ≤ 3) ∧ c.isRegion 4 = true ∧ 7 ∈ c.kids (some 4) ∧
      ∃ h' n, h.trimPipeline c 3 3 = some (h', n) ∧ DependsOn h' 5 7 ∧ WaitsFor h' 5 6 ∧ WaitsFor h' 6 7 := by
  refine ⟨exNestCfg (fun e => e == 4), exNestHeap, exNest_wf _, ?_, rfl, by decide, ?_⟩
  · intro g; rw [exNestCfg_kids]; grind
  · have hu : ∀ e, e ∉ [1, 2, 3] → ∃ h' n, exNestHeap.trimPipeline (exNestCfg (fun e => e == 4)) 3 3 = some (h', n) ∧
        (h'.elt e).deps = (exNestHeap.elt e).deps := fun e he =>
      C91_unreached _ _ 3 3 (exNest_wf _) (by intro g; rw [exNestCfg_kids]; grind) e
        (fun h => he (exNest_unreached h))
    obtain ⟨h', n, r, h7⟩ := hu 7 (by decide)
    obtain ⟨k, m, r', h6⟩ := hu 6 (by decide)
    rw [r] at r'
    obtain ⟨rfl, rfl⟩ := Prod.mk.inj (Option.some.inj r')
    refine ⟨h', n, r, ?_, .single ?_, .single ?_⟩ <;> unfold DependsOn
    · rw [h7]; decide
    · rw [h6]; decide
    · rw [h7]; decide

end CGraph
