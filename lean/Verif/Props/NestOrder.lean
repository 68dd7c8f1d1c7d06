import Verif.Lemmas.NestOrder
import Verif.Props.Nest

/-! # The order of nested elements: C87 -/
namespace CGraph
namespace NestSt
open Spec

/-- **C87** (dependencies reach into groups).  Whatever is executed inside of an element that depends, directly or through
others, on `d`, is started after everything inside of `d` has ended; at every moment of every execution, at every depth of
nesting, for every pool. -/
theorem C87_order (c : NestCfg) (hw : NestWF c) (as : List NAct) {d e x y : Nat} (hn : Needs c d e) (hx : Inside c d x)
    (hy : Inside c e y) {l1 l2 : List NEv} (h : runLog c as = l1 ++ .start y :: l2) : NEv.stop x ∈ l1 := by
  have ho := (runLog_inv c hw as).ord
  have key : ∀ e, Needs c d e → ∀ y l1 l2, Inside c e y → runLog c as = l1 ++ NEv.start y :: l2 → NEv.stop x ∈ l1 := by
    intro e hn
    induction hn with
    | direct hd => intro y l1 l2 hy h; exact (ho l1 _ l2 h).2 _ d x hy hd hx
    | @through m e hm hd ih =>
      intro y l1 l2 hy h
      have h1 : NEv.stop m ∈ l1 := (ho l1 _ l2 h).2 _ m m hy hd .self
      obtain ⟨a, b, rfl⟩ := List.append_of_mem h1
      have h2 : NEv.start m ∈ a := (ho a (.stop m) (b ++ NEv.start y :: l2) (by rw [h]; simp)).1
      obtain ⟨a1, a2, rfl⟩ := List.append_of_mem h2
      have := ih m a1 (a2 ++ NEv.stop m :: b ++ NEv.start y :: l2) .self (by rw [h]; simp)
      simp [this]
  exact key e hn y l1 l2 hy h

/-- **C87** (groups enclose their members).  What lies inside of a group is started only after the group has been started
and before it has ended, and a group ends only after everything inside of it has ended. -/
theorem C87_enclose (c : NestCfg) (hw : NestWF c) (as : List NAct) {g x : Nat} (hx : Inside c g x) (hne : x ≠ g)
    {l1 l2 : List NEv} :
    (runLog c as = l1 ++ .start x :: l2 → NEv.start g ∈ l1 ∧ NEv.stop g ∉ l1) ∧
    (runLog c as = l1 ++ .stop g :: l2 → NEv.stop x ∈ l1) := by
  have ho := (runLog_inv c hw as).ord
  exact ⟨fun h => (ho l1 _ l2 h).1 g hx (Ne.symm hne), fun h => (ho l1 _ l2 h).2 x hx hne⟩

/-- **C87** (exactly once).  No element is started or ended twice, none ends that has not been started; when the run has
returned, all elements at all depths have been started and ended once. -/
theorem C87_once (c : NestCfg) (hw : NestWF c) (as : List NAct) :
    (∀ e, (runLog c as).count (.start e) ≤ 1 ∧ (runLog c as).count (.stop e) ≤ (runLog c as).count (.start e)) ∧
    (((start c).exec c as).returned → ∀ e, e ≤ c.n →
      (runLog c as).count (.start e) = 1 ∧ (runLog c as).count (.stop e) = 1) := by
  have hi := runLog_inv c hw as
  have hle : ∀ ev, (runLog c as).count ev ≤ 1 := fun ev => List.nodup_iff_count.mp hi.nodup ev
  have hone : ∀ ev, ev ∈ runLog c as → (runLog c as).count ev = 1 := fun ev h =>
    Nat.le_antisymm (hle ev) (List.count_pos_iff.mpr h)
  refine ⟨fun e => ⟨hle _, ?_⟩, ?_⟩
  · by_cases h : NEv.stop e ∈ runLog c as
    · have h1 := (hi.stop e).mp h
      have h2 := (hi.start e).mpr ⟨h1.1, begun_of_ended h1.2⟩
      rw [hone _ h, hone _ h2]
    · rw [List.count_eq_zero.mpr h]; exact Nat.zero_le _
  · intro hr e he
    have hd := ((NInv.start hw).exec hw as).all_done hw hr e he
    constructor
    · exact hone _ ((hi.start e).mpr ⟨he, by rw [hd]; rfl⟩)
    · exact hone _ ((hi.stop e).mpr ⟨he, by rw [hd]; rfl⟩)

/-- **C87** (how much runs at a time).  However groups are nested, the elements executed at the same time that are no groups
are never more than the primary threads of the pool and the caller. -/
theorem C87_bodies (c : NestCfg) (hw : NestWF c) (as : List NAct) :
    (bodies c ((start c).exec c as)).length ≤ c.W + 1 := by
  have h := (NInv.start hw).exec hw as
  generalize (start c).exec c as = s at h ⊢
  have hb : ∀ e, e ∈ bodies c s → ∃ w, w ≤ c.W ∧ ∃ r, s.stk w = e :: r := by
    intro e he
    simp only [bodies, List.mem_filter, List.mem_range, Bool.and_eq_true, Bool.not_eq_true'] at he
    obtain ⟨-, ⟨h1, h2⟩, h3⟩ := he
    have hact : (s.st e).active = true := by
      cases hst : s.st e <;> rw [hst] at h1 h2 <;> simp_all [hasBegun, hasEnded, NSt.active]
    obtain ⟨w, hwW, hmem⟩ := h.act e hact
    exact ⟨w, hwW, top_of_body h hmem h3⟩
  choose! f hf1 hf2 using hb
  have hnod : ((bodies c s).map f).Nodup := by
    refine List.Nodup.map_on ?_ (List.nodup_range.filter _)
    intro x hx y hy hxy
    obtain ⟨r1, h1⟩ := hf2 x hx
    obtain ⟨r2, h2⟩ := hf2 y hy
    rw [hxy, h2] at h1
    cases h1; rfl
  have hsub : (bodies c s).map f ⊆ List.range (c.W + 1) := by
    intro w hwm
    obtain ⟨e, he, rfl⟩ := List.mem_map.mp hwm
    exact List.mem_range.mpr (Nat.lt_succ_of_le (hf1 e he))
  have := (List.subperm_of_subset hnod hsub).length_le
  simpa using this

/-- Region 2 of the example depends on node 1; nodes 7 and 8 lie two groups deep in it; node 9 depends on 2. -/
example : Needs nestDemo 1 9 ∧ Inside nestDemo 2 7 ∧ Inside nestDemo 2 8 ∧ Inside nestDemo 0 8 := by
  have h6 : Inside nestDemo 2 6 := .member (by decide) (by decide) .self
  have h8 : ∀ x, x = 7 ∨ x = 8 → Inside nestDemo 2 x := by
    rintro x (rfl | rfl) <;> exact .member (by decide) (by decide) h6
  refine ⟨.through (m := 2) (.direct (by decide)) (by decide), h8 7 (.inl rfl), h8 8 (.inr rfl), ?_⟩
  exact .member (by decide) (by decide) (.member (by decide) (by decide) (.member (by decide) (by decide) .self))

/-- What is seen of the run of the example. -/
example : runLog nestDemo nestActs =
    [.start 0, .start 1, .stop 1, .start 2, .start 6, .start 3, .stop 3, .start 4, .stop 4, .start 5, .stop 5,
     .start 8, .stop 8, .start 7, .stop 7, .stop 6, .stop 2, .start 9, .stop 9, .stop 0] := by decide +kernel

end NestSt
end CGraph
