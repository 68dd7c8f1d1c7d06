import Verif.Lemmas.Nest
import Mathlib.Tactic.ByContra

/-! # Steps of nested groups, and their end -/
namespace CGraph
open Spec
namespace NestSt

theorem le_of_stk {c : NestCfg} {s : NestSt} (h : NInv c s) {w e : Nat} {r : List Nat} (hs : s.stk w = e :: r) :
    w ≤ c.W := by
  by_contra hw
  rw [h.out w (by omega)] at hs; cases hs

theorem mem_fronts {c : NestCfg} {g e : Nat} : e ∈ c.fronts g ↔ e ∈ c.kids g ∧ c.deps e = [] := by
  simp [NestCfg.fronts]

theorem mem_succs {c : NestCfg} {x e : Nat} : e ∈ c.succs x ↔ e ∈ c.kids (c.parent x) ∧ x ∈ c.deps e := by
  simp [NestCfg.succs]

theorem launchPick_mem {c : NestCfg} {g e : Nat} (h : c.launchPick g = some e) : e ∈ c.fronts g := by
  unfold NestCfg.launchPick at h
  split_ifs at h
  · exact List.mem_of_mem_head? h
  · obtain ⟨h1, -⟩ := Option.filter_eq_some_iff.mp h
    exact List.mem_of_getLast? h1

theorem nextPick_mem {c : NestCfg} {x e : Nat} {l : List Nat} (h : c.nextPick x l = some e) : e ∈ l := by
  unfold NestCfg.nextPick at h
  split_ifs at h
  · exact List.mem_of_mem_head? h
  · obtain ⟨h1, -⟩ := Option.filter_eq_some_iff.mp h
    exact List.mem_of_getLast? h1
  · obtain ⟨h1, -⟩ := Option.filter_eq_some_iff.mp h
    exact List.mem_of_mem_head? h1

/-- A group hands out its first members. -/
theorem NInv.launch {c : NestCfg} {s : NestSt} (hw : NestWF c) (h : NInv c s) {w g : Nat} {r : List Nat}
    (hs : s.stk w = g :: r) (hg : s.st g = .entered) (hgr : c.group g = true) (pl : Nat → Option Nat) :
    NInv c (NestSt.release ⟨upd s.st g .launched, s.stk⟩ w (c.fronts g) (c.launchPick g) pl) := by
  have hne : ∀ x, x ≠ g → upd s.st g .launched x = s.st x := fun x hx => upd_ne _ _ hx
  have hself : upd s.st g .launched g = .launched := upd_self _ _ _
  have hdone : ∀ x, upd s.st g .launched x = .done ↔ s.st x = .done := by
    intro x
    by_cases hx : x = g
    · subst hx; simp [hg]
    · rw [hne x hx]
  have hwt : ∀ x, upd s.st g .launched x = .wait ↔ s.st x = .wait := by
    intro x
    by_cases hx : x = g
    · subst hx; simp [hg]
    · rw [hne x hx]
  have hact : ∀ x, (upd s.st g .launched x).active = (s.st x).active := by
    intro x
    by_cases hx : x = g
    · subst hx; simp [hg, NSt.active]
    · rw [hne x hx]
  have hlau : ∀ x, s.st x = .launched → upd s.st g .launched x = .launched := by
    intro x hx
    by_cases hxg : x = g
    · subst hxg; exact hself
    · rw [hne x hxg]; exact hx
  have hgn : g ≤ c.n := (h.rel g (by rw [hg]; simp)).1
  have kidw : ∀ e ∈ c.kids g, s.st e = .wait := by
    intro e he
    have hk := (hw.kid_iff g e).mp he
    by_contra hne
    have := (h.rel e hne).2.2 hk.1
    rw [hk.2.2, hg] at this
    simp at this
  refine NInv.release hw (le_of_stk h hs) (g := g) ?_ ?_ h.nodup h.one ?_ ?_ ?_ ?_ ?_ ?_ ?_ ?_ ?_ h.out ?_ ?_ ?_
  · intro v e he; show (upd s.st g .launched e).active = true; rw [hact]; exact h.on v e he
  · intro e he; exact h.act e (by rw [← hact]; exact he)
  · intro v l a b r hv
    obtain ⟨h1, h2, h3⟩ := h.chain v l a b r hv
    exact ⟨h1, h2, hlau b h3⟩
  · intro e he
    obtain ⟨h1, h2, h3⟩ := h.rel e (fun hh => he ((hwt e).mpr hh))
    exact ⟨h1, fun d hd => (hdone d).mpr (h2 d hd), fun h1 => (h3 h1).imp (hlau _) (hdone _).mpr⟩
  · intro e h1 h2 h3 h4 hnf
    have h3' := (hwt e).mp h3
    by_cases hpg : c.parent e = g
    · have hk : e ∈ c.kids g := (hw.kid_iff g e).mpr ⟨h1, h2, hpg⟩
      have hd : c.deps e ≠ [] := fun hd => hnf (mem_fronts.mpr ⟨hk, hd⟩)
      obtain ⟨d, hd⟩ := List.exists_mem_of_ne_nil _ hd
      have hdk := hw.deps_of e d hd
      refine ⟨d, hd, ?_⟩
      have : s.st d = .wait := kidw d ((hw.kid_iff g d).mpr ⟨hdk.2.2.1, by omega, by rw [hdk.2.2.2.2, hpg]⟩)
      rw [ne_eq, hdone, this]; simp
    · have h4' : s.st (c.parent e) = .launched ∨ s.st (c.parent e) = .done := by
        rw [← hne _ hpg]; exact h4
      obtain ⟨d, hd, hd'⟩ := h.held e h1 h2 h3' h4'
      exact ⟨d, hd, fun hh => hd' ((hdone d).mp hh)⟩
  · intro e he
    by_cases heg : e = g
    · subst heg; exact hgr
    · have : upd s.st g .launched e = .launched := he
      rw [hne e heg] at this
      exact h.grp e this
  · intro x hx e he; exact (hdone e).mpr (h.kids x ((hdone x).mp hx) e he)
  · intro hpk x r' hv hx hser e he
    have : x = g := by
      have h1 : s.stk w = x :: r' := hv
      rw [hs] at h1; cases h1; rfl
    subst this
    exfalso
    unfold NestCfg.launchPick at hpk
    rw [if_pos hser] at hpk
    have hf : c.fronts x = [] := by simpa using hpk
    unfold NestCfg.serial at hser
    rw [hf] at hser
    simp at hser
    rw [hser] at he; cases he
  · intro v x r' hvw hv hx hser e he
    have hxg : x ≠ g := by
      rintro rfl
      have h1 : x ∈ s.stk v := by rw [show s.stk v = x :: r' from hv]; simp
      have h2 : x ∈ s.stk w := by rw [hs]; simp
      exact hvw (h.one v w x h1 h2)
    have hx' : s.st x = .launched := by rw [← hne x hxg]; exact hx
    exact (hdone e).mpr (h.top v x r' hv hx' hser e he)
  · by_cases h0 : (0 : Nat) = g
    · subst h0; constructor
      · show upd s.st 0 .launched 0 ≠ _; rw [hself]; simp
      · intro p; show upd s.st 0 .launched 0 ≠ _; rw [hself]; simp
    · constructor
      · show upd s.st g .launched 0 ≠ _; rw [hne 0 h0]; exact h.root.1
      · intro p; show upd s.st g .launched 0 ≠ _; rw [hne 0 h0]; exact h.root.2 p
  · intro h0; exact h.main (by rw [← hact]; exact h0)
  · intro e he
    obtain ⟨h1, h2⟩ := mem_fronts.mp he
    refine ⟨h1, (hwt e).mpr (kidw e h1), ?_⟩
    rw [h2]; simp
  · intro _; exact hself
  · intro e he
    refine ⟨launchPick_mem he, ?_⟩
    intro b r' hb
    have h1 : s.stk w = b :: r' := hb
    rw [hs] at h1; cases h1; rfl

/-- An element ends. -/
theorem NInv.finish {c : NestCfg} {s : NestSt} (hw : NestWF c) (h : NInv c s) {w x : Nat} {r : List Nat}
    (hs : s.stk w = x :: r)
    (hx : s.st x = .entered ∧ c.group x = false ∨ s.st x = .launched ∧ ∀ k ∈ c.kids x, s.st k = .done)
    (pl : Nat → Option Nat) :
    NInv c (NestSt.release ⟨upd s.st x .done, upd s.stk w r⟩ w (readySuccs c ⟨upd s.st x .done, upd s.stk w r⟩ x)
      (c.nextPick x (readySuccs c ⟨upd s.st x .done, upd s.stk w r⟩ x)) pl) := by
  have hne : ∀ e, e ≠ x → upd s.st x .done e = s.st e := fun e he => upd_ne _ _ he
  have hself : upd s.st x .done x = .done := upd_self _ _ _
  have hxa : (s.st x).active = true := by rcases hx with hx | hx <;> rw [hx.1] <;> rfl
  have hxw : s.st x ≠ .wait := by intro hh; rw [hh] at hxa; cases hxa
  have hxn : x ≤ c.n := (h.rel x hxw).1
  have hdone : ∀ e, s.st e = .done → upd s.st x .done e = .done := by
    intro e he
    by_cases hex : e = x
    · subst hex; exact hself
    · rw [hne e hex]; exact he
  have hdone' : ∀ e, upd s.st x .done e = .done → e = x ∨ s.st e = .done := by
    intro e he
    by_cases hex : e = x
    · exact .inl hex
    · rw [hne e hex] at he; exact .inr he
  have hwt : ∀ e, upd s.st x .done e = .wait ↔ s.st e = .wait := by
    intro e
    by_cases hex : e = x
    · subst hex; rw [hself]; simp [hxw]
    · rw [hne e hex]
  have hstkw : upd s.stk w r w = r := upd_self _ _ _
  have hstk : ∀ v, v ≠ w → upd s.stk w r v = s.stk v := fun v hv => upd_ne _ _ hv
  have hsub : ∀ v e, e ∈ upd s.stk w r v → e ∈ s.stk v := by
    intro v e he
    by_cases hv : v = w
    · subst hv; rw [hstkw] at he; rw [hs]; exact List.mem_cons_of_mem _ he
    · rw [hstk v hv] at he; exact he
  have hnd := h.nodup w
  rw [hs, List.nodup_cons] at hnd
  have hnox : ∀ v, x ∉ upd s.stk w r v := by
    intro v hv
    by_cases hvw : v = w
    · subst hvw; rw [hstkw] at hv; exact hnd.1 hv
    · rw [hstk v hvw] at hv
      exact hvw (h.one v w x hv (by rw [hs]; simp))
  -- the group below and the group of `x`
  have hbelow : ∀ b r', r = b :: r' → 1 ≤ x ∧ c.parent x = b ∧ s.st b = .launched := by
    intro b r' hr
    exact h.chain w [] x b r' (by rw [hs, hr]; rfl)
  have hkidx : ∀ e, e ∈ c.kids (c.parent x) → ∀ d, d ∈ c.deps e → c.parent d = c.parent x := by
    intro e he d hd
    have := hw.deps_of e d hd
    rw [this.2.2.2.2, ((hw.kid_iff _ e).mp he).2.2]
  have hready : ∀ e, e ∈ readySuccs c ⟨upd s.st x .done, upd s.stk w r⟩ x ↔
      e ∈ c.kids (c.parent x) ∧ x ∈ c.deps e ∧ ∀ d ∈ c.deps e, upd s.st x .done d = .done := by
    intro e
    simp only [readySuccs, List.mem_filter, mem_succs, List.all_eq_true, decide_eq_true_eq, and_assoc]
  have hx1 : ∀ e, x ∈ c.deps e → 1 ≤ x ∧ e ≠ x ∧ s.st e = .wait := by
    intro e he
    have := hw.deps_of e x he
    refine ⟨this.2.2.1, by omega, ?_⟩
    by_contra hne'
    have := (h.rel e hne').2.1 x he
    rw [this] at hxa; cases hxa
  have hparL : ∀ e, x ∈ c.deps e → s.st (c.parent x) = .launched := by
    intro e he
    obtain ⟨h1, -, -⟩ := hx1 e he
    rcases (h.rel x hxw).2.2 h1 with hp | hp
    · exact hp
    · have := h.kids _ hp x ((hw.kid_iff _ x).mpr ⟨h1, hxn, rfl⟩)
      rw [this] at hxa; cases hxa
  have hparx : 1 ≤ x → c.parent x ≠ x := by
    intro h1
    have := hw.parent_lt x h1 hxn
    omega
  refine NInv.release hw (le_of_stk h hs) (g := c.parent x) ?_ ?_ ?_ ?_ ?_ ?_ ?_ ?_ ?_ ?_ ?_ ?_ ?_ ?_ ?_ ?_ ?_
  · intro v e he
    have hex : e ≠ x := by rintro rfl; exact hnox v he
    show (upd s.st x .done e).active = true
    rw [hne e hex]
    exact h.on v e (hsub v e he)
  · intro e he
    have hex : e ≠ x := by
      rintro rfl
      have : (upd s.st e .done e).active = true := he
      rw [hself] at this; cases this
    have he' : (s.st e).active = true := by rw [← hne e hex]; exact he
    obtain ⟨v, hv, hm⟩ := h.act e he'
    refine ⟨v, hv, ?_⟩
    show e ∈ upd s.stk w r v
    by_cases hvw : v = w
    · subst hvw
      rw [hstkw]
      rw [hs] at hm
      rcases List.mem_cons.mp hm with hm | hm
      · exact absurd hm hex
      · exact hm
    · rw [hstk v hvw]; exact hm
  · intro v
    show (upd s.stk w r v).Nodup
    by_cases hvw : v = w
    · subst hvw; rw [hstkw]; exact hnd.2
    · rw [hstk v hvw]; exact h.nodup v
  · intro v u e h1 h2
    exact h.one v u e (hsub v e h1) (hsub u e h2)
  · intro v l a b r' hv
    have hbx : b ≠ x := by
      rintro rfl
      refine hnox v ?_
      rw [show upd s.stk w r v = l ++ a :: b :: r' from hv]; simp
    show _ ∧ _ ∧ upd s.st x .done b = .launched
    rw [hne b hbx]
    by_cases hvw : v = w
    · subst hvw
      have hv' : r = l ++ a :: b :: r' := by rw [← hstkw]; exact hv
      exact h.chain v (x :: l) a b r' (by rw [hs, hv']; rfl)
    · exact h.chain v l a b r' (by rw [← hstk v hvw]; exact hv)
  · intro e he
    have he' : s.st e ≠ .wait := fun hh => he ((hwt e).mpr hh)
    obtain ⟨h1, h2, h3⟩ := h.rel e he'
    refine ⟨h1, fun d hd => hdone d (h2 d hd), fun h4 => ?_⟩
    show upd s.st x .done (c.parent e) = _ ∨ upd s.st x .done (c.parent e) = _
    by_cases hpx : c.parent e = x
    · rw [hpx, hself]; exact .inr rfl
    · rw [hne _ hpx]; exact h3 h4
  · intro e h1 h2 h3 h4 hnl
    have h3' := (hwt e).mp h3
    show ∃ d ∈ c.deps e, upd s.st x .done d ≠ .done
    by_contra hcon
    have hall : ∀ d ∈ c.deps e, upd s.st x .done d = .done := by
      intro d hd
      by_contra hh
      exact hcon ⟨d, hd, hh⟩
    have hpx : c.parent e ≠ x := by
      intro hpx
      -- `x` is a group; its members have ended
      rcases hx with hx | hx
      · have := hw.group_of x (List.ne_nil_of_mem ((hw.kid_iff x e).mpr ⟨h1, h2, hpx⟩))
        rw [hx.2] at this; cases this
      · have := hx.2 e ((hw.kid_iff x e).mpr ⟨h1, h2, hpx⟩)
        rw [this] at h3'; cases h3'
    have h4' : s.st (c.parent e) = .launched ∨ s.st (c.parent e) = .done := by
      rw [← hne _ hpx]; exact h4
    obtain ⟨d, hd, hd'⟩ := h.held e h1 h2 h3' h4'
    have hdx : d = x := by
      rcases hdone' d (hall d hd) with hh | hh
      · exact hh
      · exact absurd hh hd'
    subst hdx
    have hpe : c.parent e = c.parent d := (hw.deps_of e d hd).2.2.2.2.symm
    exact hnl ((hready e).mpr ⟨(hw.kid_iff _ e).mpr ⟨h1, h2, hpe⟩, hd, hall⟩)
  · intro e he
    have he' : upd s.st x .done e = .launched := he
    by_cases hex : e = x
    · subst hex; rw [hself] at he'; cases he'
    · rw [hne e hex] at he'; exact h.grp e he'
  · intro g hg e he
    show upd s.st x .done e = .done
    rcases hdone' g hg with rfl | hg
    · rcases hx with hx | hx
      · have := hw.group_of g (List.ne_nil_of_mem he)
        rw [hx.2] at this; cases this
      · exact hdone e (hx.2 e he)
    · exact hdone e (h.kids g hg e he)
  · intro hpk g r' hv hg hser e he
    have hr : r = g :: r' := by rw [← hstkw]; exact hv
    obtain ⟨hx1', hpg, hgl⟩ := hbelow g r' hr
    subst hpg
    show upd s.st x .done e = .done
    -- nothing became ready
    unfold NestCfg.nextPick at hpk
    rw [if_pos hser] at hpk
    have hnil : readySuccs c ⟨upd s.st x .done, upd s.stk w r⟩ x = [] := by simpa using hpk
    have hxk : x ∈ c.kids (c.parent x) := (hw.kid_iff _ x).mpr ⟨hx1', hxn, rfl⟩
    -- `x` is not linkable
    have single : ∀ y, y ∈ c.kids (c.parent x) → c.linkable y = true →
        ∃ k, k ∈ c.kids (c.parent x) ∧ c.deps k = [y] := by
      intro y hy hl
      unfold NestCfg.linkable at hl
      split at hl
      · rename_i k hk
        have hkm : k ∈ c.succs y := by rw [hk]; simp
        obtain ⟨h1, h2⟩ := mem_succs.mp hkm
        rw [((hw.kid_iff _ y).mp hy).2.2] at h1
        simp only [Bool.and_eq_true, beq_iff_eq] at hl
        obtain ⟨z, hz⟩ := List.length_eq_one_iff.mp hl.1
        rw [hz, List.mem_singleton] at h2
        exact ⟨k, h1, by rw [hz, h2]⟩
      · cases hl
    have hxnl : c.linkable x = false := by
      rw [Bool.eq_false_iff]
      intro hl
      obtain ⟨k, h1, h2⟩ := single x hxk hl
      have : k ∈ readySuccs c ⟨upd s.st x .done, upd s.stk w r⟩ x :=
        (hready k).mpr ⟨h1, by rw [h2]; simp, by rw [h2]; simp⟩
      rw [hnil] at this; cases this
    have hlk : ∀ y, y ∈ c.kids (c.parent x) → y ≠ x → c.linkable y = true := by
      intro y hy hyx
      by_contra hl
      have hl' : c.linkable y = false := by simpa using hl
      unfold NestCfg.serial at hser
      have hne' : c.kids (c.parent x) ≠ [] := List.ne_nil_of_mem hy
      simp only [Bool.or_eq_true, List.isEmpty_iff, hne', Bool.and_eq_true, beq_iff_eq, false_or] at hser
      obtain ⟨z, hz⟩ := List.length_eq_one_iff.mp hser.2
      have m1 : x ∈ (c.kids (c.parent x)).filter (fun e => !c.linkable e) := List.mem_filter.mpr ⟨hxk, by simp [hxnl]⟩
      have m2 : y ∈ (c.kids (c.parent x)).filter (fun e => !c.linkable e) := List.mem_filter.mpr ⟨hy, by simp [hl']⟩
      rw [hz, List.mem_singleton] at m1 m2
      exact hyx (by rw [m2, m1])
    -- go up the chain
    have up : ∀ m y, c.n - y = m → y ∈ c.kids (c.parent x) → upd s.st x .done y = .done := by
      intro m
      induction m using Nat.strongRecOn with
      | _ m ih =>
        intro y hm hy
        by_cases hyx : y = x
        · subst hyx; exact hself
        · obtain ⟨k, hk1, hk2⟩ := single y hy (hlk y hy hyx)
          have hkn := (hw.kid_iff _ k).mp hk1
          have hyk := (hw.deps_of k y (by rw [hk2]; simp)).2.2.2.1
          have hkd := ih (c.n - k) (by omega) k rfl hk1
          have : s.st k ≠ .wait := by
            intro hh
            rcases hdone' k hkd with rfl | hh'
            · exact hxw hh
            · rw [hh] at hh'; cases hh'
          exact hdone y ((h.rel k this).2.1 y (by rw [hk2]; simp))
    exact up _ e rfl he
  · intro v g r' hvw hv hg hser e he
    have hv' : s.stk v = g :: r' := by rw [← hstk v hvw]; exact hv
    have hgx : g ≠ x := by
      rintro rfl
      refine hnox v ?_
      rw [hstk v hvw, hv']; simp
    have hg' : s.st g = .launched := by rw [← hne g hgx]; exact hg
    exact hdone e (h.top v g r' hv' hg' hser e he)
  · by_cases h0 : (0 : Nat) = x
    · subst h0
      constructor
      · show upd s.st 0 .done 0 ≠ _; rw [hself]; simp
      · intro p; show upd s.st 0 .done 0 ≠ _; rw [hself]; simp
    · constructor
      · show upd s.st x .done 0 ≠ _; rw [hne 0 h0]; exact h.root.1
      · intro p; show upd s.st x .done 0 ≠ _; rw [hne 0 h0]; exact h.root.2 p
  · intro h0
    have h0' : (upd s.st x .done 0).active = true := h0
    by_cases hzx : (0 : Nat) = x
    · subst hzx; rw [hself] at h0'; cases h0'
    · rw [hne 0 hzx] at h0'
      have := h.main h0'
      show 0 ∈ upd s.stk w r c.W
      by_cases hvw : c.W = w
      · rw [hvw, hstkw]
        rw [hvw, hs] at this
        rcases List.mem_cons.mp this with hh | hh
        · exact absurd hh hzx
        · exact hh
      · rw [hstk _ hvw]; exact this
  · intro v hv
    show upd s.stk w r v = []
    rw [hstk v (by have := le_of_stk h hs; omega)]
    exact h.out v hv
  · intro e he
    obtain ⟨h1, h2, h3⟩ := (hready e).mp he
    exact ⟨h1, (hwt e).mpr (hx1 e h2).2.2, h3⟩
  · intro hnn
    obtain ⟨e, he⟩ := List.exists_mem_of_ne_nil _ hnn
    obtain ⟨h1, h2, h3⟩ := (hready e).mp he
    show upd s.st x .done (c.parent x) = .launched
    rw [hne _ (hparx (hx1 e h2).1)]
    exact hparL e h2
  · intro e he
    refine ⟨nextPick_mem he, ?_⟩
    intro b r' hb
    have hr : r = b :: r' := by rw [← hstkw]; exact hb
    exact (hbelow b r' hr).2.1.symm

theorem NInv.step {c : NestCfg} {s s' : NestSt} (hw : NestWF c) (h : NInv c s) {a : NAct} (hs : s.step c a = some s') :
    NInv c s' := by
  cases a with
  | take w e =>
    simp only [NestSt.step] at hs
    split at hs
    · split_ifs at hs with hc
      cases hs
      exact h.take (by assumption) hc.1 hc.2.1
    · cases hs
  | launch w pl =>
    simp only [NestSt.step] at hs
    split at hs
    · split_ifs at hs with hc
      cases hs
      exact h.launch hw (by assumption) hc.1 hc.2.1 pl
    · cases hs
  | finish w pl =>
    simp only [NestSt.step] at hs
    split at hs
    · split_ifs at hs with hc
      cases hs
      exact h.finish hw (by assumption) hc.1 pl
    · cases hs

theorem NInv.exec {c : NestCfg} (hw : NestWF c) (as : List NAct) {s : NestSt} (h : NInv c s) : NInv c (s.exec c as) := by
  induction as generalizing s with
  | nil => exact h
  | cons a as ih =>
    show NInv c (NestSt.exec c ((s.step c a).getD s) as)
    cases hs : s.step c a with
    | none => exact ih h
    | some s' => exact ih (h.step hw hs)

end NestSt
end CGraph
