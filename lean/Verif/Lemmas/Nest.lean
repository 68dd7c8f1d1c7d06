import Verif.Spec.Nest
import Mathlib.Data.List.Nodup
import Mathlib.Data.List.Perm.Subperm
import Mathlib.Tactic.SplitIfs

/-! # Invariant of nested groups -/
namespace CGraph
open Spec
namespace NestSt

@[simp] theorem upd_self {α : Type} (f : Nat → α) (i : Nat) (x : α) : upd f i x i = x := by simp [upd]
theorem upd_ne {α : Type} (f : Nat → α) {i k : Nat} (x : α) (h : k ≠ i) : upd f i x k = f k := by simp [upd, h]

/-- Invariant of all executions. -/
structure NInv (c : NestCfg) (s : NestSt) : Prop where
  on : ∀ w e, e ∈ s.stk w → (s.st e).active = true
  act : ∀ e, (s.st e).active = true → ∃ w, w ≤ c.W ∧ e ∈ s.stk w
  nodup : ∀ w, (s.stk w).Nodup
  one : ∀ w v e, e ∈ s.stk w → e ∈ s.stk v → w = v
  chain : ∀ w l a b r, s.stk w = l ++ a :: b :: r → 1 ≤ a ∧ c.parent a = b ∧ s.st b = .launched
  rel : ∀ e, s.st e ≠ .wait → e ≤ c.n ∧ (∀ d ∈ c.deps e, s.st d = .done) ∧
    (1 ≤ e → s.st (c.parent e) = .launched ∨ s.st (c.parent e) = .done)
  held : ∀ e, 1 ≤ e → e ≤ c.n → s.st e = .wait → (s.st (c.parent e) = .launched ∨ s.st (c.parent e) = .done) →
    ∃ d ∈ c.deps e, s.st d ≠ .done
  grp : ∀ e, s.st e = .launched → c.group e = true
  kids : ∀ g, s.st g = .done → ∀ e ∈ c.kids g, s.st e = .done
  top : ∀ w g r, s.stk w = g :: r → s.st g = .launched → c.serial g = true → ∀ e ∈ c.kids g, s.st e = .done
  root : s.st 0 ≠ .wait ∧ ∀ p, s.st 0 ≠ .queued p
  main : (s.st 0).active = true → 0 ∈ s.stk c.W
  out : ∀ w, c.W < w → s.stk w = []

theorem NInv.start {c : NestCfg} (hw : NestWF c) : NInv c (start c) := by
  have hst : ∀ e, e ≠ 0 → (NestSt.start c).st e = .wait := by intro e he; simp [NestSt.start, he]
  have h0 : (NestSt.start c).st 0 = .entered := by simp [NestSt.start]
  have hstk : ∀ w, (NestSt.start c).stk w = if w = c.W then [0] else [] := fun w => rfl
  have ne : ∀ e, (NestSt.start c).st e ≠ .wait → e = 0 := by
    intro e h
    by_contra he
    exact h (hst e he)
  refine ⟨?_, ?_, ?_, ?_, ?_, ?_, ?_, ?_, ?_, ?_, ?_, ?_, ?_⟩
  · intro w e he
    rw [hstk] at he
    split at he <;> simp at he
    subst he; rw [h0]; rfl
  · intro e he
    have := ne e (by intro h; rw [h] at he; cases he)
    subst this
    exact ⟨c.W, Nat.le_refl _, by simp [hstk]⟩
  · intro w; rw [hstk]; split <;> simp
  · intro w v e h1 h2
    rw [hstk] at h1 h2
    split at h1 <;> split at h2 <;> simp_all
  · intro w l a b r h
    rw [hstk] at h
    have := congrArg List.length h
    split at this <;> simp at this <;> omega
  · intro e he
    have := ne e he
    subst this
    refine ⟨by omega, ?_, by omega⟩
    intro d hd
    have := (hw.deps_of 0 d hd).1
    omega
  · intro e h1 h2 _ hp
    exfalso
    by_cases hz : c.parent e = 0
    · rw [hz, h0] at hp; simp at hp
    · rw [hst _ hz] at hp; simp at hp
  · intro e he
    by_cases hz : e = 0
    · subst hz; rw [h0] at he; cases he
    · rw [hst _ hz] at he; cases he
  · intro g hg
    by_cases hz : g = 0
    · subst hz; rw [h0] at hg; cases hg
    · rw [hst _ hz] at hg; cases hg
  · intro w g r _ hg
    by_cases hz : g = 0
    · subst hz; rw [h0] at hg; cases hg
    · rw [hst _ hz] at hg; cases hg
  · rw [h0]; simp
  · intro _; simp [hstk]
  · intro w hw'; rw [hstk, if_neg (by omega)]

theorem active_iff {x : NSt} : x.active = true ↔ x = .entered ∨ x = .launched := by
  cases x <;> simp [NSt.active]

/-- Taking an element from a queue. -/
theorem NInv.take {c : NestCfg} {s : NestSt} (h : NInv c s) {w e : Nat} {p : Option Nat} (he : s.st e = .queued p)
    (hw : w < c.W) (hs : s.stk w = []) : NInv c ⟨upd s.st e .entered, upd s.stk w [e]⟩ := by
  have hne : ∀ x, x ≠ e → upd s.st e .entered x = s.st x := fun x hx => upd_ne _ _ hx
  have hno : ∀ v, e ∉ s.stk v := by
    intro v hv
    have := h.on v e hv
    rw [he] at this; cases this
  have hdone : ∀ x, upd s.st e .entered x = .done ↔ s.st x = .done := by
    intro x
    by_cases hx : x = e
    · subst hx; simp [he]
    · rw [hne x hx]
  have hl : ∀ x, upd s.st e .entered x = .launched ↔ s.st x = .launched := by
    intro x
    by_cases hx : x = e
    · subst hx; simp [he]
    · rw [hne x hx]
  have hwt : ∀ x, upd s.st e .entered x = .wait ↔ s.st x = .wait := by
    intro x
    by_cases hx : x = e
    · subst hx; simp [he]
    · rw [hne x hx]
  have he0 : e ≠ 0 := by rintro rfl; exact h.root.2 p he
  refine ⟨?_, ?_, ?_, ?_, ?_, ?_, ?_, ?_, ?_, ?_, ?_, ?_, ?_⟩
  · intro v x hx
    show (upd s.st e .entered x).active = true
    by_cases hxe : x = e
    · subst hxe; simp [NSt.active]
    · rw [hne x hxe]
      by_cases hv : v = w
      · subst hv
        simp only [upd_self, List.mem_singleton] at hx
        exact absurd hx hxe
      · simp only [upd_ne _ _ hv] at hx
        exact h.on v x hx
  · intro x hx
    by_cases hxe : x = e
    · subst hxe; exact ⟨w, by omega, by simp⟩
    · have hx' : (s.st x).active = true := by rw [← hne x hxe]; exact hx
      obtain ⟨v, hv, hm⟩ := h.act x hx'
      have : v ≠ w := by rintro rfl; rw [hs] at hm; cases hm
      exact ⟨v, hv, by show x ∈ upd s.stk w [e] v; rw [upd_ne _ _ this]; exact hm⟩
  · intro v
    by_cases hv : v = w
    · subst hv; simp
    · show (upd s.stk w [e] v).Nodup; rw [upd_ne _ _ hv]; exact h.nodup v
  · intro v u x h1 h2
    simp only at h1 h2
    by_cases hv : v = w <;> by_cases hu : u = w
    · rw [hv, hu]
    · subst hv
      rw [upd_ne _ _ hu] at h2
      simp only [upd_self, List.mem_singleton] at h1
      subst h1; exact absurd h2 (hno u)
    · subst hu
      rw [upd_ne _ _ hv] at h1
      simp only [upd_self, List.mem_singleton] at h2
      subst h2; exact absurd h1 (hno v)
    · rw [upd_ne _ _ hv] at h1; rw [upd_ne _ _ hu] at h2
      exact h.one v u x h1 h2
  · intro v l a b r hv
    simp only at hv ⊢
    by_cases hvw : v = w
    · subst hvw
      rw [upd_self] at hv
      have := congrArg List.length hv
      simp at this; omega
    · rw [upd_ne _ _ hvw] at hv
      obtain ⟨h1, h2, h3⟩ := h.chain v l a b r hv
      exact ⟨h1, h2, (hl b).mpr h3⟩
  · intro x hx
    obtain ⟨h1, h2, h3⟩ := h.rel x (fun hh => hx ((hwt x).mpr hh))
    exact ⟨h1, fun d hd => (hdone d).mpr (h2 d hd), fun h1 => (h3 h1).imp (hl _).mpr (hdone _).mpr⟩
  · intro x h1 h2 h3 h4
    obtain ⟨d, hd, hd'⟩ := h.held x h1 h2 ((hwt x).mp h3) (h4.imp (hl _).mp (hdone _).mp)
    exact ⟨d, hd, fun hh => hd' ((hdone d).mp hh)⟩
  · intro x hx; exact h.grp x ((hl x).mp hx)
  · intro g hg x hx
    exact (hdone x).mpr (h.kids g ((hdone g).mp hg) x hx)
  · intro v g r hv hg hser x hx
    simp only at hv
    by_cases hvw : v = w
    · subst hvw
      rw [upd_self] at hv
      cases hv
      have : upd s.st e .entered e = .launched := hg
      rw [upd_self] at this; cases this
    · rw [upd_ne _ _ hvw] at hv
      exact (hdone x).mpr (h.top v g r hv ((hl g).mp hg) hser x hx)
  · constructor
    · show upd s.st e .entered 0 ≠ _; rw [hne 0 (Ne.symm he0)]; exact h.root.1
    · intro q; show upd s.st e .entered 0 ≠ _; rw [hne 0 (Ne.symm he0)]; exact h.root.2 q
  · intro hx
    have hx' : (s.st 0).active = true := by rw [← hne 0 (Ne.symm he0)]; exact hx
    show 0 ∈ upd s.stk w [e] c.W
    rw [upd_ne _ _ (by omega)]
    exact h.main hx'
  · intro v hv
    show upd s.stk w [e] v = []
    rw [upd_ne _ _ (by omega)]
    exact h.out v hv

/-- Elements are handed out: the common part of `launch` and `finish`.  `s` is the state in which the group has been marked
as launched or the element as ended and taken from its stack. -/
theorem NInv.release {c : NestCfg} {s : NestSt} {w g : Nat} {l : List Nat} {pick : Option Nat} {pl : Nat → Option Nat}
    (hw : NestWF c) (hwW : w ≤ c.W)
    (on : ∀ w e, e ∈ s.stk w → (s.st e).active = true)
    (act : ∀ e, (s.st e).active = true → ∃ w, w ≤ c.W ∧ e ∈ s.stk w)
    (nodup : ∀ w, (s.stk w).Nodup)
    (one : ∀ w v e, e ∈ s.stk w → e ∈ s.stk v → w = v)
    (chain : ∀ w l a b r, s.stk w = l ++ a :: b :: r → 1 ≤ a ∧ c.parent a = b ∧ s.st b = .launched)
    (rel : ∀ e, s.st e ≠ .wait → e ≤ c.n ∧ (∀ d ∈ c.deps e, s.st d = .done) ∧
      (1 ≤ e → s.st (c.parent e) = .launched ∨ s.st (c.parent e) = .done))
    (held : ∀ e, 1 ≤ e → e ≤ c.n → s.st e = .wait → (s.st (c.parent e) = .launched ∨ s.st (c.parent e) = .done) →
      e ∉ l → ∃ d ∈ c.deps e, s.st d ≠ .done)
    (grp : ∀ e, s.st e = .launched → c.group e = true)
    (kids : ∀ g, s.st g = .done → ∀ e ∈ c.kids g, s.st e = .done)
    (top : pick = none → ∀ g r, s.stk w = g :: r → s.st g = .launched → c.serial g = true →
      ∀ e ∈ c.kids g, s.st e = .done)
    (top' : ∀ v g r, v ≠ w → s.stk v = g :: r → s.st g = .launched → c.serial g = true → ∀ e ∈ c.kids g, s.st e = .done)
    (root : s.st 0 ≠ .wait ∧ ∀ p, s.st 0 ≠ .queued p)
    (main : (s.st 0).active = true → 0 ∈ s.stk c.W)
    (out : ∀ w, c.W < w → s.stk w = [])
    (hl : ∀ e ∈ l, e ∈ c.kids g ∧ s.st e = .wait ∧ ∀ d ∈ c.deps e, s.st d = .done)
    (hg : l ≠ [] → s.st g = .launched)
    (hp : ∀ e, pick = some e → e ∈ l ∧ (∀ b r, s.stk w = b :: r → b = g)) :
    NInv c (s.release w l pick pl) := by
  have hst : ∀ e, s.st e ≠ .wait → (s.release w l pick pl).st e = s.st e := by
    intro e he
    have hnl : e ∉ l := fun h => he (hl e h).2.1
    have hnp : pick ≠ some e := fun h => hnl (hp e h).1
    simp [NestSt.release, hnl, hnp]
  have hnew : ∀ e, e ∈ l → (s.release w l pick pl).st e = .entered ∧ pick = some e ∨
      (s.release w l pick pl).st e = .queued (pl e) ∧ pick ≠ some e := by
    intro e he
    by_cases hpe : pick = some e
    · left; simp [NestSt.release, hpe]
    · right; simp [NestSt.release, he, hpe]
  have hold : ∀ e, e ∉ l → (s.release w l pick pl).st e = s.st e := by
    intro e hnl
    have hnp : pick ≠ some e := fun h => hnl (hp e h).1
    simp [NestSt.release, hnl, hnp]
  have hdone : ∀ e, (s.release w l pick pl).st e = .done ↔ s.st e = .done := by
    intro e
    by_cases he : e ∈ l
    · rcases hnew e he with h | h <;> simp [h.1, (hl e he).2.1]
    · rw [hold e he]
  have hlau : ∀ e, (s.release w l pick pl).st e = .launched ↔ s.st e = .launched := by
    intro e
    by_cases he : e ∈ l
    · rcases hnew e he with h | h <;> simp [h.1, (hl e he).2.1]
    · rw [hold e he]
  have hstkw : (s.release w l pick pl).stk w = pick.toList ++ s.stk w := by simp [NestSt.release]
  have hstk : ∀ v, v ≠ w → (s.release w l pick pl).stk v = s.stk v := by
    intro v hv; simp [NestSt.release, hv]
  have hnot : ∀ e ∈ l, ∀ v, e ∉ s.stk v := by
    intro e he v hv
    have := on v e hv
    rw [(hl e he).2.1] at this; cases this
  refine ⟨?_, ?_, ?_, ?_, ?_, ?_, ?_, ?_, ?_, ?_, ?_, ?_, ?_⟩
  · intro v e he
    have old : e ∈ s.stk v → ((s.release w l pick pl).st e).active = true := by
      intro hm
      have := on v e hm
      rw [hst e (by intro h; rw [h] at this; cases this)]
      exact this
    by_cases hv : v = w
    · subst hv
      rw [hstkw] at he
      rcases List.mem_append.mp he with hm | hm
      · have hpe : pick = some e := by simpa using hm
        rcases hnew e (hp e hpe).1 with h | h
        · rw [h.1]; rfl
        · exact absurd hpe h.2
      · exact old hm
    · rw [hstk v hv] at he; exact old he
  · intro e he
    by_cases hel : e ∈ l
    · rcases hnew e hel with h | h
      · exact ⟨w, hwW, by rw [hstkw, h.2]; simp⟩
      · rw [h.1] at he; cases he
    · rw [hold e hel] at he
      obtain ⟨v, hv, hm⟩ := act e he
      refine ⟨v, hv, ?_⟩
      by_cases hvw : v = w
      · subst hvw; rw [hstkw]; exact List.mem_append_right _ hm
      · rw [hstk v hvw]; exact hm
  · intro v
    by_cases hv : v = w
    · subst hv
      rw [hstkw]
      cases hpk : pick with
      | none => simpa using nodup v
      | some e =>
        simp only [Option.toList_some, List.singleton_append, List.nodup_cons]
        exact ⟨hnot e (hp e hpk).1 v, nodup v⟩
    · rw [hstk v hv]; exact nodup v
  · intro v u e h1 h2
    have key : ∀ v, e ∈ (s.release w l pick pl).stk v → e ∈ s.stk v ∨ v = w ∧ pick = some e := by
      intro v hv
      by_cases hvw : v = w
      · subst hvw
        rw [hstkw] at hv
        rcases List.mem_append.mp hv with hm | hm
        · exact .inr ⟨rfl, by simpa using hm⟩
        · exact .inl hm
      · rw [hstk v hvw] at hv; exact .inl hv
    rcases key v h1 with a | a <;> rcases key u h2 with b | b
    · exact one v u e a b
    · exact absurd a (hnot e (hp e b.2).1 v)
    · exact absurd b (hnot e (hp e a.2).1 u)
    · rw [a.1, b.1]
  · intro v l' a b r hv
    by_cases hvw : v = w
    · subst hvw
      rw [hstkw] at hv
      cases hpk : pick with
      | none =>
        rw [hpk] at hv
        obtain ⟨h1, h2, h3⟩ := chain v l' a b r (by simpa using hv)
        exact ⟨h1, h2, by rw [← hpk]; exact (hlau b).mpr h3⟩
      | some e =>
        rw [hpk] at hv
        simp only [Option.toList_some, List.singleton_append] at hv
        rw [← hpk]
        cases l' with
        | nil =>
          simp only [List.nil_append, List.cons.injEq] at hv
          obtain ⟨rfl, hv⟩ := hv
          have hel := (hp e hpk).1
          have hb := (hp e hpk).2 b r hv
          have hk := (hw.kid_iff g e).mp (hl e hel).1
          refine ⟨hk.1, by rw [hb]; exact hk.2.2, ?_⟩
          rw [hlau, hb]
          exact hg (List.ne_nil_of_mem hel)
        | cons x l' =>
          simp only [List.cons_append, List.cons.injEq] at hv
          obtain ⟨h1, h2, h3⟩ := chain v l' a b r hv.2
          exact ⟨h1, h2, (hlau b).mpr h3⟩
    · rw [hstk v hvw] at hv
      obtain ⟨h1, h2, h3⟩ := chain v l' a b r hv
      exact ⟨h1, h2, (hlau b).mpr h3⟩
  · intro e he
    by_cases hel : e ∈ l
    · have hk := (hw.kid_iff g e).mp (hl e hel).1
      refine ⟨hk.2.1, fun d hd => (hdone d).mpr ((hl e hel).2.2 d hd), fun _ => .inl ?_⟩
      rw [hlau, hk.2.2]
      exact hg (List.ne_nil_of_mem hel)
    · rw [hold e hel] at he
      obtain ⟨h1, h2, h3⟩ := rel e he
      exact ⟨h1, fun d hd => (hdone d).mpr (h2 d hd), fun h1 => (h3 h1).imp (hlau _).mpr (hdone _).mpr⟩
  · intro e h1 h2 h3 h4
    have hel : e ∉ l := by
      intro hel
      rcases hnew e hel with h | h <;> rw [h.1] at h3 <;> cases h3
    rw [hold e hel] at h3
    obtain ⟨d, hd, hd'⟩ := held e h1 h2 h3 (h4.imp (hlau _).mp (hdone _).mp) hel
    exact ⟨d, hd, fun hh => hd' ((hdone d).mp hh)⟩
  · intro e he; exact grp e ((hlau e).mp he)
  · intro x hx e he; exact (hdone e).mpr (kids x ((hdone x).mp hx) e he)
  · intro v x r hv hx hser e he
    rw [hdone]
    by_cases hvw : v = w
    · subst hvw
      rw [hstkw] at hv
      cases hpk : pick with
      | none =>
        rw [hpk] at hv
        exact top hpk x r (by simpa using hv) ((hlau x).mp hx) hser e he
      | some y =>
        rw [hpk] at hv
        simp only [Option.toList_some, List.singleton_append, List.cons.injEq] at hv
        obtain ⟨rfl, -⟩ := hv
        rcases hnew y (hp y hpk).1 with h | h
        · rw [h.1] at hx; cases hx
        · exact absurd hpk h.2
    · rw [hstk v hvw] at hv
      exact top' v x r hvw hv ((hlau x).mp hx) hser e he
  · rw [hst 0 root.1]; exact root
  · intro h0
    rw [hst 0 root.1] at h0
    have := main h0
    by_cases hvw : c.W = w
    · rw [hvw] at this ⊢; rw [hstkw]; exact List.mem_append_right _ this
    · rw [hstk _ hvw]; exact this
  · intro v hv
    rw [hstk v (by omega)]
    exact out v hv

end NestSt
end CGraph
