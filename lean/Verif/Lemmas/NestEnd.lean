import Verif.Lemmas.NestRun
import Mathlib.Algebra.Order.BigOperators.Group.List
import Mathlib.Algebra.Order.Group.Nat

/-! # Nested groups: every execution ends, and where it can end -/
namespace CGraph
open Spec
namespace NestSt

theorem fronts_wait {c : NestCfg} {s : NestSt} (hw : NestWF c) (h : NInv c s) {g : Nat} (hg : s.st g = .entered) :
    ∀ e ∈ c.fronts g, s.st e = .wait := by
  intro e he
  have hk := (hw.kid_iff g e).mp (mem_fronts.mp he).1
  by_contra hne
  have := (h.rel e hne).2.2 hk.1
  rw [hk.2.2, hg] at this
  simp at this

theorem ready_wait {c : NestCfg} {s s1 : NestSt} (h : NInv c s) {x : Nat} (hx : s.st x ≠ .done) :
    ∀ e ∈ readySuccs c s1 x, s.st e = .wait := by
  intro e he
  have he' := (List.mem_filter.mp he).1
  by_contra hne
  exact hx ((h.rel e hne).2.1 x (mem_succs.mp he').2)

theorem release_st_of {s : NestSt} {w : Nat} {l : List Nat} {pick : Option Nat} {pl : Nat → Option Nat} {e : Nat}
    (hl : e ∉ l) (hp : ∀ x, pick = some x → x ∈ l) : (s.release w l pick pl).st e = s.st e := by
  have : pick ≠ some e := fun h => hl (hp e h)
  simp [release, hl, this]

/-! ## Every execution ends -/

/-- How far an element is from its end. -/
def rank : NSt → Nat
  | .wait => 4
  | .queued _ => 3
  | .entered => 2
  | .launched => 1
  | .done => 0

/-- How far a run is from its end. -/
def total (c : NestCfg) (s : NestSt) : Nat := ((List.range (c.n + 1)).map (fun e => rank (s.st e))).sum

theorem total_lt {c : NestCfg} {s s' : NestSt} (h : ∀ e, rank (s'.st e) ≤ rank (s.st e)) {x : Nat} (hx : x ≤ c.n)
    (hlt : rank (s'.st x) < rank (s.st x)) : total c s' < total c s :=
  List.sum_lt_sum _ _ (fun e _ => h e) ⟨x, List.mem_range.mpr (by omega), hlt⟩

theorem release_rank {s : NestSt} {w : Nat} {l : List Nat} {pick : Option Nat} {pl : Nat → Option Nat}
    (hl : ∀ e ∈ l, s.st e = .wait) (hp : ∀ x, pick = some x → x ∈ l) (e : Nat) :
    rank ((s.release w l pick pl).st e) ≤ rank (s.st e) := by
  by_cases he : e ∈ l
  · rw [hl e he]
    by_cases hpe : pick = some e
    · simp [release, hpe, rank]
    · simp [release, hpe, he, rank]
  · rw [release_st_of he hp]

theorem step_total {c : NestCfg} {s s' : NestSt} (hw : NestWF c) (h : NInv c s) {a : NAct} (hs : s.step c a = some s') :
    total c s' < total c s := by
  cases a with
  | take w e =>
    simp only [step] at hs
    split at hs
    · rename_i p hp
      split_ifs at hs with hc
      cases hs
      refine total_lt (x := e) ?_ (h.rel e (by rw [hp]; simp)).1 (by simp [hp, rank])
      intro x
      by_cases hx : x = e
      · subst hx; simp [hp, rank]
      · simp [upd_ne _ _ hx]
    · cases hs
  | launch w pl =>
    simp only [step] at hs
    split at hs
    · rename_i g r hstk
      split_ifs at hs with hc
      cases hs
      have hf := fronts_wait hw h hc.1
      have hgn : g ∉ c.fronts g := fun hh => by have := hf g hh; rw [hc.1] at this; cases this
      have hl : ∀ e ∈ c.fronts g, upd s.st g .launched e = .wait := by
        intro e he
        rw [upd_ne _ _ (by rintro rfl; exact hgn he)]; exact hf e he
      refine total_lt (x := g) ?_ (h.rel g (by rw [hc.1]; simp)).1 ?_
      · intro x
        refine Nat.le_trans (release_rank hl (fun _ => launchPick_mem) x) ?_
        by_cases hx : x = g
        · subst hx; simp [hc.1, rank]
        · simp [upd_ne _ _ hx]
      · rw [release_st_of hgn (fun _ => launchPick_mem)]
        simp [hc.1, rank]
    · cases hs
  | finish w pl =>
    simp only [step] at hs
    split at hs
    · rename_i x r hstk
      split_ifs at hs with hc
      cases hs
      have hxa := h.on w x (by rw [hstk]; simp)
      have hxd : s.st x ≠ .done := by intro hh; rw [hh] at hxa; cases hxa
      have hxw : s.st x ≠ .wait := by intro hh; rw [hh] at hxa; cases hxa
      have hf := ready_wait h (s1 := ⟨upd s.st x .done, upd s.stk w r⟩) hxd
      have hxn : x ∉ readySuccs c ⟨upd s.st x .done, upd s.stk w r⟩ x := fun hh => hxw (hf x hh)
      have hl : ∀ e ∈ readySuccs c ⟨upd s.st x .done, upd s.stk w r⟩ x, upd s.st x .done e = .wait := by
        intro e he
        rw [upd_ne _ _ (by rintro rfl; exact hxn he)]; exact hf e he
      refine total_lt (x := x) ?_ (h.rel x hxw).1 ?_
      · intro e
        refine Nat.le_trans (release_rank hl (fun _ => nextPick_mem) e) ?_
        by_cases he : e = x
        · subst he; simp [rank]
        · simp [upd_ne _ _ he]
      · rw [release_st_of hxn (fun _ => nextPick_mem)]
        rcases active_iff.mp hxa with hh | hh <;> simp [hh, rank]
    · cases hs

theorem effective_le {c : NestCfg} (hw : NestWF c) (as : List NAct) {s : NestSt} (h : NInv c s) :
    effective c s as ≤ total c s := by
  induction as generalizing s with
  | nil => simp [effective]
  | cons a as ih =>
    unfold effective
    cases hs : s.step c a with
    | none => exact ih h
    | some s' =>
      have := ih (h.step hw hs)
      have := step_total hw h hs
      simp only
      omega

theorem total_start (c : NestCfg) : total c (start c) ≤ 4 * (c.n + 1) := by
  have h : ∀ l : List Nat, (l.map (fun e => rank ((start c).st e))).sum ≤ 4 * l.length := by
    intro l
    induction l with
    | nil => simp
    | cons a l ih =>
      have : rank ((start c).st a) ≤ 4 := by
        cases (start c).st a <;> simp [rank]
      simp only [List.map_cons, List.sum_cons, List.length_cons]
      omega
  have := h (List.range (c.n + 1))
  simpa [total] using this

/-! ## Where queued elements are -/

theorem div_perThread {W len i : Nat} (hi : i < len) (hW : W ≠ 0)
    (hp : 0 < len / W + (if len % W = 0 then 0 else 1)) : i / (len / W + (if len % W = 0 then 0 else 1)) < W := by
  rw [Nat.div_lt_iff_lt_mul hp]
  have := Nat.div_add_mod len W
  have hm := Nat.mod_lt len (Nat.pos_of_ne_zero hW)
  split_ifs with h
  · rw [h] at this; rw [Nat.add_zero]; omega
  · rw [Nat.mul_add, Nat.mul_one]; omega

theorem place_lt {c : NestCfg} {e i : Nat} (hk : e ∈ c.kids (c.parent e)) (h : c.mayPlace e (some i) = true) : i < c.W := by
  unfold NestCfg.mayPlace at h
  split at h
  · rename_i hp
    simp only [Bool.and_eq_true, decide_eq_true_eq] at hp
    have hi : i = (c.kids (c.parent e)).idxOf e / c.perThread (c.parent e) := by simpa using h
    have hW : c.W ≠ 0 := by
      intro h0
      have := hp.2
      unfold NestCfg.perThread at this
      rw [h0] at this
      simp at this
      split_ifs at this <;> omega
    rw [hi]
    exact div_perThread (List.idxOf_lt_length_iff.mpr hk) hW (by have := hp.2; unfold NestCfg.perThread at this; omega)
  · split at h
    · simpa using h
    · simp at h
    · split_ifs at h with hj
      · simp at h; omega
      · simp at h

/-- The queues of primary threads are those of the pool. -/
def Placed (c : NestCfg) (s : NestSt) : Prop := ∀ e i, s.st e = .queued (some i) → i < c.W

theorem Placed.step {c : NestCfg} {s s' : NestSt} (hw : NestWF c) (h : Placed c s) {a : NAct}
    (hs : s.step c a = some s') : Placed c s' := by
  have hrel : ∀ (s : NestSt) (w : Nat) (l : List Nat) (pick : Option Nat) (pl : Nat → Option Nat), Placed c s →
      (∀ e ∈ l, c.mayPlace e (pl e) = true ∧ e ∈ c.kids (c.parent e)) → Placed c (s.release w l pick pl) := by
    intro s w l pick pl hp hl e i he
    simp only [release] at he
    split_ifs at he with h1 h2
    · have h3 := hl e h2
      injection he with he
      rw [he] at h3
      exact place_lt h3.2 h3.1
    · exact hp e i he
  have hu : ∀ (x : Nat) (y : NSt) (k : Nat → List Nat), (∀ p, y ≠ .queued p) → Placed c ⟨upd s.st x y, k⟩ := by
    intro x y k hy e i he
    by_cases hx : e = x
    · subst hx
      have : upd s.st e y e = .queued (some i) := he
      rw [upd_self] at this
      exact absurd this (hy _)
    · have : upd s.st x y e = .queued (some i) := he
      rw [upd_ne _ _ hx] at this
      exact h e i this
  have hself : ∀ g e, e ∈ c.kids g → e ∈ c.kids (c.parent e) := by
    intro g e he
    have := (hw.kid_iff g e).mp he
    rw [this.2.2]; exact he
  cases a with
  | take w e =>
    simp only [NestSt.step] at hs
    split at hs
    · split_ifs at hs
      cases hs
      exact hu _ _ _ (by simp)
    · cases hs
  | launch w pl =>
    simp only [NestSt.step] at hs
    split at hs
    · split_ifs at hs with hc
      cases hs
      exact hrel _ _ _ _ _ (hu _ _ _ (by simp)) (fun e he => ⟨hc.2.2 e he, hself _ e (mem_fronts.mp he).1⟩)
    · cases hs
  | finish w pl =>
    simp only [NestSt.step] at hs
    split at hs
    · split_ifs at hs with hc
      cases hs
      refine hrel _ _ _ _ _ (hu _ _ _ (by simp)) (fun e he => ?_)
      have := (List.mem_filter.mp he).1
      exact ⟨hc.2 e this, hself _ e (mem_succs.mp this).1⟩
    · cases hs

theorem Placed.exec {c : NestCfg} (hw : NestWF c) (as : List NAct) {s : NestSt} (h : Placed c s) :
    Placed c (s.exec c as) := by
  induction as generalizing s with
  | nil => exact h
  | cons a as ih =>
    show Placed c (NestSt.exec c ((s.step c a).getD s) as)
    cases hs : s.step c a with
    | none => exact ih h
    | some s' => exact ih (h.step hw hs)

theorem Placed.start (c : NestCfg) : Placed c (start c) := by
  intro e i he
  simp only [NestSt.start] at he
  split_ifs at he

/-! ## States without a next step -/

/-- Every element can be put somewhere. -/
theorem exists_place (c : NestCfg) : ∃ pl : Nat → Option Nat, ∀ e, c.mayPlace e (pl e) = true := by
  have : ∀ e, ∃ p, c.mayPlace e p = true := by
    intro e
    unfold NestCfg.mayPlace
    split_ifs with h
    · exact ⟨_, by simp; rfl⟩
    · cases c.bind e with
      | dflt => exact ⟨none, rfl⟩
      | all => exact ⟨none, rfl⟩
      | thread i => exact ⟨_, by simp; rfl⟩
  exact ⟨fun e => (this e).choose, fun e => (this e).choose_spec⟩

/-- Nothing can go on. -/
def Stuck (c : NestCfg) (s : NestSt) : Prop := ∀ a, s.step c a = none

theorem Stuck.top {c : NestCfg} {s : NestSt} (h : NInv c s) (hst : Stuck c s) {w g : Nat} {r : List Nat}
    (hs : s.stk w = g :: r) : s.st g = .launched ∧ c.group g = true ∧ ∃ k ∈ c.kids g, s.st k ≠ .done := by
  obtain ⟨pl, hpl⟩ := exists_place c
  have ha := h.on w g (by rw [hs]; simp)
  rcases active_iff.mp ha with he | hl
  · exfalso
    cases hgr : c.group g with
    | true =>
      have := hst (.launch w pl)
      simp only [step, hs] at this
      rw [if_pos ⟨he, hgr, fun e _ => hpl e⟩] at this
      cases this
    | false =>
      have := hst (.finish w pl)
      simp only [step, hs] at this
      rw [if_pos ⟨.inl ⟨he, hgr⟩, fun e _ => hpl e⟩] at this
      cases this
  · refine ⟨hl, h.grp g hl, ?_⟩
    by_contra hcon
    have hall : ∀ k ∈ c.kids g, s.st k = .done := by
      intro k hk
      by_contra hh
      exact hcon ⟨k, hk, hh⟩
    have := hst (.finish w pl)
    simp only [step, hs] at this
    rw [if_pos ⟨.inr ⟨hl, hall⟩, fun e _ => hpl e⟩] at this
    cases this

/-- With nothing queued a run that cannot go on has returned. -/
theorem Stuck.returned {c : NestCfg} {s : NestSt} (hw : NestWF c) (h : NInv c s) (hst : Stuck c s)
    (hq : ∀ e p, s.st e ≠ .queued p) : s.returned := by
  have noact : ∀ m e, c.n - e = m → (s.st e).active = false := by
    intro m
    induction m using Nat.strongRecOn with
    | _ m ih =>
      intro e hm
      rw [Bool.eq_false_iff]
      intro ha
      have hen : e ≤ c.n := (h.rel e (by intro hh; rw [hh] at ha; cases ha)).1
      have hi : ∀ x, e < x → x ≤ c.n → (s.st x).active = false := fun x hx hxn => ih (c.n - x) (by omega) x rfl
      obtain ⟨w, hwW, hm'⟩ := h.act e ha
      obtain ⟨l, r, hs⟩ := List.append_of_mem hm'
      rcases List.eq_nil_or_concat l with rfl | ⟨l', a, rfl⟩
      · obtain ⟨hl, -, k, hk, hkd⟩ := Stuck.top h hst (show s.stk w = e :: r from hs)
        -- a first member that has not ended
        have first : ∀ m k, k = m → k ∈ c.kids e → s.st k ≠ .done → False := by
          intro m
          induction m using Nat.strongRecOn with
          | _ m ih2 =>
            intro k hkm hk hkd
            have hki := (hw.kid_iff e k).mp hk
            have hke := hw.parent_lt k hki.1 hki.2.1
            rw [hki.2.2] at hke
            have hna := hi k hke hki.2.1
            have hwait : s.st k = .wait := by
              cases hx : s.st k with
              | wait => rfl
              | queued p => exact absurd hx (hq k p)
              | entered => rw [hx] at hna; cases hna
              | launched => rw [hx] at hna; cases hna
              | done => exact absurd hx hkd
            obtain ⟨d, hd, hdd⟩ := h.held k hki.1 hki.2.1 hwait (by rw [hki.2.2]; exact .inl hl)
            have hdk := hw.deps_of k d hd
            exact ih2 d (by omega) d rfl
              ((hw.kid_iff e d).mpr ⟨hdk.2.2.1, by omega, by rw [hdk.2.2.2.2, hki.2.2]⟩) hdd
        exact first k k rfl hk hkd
      · have hs' : s.stk w = l' ++ a :: e :: r := by rw [hs]; simp
        obtain ⟨ha1, hp, -⟩ := h.chain w l' a e r hs'
        have haa := h.on w a (by rw [hs']; simp)
        have han : a ≤ c.n := (h.rel a (by intro hh; rw [hh] at haa; cases haa)).1
        have := hw.parent_lt a ha1 han
        rw [hp] at this
        rw [hi a this han] at haa
        cases haa
  have h0 := noact _ 0 rfl
  unfold NestSt.returned
  cases hx : s.st 0 with
  | wait => exact absurd hx h.root.1
  | queued p => exact absurd hx (h.root.2 p)
  | entered => rw [hx] at h0; cases h0
  | launched => rw [hx] at h0; cases h0
  | done => rfl

theorem covers_take {c : NestCfg} (hc : Covers c) {w : Nat} (hw : w < c.W) {p : Option Nat}
    (hp : ∀ i, p = some i → i < c.W) : c.canTake w p = true := by
  cases p with
  | none => rfl
  | some i =>
    have hi := hp i rfl
    unfold Covers at hc
    simp only [NestCfg.canTake, Bool.or_eq_true, beq_iff_eq, List.any_eq_true, List.mem_range]
    by_cases hwi : w = i
    · exact .inl hwi
    · right
      rcases Nat.lt_or_gt_of_ne hwi with hlt | hgt
      · exact ⟨i - w - 1, by omega, by rw [show w + (i - w - 1) + 1 = i by omega, Nat.mod_eq_of_lt hi]⟩
      · refine ⟨i + c.W - w - 1, by omega, ?_⟩
        rw [show w + (i + c.W - w - 1) + 1 = i + c.W by omega, Nat.add_mod_right, Nat.mod_eq_of_lt hi]

/-- A run that cannot go on and has not returned has every worker waiting inside a group. -/
theorem Stuck.blocked {c : NestCfg} {s : NestSt} (hw : NestWF c) (hc : Covers c) (h : NInv c s) (hp : Placed c s)
    (hst : Stuck c s) (hr : ¬ s.returned) (w : Nat) (hwW : w < c.W) :
    ∃ g r, s.stk w = g :: r ∧ s.st g = .launched ∧ 1 ≤ g ∧ g ≤ c.n ∧ waits c g = true ∧
      ∃ k ∈ c.kids g, s.st k ≠ .done := by
  have hq : ∃ e p, s.st e = .queued p := by
    by_contra hcon
    exact hr (Stuck.returned hw h hst (fun e p he => hcon ⟨e, p, he⟩))
  obtain ⟨e, p, he⟩ := hq
  cases hs : s.stk w with
  | nil =>
    have := hst (.take w e)
    simp only [step, he] at this
    rw [if_pos ⟨hwW, hs, covers_take hc hwW (fun i hi => hp e i (by rw [he, hi]))⟩] at this
    cases this
  | cons g r =>
    obtain ⟨hl, hgr, k, hk, hkd⟩ := Stuck.top h hst hs
    refine ⟨g, r, rfl, hl, ?_, (h.rel g (by rw [hl]; simp)).1, ?_, k, hk, hkd⟩
    · by_contra hg0
      have : g = 0 := by omega
      subst this
      have hm := h.main (by rw [hl]; rfl)
      have := h.one w c.W 0 (by rw [hs]; simp) hm
      omega
    · unfold waits
      rw [hgr, Bool.true_and]
      cases hser : c.serial g with
      | false => rfl
      | true => exact absurd (h.top w g r hs hl hser k hk) hkd

theorem blocked_le {c : NestCfg} {s : NestSt} (h : NInv c s)
    (hb : ∀ w, w < c.W → ∃ g r, s.stk w = g :: r ∧ 1 ≤ g ∧ g ≤ c.n ∧ waits c g = true) : c.W ≤ waiting c := by
  have hn : ((List.range c.W).map (fun w => (s.stk w).headD 0)).Nodup := by
    refine List.Nodup.map_on ?_ List.nodup_range
    intro w hw v hv he
    obtain ⟨g, r, h1, -⟩ := hb w (List.mem_range.mp hw)
    obtain ⟨g', r', h2, -⟩ := hb v (List.mem_range.mp hv)
    rw [h1, h2] at he
    have : g = g' := he
    subst this
    exact h.one w v g (by rw [h1]; simp) (by rw [h2]; simp)
  have hsub : ((List.range c.W).map (fun w => (s.stk w).headD 0)) ⊆
      ((List.range c.n).filter (fun i => waits c (i + 1))).map (· + 1) := by
    intro x hx
    obtain ⟨w, hw, rfl⟩ := List.mem_map.mp hx
    obtain ⟨g, r, h1, h2, h3, h4⟩ := hb w (List.mem_range.mp hw)
    rw [h1]
    refine List.mem_map.mpr ⟨g - 1, List.mem_filter.mpr ⟨List.mem_range.mpr (by omega), ?_⟩, ?_⟩
    · rw [show g - 1 + 1 = g by omega]; exact h4
    · show g - 1 + 1 = g; omega
  have := (List.subperm_of_subset hn hsub).length_le
  simpa [waiting] using this

/-- When `run` returns every element has ended. -/
theorem NInv.all_done {c : NestCfg} {s : NestSt} (hw : NestWF c) (h : NInv c s) (hr : s.returned) (e : Nat)
    (he : e ≤ c.n) : s.st e = .done := by
  induction e using Nat.strongRecOn with
  | _ e ih =>
    by_cases h0 : e = 0
    · subst h0; exact hr
    · have hlt := hw.parent_lt e (by omega) he
      exact h.kids (c.parent e) (ih _ hlt (by omega)) e ((hw.kid_iff _ e).mpr ⟨by omega, he, rfl⟩)

/-! ## Executions that never return -/

/-- The workers in `B` wait inside groups for elements that only workers in `B` can take. -/
def Trap (c : NestCfg) (B : Nat → Prop) (s : NestSt) : Prop :=
  ∀ w, B w → ∃ g e p, s.stk w = [g] ∧ s.st g = .launched ∧ e ∈ c.kids g ∧ s.st e = .queued p ∧
    ∀ v, v < c.W → c.canTake v p = true → B v

theorem Trap.step {c : NestCfg} {B : Nat → Prop} {s s' : NestSt} (hw : NestWF c)
    (h : NInv c s) (ht : Trap c B s) {a : NAct} (hs : s.step c a = some s') : Trap c B s' := by
  intro w hwB
  obtain ⟨g, e, p, h1, h2, h3, h4, h5⟩ := ht w hwB
  cases a with
  | take v x =>
    simp only [NestSt.step] at hs
    split at hs
    · rename_i q hq
      split_ifs at hs with hc
      cases hs
      have hvB : ¬ B v := by
        intro hv
        obtain ⟨g', -, -, h1', -⟩ := ht v hv
        rw [hc.2.1] at h1'; cases h1'
      have hxe : e ≠ x := by
        rintro rfl
        rw [h4] at hq; cases hq
        exact hvB (h5 v hc.1 hc.2.2)
      have hxg : g ≠ x := by rintro rfl; rw [h2] at hq; cases hq
      have hwv : w ≠ v := by rintro rfl; exact hvB hwB
      refine ⟨g, e, p, ?_, ?_, h3, ?_, h5⟩
      · show upd s.stk v [x] w = _; rw [upd_ne _ _ hwv]; exact h1
      · show upd s.st x _ g = _; rw [upd_ne _ _ hxg]; exact h2
      · show upd s.st x _ e = _; rw [upd_ne _ _ hxe]; exact h4
    · cases hs
  | launch v pl =>
    simp only [NestSt.step] at hs
    split at hs
    · rename_i y r hstk
      split_ifs at hs with hc
      cases hs
      have hwv : w ≠ v := by
        rintro rfl
        rw [h1] at hstk; cases hstk
        rw [h2] at hc; exact absurd hc.1 (by simp)
      have hf := fronts_wait hw h hc.1
      have hg : g ∉ c.fronts y := fun hh => by have := hf g hh; rw [h2] at this; cases this
      have he : e ∉ c.fronts y := fun hh => by have := hf e hh; rw [h4] at this; cases this
      have hyg : g ≠ y := by rintro rfl; rw [h2] at hc; exact absurd hc.1 (by simp)
      have hye : e ≠ y := by rintro rfl; rw [h4] at hc; exact absurd hc.1 (by simp)
      refine ⟨g, e, p, ?_, ?_, h3, ?_, h5⟩
      · simp only [NestSt.release, if_neg hwv]; exact h1
      · rw [release_st_of hg (fun _ => launchPick_mem)]
        show upd s.st y _ g = _; rw [upd_ne _ _ hyg]; exact h2
      · rw [release_st_of he (fun _ => launchPick_mem)]
        show upd s.st y _ e = _; rw [upd_ne _ _ hye]; exact h4
    · cases hs
  | finish v pl =>
    simp only [NestSt.step] at hs
    split at hs
    · rename_i y r hstk
      split_ifs at hs with hc
      cases hs
      have hwv : w ≠ v := by
        rintro rfl
        rw [h1] at hstk; cases hstk
        rcases hc.1 with hh | hh
        · rw [h2] at hh; exact absurd hh.1 (by simp)
        · have := hh.2 e h3; rw [h4] at this; cases this
      have hya := h.on v y (by rw [hstk]; simp)
      have hyd : s.st y ≠ .done := by intro hh; rw [hh] at hya; cases hya
      have hf := ready_wait h (s1 := ⟨upd s.st y .done, upd s.stk v r⟩) hyd
      have hg : g ∉ readySuccs c ⟨upd s.st y .done, upd s.stk v r⟩ y :=
        fun hh => by have := hf g hh; rw [h2] at this; cases this
      have he : e ∉ readySuccs c ⟨upd s.st y .done, upd s.stk v r⟩ y :=
        fun hh => by have := hf e hh; rw [h4] at this; cases this
      have hyg : g ≠ y := by
        rintro rfl
        exact hwv (h.one w v g (by rw [h1]; simp) (by rw [hstk]; simp))
      have hye : e ≠ y := by rintro rfl; rw [h4] at hya; cases hya
      refine ⟨g, e, p, ?_, ?_, h3, ?_, h5⟩
      · simp only [NestSt.release, if_neg hwv]
        show upd s.stk v r w = _; rw [upd_ne _ _ hwv]; exact h1
      · rw [release_st_of hg (fun _ => nextPick_mem)]
        show upd s.st y _ g = _; rw [upd_ne _ _ hyg]; exact h2
      · rw [release_st_of he (fun _ => nextPick_mem)]
        show upd s.st y _ e = _; rw [upd_ne _ _ hye]; exact h4
    · cases hs

theorem Trap.exec {c : NestCfg} {B : Nat → Prop} (hw : NestWF c) (as : List NAct)
    {s : NestSt} (h : NInv c s) (ht : Trap c B s) : Trap c B (s.exec c as) := by
  induction as generalizing s with
  | nil => exact ht
  | cons a as ih =>
    show Trap c B (NestSt.exec c ((s.step c a).getD s) as)
    cases hs : s.step c a with
    | none => exact ih h ht
    | some s' => exact ih (h.step hw hs) (ht.step hw h hs)

theorem Trap.never {c : NestCfg} {B : Nat → Prop} (hw : NestWF c) (hne : ∃ w, B w)
    (as : List NAct) {s : NestSt} (h : NInv c s) (ht : Trap c B s) : ¬ (s.exec c as).returned := by
  intro hr
  obtain ⟨w, hwB⟩ := hne
  obtain ⟨g, e, p, h1, h2, -⟩ := (ht.exec hw as h) w hwB
  have hi := h.exec hw as
  have := hi.all_done hw hr g (hi.rel g (by rw [h2]; simp)).1
  rw [h2] at this; cases this

theorem exec_append (c : NestCfg) (as bs : List NAct) (s : NestSt) : s.exec c (as ++ bs) = (s.exec c as).exec c bs := by
  induction as generalizing s with
  | nil => rfl
  | cons a as ih => exact ih _

end NestSt
end CGraph
