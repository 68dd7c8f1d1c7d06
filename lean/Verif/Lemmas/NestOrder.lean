import Verif.Spec.NestOrder
import Verif.Lemmas.NestEnd
import Mathlib.Tactic.ByContra
import Mathlib.Data.List.Induction

/-! # The order of nested elements: lemmas -/
namespace CGraph
namespace NestSt
open Spec

theorem hasEnded_iff {x : NSt} : hasEnded x = true ↔ x = .done := by cases x <;> simp [hasEnded]

theorem begun_of_ended {x : NSt} (h : hasEnded x = true) : hasBegun x = true := by
  cases x <;> simp_all [hasEnded, hasBegun]

theorem begun_ne_wait {x : NSt} (h : hasBegun x = true) : x ≠ .wait := by
  rintro rfl; cases h

theorem active_begun {x : NSt} (h : x.active = true) : hasBegun x = true := by
  cases x <;> simp_all [NSt.active, hasBegun]

/-- What one step does to the states. -/
structure Delta (s s' : NestSt) : Prop where
  ended : ∀ e, hasEnded (s.st e) = true → hasEnded (s'.st e) = true
  begun : ∀ e, hasBegun (s.st e) = true → hasBegun (s'.st e) = true
  fresh : ∀ e, hasBegun (s.st e) = false → hasBegun (s'.st e) = true → s'.st e = .entered
  single : ∀ e f, hasEnded (s.st e) = false → hasEnded (s.st f) = false → hasEnded (s'.st e) = true →
    hasEnded (s'.st f) = true → e = f
  last : ∀ e, hasEnded (s.st e) = false → hasEnded (s'.st e) = true → hasBegun (s.st e) = true

theorem Delta.refl (s : NestSt) : Delta s s where
  ended := fun _ h => h
  begun := fun _ h => h
  fresh := fun e h1 h2 => by rw [h1] at h2; cases h2
  single := fun e f h1 _ h2 _ => by rw [h1] at h2; cases h2
  last := fun e h1 h2 => by rw [h1] at h2; cases h2

/-- One element changes and waiting elements are handed out. -/
theorem Delta.release {s : NestSt} {w x : Nat} {y : NSt} {stk : Nat → List Nat} {l : List Nat} {pick : Option Nat}
    {pl : Nat → Option Nat} (hx : hasBegun (s.st x) = true) (hxn : hasEnded (s.st x) = false)
    (hy : hasBegun y = true) (hl : ∀ e ∈ l, s.st e = .wait) (hp : ∀ e, pick = some e → e ∈ l) :
    Delta s (NestSt.release ⟨upd s.st x y, stk⟩ w l pick pl) := by
  have hxl : x ∉ l := by
    intro h; rw [hl x h] at hx; cases hx
  have hstx : (NestSt.release ⟨upd s.st x y, stk⟩ w l pick pl).st x = y := by
    rw [release_st_of hxl hp]; exact upd_self _ _ _
  have hst : ∀ e, e ≠ x → e ∉ l → (NestSt.release ⟨upd s.st x y, stk⟩ w l pick pl).st e = s.st e := by
    intro e h1 h2
    rw [release_st_of h2 hp]; exact upd_ne _ _ h1
  have hstl : ∀ e, e ∈ l → (NestSt.release ⟨upd s.st x y, stk⟩ w l pick pl).st e = .entered ∨
      ∃ p, (NestSt.release ⟨upd s.st x y, stk⟩ w l pick pl).st e = .queued p := by
    intro e he
    simp only [NestSt.release]
    by_cases h : pick = some e
    · left; simp [h]
    · right; exact ⟨pl e, by simp [h, he]⟩
  have hne : ∀ e, e ∈ l → hasEnded ((NestSt.release ⟨upd s.st x y, stk⟩ w l pick pl).st e) = false := by
    intro e he
    rcases hstl e he with h | ⟨p, h⟩ <;> rw [h] <;> rfl
  have key : ∀ e, hasEnded (s.st e) = false →
      hasEnded ((NestSt.release ⟨upd s.st x y, stk⟩ w l pick pl).st e) = true → e = x := by
    intro e h1 h2
    by_contra hex
    by_cases hel : e ∈ l
    · rw [hne e hel] at h2; cases h2
    · rw [hst e hex hel, h1] at h2; cases h2
  refine ⟨?_, ?_, ?_, ?_, ?_⟩
  · intro e he
    have h1 : e ≠ x := by rintro rfl; rw [hxn] at he; cases he
    have h2 : e ∉ l := by intro h; rw [hl e h] at he; cases he
    rw [hst e h1 h2]; exact he
  · intro e he
    by_cases h1 : e = x
    · subst h1; rw [hstx]; exact hy
    · have h2 : e ∉ l := by intro h; rw [hl e h] at he; cases he
      rw [hst e h1 h2]; exact he
  · intro e h1 h2
    have hex : e ≠ x := by rintro rfl; rw [hx] at h1; cases h1
    by_cases hel : e ∈ l
    · rcases hstl e hel with h | ⟨p, h⟩
      · exact h
      · rw [h] at h2; cases h2
    · rw [hst e hex hel, h1] at h2; cases h2
  · intro e f h1 h2 h3 h4
    rw [key e h1 h3, key f h2 h4]
  · intro e h1 h2
    rw [key e h1 h2]; exact hx

theorem Delta.step {c : NestCfg} {s s' : NestSt} (hw : NestWF c) (h : NInv c s) {a : NAct}
    (hs : s.step c a = some s') : Delta s s' := by
  cases a with
  | take w e =>
    simp only [NestSt.step] at hs
    split at hs
    · rename_i p hp
      split at hs
      · cases hs
        have hne : ∀ x, x ≠ e → (upd s.st e NSt.entered) x = s.st x := fun x hx => upd_ne _ _ hx
        have hself : (upd s.st e NSt.entered) e = .entered := upd_self _ _ _
        have key : ∀ x, hasEnded (s.st x) = false → hasEnded ((upd s.st e NSt.entered) x) = true → False := by
          intro x h1 h2
          by_cases hx : x = e
          · subst hx; rw [hself] at h2; cases h2
          · rw [hne x hx, h1] at h2; cases h2
        refine ⟨?_, ?_, ?_, ?_, ?_⟩
        · intro x hx
          have : x ≠ e := by rintro rfl; rw [hp] at hx; cases hx
          show hasEnded (upd s.st e NSt.entered x) = true
          rw [hne x this]; exact hx
        · intro x hx
          show hasBegun (upd s.st e NSt.entered x) = true
          by_cases hxe : x = e
          · subst hxe; rw [hself]; rfl
          · rw [hne x hxe]; exact hx
        · intro x h1 h2
          show upd s.st e NSt.entered x = _
          by_cases hxe : x = e
          · subst hxe; exact hself
          · have h2' : hasBegun (upd s.st e NSt.entered x) = true := h2
            rw [hne x hxe, h1] at h2'; cases h2'
        · intro x y h1 _ h3 _
          exact (key x h1 h3).elim
        · intro x h1 h3
          exact (key x h1 h3).elim
      · cases hs
    · cases hs
  | launch w pl =>
    simp only [NestSt.step] at hs
    split at hs
    · rename_i g r hg
      split at hs
      · rename_i hc
        cases hs
        refine Delta.release ?_ ?_ rfl ?_ (fun e he => launchPick_mem he)
        · rw [hc.1]; rfl
        · rw [hc.1]; rfl
        · exact fronts_wait hw h hc.1
      · cases hs
    · cases hs
  | finish w pl =>
    simp only [NestSt.step] at hs
    split at hs
    · rename_i x r hx
      split at hs
      · rename_i hc
        cases hs
        have hact : hasBegun (s.st x) = true ∧ hasEnded (s.st x) = false := by
          rcases hc.1 with h1 | h1 <;> rw [h1.1] <;> exact ⟨rfl, rfl⟩
        refine Delta.release hact.1 hact.2 rfl ?_ (fun e he => nextPick_mem he)
        refine ready_wait h ?_
        intro hd; rw [hd] at hact; cases hact.2
      · cases hs
    · cases hs

/-! ## Elements inside of a group -/

theorem inside_le {c : NestCfg} {g x : Nat} (h : Inside c g x) (hx : x ≠ g) : 1 ≤ x ∧ x ≤ c.n ∧ Inside c g (c.parent x) := by
  cases h with
  | self => exact absurd rfl hx
  | member h1 h2 h3 => exact ⟨h1, h2, h3⟩

theorem ended_inside {c : NestCfg} {s : NestSt} (hw : NestWF c) (h : NInv c s) {g x : Nat} (hi : Inside c g x)
    (hg : hasEnded (s.st g) = true) : hasEnded (s.st x) = true := by
  induction hi with
  | self => exact hg
  | member h1 h2 _ ih =>
    exact hasEnded_iff.mpr (h.kids _ (hasEnded_iff.mp ih) _ ((hw.kid_iff _ _).mpr ⟨h1, h2, rfl⟩))

theorem begun_inside {c : NestCfg} {s : NestSt} (h : NInv c s) {g x : Nat} (hi : Inside c g x)
    (hx : s.st x ≠ .wait) (hne : x ≠ g) : s.st g = .launched ∨ s.st g = .done := by
  induction hi with
  | self => exact absurd rfl hne
  | @member x h1 h2 hp ih =>
    have hpar := (h.rel x hx).2.2 h1
    by_cases heq : c.parent x = g
    · rw [← heq]; exact hpar
    · exact ih (by rcases hpar with h | h <;> rw [h] <;> simp) heq

/-! ## What is seen -/

theorem mem_seen_stop {n : Nat} {s t : Nat → NSt} {e : Nat} :
    NEv.stop e ∈ seen n s t ↔ e ≤ n ∧ hasEnded (s e) = false ∧ hasEnded (t e) = true := by
  simp only [seen, List.mem_append, List.mem_map, List.mem_filter, List.mem_range, Bool.and_eq_true, Bool.not_eq_true']
  constructor
  · rintro (⟨x, ⟨h1, h2⟩, h3⟩ | ⟨x, -, h3⟩)
    · cases h3; exact ⟨by omega, h2⟩
    · cases h3
  · rintro ⟨h1, h2⟩
    exact .inl ⟨e, ⟨by omega, h2⟩, rfl⟩

theorem mem_seen_start {n : Nat} {s t : Nat → NSt} {e : Nat} :
    NEv.start e ∈ seen n s t ↔ e ≤ n ∧ hasBegun (s e) = false ∧ hasBegun (t e) = true := by
  simp only [seen, List.mem_append, List.mem_map, List.mem_filter, List.mem_range, Bool.and_eq_true, Bool.not_eq_true']
  constructor
  · rintro (⟨x, -, h3⟩ | ⟨x, ⟨h1, h2⟩, h3⟩)
    · cases h3
    · cases h3; exact ⟨by omega, h2⟩
  · rintro ⟨h1, h2⟩
    exact .inr ⟨e, ⟨by omega, h2⟩, rfl⟩

theorem seen_nodup (n : Nat) (s t : Nat → NSt) : (seen n s t).Nodup := by
  unfold seen
  refine List.nodup_append.mpr ⟨?_, ?_, ?_⟩
  · exact List.Nodup.map (fun a b h => by cases h; rfl) (List.nodup_range.filter _)
  · exact List.Nodup.map (fun a b h => by cases h; rfl) (List.nodup_range.filter _)
  · intro a ha b hb
    obtain ⟨x, -, rfl⟩ := List.mem_map.mp ha
    obtain ⟨y, -, rfl⟩ := List.mem_map.mp hb
    simp

/-- What must have been seen before an event. -/
def Before (c : NestCfg) (l : List NEv) : NEv → Prop
  | .start y =>
    (∀ g, Inside c g y → g ≠ y → NEv.start g ∈ l ∧ NEv.stop g ∉ l) ∧
    (∀ e d x, Inside c e y → d ∈ c.deps e → Inside c d x → NEv.stop x ∈ l)
  | .stop g => NEv.start g ∈ l ∧ ∀ x, Inside c g x → x ≠ g → NEv.stop x ∈ l

/-- Every event has been preceded by what must precede it. -/
def Ordered (c : NestCfg) (l : List NEv) : Prop := ∀ l1 ev l2, l = l1 ++ ev :: l2 → Before c l1 ev

theorem ordered_append {c : NestCfg} {l m : List NEv} (hl : Ordered c l)
    (hm : ∀ m1 ev m2, m = m1 ++ ev :: m2 → Before c (l ++ m1) ev) : Ordered c (l ++ m) := by
  intro l1 ev l2 h
  rcases List.append_eq_append_iff.mp h with ⟨k, h1, h2⟩ | ⟨k, h1, h2⟩
  · rw [h1]; exact hm k ev l2 h2
  · cases k with
    | nil =>
      simp only [List.append_nil] at h1
      simp only [List.nil_append] at h2
      have := hm [] ev l2 h2.symm
      rw [← h1]
      simpa using this
    | cons a k =>
      simp only [List.cons_append, List.cons.injEq] at h2
      obtain ⟨rfl, -⟩ := h2
      exact hl l1 ev k h1

/-- The log says what the states are. -/
structure LInv (c : NestCfg) (s : NestSt) (l : List NEv) : Prop where
  start : ∀ e, NEv.start e ∈ l ↔ e ≤ c.n ∧ hasBegun (s.st e) = true
  stop : ∀ e, NEv.stop e ∈ l ↔ e ≤ c.n ∧ hasEnded (s.st e) = true
  nodup : l.Nodup
  ord : Ordered c l

theorem Inside.le_of {c : NestCfg} {g x : Nat} (hw : NestWF c) (h : Inside c g x) : g ≤ x := by
  induction h with
  | self => exact Nat.le_refl _
  | @member x h1 h2 _ ih => have := hw.parent_lt x h1 h2; omega

theorem LInv.extend {c : NestCfg} {s s' : NestSt} {l : List NEv} (hw : NestWF c) (h' : NInv c s') (hd : Delta s s')
    (hi : LInv c s l) : LInv c s' (l ++ seen c.n s.st s'.st) := by
  refine ⟨?_, ?_, ?_, ?_⟩
  · intro e
    rw [List.mem_append, hi.start, mem_seen_start]
    constructor
    · rintro (⟨h1, h2⟩ | ⟨h1, -, h2⟩)
      · exact ⟨h1, hd.begun e h2⟩
      · exact ⟨h1, h2⟩
    · rintro ⟨h1, h2⟩
      cases hb : hasBegun (s.st e)
      · exact .inr ⟨h1, rfl, h2⟩
      · exact .inl ⟨h1, rfl⟩
  · intro e
    rw [List.mem_append, hi.stop, mem_seen_stop]
    constructor
    · rintro (⟨h1, h2⟩ | ⟨h1, -, h2⟩)
      · exact ⟨h1, hd.ended e h2⟩
      · exact ⟨h1, h2⟩
    · rintro ⟨h1, h2⟩
      cases hb : hasEnded (s.st e)
      · exact .inr ⟨h1, rfl, h2⟩
      · exact .inl ⟨h1, rfl⟩
  · refine List.nodup_append.mpr ⟨hi.nodup, seen_nodup _ _ _, ?_⟩
    rintro a ha b hb rfl
    cases a with
    | start e =>
      have h1 := ((hi.start e).mp ha).2
      have h2 := (mem_seen_start.mp hb).2.1
      rw [h1] at h2; cases h2
    | stop e =>
      have h1 := ((hi.stop e).mp ha).2
      have h2 := (mem_seen_stop.mp hb).2.1
      rw [h1] at h2; cases h2
  · refine ordered_append hi.ord ?_
    intro m1 ev m2 hm
    have hmem : ev ∈ seen c.n s.st s'.st := by rw [hm]; simp
    cases ev with
    | stop g =>
      obtain ⟨hgn, hg1, hg2⟩ := mem_seen_stop.mp hmem
      refine ⟨List.mem_append_left _ ((hi.start g).mpr ⟨hgn, hd.last g hg1 hg2⟩), ?_⟩
      intro x hx hne
      refine List.mem_append_left _ ((hi.stop x).mpr ⟨(inside_le hx hne).2.1, ?_⟩)
      have hx2 := ended_inside hw h' hx hg2
      cases hb : hasEnded (s.st x)
      · exact absurd (hd.single x g hb hg1 hx2 hg2) hne
      · rfl
    | start y =>
      obtain ⟨hyn, hy1, hy2⟩ := mem_seen_start.mp hmem
      -- all the ends seen in this step precede this start
      have hstops : ∀ x, NEv.stop x ∈ seen c.n s.st s'.st → NEv.stop x ∈ m1 := by
        intro x hx
        have hsplit : m1 ++ NEv.start y :: m2 =
            ((List.range (c.n + 1)).filter (fun e => !hasEnded (s.st e) && hasEnded (s'.st e))).map NEv.stop ++
            ((List.range (c.n + 1)).filter (fun e => !hasBegun (s.st e) && hasBegun (s'.st e))).map NEv.start := by
          rw [← hm]; rfl
        have hx' : NEv.stop x ∈
            ((List.range (c.n + 1)).filter (fun e => !hasEnded (s.st e) && hasEnded (s'.st e))).map NEv.stop := by
          rcases List.mem_append.mp hx with h | h
          · exact h
          · obtain ⟨z, -, hz⟩ := List.mem_map.mp h; cases hz
        rcases List.append_eq_append_iff.mp hsplit with ⟨k, h1, h2⟩ | ⟨k, h1, h2⟩
        · cases k with
          | nil => rw [h1] at hx'; simpa using hx'
          | cons a k =>
            exfalso
            simp only [List.cons_append, List.cons.injEq] at h2
            have : NEv.start y ∈ ((List.range (c.n + 1)).filter (fun e => !hasEnded (s.st e) && hasEnded (s'.st e))).map
                NEv.stop := by rw [h1, h2.1]; simp
            obtain ⟨z, -, hz⟩ := List.mem_map.mp this
            cases hz
        · rw [h1]; exact List.mem_append_left _ hx'
      have hallstop : ∀ x, x ≤ c.n → hasEnded (s'.st x) = true → NEv.stop x ∈ l ++ m1 := by
        intro x hxn hx
        cases hb : hasEnded (s.st x)
        · exact List.mem_append_right _ (hstops x (mem_seen_stop.mpr ⟨hxn, hb, hx⟩))
        · exact List.mem_append_left _ ((hi.stop x).mpr ⟨hxn, hb⟩)
      have hyent := hd.fresh y hy1 hy2
      refine ⟨?_, ?_⟩
      · intro g hg hgy
        have hgl := begun_inside h' hg (begun_ne_wait hy2) (Ne.symm hgy)
        have hgn : g ≤ c.n := Nat.le_trans (Inside.le_of hw hg) hyn
        have hgb : hasBegun (s'.st g) = true := by rcases hgl with h | h <;> rw [h] <;> rfl
        constructor
        · refine List.mem_append_left _ ((hi.start g).mpr ⟨hgn, ?_⟩)
          cases hb : hasBegun (s.st g)
          · have := hd.fresh g hb hgb
            rcases hgl with h | h <;> rw [h] at this <;> cases this
          · rfl
        · intro hstop
          have hge : hasEnded (s'.st g) = true := by
            rcases List.mem_append.mp hstop with h | h
            · exact hd.ended g ((hi.stop g).mp h).2
            · have : NEv.stop g ∈ seen c.n s.st s'.st := by rw [hm]; exact List.mem_append_left _ h
              exact (mem_seen_stop.mp this).2.2
          have := ended_inside hw h' hg hge
          rw [hyent] at this; cases this
      · intro e d x he hdep hx
        have hew : s'.st e ≠ .wait := by
          by_cases hey : y = e
          · subst hey; exact begun_ne_wait hy2
          · rcases begun_inside h' he (begun_ne_wait hy2) hey with h | h <;> rw [h] <;> simp
        have hdd := (h'.rel e hew).2.1 d hdep
        have hxe := ended_inside hw h' hx (hasEnded_iff.mpr hdd)
        have hxn : x ≤ c.n := by
          by_cases hxd : x = d
          · subst hxd
            have := hw.deps_of e x hdep
            omega
          · exact (inside_le hx hxd).2.1
        exact hallstop x hxn hxe

theorem LInv.watch {c : NestCfg} (hw : NestWF c) (as : List NAct) {s : NestSt} {l : List NEv} (h : NInv c s)
    (hi : LInv c s l) : LInv c (s.exec c as) (l ++ Spec.watch c s as) := by
  induction as generalizing s l with
  | nil => simpa [NestSt.exec, Spec.watch] using hi
  | cons a as ih =>
    show LInv c (NestSt.exec c ((s.step c a).getD s) as) (l ++ (seen c.n s.st ((s.step c a).getD s).st ++
      Spec.watch c ((s.step c a).getD s) as))
    rw [← List.append_assoc]
    cases hs : s.step c a with
    | none => exact ih h (hi.extend hw h (Delta.refl s))
    | some s' => exact ih (h.step hw hs) (hi.extend hw (h.step hw hs) (Delta.step hw h hs))

theorem LInv.start' {c : NestCfg} (hw : NestWF c) : LInv c (NestSt.start c) (seen c.n (fun _ => .wait) (NestSt.start c).st) := by
  have h0 : (NestSt.start c).st 0 = .entered := by simp [NestSt.start]
  have hne : ∀ e, e ≠ 0 → (NestSt.start c).st e = .wait := by intro e he; simp [NestSt.start, he]
  have hend : ∀ e, hasEnded ((NestSt.start c).st e) = false := by
    intro e
    by_cases he : e = 0
    · subst he; rw [h0]; rfl
    · rw [hne e he]; rfl
  refine ⟨?_, ?_, seen_nodup _ _ _, ?_⟩
  · intro e; rw [mem_seen_start]; simp [hasBegun]
  · intro e; rw [mem_seen_stop]; simp [hasEnded]
  · intro l1 ev l2 hl
    have hmem : ev ∈ seen c.n (fun _ => NSt.wait) (NestSt.start c).st := by rw [hl]; simp
    cases ev with
    | stop g => have := (mem_seen_stop.mp hmem).2.2; rw [hend] at this; cases this
    | start y =>
      have hy := (mem_seen_start.mp hmem).2.2
      have : y = 0 := by
        by_contra hne0; rw [hne y hne0] at hy; cases hy
      subst this
      have hin : ∀ g, Inside c g 0 → g = 0 := by
        intro g hg
        have := Inside.le_of hw hg
        omega
      refine ⟨fun g hg hne' => absurd (hin g hg) hne', ?_⟩
      intro e d x he hd
      rw [hin e he] at hd
      have := (hw.deps_of 0 d hd).1
      omega

theorem runLog_inv (c : NestCfg) (hw : NestWF c) (as : List NAct) :
    LInv c ((NestSt.start c).exec c as) (runLog c as) :=
  (LInv.start' hw).watch hw as (NInv.start hw)

/-- An element that is no group is the uppermost of the stack of its thread. -/
theorem top_of_body {c : NestCfg} {s : NestSt} (h : NInv c s) {w e : Nat} (he : e ∈ s.stk w) (hg : c.group e = false) :
    ∃ r, s.stk w = e :: r := by
  obtain ⟨l, r, hlr⟩ := List.append_of_mem he
  cases l using List.reverseRecOn with
  | nil => exact ⟨r, hlr⟩
  | append_singleton l a _ =>
    have h1 := h.chain w l a e r (by rw [hlr]; simp)
    have := h.grp e h1.2.2
    rw [hg] at this; cases this

end NestSt
end CGraph
