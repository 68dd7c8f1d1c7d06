import Verif.Lemmas.NestFailRun
import Mathlib.Data.List.Chain

/-! # Nested groups with failures: what a step changes, every execution ends, and where it can end -/
namespace CGraph
open Spec
namespace FailSt
open NestSt (upd upd_self upd_ne mem_fronts mem_succs)

/-- How the state of element `x` may change. -/
inductive Move (c : NestCfg) (s : FailSt) (x : Nat) : FStat → Prop where
  | stay : Move c s x (s.st x)
  | drop {p} : s.st x = .queued p → c.parallel (c.parent x) = true → s.err (c.parent x) = true → Move c s x .dropped
  | take {p} : s.st x = .queued p → ¬ (c.parallel (c.parent x) = true ∧ s.err (c.parent x) = true) → Move c s x .entered
  | launch : s.st x = .entered → Move c s x .launched
  | ok : s.st x = .entered ∨ s.st x = .launched → Move c s x .done
  | err : s.st x = .entered ∨ s.st x = .launched → Move c s x .failed
  | inl : s.st x = .wait → ¬ (s.err (c.parent x) = true ∧ c.parallel (c.parent x) = false) →
      inl c (c.parent x) x = true → Move c s x .entered
  | put {p} : s.st x = .wait → ¬ (s.err (c.parent x) = true ∧ c.parallel (c.parent x) = false) → Move c s x (.queued p)

theorem Move.upd {c : NestCfg} {s : FailSt} {x : Nat} {v : FStat} (h : Move c s x v) (e : Nat) :
    Move c s e (NestSt.upd s.st x v e) := by
  by_cases he : e = x
  · subst he; rw [upd_self]; exact h
  · rw [upd_ne _ _ he]; exact .stay

theorem err_upd {err : Nat → Bool} {q p : Nat} (h : err p = true) : upd err q true p = true := by
  by_cases hp : p = q
  · subst hp; rw [upd_self]
  · rw [upd_ne _ _ hp]; exact h

theorem step_move {c : NestCfg} {s s' : FailSt} (hw : NestWF c) (hi : FInv c s) {a : FAct} (hs : s.step c a = some s') :
    (∀ e, Move c s e (s'.st e)) ∧ ∀ p, s.err p = true → s'.err p = true := by
  cases a with
  | take w e =>
    simp only [FailSt.step] at hs
    split at hs
    · rename_i p hp
      split at hs
      · split at hs
        · rename_i hc
          simp only [Bool.and_eq_true] at hc
          cases hs
          exact ⟨(Move.drop hp hc.1 hc.2).upd, fun _ h => h⟩
        · rename_i hc
          simp only [Bool.and_eq_true] at hc
          cases hs
          exact ⟨(Move.take hp hc).upd, fun _ h => h⟩
      · cases hs
    · cases hs
  | go w pl ok =>
    simp only [FailSt.step] at hs
    split at hs
    · cases hs
    · rename_i e r hst
      have hent : s.st e = .entered := hi.frame w (.call e) (by rw [hst]; simp)
      split at hs
      · cases hs
        exact ⟨(Move.launch hent).upd, fun _ h => h⟩
      · split at hs
        · cases hs
          exact ⟨(Move.ok (.inl hent)).upd, fun _ h => h⟩
        · cases hs
          exact ⟨(Move.err (.inl hent)).upd, fun _ h => err_upd h⟩
    · cases hs
      exact ⟨fun e => .stay, fun _ h => h⟩
    · rename_i p x l r hst
      have hok := hi.frame w (.hand p (x :: l)) (by rw [hst]; simp)
      obtain ⟨hxk, hxw, hxd⟩ := hok.2 x (by simp)
      have hxk' := ((hw.kid_iff p x).mp hxk).2.2
      split at hs
      · cases hs
        exact ⟨fun e => .stay, fun _ h => h⟩
      · rename_i hne
        have hne' : ¬ (s.err (c.parent x) = true ∧ c.parallel (c.parent x) = false) := by
          rw [hxk']
          simpa using hne
        split at hs
        · rename_i hc
          simp only [Bool.and_eq_true] at hc
          cases hs
          exact ⟨(Move.inl hxw hne' (by rw [hxk']; exact hc.2)).upd, fun _ h => h⟩
        · split at hs
          · cases hs
            exact ⟨(Move.put hxw hne').upd, fun _ h => h⟩
          · cases hs
    · rename_i g r hst
      have hok := hi.frame w (.hold g) (by rw [hst]; simp)
      split at hs
      · cases hs
        exact ⟨(Move.err (.inr hok.1)).upd, fun _ h => err_upd h⟩
      · split at hs
        · cases hs
          exact ⟨(Move.ok (.inr hok.1)).upd, fun _ h => h⟩
        · cases hs

/-- An element that has ended, or was dropped, stays so. -/
def settled : FStat → Bool
  | .done | .failed | .dropped => true
  | _ => false

theorem Move.settled {c : NestCfg} {s : FailSt} {x : Nat} {v : FStat} (h : Move c s x v) (hx : settled (s.st x) = true) :
    v = s.st x := by
  cases h with
  | stay => rfl
  | drop h => rw [h] at hx; cases hx
  | take h => rw [h] at hx; cases hx
  | launch h => rw [h] at hx; cases hx
  | ok h => rcases h with h | h <;> rw [h] at hx <;> cases hx
  | err h => rcases h with h | h <;> rw [h] at hx <;> cases hx
  | inl h => rw [h] at hx; cases hx
  | put h => rw [h] at hx; cases hx

theorem Move.begun {c : NestCfg} {s : FailSt} {x : Nat} {v : FStat} (h : Move c s x v) (hx : begunF (s.st x) = true) :
    begunF v = true := by
  cases h with
  | stay => exact hx
  | drop h => rw [h] at hx; cases hx
  | take h => rfl
  | launch h => rfl
  | ok h => rfl
  | err h => rfl
  | inl h => rfl
  | put h => rw [h] at hx; cases hx

/-- Something about states that every step keeps holds after all continuations. -/
theorem exec_keeps {c : NestCfg} (hw : NestWF c) (P : FailSt → Prop)
    (hP : ∀ s s' a, FInv c s → P s → s.step c a = some s' → P s') (as : List FAct) {s : FailSt} (hi : FInv c s) (h : P s) :
    P (s.exec c as) := by
  induction as generalizing s with
  | nil => exact h
  | cons a as ih =>
    simp only [FailSt.exec]
    cases hs : s.step c a with
    | none => exact ih hi h
    | some s' => exact ih (hi.step hw hs) (hP s s' a hi h hs)

theorem settled_exec {c : NestCfg} (hw : NestWF c) (as : List FAct) {s : FailSt} (hi : FInv c s) {e : Nat} {v : FStat}
    (h : s.st e = v) (hv : settled v = true) : (s.exec c as).st e = v := by
  refine exec_keeps hw (fun s => s.st e = v) ?_ as hi h
  intro s s' a hi h hs
  rw [((step_move hw hi hs).1 e).settled (by rw [h]; exact hv), h]

/-- Elements of a failed engine that are not begun, and are not waiting in a queue whose tasks are executed nevertheless. -/
def Stopped (c : NestCfg) (x : Nat) (s : FailSt) : Prop :=
  s.err (c.parent x) = true ∧ begunF (s.st x) = false ∧
    (c.parallel (c.parent x) = true ∨ s.st x = .wait ∨ s.st x = .dropped)

theorem Stopped.step {c : NestCfg} (hw : NestWF c) {x : Nat} {s s' : FailSt} {a : FAct} (hi : FInv c s)
    (h : Stopped c x s) (hs : s.step c a = some s') : Stopped c x s' := by
  obtain ⟨hm, he⟩ := step_move hw hi hs
  obtain ⟨h1, h2, h3⟩ := h
  refine ⟨he _ h1, ?_⟩
  have := hm x
  generalize s'.st x = v at this
  have hpar : c.parallel (c.parent x) = true → inl c (c.parent x) x = false := by
    intro hp
    unfold NestCfg.parallel at hp
    unfold FailSt.inl NestCfg.parallel
    simp only [Bool.and_eq_true, Bool.not_eq_true'] at hp
    simp [hp.1, hp.2]
  cases this with
  | stay => exact ⟨h2, h3⟩
  | drop h => exact ⟨rfl, .inr (.inr rfl)⟩
  | take h hn =>
    exfalso
    rcases h3 with h3 | h3 | h3
    · exact hn ⟨h3, h1⟩
    · rw [h] at h3; cases h3
    · rw [h] at h3; cases h3
  | launch h => rw [h] at h2; cases h2
  | ok h => rcases h with h | h <;> rw [h] at h2 <;> cases h2
  | err h => rcases h with h | h <;> rw [h] at h2 <;> cases h2
  | inl h hn hl =>
    exfalso
    cases hp : c.parallel (c.parent x) with
    | false => exact hn ⟨h1, hp⟩
    | true => rw [hpar hp] at hl; cases hl
  | put h hn =>
    refine ⟨rfl, .inl ?_⟩
    cases hp : c.parallel (c.parent x) with
    | false => exact absurd ⟨h1, hp⟩ hn
    | true => rfl

/-! ## Groups and what is inside of them -/

theorem isOpen_begun {v : FStat} (h : isOpen v = true) : begunF v = true := by cases v <;> first | rfl | cases h

theorem begun_parent {c : NestCfg} {s : FailSt} (hi : FInv c s) {x : Nat} (h1 : 1 ≤ x) (hx : begunF (s.st x) = true) :
    begunF (s.st (c.parent x)) = true :=
  isOpen_begun ((hi.rel x (by intro h; rw [h] at hx; cases hx)).2.2 h1)

theorem begun_outer {c : NestCfg} {s : FailSt} (hi : FInv c s) {g x : Nat} (h : Inside c g x) (hx : begunF (s.st x) = true) :
    begunF (s.st g) = true := by
  induction h with
  | self => exact hx
  | member h1 _ _ ih => exact ih (begun_parent hi h1 hx)

theorem done_inner {c : NestCfg} {s : FailSt} (hw : NestWF c) (hi : FInv c s) {g x : Nat} (h : Inside c g x) (hg : s.st g = .done) :
    s.st x = .done := by
  induction h with
  | self => exact hg
  | member h1 h2 _ ih => exact hi.grp _ ih _ ((hw.kid_iff _ _).mpr ⟨h1, h2, rfl⟩)

theorem needs_done {c : NestCfg} {s : FailSt} (hi : FInv c s) {d e : Nat} (h : Needs c d e) (he : s.st e ≠ .wait) :
    s.st d = .done := by
  induction h with
  | direct h => exact (hi.rel _ he).2.1 _ h
  | through _ h ih => exact ih (by rw [(hi.rel _ he).2.1 _ h]; simp)

/-- An element that has failed owes it to one with a body of its own. -/
theorem culprit {c : NestCfg} {s : FailSt} (hw : NestWF c) (hi : FInv c s) {g : Nat} (hg : s.st g = .failed) :
    ∃ x, Inside c g x ∧ c.group x = false ∧ s.st x = .failed := by
  have : ∀ m g, c.n - g = m → s.st g = .failed → ∃ x, Inside c g x ∧ c.group x = false ∧ s.st x = .failed := by
    intro m
    induction m using Nat.strongRecOn with
    | _ m ih =>
      intro g hm hg
      cases hgr : c.group g with
      | false => exact ⟨g, .self, hgr, hg⟩
      | true =>
        obtain ⟨k, hk, hkf⟩ := hi.cause g (hi.gfail g hg hgr)
        have hk' := (hw.kid_iff g k).mp hk
        have hlt := hw.parent_lt k hk'.1 hk'.2.1
        rw [hk'.2.2] at hlt
        obtain ⟨x, h1, h2, h3⟩ := ih (c.n - k) (by omega) k rfl hkf
        refine ⟨x, ?_, h2, h3⟩
        clear h2 h3
        induction h1 with
        | self => exact .member hk'.1 hk'.2.1 (by rw [hk'.2.2]; exact .self)
        | member a1 a2 _ a4 => exact .member a1 a2 a4
  exact this _ g rfl hg

/-! ## Every execution ends -/

def frank : FStat → Nat
  | .wait => 4
  | .queued _ => 3
  | .entered => 2
  | .launched => 1
  | .done | .failed | .dropped => 0

def handSize : Frame → Nat
  | .hand _ l => l.length + 1
  | _ => 0

def load (l : List Frame) : Nat := (l.map handSize).sum

def ftotal (c : NestCfg) (s : FailSt) : Nat :=
  ((List.range (c.n + 1)).map (fun e => frank (s.st e))).sum * (c.n + 3) + ((List.range (c.W + 1)).map (fun w => load (s.stk w))).sum

theorem sum_upd {α : Type} (f : α → Nat) (g : Nat → α) (w : Nat) (x : α) (N : Nat) (h : w < N) :
    ((List.range N).map (fun i => f (upd g w x i))).sum + f (g w) = ((List.range N).map (fun i => f (g i))).sum + f x := by
  have hno : ∀ N, N ≤ w → ((List.range N).map (fun i => f (upd g w x i))).sum = ((List.range N).map (fun i => f (g i))).sum := by
    intro N hN
    congr 1
    refine List.map_congr_left ?_
    intro i hi
    rw [upd_ne _ _ (by have := List.mem_range.mp hi; omega)]
  induction N with
  | zero => omega
  | succ N ih =>
    simp only [List.range_succ, List.map_append, List.map_cons, List.map_nil, List.sum_append, List.sum_cons, List.sum_nil]
    by_cases hw : w = N
    · subst hw
      rw [hno w (Nat.le_refl _), upd_self]
      omega
    · have := ih (by omega)
      rw [upd_ne _ _ (show N ≠ w by omega)]
      omega

theorem ftotal_lt {c : NestCfg} {s : FailSt} {w e : Nat} {v : FStat} {new : List Frame} {err' : Nat → Bool}
    {starts' : List Nat} (hw : w ≤ c.W) (he : e ≤ c.n)
    (hlt : frank v * (c.n + 3) + load new < frank (s.st e) * (c.n + 3) + load (s.stk w)) :
    ftotal c ⟨upd s.st e v, upd s.stk w new, err', starts'⟩ < ftotal c s := by
  have h1 := sum_upd frank s.st e v (c.n + 1) (by omega)
  have h2 := sum_upd load s.stk w new (c.W + 1) (by omega)
  unfold ftotal
  simp only
  generalize ((List.range (c.n + 1)).map (fun i => frank (upd s.st e v i))).sum = A at *
  generalize ((List.range (c.n + 1)).map (fun i => frank (s.st i))).sum = B at *
  generalize ((List.range (c.W + 1)).map (fun i => load (upd s.stk w new i))).sum = C at *
  generalize ((List.range (c.W + 1)).map (fun i => load (s.stk i))).sum = D at *
  have h3 : A * (c.n + 3) + frank (s.st e) * (c.n + 3) = B * (c.n + 3) + frank v * (c.n + 3) := by
    rw [← Nat.add_mul, ← Nat.add_mul, h1]
  omega

theorem kids_len {c : NestCfg} (hw : NestWF c) (g : Nat) : (c.kids g).length ≤ c.n := by
  have hsub : c.kids g ⊆ (List.range c.n).map (· + 1) := by
    intro x hx
    have := (hw.kid_iff g x).mp hx
    exact List.mem_map.mpr ⟨x - 1, List.mem_range.mpr (by omega), by show x - 1 + 1 = x; omega⟩
  have := (List.subperm_of_subset (hw.kids_nodup g) hsub).length_le
  simpa using this

theorem load_cons (F : Frame) (r : List Frame) : load (F :: r) = handSize F + load r := by simp [load]

theorem rank_drop {a b k m : Nat} (h : a < b) : a * (k + 3) + m + k + 2 < b * (k + 3) + m := by
  have : (a + 1) * (k + 3) ≤ b * (k + 3) := Nat.mul_le_mul_right _ h
  rw [Nat.add_mul] at this
  omega

theorem endOk_lt {c : NestCfg} {s : FailSt} (hw : NestWF c) (hp : PInv c s) {w e : Nat} {F : Frame} {r : List Frame}
    (hs : s.stk w = F :: r) (he : e ≤ c.n) (hr : 0 < frank (s.st e)) : ftotal c (endOk c s w e r) < ftotal c s := by
  have h := rank_drop (k := c.n) (m := load r) hr
  unfold endOk
  simp only
  refine ftotal_lt (hp.le hs) he ?_
  rw [hs, load_cons]
  split
  · rw [show frank .done = 0 from rfl]; omega
  · rw [load_cons]
    have hl : (handOrder c e (ready c { s with st := upd s.st e .done } e)).length ≤ c.n := by
      rw [(handOrder_perm c e _).length_eq]
      exact Nat.le_trans (List.length_filter_le _ _) (Nat.le_trans (List.length_filter_le _ _) (kids_len hw _))
    rw [show frank .done = 0 from rfl]
    simp only [handSize]
    omega

theorem endErr_lt {c : NestCfg} {s : FailSt} (hp : PInv c s) {w e : Nat} {F : Frame} {r : List Frame}
    (hs : s.stk w = F :: r) (he : e ≤ c.n) (hr : 0 < frank (s.st e)) : ftotal c (endErr c s w e r) < ftotal c s := by
  have h := rank_drop (k := c.n) (m := load r) hr
  refine ftotal_lt (hp.le hs) he ?_
  rw [hs, load_cons, show frank .failed = 0 from rfl]
  omega

theorem step_ftotal {c : NestCfg} {s s' : FailSt} (hw : NestWF c) (hi : FInv c s) (hp : PInv c s) {a : FAct}
    (hs : s.step c a = some s') : ftotal c s' < ftotal c s := by
  cases a with
  | take w e =>
    simp only [FailSt.step] at hs
    split at hs
    · rename_i p hq
      have hen := (hi.rel e (by rw [hq]; simp)).1
      split at hs
      · rename_i hc
        split at hs
        · cases hs
          have := ftotal_lt (c := c) (s := s) (w := w) (e := e) (v := .dropped) (new := s.stk w) (err' := s.err)
            (starts' := s.starts) (by omega) hen ?_
          · rw [upd_same] at this; exact this
          · have := rank_drop (a := 0) (b := 3) (k := c.n) (m := load (s.stk w)) (by omega)
            rw [hq]; simp only [frank]; omega
        · cases hs
          refine ftotal_lt (by omega) hen ?_
          have := rank_drop (a := 2) (b := 3) (k := c.n) (m := 0) (by omega)
          rw [hq, hc.2.1]; simp only [frank, load, handSize, List.map_cons, List.map_nil, List.sum_cons, List.sum_nil]; omega
      · cases hs
    · cases hs
  | go w pl ok =>
    simp only [FailSt.step] at hs
    split at hs
    · cases hs
    · rename_i e r hst
      have hent : s.st e = .entered := hi.frame w (.call e) (by rw [hst]; simp)
      have hen := (hi.rel e (by rw [hent]; simp)).1
      split at hs
      · cases hs
        refine ftotal_lt (hp.le hst) hen ?_
        have := rank_drop (a := 1) (b := 2) (k := c.n) (m := load r) (by omega)
        have h2 : (c.fronts e).length ≤ c.n := Nat.le_trans (List.length_filter_le _ _) (kids_len hw _)
        rw [hst, hent]
        simp only [load_cons, frank, handSize]
        omega
      · split at hs
        · cases hs
          exact endOk_lt hw hp hst hen (by rw [hent]; simp [frank])
        · cases hs
          exact endErr_lt hp hst hen (by rw [hent]; simp [frank])
    · rename_i p r hst
      cases hs
      have := ftotal_lt (c := c) (s := s) (w := w) (e := 0) (v := s.st 0) (new := r) (err' := s.err)
        (starts' := s.starts) (hp.le hst) (Nat.zero_le _) (by rw [hst, load_cons]; simp [handSize])
      rw [upd_same] at this
      exact this
    · rename_i p x l r hst
      have hok := hi.frame w (.hand p (x :: l)) (by rw [hst]; simp)
      obtain ⟨hxk, hxw, hxd⟩ := hok.2 x (by simp)
      have hxn := ((hw.kid_iff p x).mp hxk).2.1
      split at hs
      · cases hs
        have := ftotal_lt (c := c) (s := s) (w := w) (e := 0) (v := s.st 0) (new := .hand p l :: r) (err' := s.err)
          (starts' := s.starts) (hp.le hst) (Nat.zero_le _) (by rw [hst, load_cons, load_cons]; simp [handSize])
        rw [upd_same] at this
        exact this
      · split at hs
        · cases hs
          refine ftotal_lt (hp.le hst) hxn ?_
          have := rank_drop (a := 2) (b := 4) (k := c.n) (m := load r) (by omega)
          rw [hst, hxw]
          simp only [load_cons, frank, handSize]
          omega
        · split at hs
          · cases hs
            refine ftotal_lt (hp.le hst) hxn ?_
            have := rank_drop (a := 3) (b := 4) (k := c.n) (m := load r) (by omega)
            rw [hst, hxw]
            simp only [load_cons, frank, handSize, List.length_cons]
            omega
          · cases hs
    · rename_i g r hst
      have hok := hi.frame w (.hold g) (by rw [hst]; simp)
      have hgn := (hi.rel g (by rw [hok.1]; simp)).1
      split at hs
      · cases hs
        exact endErr_lt hp hst hgn (by rw [hok.1]; simp [frank])
      · split at hs
        · cases hs
          exact endOk_lt hw hp hst hgn (by rw [hok.1]; simp [frank])
        · cases hs

theorem feffective_le {c : NestCfg} (hw : NestWF c) (as : List FAct) {s : FailSt} (hi : FInv c s) (hp : PInv c s) :
    effective c s as ≤ ftotal c s := by
  induction as generalizing s with
  | nil => simp [effective]
  | cons a as ih =>
    unfold effective
    cases hs : s.step c a with
    | none => exact ih hi hp
    | some s' =>
      have := ih (hi.step hw hs) (hp.step hw hi hs)
      have := step_ftotal hw hi hp hs
      simp only
      omega

theorem ftotal_start (c : NestCfg) : ftotal c (start c) ≤ 4 * (c.n + 1) * (c.n + 3) := by
  have h : ∀ l : List Nat, (l.map (fun e => frank ((start c).st e))).sum ≤ 4 * l.length := by
    intro l
    induction l with
    | nil => simp
    | cons a l ih =>
      have : frank ((start c).st a) ≤ 4 := by
        cases (start c).st a <;> simp [frank]
      simp only [List.map_cons, List.sum_cons, List.length_cons]
      omega
  have h2 : ∀ l : List Nat, (l.map (fun w => load ((start c).stk w))).sum = 0 := by
    intro l
    induction l with
    | nil => simp
    | cons a l ih =>
      have : load ((start c).stk a) = 0 := by
        simp only [start]
        split <;> simp [load, handSize]
      simp only [List.map_cons, List.sum_cons]
      omega
  unfold ftotal
  rw [h2, Nat.add_zero]
  refine Nat.mul_le_mul_right _ ?_
  have := h (List.range (c.n + 1))
  simpa using this

/-! ## States without a next step -/

/-- No step is possible. -/
def FStuck (c : NestCfg) (s : FailSt) : Prop := ∀ a, s.step c a = none

theorem FStuck.top {c : NestCfg} {s : FailSt} (hst : FStuck c s) {w : Nat} {F : Frame} {r : List Frame} (hs : s.stk w = F :: r) :
    ∃ g, F = .hold g ∧ s.err g = false ∧ ∃ k ∈ c.kids g, s.st k ≠ .done := by
  obtain ⟨pl, hpl⟩ := NestSt.exists_place c
  cases F with
  | call e =>
    have := hst (.go w none true)
    simp only [step, hs] at this
    split at this <;> simp at this
  | hand p l =>
    cases l with
    | nil =>
      have := hst (.go w none true)
      simp [step, hs] at this
    | cons x l =>
      have := hst (.go w (pl x) true)
      simp only [step, hs, hpl x, if_true] at this
      split at this
      · simp at this
      · split at this <;> simp at this
  | hold g =>
    refine ⟨g, rfl, ?_⟩
    have := hst (.go w none true)
    simp only [step, hs] at this
    split at this
    · simp at this
    · rename_i he
      split at this
      · simp at this
      · rename_i hk
        refine ⟨by simpa using he, ?_⟩
        simpa using hk

/-- Only frames of groups lie below others. -/
theorem PInv.below {c : NestCfg} {s : FailSt} (hp : PInv c s) {w : Nat} {l r : List Frame} {G F : Frame}
    (hs : s.stk w = l ++ G :: F :: r) : ∃ b, F = .hold b ∧ Above c G b := by
  have := hp.chain w
  rw [hs] at this
  have h2 := this.right_of_append
  exact (List.isChain_cons_cons.mp h2).1

theorem FStuck.no_call {c : NestCfg} {s : FailSt} (hp : PInv c s) (hst : FStuck c s) {w : Nat} {F : Frame} (hF : F ∈ s.stk w) :
    ∃ b, F = .hold b := by
  obtain ⟨l, r, hs⟩ := List.append_of_mem hF
  rcases List.eq_nil_or_concat l with rfl | ⟨l', a, rfl⟩
  · obtain ⟨g, h, -⟩ := hst.top (show s.stk w = F :: r from hs)
    exact ⟨g, h⟩
  · obtain ⟨b, h, -⟩ := hp.below (l := l') (G := a) (F := F) (r := r) (by rw [hs]; simp)
    exact ⟨b, h⟩

/-- In a state without a next step a group on top of a thread waits for a member that is being executed, or is queued. -/
theorem FStuck.waits_for {c : NestCfg} {s : FailSt} (hw : NestWF c) (hi : FInv c s) (hp : PInv c s) (hst : FStuck c s)
    {w g : Nat} {r : List Frame} (hs : s.stk w = .hold g :: r) :
    ∃ k ∈ c.kids g, (∃ p, s.st k = .queued p) ∨ s.st k = .launched := by
  obtain ⟨g', hg', herr, k, hk, hkd⟩ := hst.top hs
  cases hg'
  have hgl : s.st g = .launched := (hi.frame w (.hold g) (by rw [hs]; simp)).1
  have first : ∀ m k, k = m → k ∈ c.kids g → s.st k ≠ .done → ∃ k ∈ c.kids g, (∃ p, s.st k = .queued p) ∨ s.st k = .launched := by
    intro m
    induction m using Nat.strongRecOn with
    | _ m ih =>
      intro k hkm hk hkd
      have hki := (hw.kid_iff g k).mp hk
      by_cases hdeps : ∃ d ∈ c.deps k, s.st d ≠ .done
      · obtain ⟨d, hd, hdd⟩ := hdeps
        have hdk := hw.deps_of k d hd
        exact ih d (by omega) d rfl ((hw.kid_iff g d).mpr ⟨hdk.2.2.1, by omega, by rw [hdk.2.2.2.2, hki.2.2]⟩) hdd
      · have hdeps' : ∀ d ∈ c.deps k, s.st d = .done := by
          intro d hd
          by_contra h
          exact hdeps ⟨d, hd, h⟩
        cases hx : s.st k with
        | wait =>
          obtain ⟨v, -, l, hF, -⟩ := hp.held k ⟨hki.1, hki.2.1, hx, by rw [hki.2.2]; exact hgl, by rw [hki.2.2]; exact herr, hdeps'⟩
          obtain ⟨b, hb⟩ := hst.no_call hp hF
          cases hb
        | queued p => exact ⟨k, hk, .inl ⟨p, hx⟩⟩
        | entered =>
          obtain ⟨v, -, hF⟩ := hp.act k hx
          obtain ⟨b, hb⟩ := hst.no_call hp hF
          cases hb
        | launched => exact ⟨k, hk, .inr hx⟩
        | done => exact absurd hx hkd
        | failed =>
          have := hi.bad k hki.1 (.inl hx)
          rw [hki.2.2, herr] at this; cases this
        | dropped =>
          have := hi.bad k hki.1 (.inr hx)
          rw [hki.2.2, herr] at this; cases this
  exact first k k rfl hk hkd

theorem FStuck.returned {c : NestCfg} {s : FailSt} (hw : NestWF c) (hi : FInv c s) (hp : PInv c s) (hst : FStuck c s)
    (hq : ∀ e p, s.st e ≠ .queued p) : s.st 0 = .done ∨ s.st 0 = .failed := by
  have nolau : ∀ m e, c.n - e = m → s.st e ≠ .launched := by
    intro m
    induction m using Nat.strongRecOn with
    | _ m ih =>
      intro e hm he
      have hn : ∀ k, k ∈ c.kids e → s.st k ≠ .launched := by
        intro k hk
        have hki := (hw.kid_iff e k).mp hk
        have := hw.parent_lt k hki.1 hki.2.1
        rw [hki.2.2] at this
        exact ih (c.n - k) (by omega) k rfl
      obtain ⟨w, -, hF⟩ := hp.lau e he
      obtain ⟨l, r, hs⟩ := List.append_of_mem hF
      rcases List.eq_nil_or_concat l with rfl | ⟨l', a, rfl⟩
      · obtain ⟨k, hk, h | h⟩ := hst.waits_for hw hi hp (show s.stk w = .hold e :: r from hs)
        · obtain ⟨p, h⟩ := h
          exact hq k p h
        · exact hn k hk h
      · have hs' : s.stk w = l' ++ a :: .hold e :: r := by rw [hs]; simp
        obtain ⟨b, hb, hab⟩ := hp.below hs'
        cases hb
        have haw : a ∈ s.stk w := by rw [hs']; simp
        obtain ⟨x, hx⟩ := hst.no_call hp haw
        subst hx
        have hxl := (hi.frame w _ haw).1
        refine hn x ?_ hxl
        exact (hw.kid_iff e x).mpr ⟨hab.1, (hi.rel x (by rw [hxl]; simp)).1, hab.2⟩
  cases hx : s.st 0 with
  | done => exact .inl rfl
  | failed => exact .inr rfl
  | wait => have := hi.zero; rw [hx] at this; cases this
  | queued p => exact absurd hx (hq 0 p)
  | dropped => have := hi.zero; rw [hx] at this; cases this
  | launched => exact absurd hx (nolau _ 0 rfl)
  | entered =>
    obtain ⟨v, -, hF⟩ := hp.act 0 hx
    obtain ⟨b, hb⟩ := hst.no_call hp hF
    cases hb

/-- The thread of a group executed serially does not wait. -/
theorem FStuck.not_serial {c : NestCfg} {s : FailSt} (hw : NestWF c) (hi : FInv c s) (hp : PInv c s) (hst : FStuck c s)
    {w g : Nat} {r : List Frame} (hs : s.stk w = .hold g :: r) : c.serial g = false := by
  rw [Bool.eq_false_iff]
  intro hser
  obtain ⟨k, hk, h⟩ := hst.waits_for hw hi hp hs
  have hki := (hw.kid_iff g k).mp hk
  rcases h with ⟨p, h⟩ | h
  · have := hp.sq k p hki.1 h
    rw [hki.2.2, hser] at this; cases this
  · obtain ⟨v, -, hF⟩ := hp.lau k h
    obtain ⟨l, r', hs'⟩ := List.append_of_mem hF
    cases r' with
    | nil =>
      have := hp.sb v (.hold k) (by rw [hs']; simp) k (by simp [own]) hki.1
      rw [hki.2.2, hser] at this; cases this
    | cons G r' =>
      obtain ⟨b, hb, -, hab⟩ := hp.below hs'
      rw [hki.2.2] at hab
      subst hb
      subst hab
      have hvw : v = w := hi.one v w g (mem_owned.mpr ⟨.hold g, by rw [hs']; simp, by simp [own]⟩)
        (mem_owned.mpr ⟨.hold g, by rw [hs]; simp, by simp [own]⟩)
      subst hvw
      have hn := hi.nodup v
      rw [hs] at hs'
      cases l with
      | nil =>
        simp at hs'
        have := hw.parent_lt k hki.1 hki.2.1
        omega
      | cons F l =>
        simp only [List.cons_append, List.cons.injEq] at hs'
        rw [owned, hs, List.flatMap_cons] at hn
        have := (List.nodup_append.mp hn).2.2 g (by simp [own]) g
          (List.mem_flatMap.mpr ⟨.hold g, by rw [hs'.2]; simp, by simp [own]⟩)
        exact this rfl

/-- A run that cannot go on and has not returned has every worker waiting inside a group. -/
theorem FStuck.blocked {c : NestCfg} {s : FailSt} (hw : NestWF c) (hc : Covers c) (hi : FInv c s) (hp : PInv c s)
    (hst : FStuck c s) (hr : ¬ (s.st 0 = .done ∨ s.st 0 = .failed)) (w : Nat) (hwW : w < c.W) :
    ∃ g r, s.stk w = .hold g :: r ∧ s.st g = .launched ∧ 1 ≤ g ∧ g ≤ c.n ∧ waits c g = true ∧
      ∃ k ∈ c.kids g, (∃ p, s.st k = .queued p) ∨ s.st k = .launched := by
  have hq : ∃ e p, s.st e = .queued p := by
    by_contra hcon
    exact hr (hst.returned hw hi hp (fun e p he => hcon ⟨e, p, he⟩))
  obtain ⟨e, p, he⟩ := hq
  cases hs : s.stk w with
  | nil =>
    have := hst (.take w e)
    simp only [step, he] at this
    rw [if_pos ⟨hwW, hs, NestSt.covers_take hc hwW (fun i hi => hp.placed e i (by rw [he, hi]))⟩] at this
    split at this <;> cases this
  | cons F r =>
    obtain ⟨g, rfl, -⟩ := hst.top hs
    have hF := hi.frame w (.hold g) (by rw [hs]; simp)
    refine ⟨g, r, rfl, hF.1, ?_, (hi.rel g (by rw [hF.1]; simp)).1, ?_, hst.waits_for hw hi hp hs⟩
    · by_contra hg0
      have : g = 0 := by omega
      subst this
      have := hp.main w (mem_owned.mpr ⟨.hold 0, by rw [hs]; simp, by simp [own]⟩)
      omega
    · unfold waits
      rw [hF.2, hst.not_serial hw hi hp hs]
      rfl

theorem threads_le {c : NestCfg} {g : Nat → Nat} (hg : ∀ w v, w < c.W → v < c.W → g w = g v → w = v)
    (hb : ∀ w, w < c.W → 1 ≤ g w ∧ g w ≤ c.n ∧ waits c (g w) = true) : c.W ≤ waiting c := by
  have hn : ((List.range c.W).map g).Nodup := by
    refine List.Nodup.map_on ?_ List.nodup_range
    intro w hw v hv he
    exact hg w v (List.mem_range.mp hw) (List.mem_range.mp hv) he
  have hsub : ((List.range c.W).map g) ⊆ ((List.range c.n).filter (fun i => waits c (i + 1))).map (· + 1) := by
    intro x hx
    obtain ⟨w, hw, rfl⟩ := List.mem_map.mp hx
    obtain ⟨h2, h3, h4⟩ := hb w (List.mem_range.mp hw)
    refine List.mem_map.mpr ⟨g w - 1, List.mem_filter.mpr ⟨List.mem_range.mpr (by omega), ?_⟩, ?_⟩
    · rw [show g w - 1 + 1 = g w by omega]; exact h4
    · show g w - 1 + 1 = g w; omega
  have := (List.subperm_of_subset hn hsub).length_le
  simpa [waiting] using this

end FailSt
end CGraph
