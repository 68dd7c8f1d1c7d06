import Verif.Lemmas.NestFailEnd
import Verif.Props.Nest

/-! # Failures inside nested groups: C90 -/
namespace CGraph
namespace FailSt
open Spec

/-- **C90** (order).  Whatever fails, and however threads are scheduled: when anything inside of `e` is begun, everything
inside of every `d` that `e` needs has ended without error. -/
theorem C90_order (c : NestCfg) (hw : NestWF c) (as : List FAct) {d e x y : Nat} (hde : Needs c d e) (hx : Inside c d x)
    (hy : Inside c e y) (hb : begunF (((start c).exec c as).st y) = true) : ((start c).exec c as).st x = .done := by
  have hi := (FInv.start hw).exec hw as
  have he := begun_outer hi hy hb
  exact done_inner hw hi hx (needs_done hi hde (by intro h; rw [h] at he; cases he))

/-- **C90** (a failure stops what depends on it).  If something inside of `d` has failed, nothing inside of an element that
needs `d` has begun, or begins in any continuation. -/
theorem C90_blocked (c : NestCfg) (hw : NestWF c) (as bs : List FAct) {d e x y : Nat} (hde : Needs c d e)
    (hx : Inside c d x) (hf : ((start c).exec c as).st x = .failed) (hy : Inside c e y) :
    begunF ((((start c).exec c as).exec c bs).st y) = false := by
  have hi := (FInv.start hw).exec hw as
  have hi' := hi.exec hw bs
  rw [Bool.eq_false_iff]
  intro hb
  have he := begun_outer hi' hy hb
  have hd := done_inner hw hi' hx (needs_done hi' hde (by intro h; rw [h] at he; cases he))
  rw [settled_exec hw bs hi hf rfl] at hd
  cases hd

/-- **C90** (a failure reaches the caller).  If something inside of `g` has failed, `g` does not end without error in any
continuation; for `g = 0` that is `run()`. -/
theorem C90_reported (c : NestCfg) (hw : NestWF c) (as bs : List FAct) {g x : Nat} (hx : Inside c g x)
    (hf : ((start c).exec c as).st x = .failed) : (((start c).exec c as).exec c bs).st g ≠ .done := by
  have hi := (FInv.start hw).exec hw as
  intro hg
  have hd := done_inner hw (hi.exec hw bs) hx hg
  rw [settled_exec hw bs hi hf rfl] at hd
  cases hd

/-- Every element lies inside of the pipeline. -/
theorem inside_zero {c : NestCfg} (hw : NestWF c) (e : Nat) (he : e ≤ c.n) : Inside c 0 e := by
  induction e using Nat.strongRecOn with
  | _ e ih =>
    by_cases h0 : e = 0
    · subst h0; exact .self
    · have hlt := hw.parent_lt e (by omega) he
      exact .member (by omega) he (ih _ hlt (by omega))

/-- **C90** (an answer without error).  When `run()` has returned OK, every element has ended without error and was
executed exactly once. -/
theorem C90_ok (c : NestCfg) (hw : NestWF c) (as : List FAct) (h0 : ((start c).exec c as).st 0 = .done) (e : Nat)
    (he : e ≤ c.n) : ((start c).exec c as).st e = .done ∧ ((start c).exec c as).starts.count e = 1 := by
  have hi := (FInv.start hw).exec hw as
  have hd := done_inner hw hi (inside_zero hw e he) h0
  exact ⟨hd, List.count_eq_one_of_mem hi.snodup ((hi.smem e).mpr (by rw [hd]; rfl))⟩

/-- **C90** (an answer with an error).  A group, or the pipeline, ends with an error only if a body inside of it has
failed. -/
theorem C90_error (c : NestCfg) (hw : NestWF c) (as : List FAct) {g : Nat} (hg : ((start c).exec c as).st g = .failed) :
    ∃ x, Inside c g x ∧ c.group x = false ∧ ((start c).exec c as).st x = .failed :=
  culprit hw ((FInv.start hw).exec hw as) hg

/-- **C90** (at most once), in failing runs also. -/
theorem C90_once (c : NestCfg) (hw : NestWF c) (as : List FAct) : ((start c).exec c as).starts.Nodup :=
  ((FInv.start hw).exec hw as).snodup

/-- **C90** (a failure stops what has not been handed out).  If member `k` of a group has failed, a member `x` of the same
group that has not been handed out, and everything inside of it, is begun in no continuation; in a group whose members are
independent, and not a single chain, that holds also for members that are in a queue. -/
theorem C90_stop (c : NestCfg) (hw : NestWF c) (as bs : List FAct) {p k x y : Nat} (hk : k ∈ c.kids p) (hx : x ∈ c.kids p)
    (hf : ((start c).exec c as).st k = .failed)
    (hn : ((start c).exec c as).st x = .wait ∨
      ((∀ z ∈ c.kids p, c.deps z = []) ∧ 2 ≤ (c.kids p).length ∧ begunF (((start c).exec c as).st x) = false))
    (hy : Inside c x y) : begunF ((((start c).exec c as).exec c bs).st y) = false := by
  have hi := (FInv.start hw).exec hw as
  have hki := (hw.kid_iff p k).mp hk
  have hxi := (hw.kid_iff p x).mp hx
  have hs : Stopped c x ((start c).exec c as) := by
    have herr := hi.bad k hki.1 (.inl hf)
    rw [hki.2.2, ← hxi.2.2] at herr
    refine ⟨herr, ?_⟩
    rcases hn with hn | ⟨h1, h2, h3⟩
    · exact ⟨by rw [hn]; rfl, .inr (.inl hn)⟩
    · refine ⟨h3, .inl ?_⟩
      rw [hxi.2.2]
      have hfr : c.fronts p = c.kids p := by
        unfold NestCfg.fronts
        rw [List.filter_eq_self]
        intro z hz
        simp [h1 z hz]
      have hne : (c.kids p).isEmpty = false := by
        cases hkp : c.kids p with
        | nil => rw [hkp] at hk; cases hk
        | cons => rfl
      have h21 : ((c.kids p).length == 1) = false := by
        rw [beq_eq_false_iff_ne]; omega
      unfold NestCfg.parallel NestCfg.serial
      rw [hfr, hne, h21]
      simp only [Bool.false_and, Bool.or_self, Bool.not_false, Bool.true_and, List.all_eq_true]
      intro z hz
      simp [h1 z hz]
  have hs' := exec_keeps hw (Stopped c x) (fun _ _ _ hi h hs => h.step hw hi hs) bs hi hs
  rw [Bool.eq_false_iff]
  intro hb
  have := begun_outer (hi.exec hw bs) hy hb
  rw [hs'.2.1] at this
  cases this

/-- **C90** (termination).  With whatever failures and schedules, a run makes boundedly many steps. -/
theorem C90_finite (c : NestCfg) (hw : NestWF c) (as : List FAct) :
    effective c (start c) as ≤ 4 * (c.n + 1) * (c.n + 3) :=
  Nat.le_trans (feffective_le hw as (FInv.start hw) (PInv.start hw)) (ftotal_start c)

/-- **C90** (what is left when nothing can go on).  Workers may take from all queues.  If a run can make no further step it
has returned, or every worker of the pool waits inside a group of its own, no member of which has failed, for a member that
is queued or waits itself. -/
theorem C90_stuck (c : NestCfg) (hw : NestWF c) (hc : Covers c) (as : List FAct)
    (hst : ∀ a, ((start c).exec c as).step c a = none) :
    ((start c).exec c as).st 0 = .done ∨ ((start c).exec c as).st 0 = .failed ∨
    ∃ g : Nat → Nat, (∀ w v, w < c.W → v < c.W → g w = g v → w = v) ∧
      ∀ w, w < c.W → 1 ≤ g w ∧ g w ≤ c.n ∧ waits c (g w) = true ∧ ((start c).exec c as).st (g w) = .launched ∧
        (∀ k ∈ c.kids (g w), ((start c).exec c as).st k ≠ .failed) ∧
        ∃ k ∈ c.kids (g w), (∃ p, ((start c).exec c as).st k = .queued p) ∨ ((start c).exec c as).st k = .launched := by
  have hi := (FInv.start hw).exec hw as
  have hp := (PInv.start hw).exec hw as (FInv.start hw)
  generalize (start c).exec c as = s at *
  by_cases hr : s.st 0 = .done ∨ s.st 0 = .failed
  · rcases hr with h | h
    · exact .inl h
    · exact .inr (.inl h)
  · right; right
    have hb := fun w hwW => FStuck.blocked hw hc hi hp hst hr w hwW
    have hg : ∀ w, ∃ g, w < c.W → ∃ r, s.stk w = .hold g :: r ∧ s.st g = .launched ∧ 1 ≤ g ∧ g ≤ c.n ∧ waits c g = true ∧
        ∃ k ∈ c.kids g, (∃ p, s.st k = .queued p) ∨ s.st k = .launched := by
      intro w
      by_cases hwW : w < c.W
      · obtain ⟨g, h⟩ := hb w hwW
        exact ⟨g, fun _ => h⟩
      · exact ⟨0, fun h => absurd h hwW⟩
    choose g hg using hg
    refine ⟨g, ?_, ?_⟩
    · intro w v h1 h2 he
      obtain ⟨r, ha, -⟩ := hg w h1
      obtain ⟨r', hb', -⟩ := hg v h2
      rw [← he] at hb'
      exact hi.one w v (g w) (mem_owned.mpr ⟨.hold (g w), by rw [ha]; simp, by simp [own]⟩)
        (mem_owned.mpr ⟨.hold (g w), by rw [hb']; simp, by simp [own]⟩)
    · intro w h1
      obtain ⟨r, ha, h2, h3, h4, h5, h6⟩ := hg w h1
      refine ⟨h3, h4, h5, h2, ?_, h6⟩
      intro k hk hf
      have hki := (hw.kid_iff _ k).mp hk
      have hbad := hi.bad k hki.1 (.inl hf)
      rw [hki.2.2] at hbad
      obtain ⟨g', hg', herr, -⟩ := FStuck.top hst ha
      cases hg'
      rw [hbad] at herr
      cases herr

/-- **C90** (progress; partial).  With workers that may take from all queues, and more of them than there are groups whose
threads wait, a run that can make no further step has returned: with an error if any body has failed, without one if all
have ended. -/
theorem C90_progress_partial (c : NestCfg) (hw : NestWF c) (hc : Covers c) (hW : waiting c < c.W) (as : List FAct)
    (hst : ∀ a, ((start c).exec c as).step c a = none) :
    (((start c).exec c as).st 0 = .failed ∧ ∃ x, x ≤ c.n ∧ c.group x = false ∧ ((start c).exec c as).st x = .failed) ∨
    (((start c).exec c as).st 0 = .done ∧ ∀ e, e ≤ c.n → ((start c).exec c as).st e = .done) := by
  rcases C90_stuck c hw hc as hst with h | h | ⟨g, h1, h2⟩
  · exact .inr ⟨h, fun e he => (C90_ok c hw as h e he).1⟩
  · left
    refine ⟨h, ?_⟩
    obtain ⟨x, -, h3, h4⟩ := C90_error c hw as h
    exact ⟨x, (((FInv.start hw).exec hw as).rel x (by rw [h4]; simp)).1, h3, h4⟩
  · have := threads_le h1 (fun w hwW => ⟨(h2 w hwW).1, (h2 w hwW).2.1, (h2 w hwW).2.2.1⟩)
    omega

/-- In `nestDemo`: body 3 of region 2 fails while region 6 of the same region is still in a queue; `run()` returns. -/
def lateActs : List FAct :=
  [.go 3 none true, .go 3 none true, .go 3 none true, .go 3 none true, .go 3 none true, .take 0 2, .go 0 none true,
   .go 0 none true, .go 0 none true, .go 0 none true, .take 1 3, .go 1 none false, .go 0 none true, .go 3 none true]

/-- **C90 is false** for members that are in a queue when another fails, and for the time after the return: region 2 and
`run()` have returned with the error of body 3, then region 6 inside of region 2 begins, and executes its bodies 7
and 8. -/
theorem C90_after_return_violated :
    ((start NestSt.nestDemo).exec NestSt.nestDemo lateActs).st 0 = .failed ∧
    ((start NestSt.nestDemo).exec NestSt.nestDemo lateActs).st 2 = .failed ∧
    ((start NestSt.nestDemo).exec NestSt.nestDemo lateActs).starts = [0, 1, 2, 3] ∧
    ((start NestSt.nestDemo).exec NestSt.nestDemo (lateActs ++
      [.take 1 6, .go 1 none true, .go 1 none true, .go 1 none true, .take 0 8, .take 2 7])).starts =
      [0, 1, 2, 3, 6, 8, 7] := by
  decide +kernel

/-! ## Cases that meet the hypotheses -/

/-- In `nestDemo`: all of region 2 ends but for body 7 of region 6 inside of it, which fails. -/
def deepActs : List FAct :=
  [.go 3 none true, .go 3 none true, .go 3 none true, .go 3 none true, .go 3 none true, .take 0 2, .go 0 none true,
   .go 0 none true, .go 0 none true, .go 0 none true, .take 1 3, .take 2 6, .go 2 none true, .go 2 none true,
   .go 2 none true, .go 2 none true, .go 1 none true, .go 1 none true, .go 1 none true, .go 1 none true, .go 1 none true,
   .go 1 none true, .take 1 7, .go 1 none false]

example : Needs NestSt.nestDemo 2 9 ∧ Inside NestSt.nestDemo 2 7 := by
  refine ⟨.direct (by decide), .member (by decide) (by decide) ?_⟩
  exact .member (by decide) (by decide) .self

/-- Body 7 has failed, nothing else; 8 is queued and 9, which needs region 2, waits. -/
example : (List.range 10).map ((start NestSt.nestDemo).exec NestSt.nestDemo deepActs).st =
    [.launched, .done, .launched, .done, .done, .done, .launched, .failed, .queued none, .wait] := by decide +kernel

/-- The error goes up to the caller; 8 is dropped, 9 is never begun, and no step is left. -/
example : (List.range 10).map ((start NestSt.nestDemo).exec NestSt.nestDemo
      (deepActs ++ [.go 2 none true, .go 0 none true, .go 3 none true, .take 0 8])).st =
    [.failed, .done, .failed, .done, .done, .done, .failed, .failed, .dropped, .wait] := by decide +kernel

/-- A run without failures. -/
def okActs : List FAct :=
  deepActs.dropLast ++ [.go 1 none true, .go 1 none true, .take 1 8, .go 1 none true, .go 1 none true, .go 2 none true,
    .go 2 none true, .go 0 none true, .go 0 none true, .go 0 none true, .go 0 none true, .go 3 none true, .go 3 none true]

example : (List.range 10).map ((start NestSt.nestDemo).exec NestSt.nestDemo okActs).st = List.replicate 10 .done := by
  decide +kernel

end FailSt
end CGraph
