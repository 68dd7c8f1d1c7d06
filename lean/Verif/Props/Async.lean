import Verif.Lemmas.AsyncRun

/-! # C78: elements with a timeout, and fences -/
namespace CGraph.ASt
open Spec

/-- Claims about every event of every execution. -/
theorem post (c : ACfg) (as : List AAct) {a b : List AEv} {x : AEv} (h : (exec c .new as).hist = a ++ x :: b) :
    APost c a x := (exec_all (AAll.new c) as).post a x b h

theorem bodyFailed_eq (r : ARes) : bodyFailed r = r.status.isErr := by
  cases r <;> rfl

theorem asyncOutcome_eq (r : ARes) : asyncOutcome r = CStatus.ok.add r.status := by
  cases r with
  | ret st =>
    by_cases h : st.code < 0
    · simp [asyncOutcome, ARes.status, CStatus.add, CStatus.isErr, CStatus.ok, STATUS_OK, h]
    · simp [asyncOutcome, ARes.status, CStatus.add, CStatus.isErr, CStatus.ok, STATUS_OK, h]
  | thrown w => simp [asyncOutcome, ARes.status, CStatus.add, CStatus.isErr, CStatus.ok, STATUS_OK, STATUS_CRASH]

/-- C78: when `run` of the pipeline returns, every body of an element with the strategy `HOLD_BY_PIPELINE` that was ever
committed has ended, whether its call had timed out or not.  Missing: histories in which a future was used by two threads
at once, an exception had left an earlier `run`, or a body was repeated after its timeout; there it is false. -/
theorem C78_held_partial (c : ACfg) (as : List AAct) {a b : List AEv} {st : CStatus}
    (h : (exec c .new as).hist = a ++ .runRet st :: b) (hc : AClean a) {e : Nat} (he : c.hold e = true) :
    a.countP (isCommit e) = a.countP (isBodyEnd e) :=
  (post c as h hc).1 e he

/-- C78: when `run` of the pipeline returns without error, every body committed during this run has ended without error,
whatever the strategies. -/
theorem C78_ok_partial (c : ACfg) (as : List AAct) {a b : List AEv} {st : CStatus}
    (h : (exec c .new as).hist = a ++ .runRet st :: b) (hc : AClean a) (hst : st.isErr = false) {e id : Nat}
    (hcom : .commit e id ∈ lastRun a) : ∃ r, .bodyEnd e id r ∈ a ∧ bodyFailed r = false := by
  obtain ⟨r, h1, h2⟩ := (post c as h hc).2 hst e id hcom
  exact ⟨r, h1, by rw [bodyFailed_eq, h2]⟩

/-- C78: a fence that depends on the elements it waits for returns after every body of these elements committed during this
run has ended, unless one of the bodies has thrown. -/
theorem C78_fence_partial (c : ACfg) (as : List AAct) {a b : List AEv} {f : Nat} {st : CStatus}
    (h : (exec c .new as).hist = a ++ .fenceRet f st :: b) (hc : AClean a) (hd : c.deps f = true)
    (hst : st.isCrash = false) {e id : Nat} (he : e ∈ c.waits f) (hcom : .commit e id ∈ lastRun a) :
    ∃ r, .bodyEnd e id r ∈ a :=
  post c as h hc hd hst e he id hcom

/-- C78: two bodies of an element with the strategy `HOLD_BY_PIPELINE` never overlap, not even in different runs: when
one begins, all that began before have ended. -/
theorem C78_alone_partial (c : ACfg) (as : List AAct) {a b : List AEv} {e id : Nat}
    (h : (exec c .new as).hist = a ++ .bodyBegin e id :: b) (hc : AClean a) (he : c.hold e = true) :
    a.countP (isBody e) = a.countP (isBodyEnd e) :=
  post c as h hc he

/-- C78: what the call of an element returns is the outcome of its body, or, after a timeout, an error exactly if the
strategy is not `HOLD_BY_PIPELINE`. -/
theorem C78_elem_partial (c : ACfg) (as : List AAct) {a b : List AEv} {e : Nat} {st : CStatus}
    (h : (exec c .new as).hist = a ++ .elemRet e st :: b) (hc : AClean a) :
    (∃ id r, .commit e id ∈ lastRun a ∧ .bodyEnd e id r ∈ a ∧ st = asyncOutcome r) ∨
      (.late e ∈ lastRun a ∧ (∃ id, .commit e id ∈ lastRun a) ∧ st.isErr = !c.hold e) := by
  rcases (show _ ∨ _ from post c as h hc) with ⟨id, r, h1, h2, h3⟩ | h1
  · exact .inl ⟨id, r, h1, h2, by rw [h3, asyncOutcome_eq]⟩
  · exact .inr h1

/-! ## No race -/

theorem _root_.CGraph.Spec.ACalm.of_append {l m : List AEv} (h : ACalm (l ++ m)) : ACalm l :=
  ⟨fun he => h.1 (List.mem_append_left _ he), fun e he => h.2 e (List.mem_append_left _ he)⟩

/-- What fences are asking. -/
structure SInv (c : ACfg) (s : ASt) : Prop where
  at_ : ∀ f l st, s.fpc f = .at l st → ∀ e ∈ l, e ∈ c.waits f
  get : ∀ f e id l st, s.fpc f = .get e id l st → e ∈ c.waits f ∧ s.fut e = some id ∧ ∀ k ∈ l, k ∈ c.waits f

/-- Fences unchanged, futures of elements that have returned unchanged. -/
theorem SInv.congr {c : ACfg} {s s' : ASt} (h : SInv c s) (hf : s'.fpc = s.fpc)
    (hk : ∀ f e id l st, s.fpc f = .get e id l st → s'.fut e = s.fut e) : SInv c s' := by
  constructor
  · intro f l st hp
    rw [hf] at hp
    exact h.at_ f l st hp
  · intro f e id l st hp
    rw [hf] at hp
    obtain ⟨h1, h2, h3⟩ := h.get f e id l st hp
    exact ⟨h1, by rw [hk f e id l st hp, h2], h3⟩

theorem race_step {c : ACfg} (hsep : FencesApart c) {s s' : ASt} {a : AAct} (hall : AAll c s)
    (h : ACalm s.hist → (∀ e, .race e ∉ s.hist) ∧ SInv c s) (hs : s.step c a = some s') (hcalm : ACalm s'.hist) :
    (∀ e, .race e ∉ s'.hist) ∧ SInv c s' := by
  have hsub : ∃ m, s'.hist = s.hist ++ m := by
    cases a <;> simp only [step] at hs <;> (repeat' split at hs) <;> simp_all <;> subst hs <;>
      simp [emit, commit]
  obtain ⟨m, hm⟩ := hsub
  have hc0 : ACalm s.hist := by rw [hm] at hcalm; exact hcalm.of_append
  obtain ⟨hnr, hsi⟩ := h hc0
  have hi := hall.inv ⟨hnr, hc0.1, hc0.2⟩
  have hback : ∀ f e id l st, s.fpc f = .get e id l st → s.pc e = .back := fun f e id l st hp =>
    (hi.fenG f e id l st (hsep.1 f) hp).1 e (hsi.get f e id l st hp).1
  have hother : ∀ e x, s.pc e ≠ .back → ∀ f e' id l st, s.fpc f = .get e' id l st → setAt s.fut e x e' = s.fut e' := by
    intro e x hp f e' id l st hg
    have : e' ≠ e := by
      rintro rfl
      exact hp (hback f e' id l st hg)
    exact setAt_ne _ _ this
  have hidle : s.run ≠ .engine → ∀ f e id l st, s.fpc f ≠ .get e id l st := by
    intro hr f e id l st hp
    rcases hi.quietF hr f with h1 | h1 <;> simp [hp] at h1
  have hone : ∀ {x : AEv}, (∀ e, x ≠ .race e) → ∀ e, .race e ∉ s.hist ++ [x] := by
    intro x hx e he
    rcases List.mem_append.mp he with he | he
    · exact hnr e he
    · exact hx e (List.mem_singleton.mp he).symm
  cases a with
  | run =>
    simp only [step] at hs
    split_ifs at hs with hr
    cases hs
    exact ⟨hone (by simp), by constructor <;> simp⟩
  | call e =>
    simp only [step] at hs
    split_ifs at hs with hr ht
    · cases hs
      exact ⟨hnr, hsi.congr rfl (fun _ _ _ _ _ _ => rfl)⟩
    · cases hs
      exact ⟨hone (by simp), hsi.congr rfl (hother e _ (by simp [hr.2.1]))⟩
  | take id =>
    simp only [step] at hs
    split at hs
    · cases hs
      exact ⟨hone (by simp), hsi.congr rfl (fun _ _ _ _ _ _ => rfl)⟩
    · simp at hs
  | finish id r =>
    simp only [step] at hs
    split at hs
    · cases hs
      exact ⟨hone (by simp), hsi.congr rfl (fun _ _ _ _ _ _ => rfl)⟩
    · simp at hs
  | inTime e =>
    simp only [step] at hs
    split at hs
    · rename_i id hp
      rw [if_pos (hi.wait e id hp)] at hs
      split at hs
      · cases hs
        exact ⟨hnr, hsi.congr rfl (hother e _ (by simp [hp]))⟩
      · simp at hs
    · simp at hs
  | late e =>
    simp only [step] at hs
    split at hs
    · split_ifs at hs <;> cases hs <;> exact ⟨hone (by simp), hsi.congr rfl (fun _ _ _ _ _ _ => rfl)⟩
    · simp at hs
  | again e =>
    simp only [step] at hs
    split at hs
    · rename_i st late hp
      split_ifs at hs
      cases hs
      refine ⟨?_, hsi.congr rfl (hother e _ (by simp [hp]))⟩
      intro e' he'
      simp [commit, emit] at he'
      exact hnr e' he'
    · simp at hs
  | ret e =>
    simp only [step] at hs
    split at hs
    · cases hs
      exact ⟨hone (by simp), hsi.congr rfl (fun _ _ _ _ _ _ => rfl)⟩
    · simp at hs
  | fence f =>
    simp only [step] at hs
    split_ifs at hs
    cases hs
    refine ⟨hone (by simp), ?_, ?_⟩
    · intro f' l st hp
      by_cases hf : f' = f
      · subst hf
        simp [emit] at hp
        intro e he
        rwa [hp.1]
      · exact hsi.at_ f' l st (by simpa [emit, setAt_ne _ _ hf] using hp)
    · intro f' e id l st hp
      by_cases hf : f' = f
      · subst hf
        simp [emit] at hp
      · exact hsi.get f' e id l st (by simpa [emit, setAt_ne _ _ hf] using hp)
  | fenceStep f =>
    simp only [step] at hs
    split at hs
    · cases hs
      refine ⟨hone (by simp), ?_, ?_⟩
      · intro f' l st hp
        by_cases hf : f' = f
        · subst hf
          simp [emit] at hp
        · exact hsi.at_ f' l st (by simpa [emit, setAt_ne _ _ hf] using hp)
      · intro f' e id l st hp
        by_cases hf : f' = f
        · subst hf
          simp [emit] at hp
        · exact hsi.get f' e id l st (by simpa [emit, setAt_ne _ _ hf] using hp)
    · rename_i e l st hp
      have hin := hsi.at_ f _ _ hp
      split at hs
      · cases hs
        refine ⟨hnr, ?_, ?_⟩
        · intro f' l' st' hp'
          by_cases hf : f' = f
          · subst hf
            simp at hp'
            obtain ⟨rfl, rfl⟩ := hp'
            exact fun k hk => hin k (by simp [hk])
          · exact hsi.at_ f' l' st' (by simpa [setAt_ne _ _ hf] using hp')
        · intro f' e' id l' st' hp'
          by_cases hf : f' = f
          · subst hf
            simp at hp'
          · exact hsi.get f' e' id l' st' (by simpa [setAt_ne _ _ hf] using hp')
      · rename_i id hfut
        have hb : s.pc e = .back := (hi.fenA f _ _ (hsep.1 f) hp).1 e (hin e (by simp))
        rw [hb] at hs
        cases hs
        refine ⟨hnr, ?_, ?_⟩
        · intro f' l' st' hp'
          by_cases hf : f' = f
          · subst hf
            simp at hp'
          · exact hsi.at_ f' l' st' (by simpa [setAt_ne _ _ hf] using hp')
        · intro f' e' id' l' st' hp'
          by_cases hf : f' = f
          · subst hf
            simp at hp'
            obtain ⟨rfl, rfl, rfl, rfl⟩ := hp'
            exact ⟨hin e (by simp), hfut, fun k hk => hin k (by simp [hk])⟩
          · exact hsi.get f' e' id' l' st' (by simpa [setAt_ne _ _ hf] using hp')
    · rename_i e id l st hp
      obtain ⟨hw, hfut, hl⟩ := hsi.get f e id l st hp
      rw [if_pos hfut] at hs
      have key : ∀ x : FPc, (∀ e id l st, x ≠ .get e id l st) → (∀ l' st', x = .at l' st' → ∀ k ∈ l', k ∈ c.waits f) →
          SInv c { s with fut := setAt s.fut e none, fpc := setAt s.fpc f x } := by
        intro x hx hx'
        constructor
        · intro f' l' st' hp'
          by_cases hf : f' = f
          · subst hf
            exact hx' l' st' (by simpa using hp')
          · exact hsi.at_ f' l' st' (by simpa [setAt_ne _ _ hf] using hp')
        · intro f' e' id' l' st' hp'
          by_cases hf : f' = f
          · subst hf
            simp at hp'
            exact absurd hp' (hx _ _ _ _)
          · obtain ⟨h1, h2, h3⟩ := hsi.get f' e' id' l' st' (by simpa [setAt_ne _ _ hf] using hp')
            have hne : e' ≠ e := by
              rintro rfl
              exact hf (hsep.2 _ _ _ h1 hw)
            exact ⟨h1, by simpa [setAt_ne _ _ hne] using h2, h3⟩
      split at hs
      · cases hs
        refine ⟨hnr, key _ (by simp) ?_⟩
        rintro l' st' hx
        cases hx
        exact hl
      · cases hs
        refine ⟨hnr, key _ (by simp) ?_⟩
        rintro l' st' hx
        cases hx
        simp
      · simp at hs
    · simp at hs
  | engineEnd =>
    simp only [step] at hs
    split_ifs at hs
    cases hs
    exact ⟨hnr, hsi.congr rfl (fun _ _ _ _ _ _ => rfl)⟩
  | resetStep =>
    have hr : s.run ≠ .engine := by
      intro hr
      simp [step, hr] at hs
    have key : ∀ s'' : ASt, s''.fpc = s.fpc → SInv c s'' := fun s'' he =>
      hsi.congr he (fun f e id l st hp => absurd hp (hidle hr f e id l st))
    simp only [step] at hs
    split at hs
    · cases hs
      exact ⟨hone (by simp), key _ rfl⟩
    · split at hs
      · cases hs
        exact ⟨hnr, key _ rfl⟩
      · split at hs
        · cases hs
          exact ⟨hnr, key _ rfl⟩
        · cases hs
          exact absurd (by simp [emit]) hcalm.1
        · simp at hs
    · simp at hs

/-- C78: if every fence depends on the elements it waits for and no element is awaited by two fences, then no future is ever
used by two threads at once, as long as no exception left `run` and no body was repeated after its timeout. -/
theorem C78_no_race (c : ACfg) (hsep : FencesApart c) (as : List AAct) (hcalm : ACalm (exec c .new as).hist) :
    AClean (exec c .new as).hist := by
  have key : ∀ (as : List AAct) (s : ASt), AAll c s → (ACalm s.hist → (∀ e, .race e ∉ s.hist) ∧ SInv c s) →
      ACalm (s.exec c as).hist → ∀ e, .race e ∉ (s.exec c as).hist := by
    intro as
    induction as with
    | nil => exact fun s _ h hc => (h hc).1
    | cons a as ih =>
      intro s hall h hc
      simp only [exec] at hc ⊢
      cases hs : s.step c a with
      | none =>
        simp only [hs, Option.getD_none] at hc ⊢
        exact ih s hall h hc
      | some s' =>
        simp only [hs, Option.getD_some] at hc ⊢
        exact ih s' (step_all hall hs) (race_step hsep hall h hs) hc
  refine ⟨key as .new (AAll.new c) (fun _ => ⟨by simp [new], ?_⟩) hcalm, hcalm.1, hcalm.2⟩
  constructor <;> simp [new]

/-! ## A concrete case -/

/-- Element 0 is held by the pipeline, element 1 is not; fence 0 waits for element 0 and depends on it. -/
def demo : ACfg := ⟨2, 1, fun e => e = 0, fun f => if f = 0 then [0] else [], fun _ => true⟩

/-- Element 0 times out; the fence waits for its body; element 1 is in time. -/
def demoSteps : List AAct :=
  [.run, .call 0, .call 1, .take 0, .take 1, .late 0, .ret 0, .fence 0, .fenceStep 0, .finish 1 (.ret .ok), .inTime 1,
   .ret 1, .fenceStep 0, .finish 0 (.ret .ok), .fenceStep 0, .fenceStep 0, .engineEnd, .resetStep, .resetStep]

example : (exec demo .new demoSteps).hist =
    [.runBegin, .commit 0 0, .commit 1 1, .bodyBegin 0 0, .bodyBegin 1 1, .late 0, .elemRet 0 .ok, .fenceBegin 0,
     .bodyEnd 1 1 (.ret .ok), .elemRet 1 .ok, .bodyEnd 0 0 (.ret .ok), .fenceRet 0 .ok, .runRet .ok] := by
  decide +kernel

example : FencesApart demo := by
  refine ⟨fun _ => rfl, fun f g e h1 h2 => ?_⟩
  by_cases hf : f = 0
  · by_cases hg : g = 0
    · rw [hf, hg]
    · simp [demo, hg] at h2
  · simp [demo, hf] at h1

/-! ## What does not hold -/

/-- C78 does not hold for the strategy `AS_ERROR`: `run` returns while the body is being executed, and in the next run the
element is executed a second time at the same time. -/
theorem C78_alone_violated : ∃ (c : ACfg) (as : List AAct), (exec c .new as).hist =
    [.runBegin, .commit 0 0, .bodyBegin 0 0, .late 0, .elemRet 0 (.err "running time"), .runRet (.err "running time"),
     .runBegin, .commit 0 1, .bodyBegin 0 1] :=
  ⟨⟨1, 0, fun _ => false, fun _ => [], fun _ => true⟩,
   [.run, .call 0, .take 0, .late 0, .ret 0, .engineEnd, .resetStep, .run, .call 0, .take 1], by decide +kernel⟩

/-- C78 does not hold when a body with the strategy `HOLD_BY_PIPELINE` throws after its timeout: the exception leaves `run`
of the pipeline, other bodies are not waited for, and the next run does not execute the element at all and returns
without error. -/
theorem C78_throw_violated : ∃ (c : ACfg) (as : List AAct), c.hold 0 = true ∧ c.hold 1 = true ∧ (exec c .new as).hist =
    [.runBegin, .commit 0 0, .commit 1 1, .bodyBegin 0 0, .bodyBegin 1 1, .late 0, .late 1, .elemRet 0 .ok,
     .elemRet 1 .ok, .bodyEnd 0 0 (.thrown "boom"), .runThrow,
     .runBegin, .elemRet 0 .ok, .elemRet 1 .ok, .bodyEnd 1 1 (.ret .ok), .runRet .ok] :=
  ⟨⟨2, 0, fun _ => true, fun _ => [], fun _ => true⟩,
   [.run, .call 0, .call 1, .take 0, .take 1, .late 0, .late 1, .ret 0, .ret 1, .finish 0 (.thrown "boom"), .engineEnd,
    .resetStep, .run, .call 0, .ret 0, .call 1, .ret 1, .engineEnd, .resetStep, .finish 1 (.ret .ok), .resetStep,
    .resetStep], rfl, rfl, by decide +kernel⟩

/-- C78 does not hold when `isHold` is true after a timeout: the future is overwritten, and `run` returns while the first
body is being executed. -/
theorem C78_repeat_violated : ∃ (c : ACfg) (as : List AAct), c.hold 0 = true ∧ (exec c .new as).hist =
    [.runBegin, .commit 0 0, .bodyBegin 0 0, .late 0, .again 0 true, .commit 0 1, .bodyBegin 0 1,
     .bodyEnd 0 1 (.ret .ok), .elemRet 0 .ok, .runRet .ok] :=
  ⟨⟨1, 0, fun _ => true, fun _ => [], fun _ => true⟩,
   [.run, .call 0, .take 0, .late 0, .again 0, .take 1, .finish 1 (.ret .ok), .inTime 0, .ret 0, .engineEnd, .resetStep,
    .resetStep], rfl, by decide +kernel⟩

/-- C78 does not hold for a fence that does not depend on its element: it may be called first, finds no future, and returns
while the body of this run has not even been committed. -/
theorem C78_fence_violated : ∃ (c : ACfg) (as : List AAct), c.waits 0 = [0] ∧ (exec c .new as).hist =
    [.runBegin, .fenceBegin 0, .fenceRet 0 .ok, .commit 0 0, .bodyBegin 0 0] :=
  ⟨⟨1, 1, fun _ => true, fun _ => [0], fun _ => false⟩,
   [.run, .fence 0, .fenceStep 0, .fenceStep 0, .call 0, .take 0], rfl, by decide +kernel⟩

/-- C78 does not hold for a fence whose elements have thrown: it stops at the first exception and does not wait for the
others. -/
theorem C78_fence_throw_violated : ∃ (c : ACfg) (as : List AAct), c.deps 0 = true ∧ c.waits 0 = [0, 1] ∧
    (exec c .new as).hist =
    [.runBegin, .commit 0 0, .commit 1 1, .late 0, .late 1, .elemRet 0 .ok, .elemRet 1 .ok, .bodyBegin 0 0,
     .bodyEnd 0 0 (.thrown "boom"), .fenceBegin 0, .fenceRet 0 ⟨STATUS_CRASH, "boom"⟩, .bodyBegin 1 1] :=
  ⟨⟨2, 1, fun _ => true, fun _ => [0, 1], fun _ => true⟩,
   [.run, .call 0, .call 1, .late 0, .late 1, .ret 0, .ret 1, .take 0, .finish 0 (.thrown "boom"), .fence 0,
    .fenceStep 0, .fenceStep 0, .fenceStep 0, .take 1], rfl, rfl, by decide +kernel⟩

/-- C78 does not hold for two fences that wait for the same element: both find the future valid, and both use it. -/
theorem C78_race_violated : ∃ (c : ACfg) (as : List AAct), (∀ f, c.deps f = true) ∧ (∀ f, c.waits f = [0]) ∧
    (exec c .new as).hist =
    [.runBegin, .commit 0 0, .late 0, .elemRet 0 .ok, .fenceBegin 0, .fenceBegin 1, .bodyBegin 0 0,
     .bodyEnd 0 0 (.ret .ok), .race 0] :=
  ⟨⟨1, 2, fun _ => true, fun _ => [0], fun _ => true⟩,
   [.run, .call 0, .late 0, .ret 0, .fence 0, .fence 1, .fenceStep 0, .fenceStep 1, .take 0, .finish 0 (.ret .ok),
    .fenceStep 0, .fenceStep 1], fun _ => rfl, fun _ => rfl, by decide +kernel⟩

end CGraph.ASt
