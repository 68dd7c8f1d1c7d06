import Verif.Lemmas.Control

/-! # Properties of cancel, suspend and resume: C44, C45 -/
namespace CGraph
namespace CtlSt

/-- `process` has begun its first run of `r`. -/
def exRunning (r : Nat) : CtlSt := (CtlSt.start r).exec 2 (fun _ => 1) [.main, .main]

/-- Element `e` is called and executes one round. -/
def exRound (e : Nat) : List CtlAct := [.elem e false, .elem e false, .elem e false, .elem e false, .elem e false]

/-- A whole control call with two elements. -/
def exCtl (q : EState) : List CtlAct := [.ctl q, .push, .push, .push]

/-! ## C44 -/

/-- **C44** (cancel during a run).  A run is in progress and not cancelled yet; `cancel` is called and has returned
after the steps `acts1`.  From then on (steps `acts2`), however the threads are interleaved and as long as no other
control call is made: an element begins a body only if it had passed the test of its loop condition before `cancel`
returned, then it does so once, and `process` begins no further run.
Missing: elements between their test and their body (`C44_passed_test_violated`), elements repeating their body because
of `isHold` (`C44_hold_violated`), a cancel between two runs (`C44_between_runs_violated`). -/
theorem C44_cancel_partial (n r : Nat) (loops : Nat → Nat) (s0 : CtlSt) (hm : s0.main = .running r)
    (hp : s0.push = none) (hr : s0.repo ≠ .cancel) (acts1 acts2 : List CtlAct)
    (h1 : ∀ a ∈ acts1, (∀ q, a ≠ .ctl q) ∧ a ≠ .main)
    (hret : (s0.exec n loops (.ctl .cancel :: acts1)).push = none)
    (h2 : ∀ a ∈ acts2, (∀ q, a ≠ .ctl q) ∧ ∀ e, a ≠ .elem e true) :
    let s1 := s0.exec n loops (.ctl .cancel :: acts1)
    ∃ new, (s1.exec n loops acts2).hist = s1.hist ++ new ∧ CtlEv.run ∉ new ∧
      ∀ e < n, new.count (.enter e) ≤ 1 ∧ (CtlEv.enter e ∈ new → ∃ l, s1.pc e = .passed l) := by
  intro s1
  have hP : Pushing n .cancel r s1 := by
    show Pushing n .cancel r (s0.exec n loops (.ctl .cancel :: acts1))
    rw [CtlSt.exec]
    apply Pushing.exec acts1 h1
    have : s0.step n loops (.ctl .cancel) =
        some { s0 with push := some (.cancel, 0), hist := s0.hist ++ [.ctl .cancel] } := by
      simp [CtlSt.step, hp, hm, hr]
    rw [this]
    exact ⟨hm, .inl ⟨0, rfl, fun e he => absurd he (Nat.not_lt_zero e)⟩⟩
  have h0 : Off n s1 s1 [] := by
    rcases hP.push with ⟨i, hi, _⟩ | ⟨hi, hre, hst⟩
    · rw [hret] at hi; simp at hi
    · exact ⟨by simp, hst, hre, hi, .inl ⟨r, hP.main⟩, by simp, by simp⟩
  obtain ⟨new, I⟩ := Off.exec (loops := loops) acts2 h2 _ _ h0
  refine ⟨new, I.hist, I.noRun, fun e he => ?_⟩
  have hc := I.count e he
  have ho : owed (s1.pc e) ≤ 1 := by cases s1.pc e <;> simp [owed]
  refine ⟨by omega, fun hmem => ?_⟩
  have hpos := List.count_pos_iff.2 hmem
  cases hpc : s1.pc e with
  | passed l => exact ⟨l, rfl⟩
  | _ => rw [hpc] at hc; simp [owed] at hc; omega

/-- Two elements, three rounds each: cancelled while element 0 is in its first body, both end without another body. -/
example : ((exRunning 2).exec 2 (fun _ => 3) ([.call 0, .elem 0 false, .elem 0 false] ++ exCtl .cancel ++
      [.call 1, .elem 1 false, .elem 0 false, .elem 0 false, .elem 0 false, .elem 0 false, .main, .main])).hist =
    [.run, .enter 0, .ctl .cancel, .ctlDone .cancel, .fin 1, .leave 0, .fin 0] := by decide +kernel

/-- **C44 is false** for an element that has tested its state but not begun its body: the body begins after `cancel`
has returned. -/
theorem C44_passed_test_violated :
    ((exRunning 1).exec 2 (fun _ => 1) ([.call 0, .elem 0 false] ++ exCtl .cancel ++ [.elem 0 false])).hist =
      [.run, .ctl .cancel, .ctlDone .cancel, .enter 0] := by decide +kernel

/-- The element answers `isHold()` with true `m` times. -/
def exHold : Nat → List CtlAct
  | 0 => []
  | m + 1 => [.elem 0 false, .elem 0 true, .elem 0 true, .elem 0 true] ++ exHold m

theorem exHold_enters (m : Nat) : ∀ s : CtlSt, s.st 0 ≠ .suspend → (∃ l, s.pc 0 = .body l) →
    ∃ new, (s.exec 2 (fun _ => 1) (exHold m)).hist = s.hist ++ new ∧ new.count (.enter 0) = m := by
  induction m with
  | zero => intro s _ _; exact ⟨[], by simp [exHold, CtlSt.exec], by simp⟩
  | succ m ih =>
    intro s hs hb
    obtain ⟨l, hl⟩ := hb
    have e : s.exec 2 (fun _ => 1) [.elem 0 false, .elem 0 true, .elem 0 true, .elem 0 true] =
        { (((s.setPc 0 (.check l)).setPc 0 (.hold l)).setPc 0 (.passed l)).setPc 0 (.body l) with
          hist := s.hist ++ [.leave 0, .enter 0] } := by
      simp [CtlSt.exec, CtlSt.step, elemStep, hl, setPc, hs]
    obtain ⟨new, h1, h2⟩ := ih (s.exec 2 (fun _ => 1) [.elem 0 false, .elem 0 true, .elem 0 true, .elem 0 true])
      (by rw [e]; exact hs) ⟨l, by rw [e]; simp⟩
    refine ⟨[.leave 0, .enter 0] ++ new, ?_, ?_⟩
    · rw [exHold, exec_append, h1, e]; simp
    · rw [List.count_append, h2]; simp; omega

/-- **C44 is false** for an element that repeats its body because of `isHold`: after `cancel` has returned it begins
any number of bodies. -/
theorem C44_hold_violated (m : Nat) :
    let s1 := (exRunning 1).exec 2 (fun _ => 1) ([.call 0, .elem 0 false, .elem 0 false] ++ exCtl .cancel)
    s1.hist = [.run, .enter 0, .ctl .cancel, .ctlDone .cancel] ∧
    ∃ new, (s1.exec 2 (fun _ => 1) (exHold m)).hist = s1.hist ++ new ∧ new.count (.enter 0) = m := by
  intro s1
  refine ⟨by decide +kernel, exHold_enters m s1 (by decide +kernel) ⟨1, by decide +kernel⟩⟩

/-- **C44 is false** for a cancel between two runs of `process`, after the test of the loop condition: it is accepted,
undone by the setup of the next run, and the next run executes everything. -/
theorem C44_between_runs_violated :
    ((CtlSt.start 1).exec 2 (fun _ => 1) ([.main] ++ exCtl .cancel ++
      [.main, .main, .main, .main, .call 0, .call 1] ++ exRound 0 ++ exRound 1 ++
      [.elem 0 false, .elem 1 false])).hist =
    [.ctl .cancel, .ctlDone .cancel, .run, .enter 0, .leave 0, .enter 1, .leave 1, .fin 0, .fin 1] := by
  decide +kernel

/-! ## C45 -/

/-- **C45** (suspended in the body).  `suspend` has returned while element `e` was in its body with `l` rounds to do
including this one.  During the rest of the run only `resume` is called, at any moment and possibly several times.
When the element is finished it has executed all its remaining rounds.
Missing: elements that test their loop condition while suspended (`C45_skipped_violated`), and that a suspended element
always goes on after `resume` (`C45_lost_wakeup_violated`). -/
theorem C45_in_body_partial (n e l : Nat) (loops : Nat → Nat) (s : CtlSt) (hb : s.pc e = .body l)
    (hst : s.st e = .suspend) (hp : s.push = none) (acts : List CtlAct)
    (ha : ∀ a ∈ acts, (∀ q, a = .ctl q → q = .normal) ∧ a ≠ .elem e true ∧ a ≠ .main)
    (hf : (s.exec n loops acts).pc e = .fin) :
    ∃ new, (s.exec n loops acts).hist = s.hist ++ new ∧ new.count (.enter e) = l - 1 := by
  have h0 : Keep e (l - 1) s s [] :=
    ⟨by simp, .inl hp, .inr ⟨hst, by rw [hb]; rfl⟩, by rw [hb]; simp [todo], by rw [hb]; simp, by rw [hb]; simp⟩
  obtain ⟨new, I⟩ := Keep.exec (n := n) (loops := loops) acts ha _ _ h0
  refine ⟨new, I.hist, ?_⟩
  have := I.count
  rw [hf] at this
  simpa [todo] using this

/-- Element 0 has three rounds and is suspended in the first. -/
example : let s := (exRunning 1).exec 2 (fun _ => 3) ([.call 0, .elem 0 false, .elem 0 false] ++ exCtl .suspend)
    s.pc 0 = .body 3 ∧ s.st 0 = .suspend ∧ s.push = none ∧
    (s.exec 2 (fun _ => 3) ([.elem 0 false, .elem 0 false, .elem 0 false, .elem 0 false] ++ exCtl .normal ++
      [.elem 0 false, .elem 0 false] ++ exRound 0 ++ exRound 0 ++ [.elem 0 false])).pc 0 = .fin := by decide +kernel

/-- Without any suspension every element executes all its rounds (what C45 compares with). -/
theorem C45_without_suspension (n e l : Nat) (loops : Nat → Nat) (s : CtlSt) (hb : s.pc e = .test l)
    (hst : s.st e = .normal) (hp : s.push = none) (acts : List CtlAct)
    (ha : ∀ a ∈ acts, (∀ q, a = .ctl q → q = .normal) ∧ a ≠ .elem e true ∧ a ≠ .main)
    (hf : (s.exec n loops acts).pc e = .fin) :
    ∃ new, (s.exec n loops acts).hist = s.hist ++ new ∧ new.count (.enter e) = l := by
  have h0 : Keep e l s s [] :=
    ⟨by simp, .inl hp, .inl hst, by rw [hb]; simp [todo], by rw [hb]; simp, by rw [hb]; simp⟩
  obtain ⟨new, I⟩ := Keep.exec (n := n) (loops := loops) acts ha _ _ h0
  refine ⟨new, I.hist, ?_⟩
  have := I.count
  rw [hf] at this
  simpa [todo] using this

example : let s := (exRunning 1).exec 2 (fun _ => 2) [.call 0]
    s.pc 0 = .test 2 ∧ (s.exec 2 (fun _ => 2) (exRound 0 ++ exRound 0 ++ [.elem 0 false])).pc 0 = .fin := by
  decide +kernel

/-- **C45 is false** for elements that are called while the pipeline is suspended: element 1 returns at once without
executing its body, also after `resume`, and the run ends. -/
theorem C45_skipped_violated :
    ((exRunning 1).exec 2 (fun _ => 1) ([.call 0] ++ exRound 0 ++ [.elem 0 false] ++ exCtl .suspend ++
      [.call 1, .elem 1 false] ++ exCtl .normal ++ [.elem 1 false, .main, .main])).hist =
    [.run, .enter 0, .leave 0, .fin 0, .ctl .suspend, .ctlDone .suspend, .fin 1, .ctl .normal, .ctlDone .normal] := by
  decide +kernel

/-- **C45 is false**: the notification of `resume` is given without the element's mutex, so it is lost when it comes
between the element's test and its sleep.  The element then sleeps for ever, however often `resume` is called again
(unless it wakes spuriously): `resume` has returned, and nothing that follows lets the run end. -/
theorem C45_lost_wakeup_violated (more : List CtlAct)
    (hmore : ∀ a ∈ more, (∀ q, a = .ctl q → q = .normal) ∧ a ≠ .spurious 0) :
    let s := (exRunning 1).exec 2 (fun _ => 1) ([.call 0, .elem 0 false, .elem 0 false] ++ exCtl .suspend ++
      [.elem 0 false, .elem 0 false, .elem 0 false] ++ exCtl .normal ++ [.elem 0 false])
    s.hist = [.run, .enter 0, .ctl .suspend, .ctlDone .suspend, .leave 0, .ctl .normal, .ctlDone .normal] ∧
    s.st 0 = .normal ∧ (∃ l, (s.exec 2 (fun _ => 1) more).pc 0 = .asleep l) ∧
    ∃ r, (s.exec 2 (fun _ => 1) more).main = .running r := by
  intro s
  have h0 : Forgotten s := ⟨⟨1, by decide +kernel⟩, by decide +kernel, by decide +kernel, ⟨0, by decide +kernel⟩⟩
  have h1 := Forgotten.exec (n := 2) (by omega) (loops := fun _ => 1) more hmore s h0
  exact ⟨by decide +kernel, by decide +kernel, h1.asleep, h1.main⟩

/-- Such a continuation: everybody else goes on and `resume` is called again. -/
example : ∀ a ∈ ([.ctl .normal, .call 1, .elem 1 false, .main] : List CtlAct),
    (∀ q, a = .ctl q → q = .normal) ∧ a ≠ .spurious 0 := by simp

end CtlSt
end CGraph
