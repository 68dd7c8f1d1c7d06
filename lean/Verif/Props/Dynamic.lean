import Verif.Lemmas.DynProgress

/-! # C26 – C30, C65: dynamic engine (general DAG) under every interleaving -/
namespace CGraph
open Spec DynSt

/-- No element returns an error in this schedule. -/
def NoFail (acts : List DynAct) : Prop :=
  ∀ a ∈ acts, ∀ st, (a = .main st ∨ ∃ i, a = .work i st) → st.isErr = false

/-! ### which schedules reach only clean starts -/

theorem jobStep_failed {c : DynCfg} {s s' : DynSt} {st j oj} (hs : jobStep c s st j = some (s', oj))
    (hst : st.isErr = false) : s'.failed = s.failed := by
  have hn : s.notify.failed = s.failed := by unfold notify; split <;> rfl
  have h2 : st.isNotErr = true := by rw [CStatus.isNotErr_eq, hst]; rfl
  unfold jobStep at hs
  grind [push]

theorem step_failed {c : DynCfg} {s s' : DynSt} {a} (hs : step c s a = some s') (hf : s.failed = [])
    (hst : ∀ st, (a = .main st ∨ ∃ i, a = .work i st) → st.isErr = false) : s'.failed = [] := by
  cases a with
  | begin =>
    simp only [step] at hs
    split at hs
    · simp only [Option.some.injEq] at hs; subst hs; rfl
    · simp at hs
  | main st =>
    have h0 := hst st (Or.inl rfl)
    have hj := fun j s1 oj (h : jobStep c s st j = some (s1, oj)) => jobStep_failed h h0
    simp only [step] at hs
    split at hs <;> grind [push, toWait, DynSt.ret]
  | take i => simp only [step] at hs; grind
  | work i st =>
    have h0 := hst st (Or.inr ⟨i, rfl⟩)
    have hj := fun j s1 oj (h : jobStep c s st j = some (s1, oj)) => jobStep_failed h h0
    simp only [step] at hs
    grind
  | spurious => simp only [step] at hs; grind

theorem reach_run_noFail {c : DynCfg} (acts : List DynAct) (hn : NoFail acts) :
    Reach c (run c (init c) acts) ∧ (run c (init c) acts).failed = [] := by
  suffices h : ∀ s, Reach c s → s.failed = [] → Reach c (run c s acts) ∧ (run c s acts).failed = [] from
    h _ Reach.init rfl
  induction acts with
  | nil => intro s h1 h2; exact ⟨h1, h2⟩
  | cons a as ih =>
    intro s h1 h2
    have hn' : NoFail as := fun b hb => hn b (List.mem_cons_of_mem _ hb)
    simp only [run]
    cases hs : step c s a with
    | none => simpa using ih hn' s h1 h2
    | some s' =>
      simp only [Option.getD_some]
      exact ih hn' s' (Reach.step h1 hs (fun _ => Or.inl h2)) (step_failed hs h2 (hn a (List.mem_cons_self ..)))

/-- A schedule with a single run, whatever fails in it. -/
theorem reach_run_once {c : DynCfg} (acts : List DynAct) (hn : DynAct.begin ∉ acts) :
    Reach c (run c (init c) (.begin :: acts)) := by
  suffices h : ∀ s, Reach c s → Reach c (run c s acts) from by
    simp only [run]
    apply h
    cases hs : step c (init c) .begin with
    | none => exact Reach.init
    | some s' => exact Reach.step Reach.init hs (fun _ => Or.inl rfl)
  induction acts with
  | nil => intro s h1; exact h1
  | cons a as ih =>
    intro s h1
    have ha : a ≠ .begin := fun h => hn (by simp [h])
    have has : DynAct.begin ∉ as := fun h => hn (by simp [h])
    simp only [run]
    cases hs : step c s a with
    | none => exact ih has s h1
    | some s' => exact ih has s' (Reach.step h1 hs (fun h => absurd h ha))

/-! ## example configuration

`0` and `1` have no dependencies, `2` depends on both. -/

def exJoin : Graph :=
  ⟨[0, 1, 2], fun e => if e = 2 then [0, 1] else [], fun e => if e = 0 ∨ e = 1 then [2] else []⟩

theorem exJoin_wf : exJoin.WF where
  nodup := by decide
  dnodup := by simp [exJoin]
  snodup := by simp [exJoin]
  sym := by
    intro a b
    simp only [exJoin]
    by_cases hb : b = 2
    · subst hb; by_cases ha : a = 0 ∨ a = 1 <;> simp [ha]
    · by_cases ha : a = 0 ∨ a = 1 <;> simp [ha, hb]
  closedS := by simp [exJoin]
  closedD := by simp [exJoin]

theorem exJoin_acyclic : AcyclicOn exJoin.Edge exJoin.elems := by
  apply Graph.acyclic_of_ordered
  intro pre x post h d hd
  simp only [exJoin] at h
  simp only [Graph.Edge, exJoin] at hd
  split at hd
  · rename_i hx
    subst hx
    match pre, h with
    | [], h => simp at h
    | [a], h => simp at h
    | [a, b], h => simp at h; simp at hd; grind
    | a :: b :: c' :: r, h => simp at h
  · simp at hd

def exJoinCfg : DynCfg := ⟨exJoin, fun _ => -1, 2, 1⟩

/-! ## C26 -/

/-- **C26** (order): in every reachable state — failures included — each element has started at most once in
the current run, and only after all its dependencies had finished successfully. -/
theorem C26_order (c : DynCfg) (w : c.g.WF) (ha : AcyclicOn c.g.Edge c.g.elems) (s : DynSt) (hs : Reach c s)
    (pre post : List Ev) (e : Eid) (ht : s.trace = pre ++ .start e :: post) :
    e ∈ c.g.elems ∧ Ev.start e ∉ pre ∧ Ev.start e ∉ post ∧ ∀ d ∈ c.g.deps e, Ev.finish d ∈ pre := by
  have h := sinv_reach w ha hs
  have hn : s.nrun ≠ 0 := by
    intro h0; have := h.first h0; subst this; simp [init] at ht
  have hi := h.inv hn
  have hg := hi.good pre e post ht
  have h1 := hi.tok e
  rw [ht] at h1
  simp only [List.count_append, List.count_cons_self] at h1
  have h2 := hi.rdy e (by rw [ht]; simp only [List.count_append, List.count_cons_self]; omega)
  refine ⟨h2.1, hg.1, ?_, hg.2⟩
  rw [← List.count_eq_zero]; omega

/-- **C26** (exactly once, any number of runs): for every schedule with any number of consecutive runs in
which no element returns an error, whenever a run has returned it has returned OK and every element has been
started and finished exactly once in that run. -/
theorem C26_exactly_once (c : DynCfg) (w : c.g.WF) (ha : AcyclicOn c.g.Edge c.g.elems) (acts : List DynAct)
    (hn : NoFail acts) (r : CStatus) (hr : (run c (init c) acts).lastRet = some r) :
    r = CStatus.ok ∧ ∀ v ∈ c.g.elems, (run c (init c) acts).trace.count (.start v) = 1 ∧
      (run c (init c) acts).trace.count (.finish v) = 1 := by
  obtain ⟨h1, h2⟩ := reach_run_noFail (c := c) acts hn
  have h := sinv_reach w ha h1
  generalize run c (init c) acts = s at *
  have h0 : s.nrun ≠ 0 := by
    intro h0; have := h.first h0; subst this; simp [init] at hr
  have hi := h.inv h0
  obtain ⟨r1, r2, r3⟩ := h.ret r hr
  have hfin : c.totalEnd ≤ s.fin := by
    rcases r3 with r3 | r3
    · obtain ⟨p, hp, -⟩ := hi.stErr r3; simp [h2] at hp
    · exact r3
  have hq := hi.quiet w ha hfin
  refine ⟨by rw [r2]; exact hq.2.2.2.2.2, fun v hv => ?_⟩
  have h3 := hi.complete w ha hfin v hv
  have := hi.body v; have := hi.tok v
  exact ⟨by omega, h3⟩

/-- **C26** (a run that returned OK, also after earlier failed and finished runs): every element was started
and finished exactly once. -/
theorem C26_ok_means_all (c : DynCfg) (w : c.g.WF) (ha : AcyclicOn c.g.Edge c.g.elems) (s : DynSt)
    (hs : Reach c s) (r : CStatus) (hr : s.lastRet = some r) (hok : r.isErr = false) :
    ∀ v ∈ c.g.elems, s.trace.count (.start v) = 1 ∧ s.trace.count (.finish v) = 1 := by
  have h := sinv_reach w ha hs
  have h0 : s.nrun ≠ 0 := by
    intro h0; have := h.first h0; subst this; simp [init] at hr
  have hi := h.inv h0
  obtain ⟨r1, r2, r3⟩ := h.ret r hr
  have hfin : c.totalEnd ≤ s.fin := by
    rcases r3 with r3 | r3
    · rw [← r2, hok] at r3; simp at r3
    · exact r3
  intro v hv
  have h3 := hi.complete w ha hfin v hv
  have := hi.body v; have := hi.tok v
  exact ⟨by omega, h3⟩

/-- A complete run of the example: the pool executes `0`, the caller `1` and then `2`. -/
def exJoinRun : List DynAct :=
  [.begin, .main .ok, .main .ok, .main .ok, .take 0, .work 0 .ok, .work 0 .ok, .work 0 .ok, .work 0 .ok,
   .work 0 .ok, .main .ok, .main .ok, .main .ok, .main .ok, .main .ok, .main .ok, .main .ok, .main .ok, .main .ok,
   .main .ok, .main .ok]

example : NoFail (exJoinRun ++ exJoinRun) := by
  intro a ha st h
  simp [exJoinRun] at ha
  rcases h with rfl | ⟨i, rfl⟩ <;> simp at ha <;> simp_all

/-- Two runs of the example, both return OK. -/
example : (run exJoinCfg (init exJoinCfg) exJoinRun).lastRet = some CStatus.ok ∧
    (run exJoinCfg (init exJoinCfg) (exJoinRun ++ exJoinRun)).lastRet = some CStatus.ok ∧
    (run exJoinCfg (init exJoinCfg) (exJoinRun ++ exJoinRun)).nrun = 2 ∧
    (run exJoinCfg (init exJoinCfg) exJoinRun).trace =
      [.start 1, .start 0, .finish 0, .finish 1, .start 2, .finish 2] := by decide

/-! ## C27 -/

/-- **C27** (no deadlock): in every schedule in which no element fails, as long as a run has not returned, some
thread can move (without a new run being begun and without a spurious wake-up). -/
theorem C27_progress (c : DynCfg) (w : c.g.WF) (ha : AcyclicOn c.g.Edge c.g.elems) (hw : 1 ≤ c.workers)
    (acts : List DynAct) (hn : NoFail acts) (h0 : (run c (init c) acts).nrun ≠ 0)
    (hm : (run c (init c) acts).main ≠ .idle) :
    ∃ a, a ≠ .begin ∧ a ≠ .spurious ∧ (step c (run c (init c) acts) a).isSome = true := by
  obtain ⟨h1, h2⟩ := reach_run_noFail (c := c) acts hn
  have h := sinv_reach w ha h1
  generalize run c (init c) acts = s at *
  by_contra hne
  have hst : Stuck c s := by
    intro a h3 h4
    by_contra h5
    exact hne ⟨a, h3, h4, Option.isSome_iff_ne_none.2 h5⟩
  have h6 := (stuck_cases w ha hw h h0 hm hst).2.2.2
  obtain ⟨p, hp, -⟩ := (h.inv h0).stErr h6
  simp [h2] at hp

/-- **C27** (bounded): from every reachable state — failures included — the number of steps of a run is
bounded: at most `work c s` plus four for each spurious wake-up. -/
theorem C27_bounded (c : DynCfg) (w : c.g.WF) (ha : AcyclicOn c.g.Edge c.g.elems) (acts : List DynAct)
    (hb : DynAct.begin ∉ acts) :
    ∀ s s', Reach c s → acts.foldlM (step c) s = some s' →
      acts.length ≤ work c s + 4 * acts.count .spurious := by
  induction acts with
  | nil => intro s s' _ _; simp
  | cons a as ih =>
    intro s s' hs hf
    have h1 : a ≠ .begin := fun h => hb (by simp [h])
    have h2 : DynAct.begin ∉ as := fun h => hb (by simp [h])
    simp only [List.foldlM_cons] at hf
    cases hst : step c s a with
    | none => simp [hst] at hf
    | some s1 =>
      simp only [hst, Option.bind_eq_bind, Option.bind_some] at hf
      have h3 := ih h2 s1 s' (Reach.step hs hst (fun h => absurd h h1)) hf
      have h4 := step_work w (sinv_reach w ha hs) hst h1
      simp only [List.length_cons, List.count_cons]
      by_cases hsp : a = .spurious
      · simp [hsp] at h4 ⊢; omega
      · simp [hsp] at h4 ⊢; omega

example : work exJoinCfg (run exJoinCfg (init exJoinCfg) [.begin]) = 74 ∧
    (exJoinRun.tail.foldlM (step exJoinCfg) (run exJoinCfg (init exJoinCfg) [.begin])).isSome = true ∧
    DynAct.begin ∉ exJoinRun.tail ∧ exJoinRun.tail.length = 20 := by decide

/-! ## C28 -/

/-- **C28** (dependents): if an element has failed in the current run, no element that transitively depends
on it starts in that run. -/
theorem C28_dependents_not_started (c : DynCfg) (w : c.g.WF) (ha : AcyclicOn c.g.Edge c.g.elems) (s : DynSt)
    (hs : Reach c s) (p : Eid × CStatus) (hp : p ∈ s.failed) (v : Eid)
    (hd : Relation.TransGen c.g.Edge p.1 v) : Ev.start v ∉ s.trace := by
  have h := sinv_reach w ha hs
  have hn : s.nrun ≠ 0 := by
    intro h0; have := h.first h0; subst this; simp [init] at hp
  have hi := h.inv hn
  have key : ∀ v, Relation.TransGen c.g.Edge p.1 v → s.trace.count (.start v) = 0 := by
    intro v hd
    induction hd with
    | single hE =>
      rename_i v
      by_contra h0
      have hr := (hi.rdy v (by omega)).2 p.1 hE
      have h1 := hi.edge p.1 v
      have h2 := List.count_pos_iff.2 hr
      have h3 := hi.body p.1
      have h4 : 0 < (s.failed.map Prod.fst).count p.1 := List.count_pos_iff.2 (List.mem_map_of_mem hp)
      have := hi.tok p.1
      omega
    | tail _ hE ih =>
      rename_i u v _
      by_contra h0
      have hr := (hi.rdy v (by omega)).2 u hE
      have h1 := hi.edge u v
      have h2 := List.count_pos_iff.2 hr
      have h3 := hi.body u
      omega
  rw [← List.count_eq_zero]
  exact key v hd

/-- **C28** (result): if an element has failed in the current run and the run has returned, it returned the
error of some failed element; a run returns an error only in this case. -/
theorem C28_result (c : DynCfg) (w : c.g.WF) (ha : AcyclicOn c.g.Edge c.g.elems) (s : DynSt)
    (hs : Reach c s) (r : CStatus) (hr : s.lastRet = some r) :
    (s.failed ≠ [] ↔ r.isErr = true) ∧ (r.isErr = true → ∃ p ∈ s.failed, r = p.2) := by
  have h := sinv_reach w ha hs
  have hn : s.nrun ≠ 0 := by
    intro h0; have := h.first h0; subst this; simp [init] at hr
  have hi := h.inv hn
  obtain ⟨r1, r2, r3⟩ := h.ret r hr
  subst r2
  refine ⟨⟨fun hf => ?_, fun he hf => ?_⟩, hi.stErr⟩
  · rcases r3 with r3 | r3
    · exact r3
    · exact absurd (hi.quiet w ha r3).1 hf
  · obtain ⟨p, hp, -⟩ := hi.stErr he; simp [hf] at hp

/-- `1` fails on the caller while `0` is executed by the pool; `2` does not start, the error is returned. -/
example : let s := run exJoinCfg (init exJoinCfg) ([.begin] ++
      [.main .ok, .main .ok, .main .ok, .take 0, .work 0 .ok, .main (.err "bad"), .main .ok, .main .ok, .work 0 .ok,
       .work 0 .ok, .main .ok, .main .ok, .main .ok, .main .ok])
    s.lastRet = some (.err "bad") ∧ s.failed = [(1, .err "bad")] ∧
    s.trace = [.start 1, .start 0, .finish 0] := by decide

/-! ## C29 -/

/-- The losing interleaving: `0` fails in the pool; its notification comes after the caller has evaluated the
wait predicate and before it sleeps. -/
def exLostWakeup : List DynAct :=
  [.begin, .main .ok, .main .ok, .main .ok, .main .ok, .main .ok, .main .ok, .main .ok, .main .ok, .main .ok,
   .main .ok, .main .ok, .take 0, .work 0 .ok, .work 0 (.err "bad"), .work 0 .ok, .work 0 .ok, .main .ok]

/-- **C29 is false**: there is an interleaving after which an element has failed, the caller sleeps, nobody
is left to wake it, and without a spurious wake-up the run never returns, whatever is scheduled. -/
theorem C29_failing_run_returns_violated :
    let s := run exJoinCfg (init exJoinCfg) exLostWakeup
    s.failed = [(0, .err "bad")] ∧ s.status.isErr = true ∧ s.lastRet = none ∧
    ∀ more : List DynAct, (∀ a ∈ more, a ≠ .spurious) → (run exJoinCfg s more).main = .asleep ∧
      (run exJoinCfg s more).lastRet = none := by
  intro s
  refine ⟨by decide, by decide, by decide, ?_⟩
  have hm : s.main = .asleep := by decide
  have hj : s.jobs = [] := by decide
  have hq : s.queue = [] := by decide
  have hl : s.lastRet = none := by decide
  generalize s = s at hm hj hq hl
  intro more hmore
  suffices h : run exJoinCfg s more = s by rw [h]; exact ⟨hm, hl⟩
  induction more with
  | nil => rfl
  | cons a as ih =>
    have h1 : step exJoinCfg s a = none := by
      have := hmore a (List.mem_cons_self ..)
      cases a <;> simp_all [step]
    simp only [run, h1, Option.getD_none]
    exact ih (fun b hb => hmore b (List.mem_cons_of_mem _ hb))

/-- **C29 (partial)**: a run that can make no step before it has returned is always in exactly that
situation — the caller asleep, an element failed, no other thread active — and a single wake-up then makes it
return the error.  (Missing: the wake-up itself, see `C29_failing_run_returns_violated`.) -/
theorem C29_stuck_only_by_lost_wakeup_partial (c : DynCfg) (w : c.g.WF) (ha : AcyclicOn c.g.Edge c.g.elems)
    (hw : 1 ≤ c.workers) (s : DynSt) (hs : Reach c s) (hn : s.nrun ≠ 0) (hm : s.main ≠ .idle) (hst : Stuck c s) :
    s.main = .asleep ∧ s.jobs = [] ∧ s.queue = [] ∧ s.status.isErr = true ∧
    (run c s [.spurious, .main .ok, .main .ok]).lastRet = some s.status := by
  obtain ⟨h1, h2, h3, h4⟩ := stuck_cases w ha hw (sinv_reach w ha hs) hn hm hst
  refine ⟨h1, h2, h3, h4, ?_⟩
  simp [run, step, h1, h4, DynSt.ret]

example : Stuck exJoinCfg (run exJoinCfg (init exJoinCfg) exLostWakeup) := by
  intro a h1 h2
  have hm : (run exJoinCfg (init exJoinCfg) exLostWakeup).main = .asleep := by decide
  have hj : (run exJoinCfg (init exJoinCfg) exLostWakeup).jobs = [] := by decide
  have hq : (run exJoinCfg (init exJoinCfg) exLostWakeup).queue = [] := by decide
  cases a <;> simp_all [step]

/-- States reachable when no failing thread notifies while the caller is between its predicate check and its
sleep. -/
inductive ReachNotLost (c : DynCfg) : DynSt → Prop
  | init : ReachNotLost c (init c)
  | step {s a s'} : ReachNotLost c s → step c s a = some s' → (a = .begin → Clean s) →
      (∀ i st, a = .work i st → s.jobs[i]? = some .errNotify → s.main ≠ .preSleep) → ReachNotLost c s'

theorem ReachNotLost.reach {c : DynCfg} {s : DynSt} (h : ReachNotLost c s) : Reach c s := by
  induction h with
  | init => exact .init
  | step _ h1 h2 _ ih => exact .step ih h1 h2

theorem jobStep_err {c : DynCfg} {s s' : DynSt} {st j oj} (hs : jobStep c s st j = some (s', oj)) :
    (s'.status.isErr = true → s.status.isErr = true ∨ oj = some .errNotify) ∧
    (j = .errNotify → s'.main ≠ .asleep ∧ (s.main ≠ .preSleep → s'.main ≠ .preSleep)) := by
  have hn : s.notify.status = s.status ∧ s.notify.main ≠ .asleep ∧
      (s.main ≠ .preSleep → s.notify.main ≠ .preSleep) := by
    unfold notify; split <;> simp_all
  unfold jobStep at hs
  grind [push]

/-- While the caller is about to sleep or asleep and an error is recorded, somebody is going to notify. -/
theorem ReachNotLost.pending {c : DynCfg} {s : DynSt} (h : ReachNotLost c s) :
    (s.main = .asleep ∨ s.main = .preSleep) → s.status.isErr = true → Job.errNotify ∈ s.jobs := by
  induction h with
  | init => simp [DynSt.init]
  | step hr hs hb hl ih =>
    rename_i s a s'
    cases a with
    | begin =>
      simp only [DynSt.step] at hs
      split at hs
      · simp only [Option.some.injEq] at hs; subst hs; simp
      · simp at hs
    | main st =>
      have hf := fun j s1 oj (h : jobStep c s st j = some (s1, oj)) => jobStep_frame h
      simp only [DynSt.step] at hs
      split at hs <;> grind [push, toWait, DynSt.ret]
    | take i => simp only [DynSt.step] at hs; grind
    | work i st =>
      simp only [DynSt.step] at hs
      split at hs
      · simp at hs
      rename_i j hj
      obtain ⟨hlt, hqe⟩ := List.getElem?_eq_some_iff.1 hj
      have hp : s.jobs.Perm (j :: s.jobs.eraseIdx i) := by
        rw [← hqe]; exact (List.getElem_cons_eraseIdx_perm hlt).symm
      have hset : ∀ j', (s.jobs.set i j').Perm (j' :: s.jobs.eraseIdx i) :=
        fun j' => List.set_perm_cons_eraseIdx hlt j'
      have key : ∀ (s1 : DynSt) (oj : Option Job) (L : List Job), jobStep c s st j = some (s1, oj) →
          L.Perm (oj.toList ++ s.jobs.eraseIdx i) → (s1.main = .asleep ∨ s1.main = .preSleep) →
          s1.status.isErr = true → Job.errNotify ∈ L := by
        intro s1 oj L h1 hL hm he
        obtain ⟨f1, f2, f3, f4⟩ := jobStep_frame h1
        obtain ⟨e1, e2⟩ := jobStep_err h1
        rw [hL.mem_iff]
        have hm' : s1.main = s.main := by
          rcases f4 with f4 | ⟨f4, f5⟩
          · exact f4
          · simp [f5] at hm
        rcases e1 he with he' | ho
        · have := ih (hm' ▸ hm) he'
          rw [hp.mem_iff] at this
          rcases List.mem_cons.1 this with h3 | h3
          · obtain ⟨e3, e4⟩ := e2 h3.symm
            have h4 := e4 (hl i st rfl (by rw [hj, h3]))
            rcases hm with hm | hm
            · exact absurd hm e3
            · exact absurd hm h4
          · exact List.mem_append_right _ h3
        · simp [ho]
      split at hs
      · simp at hs
      · rename_i s1 j' h1
        simp only [Option.some.injEq] at hs; subst hs
        exact key s1 _ _ h1 (hset j')
      · rename_i s1 h1
        simp only [Option.some.injEq] at hs; subst hs
        exact key s1 _ _ h1 (List.Perm.refl _)
    | spurious => simp only [DynSt.step] at hs; grind

/-- **C29 (partial)**: if no failing thread notifies exactly between the caller's predicate check and its
sleep, then — whatever fails — some thread can always move until the run has returned (together with
`C27_bounded`: it returns). -/
theorem C29_returns_partial (c : DynCfg) (w : c.g.WF) (ha : AcyclicOn c.g.Edge c.g.elems) (hw : 1 ≤ c.workers)
    (s : DynSt) (hs : ReachNotLost c s) (hn : s.nrun ≠ 0) (hm : s.main ≠ .idle) :
    ∃ a, a ≠ .begin ∧ a ≠ .spurious ∧ (step c s a).isSome = true := by
  by_contra hne
  have hst : Stuck c s := by
    intro a h3 h4
    by_contra h5
    exact hne ⟨a, h3, h4, Option.isSome_iff_ne_none.2 h5⟩
  obtain ⟨h1, h2, h3, h4⟩ := stuck_cases w ha hw (sinv_reach w ha hs.reach) hn hm hst
  have := hs.pending (Or.inl h1) h4
  rw [h2] at this; simp at this

/-- A failing run of this kind: the error is notified after the caller fell asleep. -/
example : let s := run exJoinCfg (init exJoinCfg) [.begin, .main .ok, .main .ok, .main .ok, .main .ok, .main .ok,
      .main .ok, .main .ok, .main .ok, .main .ok, .main .ok, .main .ok, .main .ok, .take 0, .work 0 .ok,
      .work 0 (.err "bad"), .work 0 .ok, .work 0 .ok, .main .ok, .main .ok]
    s.lastRet = some (.err "bad") := by decide

/-! ## C30 -/

/-- **C30 is false**: after `run` has returned (with the error of `1`), the body of `0` is still executing. -/
theorem C30_executing_after_return_violated :
    let s := run exJoinCfg (init exJoinCfg) [.begin, .main .ok, .main .ok, .main .ok, .take 0, .work 0 .ok,
      .main (.err "bad"), .main .ok, .main .ok, .main .ok, .main .ok, .main .ok, .main .ok]
    s.lastRet = some (.err "bad") ∧ s.main = .idle ∧ s.jobs = [.body 0] := by decide

/-- **C30 is false** also in the second part: an element starts after `run` has returned. -/
theorem C30_starting_after_return_violated :
    let s := run exJoinCfg (init exJoinCfg) [.begin, .main .ok, .main .ok, .main .ok,
      .main (.err "bad"), .main .ok, .main .ok, .main .ok, .main .ok, .main .ok, .main .ok]
    s.lastRet = some (.err "bad") ∧ s.main = .idle ∧ Ev.start 0 ∉ s.trace ∧
    Ev.start 0 ∈ (run exJoinCfg s [.take 0, .work 0 .ok]).trace := by decide

/-- **C30 (partial)**: when a run has returned OK, no element is executing or queued, and whatever is
scheduled afterwards (until a new run) nothing starts or ends any more.  (Missing: failed runs.) -/
theorem C30_ok_return_quiet_partial (c : DynCfg) (w : c.g.WF) (ha : AcyclicOn c.g.Edge c.g.elems) (s : DynSt)
    (hs : Reach c s) (r : CStatus) (hr : s.lastRet = some r) (hok : r.isErr = false) :
    s.queue = [] ∧ (∀ j ∈ s.jobs, j.bodyOf = [] ∧ j.held = []) ∧
    ∀ more, DynAct.begin ∉ more → (run c s more).trace = s.trace := by
  have h := sinv_reach w ha hs
  have hn : s.nrun ≠ 0 := by
    intro h0; have := h.first h0; subst this; simp [init] at hr
  have hi := h.inv hn
  obtain ⟨r1, r2, r3⟩ := h.ret r hr
  have hfin : c.totalEnd ≤ s.fin := by
    rcases r3 with r3 | r3
    · rw [← r2, hok] at r3; simp at r3
    · exact r3
  rw [allJobs_of (by simp [r1])] at hi
  obtain ⟨-, q2, -, q4, -, -⟩ := hi.quiet w ha hfin
  refine ⟨q2, ?_, ?_⟩
  · intro j hj
    have := q4 j hj
    unfold Job.harmless at this
    split at this <;> simp_all [Job.bodyOf, Job.held]
  · clear hi hfin r3 r2 hr h hn hs
    intro more
    induction more generalizing s with
    | nil => intro _; rfl
    | cons a as ih =>
      intro hb
      have h1 : a ≠ .begin := fun h => hb (by simp [h])
      have h2 : DynAct.begin ∉ as := fun h => hb (by simp [h])
      simp only [run]
      cases hst : step c s a with
      | none => exact ih s r1 q2 q4 h2
      | some s1 =>
        have hk : s1.main = .idle ∧ s1.queue = [] ∧ (∀ j ∈ s1.jobs, j.harmless = true) ∧ s1.trace = s.trace := by
          cases a with
          | begin => exact absurd rfl h1
          | main st => simp [step, r1] at hst
          | take i => simp [step, q2] at hst
          | spurious => simp [step, r1] at hst
          | work i st =>
            simp only [step] at hst
            split at hst
            · simp at hst
            rename_i j hj
            have hjm := List.mem_of_getElem? hj
            have hh := q4 j hjm
            have hnot : s.notify = s := by unfold notify; simp [r1]
            have hstep : jobStep c s st j = some (s, none) := by
              unfold Job.harmless at hh
              split at hh <;> simp_all [jobStep]
            simp only [hstep, Option.some.injEq] at hst
            subst hst
            exact ⟨r1, q2, fun k hk => q4 k (List.mem_of_mem_eraseIdx hk), rfl⟩
        simp only [Option.getD_some]
        rw [ih s1 hk.1 hk.2.1 hk.2.2.1 h2, hk.2.2.2]

/-! ## C65 -/

/-- **C65 is false**: a run begun directly after a failed one may execute an element twice (a task of the
failed run is still queued). -/
theorem C65_run_after_failure_violated :
    let s := run exJoinCfg (init exJoinCfg) [.begin, .main .ok, .main .ok, .main .ok,
      .main (.err "bad"), .main .ok, .main .ok, .main .ok, .main .ok, .main .ok, .main .ok,
      .begin, .main .ok, .main .ok, .take 0, .take 0, .work 0 .ok, .work 1 .ok]
    s.nrun = 2 ∧ s.failed = [] ∧ s.trace = [.start 0, .start 0] := by decide

/-- **C65 (partial)**: if all work of the failed run is over when the next one begins, the next run has every
guarantee of a first run (all theorems about `Reach` apply to it), and it begins with all counters reset.
(Missing: runs begun earlier.) -/
theorem C65_run_after_quiet_failure_partial (c : DynCfg) (w : c.g.WF) (ha : AcyclicOn c.g.Edge c.g.elems)
    (s s' : DynSt) (hs : Reach c s) (hq : s.queue = []) (hj : s.jobs = []) (hb : step c s .begin = some s') :
    Reach c s' ∧ s'.status = CStatus.ok ∧ s'.trace = [] ∧ s'.failed = [] ∧
    ∀ v ∈ c.g.elems, s'.left v = ((c.g.deps v).length : Int) := by
  have hr : Reach c s' := Reach.step hs hb (fun _ => Or.inr ⟨hq, by simp [hj]⟩)
  have h := sinv_reach w ha hr
  have hpre : s'.nrun ≠ 0 ∧ s'.trace = [] ∧ s'.failed = [] ∧ s'.fired = [] := by
    simp only [step] at hb
    split at hb
    · simp only [Option.some.injEq] at hb; subst hb; simp
    · simp at hb
  obtain ⟨p1, p2, p3, p4⟩ := hpre
  have hi := h.inv p1
  refine ⟨hr, ?_, p2, p3, ?_⟩
  · apply hi.stOk
    cases he : s'.status.isErr with
    | false => rfl
    | true => obtain ⟨p, hp, -⟩ := hi.stErr he; simp [p3] at hp
  · intro v hv
    by_cases hnorm : ∀ d ∈ c.g.deps v, c.shapeOf d = .normal
    · rw [hi.leftN v hv (by simp [p2]) hnorm]
      simp [unfired, p4]
    · exact hi.leftO v hv (fun _ => hnorm)

/-- A failed run whose work is over, followed by a complete run. -/
example : let s := run exJoinCfg (init exJoinCfg) [.begin, .main .ok, .main .ok, .main .ok,
      .main (.err "bad"), .main .ok, .main .ok, .main .ok, .main .ok, .main .ok, .main .ok,
      .take 0, .work 0 .ok, .work 0 .ok, .work 0 .ok]
    s.lastRet = some (.err "bad") ∧ s.queue = [] ∧ s.jobs = [] ∧ (step exJoinCfg s .begin).isSome = true ∧
    (run exJoinCfg s exJoinRun).lastRet = some CStatus.ok := by decide

end CGraph
