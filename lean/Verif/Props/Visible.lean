import Verif.Lemmas.Visible
import Verif.Props.Dynamic

/-! # C95: an element sees everything its dependencies wrote

Over `Model/Visible.lean`, with happens-before of `Spec/HappensBefore.lean`.  What the body of an element writes comes before its
`finish` note on the same thread; what it reads comes after its `start` note.  So order of notes by happens-before is visibility. -/
namespace CGraph
namespace Visible
open Spec Hb DynSt

/-! ### which schedules reach only clean starts -/

theorem run_s (c : DynCfg) (v : VSt) (acts : List DynAct) : (VSt.run c v acts).s = DynSt.run c v.s acts := by
  induction acts generalizing v with
  | nil => rfl
  | cons a as ih =>
    simp only [VSt.run, DynSt.run, ih]
    congr 1
    cases hs : DynSt.step c v.s a with
    | none =>
      have : VSt.step c v a = none := by unfold VSt.step; rw [hs]
      rw [this]; rfl
    | some s' =>
      obtain ⟨v', h1, h2⟩ := step_some hs
      rw [h1]; exact h2

theorem vreach_run_noFail {c : DynCfg} (acts : List DynAct) (hn : NoFail acts) : VReach c (VSt.run c (VSt.init c) acts) := by
  suffices h : ∀ v, VReach c v → v.s.failed = [] → VReach c (VSt.run c v acts) from h _ .init rfl
  induction acts with
  | nil => intro v h1 _; exact h1
  | cons a as ih =>
    intro v h1 h2
    have hn' : NoFail as := fun b hb => hn b (List.mem_cons_of_mem _ hb)
    simp only [VSt.run]
    cases hs : VSt.step c v a with
    | none => simpa using ih hn' v h1 h2
    | some v' => exact ih hn' v' (.step h1 hs (fun _ => .inl h2)) (step_failed (step_s hs) h2 (hn a (List.mem_cons_self ..)))

theorem vreach_run_once {c : DynCfg} (acts : List DynAct) (hn : DynAct.begin ∉ acts) :
    VReach c (VSt.run c (VSt.init c) (.begin :: acts)) := by
  suffices h : ∀ v, VReach c v → VReach c (VSt.run c v acts) from by
    simp only [VSt.run]
    apply h
    cases hs : VSt.step c (VSt.init c) .begin with
    | none => exact .init
    | some s' => exact .step .init hs (fun _ => Or.inl rfl)
  induction acts with
  | nil => intro s h1; exact h1
  | cons a as ih =>
    intro s h1
    have ha : a ≠ .begin := fun h => hn (by simp [h])
    have has : DynAct.begin ∉ as := fun h => hn (by simp [h])
    simp only [VSt.run]
    cases hs : VSt.step c s a with
    | none => exact ih has s h1
    | some s' => exact ih has s' (.step h1 hs (fun h => absurd h ha))

/-! ### C95 -/

/-- **C95** (the record): recording changes nothing, and the starts and ends noted for the current run are those of the engine, in
their order. -/
theorem C95_record (c : DynCfg) (w : c.g.WF) (ha : AcyclicOn c.g.Edge c.g.elems) :
    (∀ acts, (VSt.run c (VSt.init c) acts).s = DynSt.run c (DynSt.init c) acts) ∧
    ∀ v, VReach c v → v.log.filterMap (fun a => match a.op with
      | .note (r, .ev e) => if r = v.s.nrun then some e else none | _ => none) = v.s.trace :=
  ⟨fun acts => run_s c _ acts, fun _ h => (kinv_reach w ha h).base.tr⟩

/-- **C95** (dependencies): whenever an element has started, every element that it depends on — directly or not — has ended in the
same run, and that end happens before the start.  Failures of other elements make no difference. -/
theorem C95_visible (c : DynCfg) (w : c.g.WF) (ha : AcyclicOn c.g.Edge c.g.elems) (v : VSt) (hv : VReach c v) (r i : Nat) (d e : Eid)
    (hde : Relation.TransGen c.g.Edge d e) (hi : NotedAt v.log i (r, .ev (.start e))) :
    (∃ k, NotedAt v.log k (r, .ev (.finish d))) ∧
    ∀ k, NotedAt v.log k (r, .ev (.finish d)) → HappensBefore v.log k i := by
  obtain ⟨k, h1, h2⟩ := trans_before (kinv_reach w ha hv).base.ok hde r i hi
  exact ⟨⟨k, h1⟩, fun k' h' => by rw [noted_unique w ha hv h' h1]; exact h2⟩

/-- **C95** (the caller): when `run` has returned without an error, every element has ended and that end happens before the return. -/
theorem C95_returned (c : DynCfg) (w : c.g.WF) (ha : AcyclicOn c.g.Edge c.g.elems) (v : VSt) (hv : VReach c v) (r i : Nat) (e : Eid)
    (he : e ∈ c.g.elems) (hi : NotedAt v.log i (r, .ret false)) :
    (∃ k, NotedAt v.log k (r, .ev (.finish e))) ∧
    ∀ k, NotedAt v.log k (r, .ev (.finish e)) → HappensBefore v.log k i := by
  obtain ⟨k, h1, h2⟩ := all_before w ha (kinv_reach w ha hv).base.ok hi e he
  exact ⟨⟨k, h1⟩, fun k' h' => by rw [noted_unique w ha hv h' h1]; exact h2⟩

/-- **C95** (the next runs): what the caller did before `run` happens before every start in it, and all that the elements did
in a run that returned no error happens before all that they do in later runs. -/
theorem C95_runs (c : DynCfg) (w : c.g.WF) (ha : AcyclicOn c.g.Edge c.g.elems) (v : VSt) (hv : VReach c v) :
    (∀ r i e, NotedAt v.log i (r, .ev (.start e)) → ∃ k, NotedAt v.log k (r, .begin) ∧ HappensBefore v.log k i) ∧
    ∀ r r' i j x y, r < r' → NotedAt v.log i (r, .ev x) → NotedAt v.log j (r', .ev y) →
      (∀ k, ¬ NotedAt v.log k (r, .ret true)) → HappensBefore v.log i j := by
  have hok := (kinv_reach w ha hv).base.ok
  refine ⟨fun r i e hi => begin_before ha hok hi, fun r r' i j x y hr hi hj hno => ?_⟩
  -- the start of the second one
  obtain ⟨j1, e2, hj1, hjj⟩ : ∃ j1 e2, NotedAt v.log j1 (r', .ev (.start e2)) ∧ Le v.log j1 j := by
    cases y with
    | start e2 => exact ⟨j, e2, hj, .inl rfl⟩
    | finish e2 =>
      obtain ⟨k, h1, h2⟩ := hok j _ _ hj
      exact ⟨k, e2, h1, .inr h2⟩
  -- the end of the first one
  obtain ⟨e1, he1, hie⟩ : ∃ e1, e1 ∈ c.g.elems ∧ ∀ k, NotedAt v.log k (r, .ev (.finish e1)) → Le v.log i k := by
    cases x with
    | start e1 =>
      refine ⟨e1, (hok i _ _ hi).1, fun k hk => .inr ?_⟩
      obtain ⟨k', h1, h2⟩ := hok k _ _ hk
      rw [noted_unique w ha hv hi h1]; exact h2
    | finish e1 =>
      obtain ⟨k', h1, -⟩ := hok i _ _ hi
      exact ⟨e1, (hok k' _ _ h1).1, fun k hk => .inl (noted_unique w ha hv hi hk)⟩
  have hr0 : 0 < r := by
    cases x with
    | start e =>
      obtain ⟨k, h1, -⟩ := begin_before ha hok hi
      exact (hok k _ _ h1).1
    | finish e =>
      obtain ⟨k', h1, -⟩ := hok i _ _ hi
      obtain ⟨k, h1, -⟩ := begin_before ha hok h1
      exact (hok k _ _ h1).1
  obtain ⟨b, hb1, hb2⟩ := begin_before ha hok hj1
  obtain ⟨n, rfl⟩ : ∃ n, r' = r + 1 + n := ⟨r' - (r + 1), by omega⟩
  obtain ⟨q, hq1, hq2⟩ := ret_before hok hr0 hno n b hb1
  obtain ⟨k, hk1, hk2⟩ := all_before w ha hok hq1 e1 he1
  have h1 : HappensBefore v.log i q := by
    rcases hie k hk1 with rfl | h
    · exact hk2
    · exact hb_trans h hk2
  have h2 : HappensBefore v.log i j1 := hb_trans h1 (hb_trans hq2 hb2)
  rcases hjj with rfl | h
  · exact h2
  · exact hb_trans h2 h

theorem job_noWrite {c : DynCfg} {s : DynSt} {st : CStatus} {n : Nat} {j : Job} (hj : ∀ st', j ≠ .errSet st') :
    ∀ o ∈ jobOps c s st n j, ∀ l, o ≠ .write l := by
  intro o ho l h0
  subst h0
  unfold jobOps at ho
  split at ho <;> (try split at ho) <;> simp_all [postOps] <;> grind

theorem step_noWrite {c : DynCfg} (w : c.g.WF) (ha : AcyclicOn c.g.Edge c.g.elems) {v v' : VSt} {a : DynAct} (hv : VReach c v)
    (hf : v.s.failed = []) (hs : VSt.step c v a = some v') (h : ∀ b ∈ v.log, ∀ l, b.op ≠ .write l) :
    ∀ b ∈ v'.log, ∀ l, b.op ≠ .write l := by
  have hsi := sinv_reach w ha hv.reach
  have hno : ∀ j ∈ v.s.allJobs, ∀ st', j ≠ .errSet st' := by
    rintro j hj st' rfl
    by_cases h0 : v.s.nrun = 0
    · rw [hsi.first h0] at hj; simp [allJobs, DynSt.init] at hj
    · have := (hsi.inv h0).jobs _ hj
      obtain ⟨-, e, he⟩ := this
      rw [hf] at he; simp at he
  have hok : v.s.status.isOK = true := by
    by_cases h0 : v.s.nrun = 0
    · rw [hsi.first h0]; rfl
    · have hi := hsi.inv h0
      cases he : v.s.status.isErr with
      | true =>
        obtain ⟨p, hp, -⟩ := hi.stErr he
        rw [hf] at hp; simp at hp
      | false => rw [hi.stOk he]; rfl
  have happ : ∀ (t : Nat) (ops : List Op), (∀ o ∈ ops, ∀ l, o ≠ .write l) →
      ∀ b ∈ v.log ++ ops.map (fun o => (⟨t, o⟩ : Act)), ∀ l, b.op ≠ .write l := by
    intro t ops hops b hb l
    rcases List.mem_append.1 hb with hb | hb
    · exact h b hb l
    · obtain ⟨o, ho, rfl⟩ := List.mem_map.1 hb
      exact hops o ho l
  have hst := step_s hs
  unfold VSt.step at hs
  rw [hst] at hs
  cases a with
  | begin =>
    simp only [Option.some.injEq] at hs
    rw [← hs]
    exact happ 0 _ (by simp [beginOps, hok])
  | main st =>
    simp only [Option.some.injEq] at hs
    rw [← hs]
    refine happ 0 _ ?_
    intro o ho l h0
    subst h0
    unfold mainOps at ho
    split at ho
    case h_5 =>
      rename_i j hm
      exact job_noWrite (hno j (by simp [allJobs, hm])) _ ho l rfl
    all_goals (simp [postOps, retOps] at ho) <;> grind
  | take i =>
    simp only [Option.some.injEq] at hs
    rw [← hs]
    exact happ _ [.recv _] (by simp)
  | spurious =>
    simp only [Option.some.injEq] at hs
    rw [← hs]
    exact h
  | work i st =>
    simp only [DynSt.step] at hst
    cases hj : v.s.jobs[i]? with
    | none => rw [hj] at hst; simp at hst
    | some j =>
    rw [hj] at hst
    simp only [hj] at hs
    simp only at hst
    have hm : j ∈ v.s.allJobs := by
      have hm : j ∈ v.s.jobs := List.mem_of_getElem? hj
      unfold allJobs
      split
      · exact List.mem_cons_of_mem _ hm
      · exact hm
    cases hjs : DynSt.jobStep c v.s st j with
    | none => rw [hjs] at hst; simp at hst
    | some p =>
    obtain ⟨s1, oj⟩ := p
    rw [hjs] at hs
    cases oj <;> simp only [Option.some.injEq] at hs <;> rw [← hs] <;> exact happ _ _ (job_noWrite (hno j hm))

/-- **C95** (no race), partial: in no schedule in which no element fails is there a data race on the memory of the engine. Missing: runs
in which an element fails (`C95_race_violated`). -/
theorem C95_racefree_partial (c : DynCfg) (w : c.g.WF) (ha : AcyclicOn c.g.Edge c.g.elems) (acts : List DynAct) (hn : NoFail acts)
    (i j : Nat) : ¬ Race (VSt.run c (VSt.init c) acts).log i j := by
  suffices h : ∀ v, VReach c v → v.s.failed = [] → (∀ b ∈ v.log, ∀ l, b.op ≠ .write l) →
      ∀ b ∈ (VSt.run c v acts).log, ∀ l, b.op ≠ .write l from by
    have h1 := h _ .init rfl (by simp [VSt.init])
    rintro ⟨a, b, h2, h3, -, h4, -⟩
    have ha := h1 a (List.mem_of_getElem? h2)
    have hb := h1 b (List.mem_of_getElem? h3)
    revert h4
    unfold Conflict
    split
    · rename_i heq; exact fun _ => hb _ heq
    · rename_i heq _; exact fun _ => ha _ heq
    · rename_i heq _; exact fun _ => ha _ heq
    · exact id
  induction acts with
  | nil => intro v _ _ h3; exact h3
  | cons a as ih =>
    intro v h1 h2 h3
    have hn' : NoFail as := fun b hb => hn b (List.mem_cons_of_mem _ hb)
    simp only [VSt.run]
    cases hs : VSt.step c v a with
    | none => simpa using ih hn' v h1 h2 h3
    | some v' =>
      exact ih hn' v' (.step h1 hs (fun _ => .inl h2)) (step_failed (step_s hs) h2 (hn a (List.mem_cons_self ..)))
        (step_noWrite w ha h1 h2 hs h3)


/-- **C95** (no race) is violated: `cur_status_` is written under `status_lock_` (GDynamicEngine.cpp:146-149) and read without it (125, 157,
225, 47).  In every schedule, whenever an element run by the pool fails, what its thread wrote to `cur_status_` happens before nothing
that a thread does which records no failure itself; every later reading of `cur_status_` by such a thread is a data race. -/
theorem C95_race_violated (c : DynCfg) (acts : List DynAct) (i t u : Nat)
    (hi : (VSt.run c (VSt.init c) acts).log[i]? = some ⟨t, .write .status⟩) (ht : t ≠ 0)
    (h0 : ∀ a ∈ (VSt.run c (VSt.init c) acts).log, a ≠ ⟨0, .lock .stMtx⟩ ∧ a ≠ ⟨u, .lock .stMtx⟩) :
    (∀ j b, (VSt.run c (VSt.init c) acts).log[j]? = some b → b.tid = u → ¬ HappensBefore (VSt.run c (VSt.init c) acts).log i j) ∧
    ∀ j, i < j → (VSt.run c (VSt.init c) acts).log[j]? = some ⟨u, .read .status⟩ → Race (VSt.run c (VSt.init c) acts).log i j := by
  have h := tinv_run c _ (tinv_init c) acts
  have key : ∀ j b, (VSt.run c (VSt.init c) acts).log[j]? = some b → b.tid = u →
      ¬ HappensBefore (VSt.run c (VSt.init c) acts).log i j :=
    fun j b hj hb => h.unseen ht hi (fun a ha => (h0 a ha).1) hj hb (fun a ha => (h0 a ha).2)
  refine ⟨key, fun j hij hj => ⟨_, _, hi, hj, ?_, rfl, key j _ hj rfl, fun hb => ?_⟩⟩
  · rintro rfl
    obtain ⟨q, -, hq⟩ := h.lk i _ _ ht hi
    exact (h0 _ (List.mem_of_getElem? hq)).2 rfl
  · have := hb_lt hb; omega

/-- **C95** (tasks): no two tasks have the same number, and none is taken twice, so that what is taken is what was handed over. -/
theorem C95_tasks (c : DynCfg) (acts : List DynAct) : (VSt.run c (VSt.init c) acts).qt.Nodup ∧ (VSt.run c (VSt.init c) acts).jt.Nodup ∧
    (∀ n ∈ (VSt.run c (VSt.init c) acts).qt, n ∉ (VSt.run c (VSt.init c) acts).jt ∧ n < (VSt.run c (VSt.init c) acts).next) :=
  have h := tinv_run c _ (tinv_init c) acts
  ⟨h.ndq, h.ndj, fun n hn => ⟨h.dis n hn, (h.ltq n hn).2⟩⟩

/-! ### examples -/

/-- Two runs of the example; `0` is executed by the pool, `1` and `2` by the caller. -/
def exLog : List Act := (VSt.run exJoinCfg (VSt.init exJoinCfg) (exJoinRun ++ exJoinRun)).log

example : VReach exJoinCfg (VSt.run exJoinCfg (VSt.init exJoinCfg) (exJoinRun ++ exJoinRun)) :=
  vreach_run_noFail _ (by
    intro a ha st h
    simp [exJoinRun] at ha
    rcases h with rfl | ⟨i, rfl⟩ <;> simp at ha <;> simp_all)

example : exLog[11]? = some ⟨1, .note (1, .ev (.finish 0))⟩ ∧ exLog[19]? = some ⟨0, .note (1, .ev (.start 2))⟩ ∧
    exLog[27]? = some ⟨0, .note (1, .ret false)⟩ ∧ exLog[38]? = some ⟨2, .note (2, .ev (.start 0))⟩ ∧
    (∀ k < exLog.length, exLog[k]? ≠ some ⟨0, .note (1, .ret true)⟩) ∧ 0 ∈ exJoin.deps 2 := by decide +kernel

/-- `0`, executed by the pool, fails while the caller executes `1`. -/
def exBad : List DynAct :=
  [.begin, .main .ok, .main .ok, .take 0, .work 0 .ok, .work 0 (.err "bad"), .work 0 .ok, .work 0 .ok, .main .ok, .main .ok, .main .ok,
   .main .ok, .main .ok, .main .ok, .main .ok]

/-- The caller reads `cur_status_` after its element and for the value it returns, both without order. -/
example : (VSt.run exJoinCfg (VSt.init exJoinCfg) exBad).log[11]? = some ⟨1, .write .status⟩ ∧
    (∀ a ∈ (VSt.run exJoinCfg (VSt.init exJoinCfg) exBad).log, a ≠ ⟨0, .lock .stMtx⟩ ∧ a ≠ ⟨0, .lock .stMtx⟩) ∧
    (VSt.run exJoinCfg (VSt.init exJoinCfg) exBad).log[16]? = some ⟨0, .read .status⟩ ∧
    (VSt.run exJoinCfg (VSt.init exJoinCfg) exBad).log[22]? = some ⟨0, .read .status⟩ ∧
    (VSt.run exJoinCfg (VSt.init exJoinCfg) exBad).log[23]? = some ⟨0, .note (1, .ret true)⟩ := by decide +kernel

end Visible
end CGraph
