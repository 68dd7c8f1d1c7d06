import Verif.Lemmas.DynRun

/-! Progress and termination of the dynamic engine. -/
namespace CGraph
namespace DynSt
open Spec

set_option maxHeartbeats 2000000

/-- Nothing but a new run or a spurious wake-up is possible. -/
def Stuck (c : DynCfg) (s : DynSt) : Prop := ∀ a, a ≠ .begin → a ≠ .spurious → step c s a = none

theorem jobStep_enabled {c : DynCfg} {s : DynSt} {st j} (h1 : s.main ≠ .check) (h2 : s.main ≠ .preSleep) :
    jobStep c s st j ≠ none := by
  intro h
  unfold jobStep at h
  grind

/-- The only way to be stuck in a run: the caller sleeps, an element has failed, nobody is left to wake the
caller. -/
theorem stuck_cases {c : DynCfg} (w : c.g.WF) (ha : AcyclicOn c.g.Edge c.g.elems) (hw : 1 ≤ c.workers) {s : DynSt}
    (h : SInv c s) (hn : s.nrun ≠ 0) (hm : s.main ≠ .idle) (hst : Stuck c s) :
    s.main = .asleep ∧ s.jobs = [] ∧ s.queue = [] ∧ s.status.isErr = true := by
  have hmain : s.main = .asleep := by
    have h0 := hst (.main CStatus.ok) (by simp) (by simp)
    have hje : ∀ j, s.main = .inline j → jobStep c s CStatus.ok j ≠ none := by
      intro j hj; apply jobStep_enabled <;> simp [hj]
    unfold step at h0
    grind
  have hj : s.jobs = [] := by
    cases hjs : s.jobs with
    | nil => rfl
    | cons j t =>
      exfalso
      have h0 := hst (.work 0 CStatus.ok) (by simp) (by simp)
      have := jobStep_enabled (c := c) (s := s) (st := CStatus.ok) (j := j) (by simp [hmain]) (by simp [hmain])
      simp only [step, hjs, List.getElem?_cons_zero] at h0
      grind
  have hq : s.queue = [] := by
    cases hqs : s.queue with
    | nil => rfl
    | cons e t =>
      exfalso
      have h0 := hst (.take 0) (by simp) (by simp)
      simp only [step, hqs, List.getElem?_cons_zero, hj] at h0
      simp at h0
      omega
  refine ⟨hmain, hj, hq, ?_⟩
  by_contra hne
  have hi := h.inv hn
  rw [allJobs_of (by simp [hmain]), frs_of (by simp [hmain]), hj] at hi
  have hf : s.failed = [] := by
    by_contra h0
    rcases hi.stFail h0 with h1 | ⟨st, h1⟩
    · exact hne h1
    · simp at h1
  let R := c.g.elems.filter (fun v => s.trace.count (.finish v) = 0)
  have hR : R = [] := by
    apply Graph.no_deadlock R
    · intro v hv; exact ha v (List.mem_of_mem_filter hv)
    · intro v hv
      simp only [R, List.mem_filter, decide_eq_true_eq] at hv
      have hb := hi.body v
      simp [hf] at hb
      have hnr : ¬ Ready c s v := by
        intro hr
        have h1 := hi.tokE hf v hv.1 hr
        rw [hq] at h1
        simp only [List.count_nil, cnt_nil] at h1
        omega
      simp only [Ready, not_forall] at hnr
      obtain ⟨d, hd, hnf⟩ := hnr
      have hde := w.closedD v hv.1 d hd
      refine ⟨d, ?_, hd⟩
      simp only [R, List.mem_filter, decide_eq_true_eq]
      refine ⟨hde, ?_⟩
      have h1 := hi.edgeE hf d v ((w.sym d v).2 hd)
      have h2 := List.count_eq_zero.2 hnf
      simp only [cnt_nil] at h1
      omega
  have hfin : c.totalEnd ≤ s.fin := by
    rw [hi.fin]
    apply Graph.length_le_of_nodup_subset (w.nodup.filter _)
    intro v hv
    simp only [List.mem_filter, List.isEmpty_iff] at hv
    have h1 : s.trace.count (.finish v) ≠ 0 := by
      intro h0
      have : v ∈ R := by simp only [R, List.mem_filter, decide_eq_true_eq]; exact ⟨hv.1, h0⟩
      rw [hR] at this; simp at this
    have h2 := hi.tailsE hf v hv.2
    simp only [cnt_nil] at h2
    exact List.count_pos_iff.1 (by omega)
  have := h.wake (Or.inl hmain) hfin
  rw [hj] at this; simp at this

/-! ### a measure that decreases with every step -/

/-- Steps a job can still cause, without those of elements not yet started. -/
def jobW (g : Graph) : Job → Nat
  | .exec _ => 2
  | .body e => 14 + 6 * (g.succs e).length
  | .after e => 12 + 6 * (g.succs e).length
  | .nIter _ rest r => 1 + 6 * rest.length + (if r.isSome then 5 else 0)
  | .nPost _ _ rest _ => 11 + 6 * rest.length
  | .rIter _ rest => 1 + 6 * rest.length
  | .proc _ => 4
  | .tailInc _ => 11
  | .tailNotify => 10
  | .errSet _ => 12
  | .errNotify => 10

/-- Same for the caller, without the job it executes. -/
def mainW (c : DynCfg) : MainPc → Nat
  | .idle => 0
  | .fronts rest => 7 + c.epoch + 6 * rest.length
  | .inline _ => 6 + c.epoch
  | .poll n => 5 + n
  | .lock => 4
  | .check => 3
  | .preSleep => 2
  | .asleep => 1
  | .waking => 4

/-- Work of the elements that have not started. -/
def restW (c : DynCfg) (tr : List Ev) : Nat :=
  ((c.g.elems.filter (fun v => .start v ∉ tr)).map (fun v => 14 + 6 * (c.g.succs v).length)).sum

/-- The measure. -/
def work (c : DynCfg) (s : DynSt) : Nat :=
  restW c s.trace + 3 * s.queue.length + mainW c s.main + ((s.allJobs).map (jobW c.g)).sum

theorem sum_filter_ne {l : List Eid} {e : Eid} {p : Eid → Bool} (f : Eid → Nat) (hn : l.Nodup) (he : e ∈ l)
    (hp : p e = true) :
    ((l.filter (fun d => p d && !decide (d = e))).map f).sum + f e = ((l.filter p).map f).sum := by
  induction l with
  | nil => simp at he
  | cons a l ih =>
    rw [List.nodup_cons] at hn
    by_cases hae : a = e
    · subst hae
      have : l.filter (fun d => p d && !decide (d = a)) = l.filter p := by
        apply List.filter_congr
        intro d hd
        have : d ≠ a := fun h => hn.1 (h ▸ hd)
        simp [this]
      simp [hp, this]
      omega
    · have := ih hn.2 (by simpa [Ne.symm hae] using he)
      by_cases hpa : p a = true
      · simp [hpa, hae]; omega
      · simp [hpa]; omega

theorem restW_start {c : DynCfg} (w : c.g.WF) {tr : List Ev} {e : Eid} (he : e ∈ c.g.elems)
    (hs : Ev.start e ∉ tr) : restW c (tr ++ [.start e]) + (14 + 6 * (c.g.succs e).length) = restW c tr := by
  unfold restW
  rw [← sum_filter_ne (fun v => 14 + 6 * (c.g.succs v).length) w.nodup he
    (p := fun v => decide (Ev.start v ∉ tr)) (by simpa using hs)]
  congr 4
  funext d
  simp

theorem restW_finish {c : DynCfg} {tr : List Ev} {e : Eid} : restW c (tr ++ [.finish e]) = restW c tr := by
  unfold restW
  congr 3
  funext d
  simp

/-- Weight of the job a thread is left with. -/
def jobWO (g : Graph) : Option Job → Nat
  | none => 0
  | some j => jobW g j

theorem jobStep_work {c : DynCfg} (w : c.g.WF) {s s' : DynSt} {st j oj J fr} (h : Inv c s (j :: J) fr)
    (hs : jobStep c s st j = some (s', oj)) :
    restW c s'.trace + 3 * s'.queue.length + mainW c s'.main + jobWO c.g oj <
    restW c s.trace + 3 * s.queue.length + mainW c s.main + jobW c.g j := by
  have hnt : s.notify.trace = s.trace ∧ s.notify.queue = s.queue ∧ mainW c s.notify.main ≤ mainW c s.main + 3 := by
    unfold notify; split <;> simp_all [mainW]
  obtain ⟨n1, n2, n3⟩ := hnt
  cases j with
  | exec e =>
    simp only [jobStep, Option.some.injEq, Prod.mk.injEq] at hs; obtain ⟨rfl, rfl⟩ := hs
    have htok := h.tok e
    have hr := h.rdy e
    simp only [cnt_cons, Job.held, List.count_singleton_self] at htok hr
    have h0 : Ev.start e ∉ s.trace := by rw [← List.count_eq_zero]; omega
    have := restW_start w (hr (by omega)).1 h0
    simp only [jobW, jobWO]
    omega
  | body e =>
    simp only [jobStep] at hs
    split at hs
    · simp only [Option.some.injEq, Prod.mk.injEq] at hs; obtain ⟨rfl, rfl⟩ := hs
      simp only [restW_finish, jobWO, jobW]; omega
    · simp only [Option.some.injEq, Prod.mk.injEq] at hs; obtain ⟨rfl, rfl⟩ := hs
      simp only [jobWO, jobW]; omega
  | after e =>
    simp only [jobStep] at hs
    split at hs
    · simp only [Option.some.injEq, Prod.mk.injEq] at hs; obtain ⟨rfl, rfl⟩ := hs
      simp only [jobWO, jobW]; omega
    · split at hs
      · simp only [Option.some.injEq, Prod.mk.injEq] at hs; obtain ⟨rfl, rfl⟩ := hs
        simp [jobWO, jobW]; try omega
      · split at hs <;>
        (simp only [Option.some.injEq, Prod.mk.injEq] at hs; obtain ⟨rfl, rfl⟩ := hs; simp [jobWO, jobW]; try omega)
      · simp only [Option.some.injEq, Prod.mk.injEq] at hs; obtain ⟨rfl, rfl⟩ := hs
        simp [jobWO, jobW]; try omega
      · simp only [Option.some.injEq, Prod.mk.injEq] at hs; obtain ⟨rfl, rfl⟩ := hs
        simp [jobWO, jobW]; try omega
  | nIter e rest r =>
    cases rest with
    | nil =>
      cases r <;>
      (simp only [jobStep, Option.some.injEq, Prod.mk.injEq] at hs; obtain ⟨rfl, rfl⟩ := hs
       simp [jobWO, jobW])
    | cons x rest =>
      simp only [jobStep] at hs
      split at hs
      · split at hs <;>
        (simp only [Option.some.injEq, Prod.mk.injEq] at hs; obtain ⟨rfl, rfl⟩ := hs; simp [jobWO, jobW]; try omega)
      · simp only [Option.some.injEq, Prod.mk.injEq] at hs; obtain ⟨rfl, rfl⟩ := hs
        simp only [jobWO, jobW, List.length_cons]; omega
  | nPost e x rest y =>
    simp only [jobStep] at hs
    split at hs <;>
    (simp only [Option.some.injEq, Prod.mk.injEq] at hs; obtain ⟨rfl, rfl⟩ := hs; simp [jobWO, jobW, push]; try omega)
  | rIter e rest =>
    match rest, hs with
    | [], hs =>
      simp only [jobStep, Option.some.injEq, Prod.mk.injEq] at hs; obtain ⟨rfl, rfl⟩ := hs; simp [jobWO, jobW]
    | [x], hs =>
      simp only [jobStep, Option.some.injEq, Prod.mk.injEq] at hs; obtain ⟨rfl, rfl⟩ := hs; simp [jobWO, jobW]
    | x :: y :: rest, hs =>
      simp only [jobStep] at hs
      split at hs <;>
      (simp only [Option.some.injEq, Prod.mk.injEq] at hs; obtain ⟨rfl, rfl⟩ := hs; simp [jobWO, jobW, push]; try omega)
  | proc e =>
    simp only [jobStep] at hs
    split at hs
    · simp only [Option.some.injEq, Prod.mk.injEq] at hs; obtain ⟨rfl, rfl⟩ := hs; simp [jobWO, jobW]
    · split at hs <;>
      (simp only [Option.some.injEq, Prod.mk.injEq] at hs; obtain ⟨rfl, rfl⟩ := hs; simp [jobWO, jobW, push]; try omega)
  | tailInc e =>
    simp only [jobStep, Option.some.injEq, Prod.mk.injEq] at hs
    obtain ⟨rfl, rfl⟩ := hs
    split <;> simp [jobWO, jobW]
  | tailNotify =>
    simp only [jobStep] at hs
    split at hs
    · simp at hs
    · simp only [Option.some.injEq, Prod.mk.injEq] at hs; obtain ⟨rfl, rfl⟩ := hs
      simp only [n1, n2, jobWO, jobW]; omega
  | errSet st =>
    simp only [jobStep, Option.some.injEq, Prod.mk.injEq] at hs; obtain ⟨rfl, rfl⟩ := hs
    simp [jobWO, jobW]
  | errNotify =>
    simp only [jobStep, Option.some.injEq, Prod.mk.injEq] at hs; obtain ⟨rfl, rfl⟩ := hs
    simp only [n1, n2, jobWO, jobW]; omega

theorem toList_sum (g : Graph) (oj : Option Job) : (oj.toList.map (jobW g)).sum = jobWO g oj := by
  cases oj <;> simp [jobWO]

theorem step_work {c : DynCfg} (w : c.g.WF) {s s' : DynSt} {a} (h : SInv c s)
    (hs : step c s a = some s') (hb : a ≠ .begin) :
    work c s' + 1 ≤ work c s + (if a = .spurious then 4 else 0) := by
  cases a with
  | begin => exact absurd rfl hb
  | main st =>
    have hnr : s.nrun ≠ 0 := by
      intro h0
      have := h.first h0
      subst this
      simp [step, init] at hs
    have hi := h.inv hnr
    simp only [step] at hs
    unfold work
    split at hs
    · simp at hs
    · rename_i hm
      simp only [Option.some.injEq] at hs; subst hs
      simp [allJobs, toWait, hm, mainW]; omega
    · rename_i x hm
      split at hs
      · simp only [Option.some.injEq] at hs; subst hs
        simp [allJobs, toWait, hm, mainW]; omega
      · split at hs <;>
        (simp only [Option.some.injEq] at hs; subst hs; simp [allJobs, toWait, hm, mainW, push, jobW]; omega)
    · rename_i x y rest hm
      split at hs <;>
      (simp only [Option.some.injEq] at hs; subst hs; simp [allJobs, hm, mainW, push]; try omega)
    · rename_i j hm
      simp only [allJobs, frs, hm] at hi
      split at hs
      · simp at hs
      · rename_i s1 j' hj
        have h1 := jobStep_work w hi hj
        have hf := (jobStep_frame hj)
        have hm1 : s1.main = .inline j := by simpa [hm] using hf.2.2.2
        simp only [Option.some.injEq] at hs; subst hs
        simp only [hm1, hm, mainW, jobWO] at h1
        simp [allJobs, hm, mainW, hf.1]; omega
      · rename_i s1 hj
        have h1 := jobStep_work w hi hj
        have hf := (jobStep_frame hj)
        have hm1 : s1.main = .inline j := by simpa [hm] using hf.2.2.2
        simp only [Option.some.injEq] at hs; subst hs
        simp only [hm1, hm, mainW, jobWO] at h1
        simp [allJobs, hm, mainW, hf.1, toWait]; omega
    · rename_i hm
      simp only [Option.some.injEq] at hs; subst hs
      simp [allJobs, hm, mainW]; omega
    · rename_i n hm
      split at hs <;>
      (simp only [Option.some.injEq] at hs; subst hs; simp [allJobs, hm, mainW, DynSt.ret]; omega)
    · rename_i hm
      simp only [Option.some.injEq] at hs; subst hs
      simp [allJobs, hm, mainW]; omega
    · rename_i hm
      split at hs <;>
      (simp only [Option.some.injEq] at hs; subst hs; simp [allJobs, hm, mainW, DynSt.ret]; omega)
    · rename_i hm
      simp only [Option.some.injEq] at hs; subst hs
      simp [allJobs, hm, mainW]; omega
    · simp at hs
    · rename_i hm
      simp only [Option.some.injEq] at hs; subst hs
      simp [allJobs, hm, mainW]; omega
  | take i =>
    simp only [step] at hs
    split at hs
    · simp at hs
    rename_i e hq
    split at hs
    case isFalse => simp at hs
    simp only [Option.some.injEq] at hs
    subst hs
    obtain ⟨hlt, hqe⟩ := List.getElem?_eq_some_iff.1 hq
    have hlen := List.length_eraseIdx_of_lt hlt
    have hal : ∀ q, ((allJobs { s with queue := q, jobs := s.jobs ++ [.exec e] }).map (jobW c.g)).sum =
        (s.allJobs.map (jobW c.g)).sum + 2 := by
      intro q
      unfold allJobs
      dsimp only
      split <;> simp [jobW]; omega
    unfold work
    rw [hal]
    simp only [hlen]
    simp
    omega
  | work i st =>
    simp only [step] at hs
    split at hs
    · simp at hs
    rename_i j hq
    have hnr : s.nrun ≠ 0 := by
      intro h0
      have := h.first h0
      subst this
      simp [init] at hq
    have hi := h.inv hnr
    obtain ⟨hlt, hqe⟩ := List.getElem?_eq_some_iff.1 hq
    have hp : s.jobs.Perm (j :: s.jobs.eraseIdx i) := by
      rw [← hqe]; exact (List.getElem_cons_eraseIdx_perm hlt).symm
    have hset : ∀ j', (s.jobs.set i j').Perm (j' :: s.jobs.eraseIdx i) :=
      fun j' => List.set_perm_cons_eraseIdx hlt j'
    have key : ∀ (s1 : DynSt) (oj : Option Job) (L : List Job), jobStep c s st j = some (s1, oj) →
        L.Perm (oj.toList ++ s.jobs.eraseIdx i) → work c { s1 with jobs := L } + 1 ≤ work c s := by
      intro s1 oj L hj hL
      obtain ⟨f1, f2, f3, f4⟩ := jobStep_frame hj
      have hO : ∃ O, s.allJobs.Perm (j :: O) := by
        unfold allJobs
        split
        · rename_i k hk
          exact ⟨k :: s.jobs.eraseIdx i, (hp.cons k).trans (List.Perm.swap ..)⟩
        · exact ⟨_, hp⟩
      obtain ⟨O, hO⟩ := hO
      have h1 := jobStep_work w (hi.perm hO) hj
      have e1 := (hp.map (jobW c.g)).sum_nat
      have e2 := (hL.map (jobW c.g)).sum_nat
      have e3 : ((allJobs { s1 with jobs := L }).map (jobW c.g)).sum + (s.jobs.map (jobW c.g)).sum =
          (s.allJobs.map (jobW c.g)).sum + (L.map (jobW c.g)).sum := by
        unfold allJobs
        dsimp only
        rcases f4 with f4 | ⟨f4, f5⟩
        · rw [f4]
          split <;> (try simp) <;> omega
        · simp [f4, f5]; omega
      rw [List.map_append, List.sum_append, toList_sum] at e2
      rw [List.map_cons, List.sum_cons] at e1
      unfold work
      dsimp only
      omega
    simp only [reduceCtorEq, if_false, Nat.add_zero]
    split at hs
    · simp at hs
    · rename_i s1 j' hj
      simp only [Option.some.injEq] at hs; subst hs
      exact key s1 _ _ hj (hset j')
    · rename_i s1 hj
      simp only [Option.some.injEq] at hs; subst hs
      exact key s1 _ _ hj (List.Perm.refl _)
  | spurious =>
    simp only [step] at hs
    split at hs
    case isFalse => simp at hs
    rename_i hm
    simp only [Option.some.injEq] at hs; subst hs
    unfold work
    simp [allJobs, hm, mainW]; omega

end DynSt
end CGraph
