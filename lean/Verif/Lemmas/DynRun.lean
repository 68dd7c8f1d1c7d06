import Verif.Lemmas.Dynamic
import Mathlib.Data.List.Perm.Basic

/-! Whole-system invariant of the dynamic engine over any number of runs. -/
namespace CGraph
namespace DynSt
open Spec

set_option maxHeartbeats 2000000

/-- One step of any thread keeps the invariant. -/
theorem jobStep_inv {c : DynCfg} (w : c.g.WF) {s s' : DynSt} {st j oj J fr} (h : Inv c s (j :: J) fr)
    (hs : jobStep c s st j = some (s', oj)) : Inv c s' (oj.toList ++ J) fr := by
  cases j with
  | exec e => simp only [jobStep, Option.some.injEq, Prod.mk.injEq] at hs; obtain ⟨rfl, rfl⟩ := hs; exact h.exec
  | body e =>
    simp only [jobStep] at hs
    split at hs
    · simp only [Option.some.injEq, Prod.mk.injEq] at hs; obtain ⟨rfl, rfl⟩ := hs; exact h.bodyOk w
    · rename_i hst
      simp only [Option.some.injEq, Prod.mk.injEq] at hs; obtain ⟨rfl, rfl⟩ := hs
      exact h.bodyErr (by rw [CStatus.isNotErr_eq] at hst; simpa using hst)
  | after e =>
    simp only [jobStep] at hs
    split at hs
    · rename_i he
      simp only [Option.some.injEq, Prod.mk.injEq] at hs; obtain ⟨rfl, rfl⟩ := hs
      exact h.drop he rfl (by simp)
    · have hf := h.after_facts w
      split at hs
      · rename_i hsh
        simp only [Option.some.injEq, Prod.mk.injEq] at hs; obtain ⟨rfl, rfl⟩ := hs
        refine h.afterNormal hsh (hf.resolve_right ?_)
        intro h0; rw [DynCfg.shape_of_nil h0] at hsh; simp at hsh
      · rename_i hsh
        obtain ⟨x, hx, hl⟩ := DynCfg.shape_linkable hsh
        simp only [hx, Option.some.injEq, Prod.mk.injEq] at hs
        obtain ⟨rfl, rfl⟩ := hs
        exact h.afterLink w (hf.resolve_right (by simp [hx])) hx hl hsh
      · rename_i hsh
        simp only [Option.some.injEq, Prod.mk.injEq] at hs; obtain ⟨rfl, rfl⟩ := hs
        have hne : c.g.succs e ≠ [] := by
          intro h0; rw [DynCfg.shape_of_nil h0] at hsh; simp at hsh
        exact h.afterRoot w (hf.resolve_right hne) (DynCfg.shape_root hsh) hne hsh
      · rename_i hsh
        simp only [Option.some.injEq, Prod.mk.injEq] at hs; obtain ⟨rfl, rfl⟩ := hs
        exact h.afterTail hsh
  | nIter e rest r =>
    cases rest with
    | nil =>
      cases r with
      | none =>
        simp only [jobStep, Option.some.injEq, Prod.mk.injEq] at hs; obtain ⟨rfl, rfl⟩ := hs
        exact h.dropHarmless rfl
      | some r =>
        simp only [jobStep, Option.some.injEq, Prod.mk.injEq] at hs; obtain ⟨rfl, rfl⟩ := hs
        exact h.nIterProc
    | cons x rest =>
      have hok := h.jobs _ (List.mem_cons_self ..)
      simp only [jobStep] at hs
      split at hs
      · rename_i h0
        split at hs
        · simp only [Option.some.injEq, Prod.mk.injEq] at hs; obtain ⟨rfl, rfl⟩ := hs
          exact h.fire w (by intro v; simp only [Job.held, h0, List.count_singleton, Option.toList, List.count_nil]; grind) rfl rfl rfl
            hok (by simp)
        · simp only [Option.some.injEq, Prod.mk.injEq] at hs; obtain ⟨rfl, rfl⟩ := hs
          exact h.fire w (by
            intro v
            simp only [Job.held, h0, List.count_cons, Option.toList, List.count_nil]; grind) rfl rfl rfl hok (by simp)
      · rename_i h0
        simp only [Option.some.injEq, Prod.mk.injEq] at hs; obtain ⟨rfl, rfl⟩ := hs
        exact h.fire w (by intro v; cases r <;> simp [Job.held, h0]) rfl rfl rfl hok (by simp)
  | nPost e x rest y =>
    simp only [jobStep] at hs
    split at hs
    · rename_i he
      simp only [Option.some.injEq, Prod.mk.injEq] at hs; obtain ⟨rfl, rfl⟩ := hs; exact h.nPostSkip he
    · simp only [Option.some.injEq, Prod.mk.injEq] at hs; obtain ⟨rfl, rfl⟩ := hs; exact h.nPostPush
  | rIter e rest =>
    match rest, h, hs with
    | [], h, hs =>
      simp only [jobStep, Option.some.injEq, Prod.mk.injEq] at hs; obtain ⟨rfl, rfl⟩ := hs
      exact h.dropHarmless rfl
    | [x], h, hs =>
      simp only [jobStep, Option.some.injEq, Prod.mk.injEq] at hs; obtain ⟨rfl, rfl⟩ := hs
      exact h.rIterProc
    | x :: y :: rest, h, hs =>
      simp only [jobStep] at hs
      split at hs
      · rename_i he
        simp only [Option.some.injEq, Prod.mk.injEq] at hs; obtain ⟨rfl, rfl⟩ := hs; exact h.rIterSkip he
      · simp only [Option.some.injEq, Prod.mk.injEq] at hs; obtain ⟨rfl, rfl⟩ := hs; exact h.rIterPush
  | proc e =>
    simp only [jobStep] at hs
    split at hs
    · rename_i he
      simp only [Option.some.injEq, Prod.mk.injEq] at hs; obtain ⟨rfl, rfl⟩ := hs
      exact h.drop he rfl (by simp)
    · split at hs
      · simp only [Option.some.injEq, Prod.mk.injEq] at hs; obtain ⟨rfl, rfl⟩ := hs; exact h.procExec
      · simp only [Option.some.injEq, Prod.mk.injEq] at hs; obtain ⟨rfl, rfl⟩ := hs; exact h.procPush
  | tailInc e =>
    simp only [jobStep, Option.some.injEq, Prod.mk.injEq] at hs
    obtain ⟨rfl, rfl⟩ := hs
    split
    · exact h.tailInc1
    · exact h.tailInc1.dropHarmless rfl
  | tailNotify =>
    simp only [jobStep] at hs
    split at hs
    · simp at hs
    · simp only [Option.some.injEq, Prod.mk.injEq] at hs; obtain ⟨rfl, rfl⟩ := hs
      exact notify_inv (h.dropHarmless rfl)
  | errSet st =>
    simp only [jobStep, Option.some.injEq, Prod.mk.injEq] at hs; obtain ⟨rfl, rfl⟩ := hs; exact h.errSet1
  | errNotify =>
    simp only [jobStep, Option.some.injEq, Prod.mk.injEq] at hs; obtain ⟨rfl, rfl⟩ := hs
    exact notify_inv (h.dropHarmless rfl)

/-- What a thread's step does not touch. -/
theorem jobStep_frame {c : DynCfg} {s s' : DynSt} {st j oj} (hs : jobStep c s st j = some (s', oj)) :
    s'.jobs = s.jobs ∧ s'.nrun = s.nrun ∧ s'.lastRet = s.lastRet ∧
    (s'.main = s.main ∨ (s.main = .asleep ∧ s'.main = .waking)) := by
  have hn : ∀ s : DynSt, s.notify.jobs = s.jobs ∧ s.notify.nrun = s.nrun ∧ s.notify.lastRet = s.lastRet ∧
      (s.notify.main = s.main ∨ (s.main = .asleep ∧ s.notify.main = .waking)) := by
    intro s; unfold notify; split <;> simp_all
  have hn := hn s
  unfold jobStep at hs
  grind [push]

theorem Inv.frPush {c : DynCfg} {s : DynSt} {J x fr} (h : Inv c s J (x :: fr)) : Inv c (s.push x) J fr := by
  obtain ⟨a1, a2, a3, a4, a5, a6, a7, a8, a9, a10, a11, a12, a13, a14, a15, a16, a17, a18, a19⟩ := h
  unfold push
  dyn_prep
  all_goals (try grind [Ready, unfired, Graph.setLeft])

theorem Inv.frSkip {c : DynCfg} {s : DynSt} {J x fr} (h : Inv c s J (x :: fr)) (he : s.status.isErr = true) :
    Inv c s J fr := by
  obtain ⟨p, hp, -⟩ := h.stErr he
  have hf : s.failed ≠ [] := by intro h0; simp [h0] at hp
  obtain ⟨a1, a2, a3, a4, a5, a6, a7, a8, a9, a10, a11, a12, a13, a14, a15, a16, a17, a18, a19⟩ := h
  dyn_prep
  all_goals (try grind [Ready, unfired, Graph.setLeft])

theorem Inv.frExec {c : DynCfg} {s : DynSt} {J x fr} (h : Inv c s J (x :: fr)) : Inv c s (.exec x :: J) fr := by
  obtain ⟨a1, a2, a3, a4, a5, a6, a7, a8, a9, a10, a11, a12, a13, a14, a15, a16, a17, a18, a19⟩ := h
  dyn_prep
  case jobs =>
    intro j hj
    rcases hj with rfl | hj
    · trivial
    · exact a19 j hj
  all_goals (try grind [Ready, unfired, Graph.setLeft])

theorem Inv.take {c : DynCfg} {s : DynSt} {J x q fr} (h : Inv c s J fr) (hq : s.queue.Perm (x :: q)) :
    Inv c { s with queue := q } (.exec x :: J) fr := by
  have hc : ∀ v, s.queue.count v = q.count v + if x = v then 1 else 0 := by
    intro v; rw [hq.count_eq]; simp [List.count_cons]
  obtain ⟨a1, a2, a3, a4, a5, a6, a7, a8, a9, a10, a11, a12, a13, a14, a15, a16, a17, a18, a19⟩ := h
  dyn_prep
  case jobs =>
    intro j hj
    rcases hj with rfl | hj
    · trivial
    · exact (a19 j hj).mono (fun p hp => hp)
  all_goals (try grind [Ready, unfired, Graph.setLeft])

/-! ### completion -/

/-- In an acyclic graph, elements that always have an unfinished successor do not exist. -/
theorem no_deadlock_succ {g : Graph} (w : g.WF) (R : List Eid) (ha : AcyclicOn g.Edge R)
    (hR : ∀ v ∈ R, ∃ d ∈ R, d ∈ g.succs v) : R = [] := by
  let g' : Graph := ⟨g.elems, g.succs, g.deps⟩
  have hE : ∀ a b, g'.Edge a b → g.Edge b a := fun a b h => (w.sym b a).1 h
  apply Graph.no_deadlock (g := g') R
  · intro v hv ht
    apply ha v hv
    have : Relation.TransGen (Function.swap g.Edge) v v := Relation.TransGen.mono hE v v ht
    exact Relation.transGen_swap.1 this
  · exact hR

theorem Inv.ended_nodup {c : DynCfg} {s : DynSt} {J fr} (h : Inv c s J fr) : s.ended.Nodup := by
  rw [List.nodup_iff_count_le_one]
  intro v
  have := h.tails v; have := h.finished_le v; omega

/-- When all tails are counted, every element has finished successfully. -/
theorem Inv.complete {c : DynCfg} {s : DynSt} {J fr} (w : c.g.WF) (ha : AcyclicOn c.g.Edge c.g.elems)
    (h : Inv c s J fr) (hf : c.totalEnd ≤ s.fin) : ∀ v ∈ c.g.elems, s.trace.count (.finish v) = 1 := by
  have hfe : ∀ v ∈ s.ended, s.trace.count (.finish v) = 1 := by
    intro v hv
    have := h.tails v; have := h.finished_le v; have := List.count_pos_iff.2 hv; omega
  have hin : ∀ v, s.trace.count (.finish v) = 1 → v ∈ c.g.elems ∧ Ready c s v := by
    intro v hv
    have := h.body v
    exact h.rdy v (by omega)
  have hall : ∀ v ∈ c.g.elems, c.g.succs v = [] → s.trace.count (.finish v) = 1 := by
    intro v hv hs
    apply hfe
    refine Graph.subset_of_length_eq h.ended_nodup (m := c.g.elems.filter (fun e => (c.g.succs e).isEmpty))
      ?_ ?_ v (by simp [hv, hs])
    · intro x hx
      have := List.count_pos_iff.2 hx
      simp only [List.mem_filter, List.isEmpty_iff]
      exact ⟨(hin x (hfe x hx)).1, h.tailsS x (by omega)⟩
    · rw [← h.fin]; exact hf
  let R := c.g.elems.filter (fun v => s.trace.count (.finish v) ≠ 1)
  have hR : R = [] := by
    apply no_deadlock_succ w R
    · intro v hv; exact ha v (List.mem_of_mem_filter hv)
    · intro v hv
      simp only [R, List.mem_filter, decide_eq_true_eq] at hv
      by_cases hs : c.g.succs v = []
      · exact absurd (hall v hv.1 hs) hv.2
      · obtain ⟨x, hx⟩ := List.exists_mem_of_ne_nil _ hs
        refine ⟨x, ?_, hx⟩
        simp only [R, List.mem_filter, decide_eq_true_eq]
        refine ⟨w.closedS v hv.1 x hx, fun hfx => hv.2 ?_⟩
        have h1 := (hin x hfx).2 v ((w.sym v x).1 hx)
        have := h.edge v x; have := h.finished_le v; have := List.count_pos_iff.2 h1; omega
  intro v hv
  by_contra hne
  have : v ∈ R := by simp only [R, List.mem_filter, decide_eq_true_eq]; exact ⟨hv, hne⟩
  rw [hR] at this; simp at this

theorem cnt_zero {α : Type} [BEq α] [LawfulBEq α] {f : Job → List α} {J : List Job} (h : ∀ x, cnt f J x = 0) :
    ∀ j ∈ J, f j = [] := by
  intro j hj
  by_contra hne
  obtain ⟨x, hx⟩ := List.exists_mem_of_ne_nil _ hne
  have h0 := h x
  unfold cnt at h0
  rw [List.count_eq_zero] at h0
  exact h0 (List.mem_flatMap.2 ⟨j, hj, hx⟩)

/-- State of the engine when all tails are counted. -/
theorem Inv.quiet {c : DynCfg} {s : DynSt} {J fr} (w : c.g.WF) (ha : AcyclicOn c.g.Edge c.g.elems)
    (h : Inv c s J fr) (hf : c.totalEnd ≤ s.fin) :
    s.failed = [] ∧ s.queue = [] ∧ fr = [] ∧ (∀ j ∈ J, j.harmless = true) ∧
    (∀ v ∈ c.g.elems, s.left v = ((c.g.deps v).length : Int)) ∧ s.status = CStatus.ok := by
  have hc := h.complete w ha hf
  have hst : ∀ v ∈ c.g.elems, s.trace.count (.start v) = 1 := by
    intro v hv
    have := hc v hv; have := h.body v; have := h.tok v; omega
  have hfail : s.failed = [] := by
    by_contra hne
    obtain ⟨p, hp⟩ := List.exists_mem_of_ne_nil _ hne
    have h1 : 0 < (s.failed.map Prod.fst).count p.1 := List.count_pos_iff.2 (List.mem_map_of_mem hp)
    have h2 := h.body p.1
    have h3 := (h.rdy p.1 (by omega)).1
    have := hc _ h3; have := hst _ h3; omega
  have htok : ∀ v, s.queue.count v = 0 ∧ cnt Job.held J v = 0 ∧ fr.count v = 0 := by
    intro v
    by_cases hv : v ∈ c.g.elems
    · have := h.tok v; have := hst v hv; omega
    · have : ¬ 1 ≤ s.queue.count v + cnt Job.held J v + fr.count v + s.trace.count (.start v) :=
        fun h1 => hv (h.rdy v h1).1
      omega
  have hstat : s.status = CStatus.ok := by
    apply h.stOk
    cases he : s.status.isErr with
    | false => rfl
    | true => obtain ⟨p, hp, -⟩ := h.stErr he; simp [hfail] at hp
  refine ⟨hfail, ?_, ?_, ?_, ?_, hstat⟩
  · rw [List.eq_nil_iff_forall_not_mem]; intro v; rw [← List.count_eq_zero]; exact (htok v).1
  · rw [List.eq_nil_iff_forall_not_mem]; intro v; rw [← List.count_eq_zero]; exact (htok v).2.2
  · have h1 := cnt_zero (fun v => (htok v).2.1)
    have h2 : ∀ j ∈ J, j.bodyOf = [] := by
      apply cnt_zero; intro v
      have hb := h.body v
      by_cases hv : v ∈ c.g.elems
      · have := hc v hv; have := hst v hv; omega
      · have : ¬ 1 ≤ s.trace.count (.start v) := fun h1 => hv (h.rdy v (by omega)).1
        omega
    have h3 : ∀ j ∈ J, j.pend c.g = [] := by
      apply cnt_zero; rintro ⟨e, x⟩
      by_contra h0
      have hx := h.edgeS e x (by omega)
      have hed := h.edge e x
      have hfl := h.finished_le e
      have hb := h.body e
      have hee := (h.rdy e (by omega)).1
      have hxe := w.closedS e hee x hx
      have hxr := (h.rdy x (by have := hst x hxe; omega)).2 e ((w.sym e x).1 hx)
      have := List.count_pos_iff.2 hxr
      omega
    have h4 : ∀ j ∈ J, j.endp c.g = [] := by
      apply cnt_zero; intro v
      by_contra h0
      have hs0 := h.tailsS v (by omega)
      have htl := h.tails v
      have hfl := h.finished_le v
      have hb := h.body v
      have hve := (h.rdy v (by omega)).1
      have hme : v ∈ s.ended := by
        refine Graph.subset_of_length_eq h.ended_nodup (m := c.g.elems.filter (fun e => (c.g.succs e).isEmpty))
          ?_ ?_ v (by simp [hve, hs0])
        · intro x hx
          have := List.count_pos_iff.2 hx
          have := h.tails x
          have := h.body x
          simp only [List.mem_filter, List.isEmpty_iff]
          exact ⟨(h.rdy x (by omega)).1, h.tailsS x (by omega)⟩
        · rw [← h.fin]; exact hf
      have := List.count_pos_iff.2 hme
      omega
    intro j hj
    have e1 := h1 j hj; have e2 := h2 j hj; have e3 := h3 j hj; have e4 := h4 j hj
    have e5 := h.jobs j hj
    cases j with
    | nIter e rest r => cases rest <;> cases r <;> simp_all [Job.held, Job.pend, Job.harmless]
    | errSet st => simp only [JobOk] at e5; obtain ⟨-, e, he⟩ := e5; simp [hfail] at he
    | after e => simp_all [Job.pend, Job.endp]
    | _ => simp_all [Job.held, Job.pend, Job.harmless, Job.bodyOf, Job.endp]
  · intro v hv
    apply h.leftO v hv
    intro h0; have := hst v hv; omega

/-- The state at the begin of a run. -/
theorem Inv.fresh {c : DynCfg} (w : c.g.WF) {s : DynSt} {J} (hJ : ∀ j ∈ J, j.harmless = true)
    (hq : s.queue = []) (ht : s.trace = []) (hfi : s.fired = []) (hfa : s.failed = []) (hen : s.ended = [])
    (hfin : s.fin = 0) (hst : s.status = CStatus.ok)
    (hl : ∀ v ∈ c.g.elems, s.left v = ((c.g.deps v).length : Int))
    (hjo : ∀ j ∈ J, JobOk c s j) : Inv c s J c.fronts := by
  have hz : ∀ {α : Type} [BEq α] [LawfulBEq α] (f : Job → List α), (∀ j, j.harmless = true → f j = []) →
      ∀ x, cnt f J x = 0 := by
    intro α _ _ f hf x
    unfold cnt
    rw [List.count_eq_zero]
    intro hx
    obtain ⟨j, hj, hxj⟩ := List.mem_flatMap.1 hx
    rw [hf j (hJ j hj)] at hxj
    simp at hxj
  have z1 := hz Job.held (by intro j hj; unfold Job.harmless at hj; split at hj <;> simp_all [Job.held])
  have z2 := hz Job.bodyOf (by intro j hj; unfold Job.harmless at hj; split at hj <;> simp_all [Job.bodyOf])
  have z3 := hz (Job.pend c.g) (by intro j hj; unfold Job.harmless at hj; split at hj <;> simp_all [Job.pend])
  have z4 := hz (Job.endp c.g) (by intro j hj; unfold Job.harmless at hj; split at hj <;> simp_all [Job.endp])
  have hfn : c.fronts.Nodup := w.nodup.filter _
  have hfc : ∀ v, c.fronts.count v ≤ 1 := fun v => List.nodup_iff_count_le_one.1 hfn v
  have hfm : ∀ v, 1 ≤ c.fronts.count v ↔ v ∈ c.g.elems ∧ c.g.deps v = [] := by
    intro v
    rw [show (1 ≤ c.fronts.count v) = (0 < c.fronts.count v) from rfl, List.count_pos_iff]
    simp [DynCfg.fronts]
  have hr : ∀ v, Ready c s v ↔ c.g.deps v = [] := by
    intro v; simp [Ready, hfi, List.eq_nil_iff_forall_not_mem]
  have hu : ∀ v, unfired c s v = (c.g.deps v).length := by
    intro v; simp [unfired, hfi]
  constructor <;> (try simp only [z1, z2, z3, z4, hq, ht, hfi, hfa, hen, hst, List.count_nil, hr, hu]) <;>
    first
    | assumption
    | grind [CStatus.ok_isErr]
    | skip
  · exact StaticSt.goodTrace_nil _

/-- The jobs of all threads, including the caller's. -/
def allJobs (s : DynSt) : List Job :=
  match s.main with
  | .inline j => j :: s.jobs
  | _ => s.jobs

/-- Front elements the caller has still to process. -/
def frs (s : DynSt) : List Eid :=
  match s.main with
  | .fronts r => r
  | _ => []

/-- Nothing of an earlier run is still going on, or that run succeeded. -/
def Clean (s : DynSt) : Prop :=
  s.failed = [] ∨ (s.queue = [] ∧ ∀ j ∈ s.jobs, j.harmless = true)

/-- States reachable when a new run is only begun from a clean state. -/
inductive Reach (c : DynCfg) : DynSt → Prop
  | init : Reach c (init c)
  | step {s a s'} : Reach c s → step c s a = some s' → (a = .begin → Clean s) → Reach c s'

/-- Whole-system invariant. -/
structure SInv (c : DynCfg) (s : DynSt) : Prop where
  first : s.nrun = 0 → s = init c
  inv : s.nrun ≠ 0 → Inv c s s.allJobs s.frs
  ret : ∀ r, s.lastRet = some r → s.main = .idle ∧ r = s.status ∧ (s.status.isErr = true ∨ c.totalEnd ≤ s.fin)
  idle : s.nrun ≠ 0 → s.main = .idle → s.lastRet ≠ none
  wake : (s.main = .asleep ∨ s.main = .preSleep) → c.totalEnd ≤ s.fin → Job.tailNotify ∈ s.jobs

theorem allJobs_of {s : DynSt} (h : ∀ j, s.main ≠ .inline j) : s.allJobs = s.jobs := by
  unfold allJobs; split
  · rename_i j hj; exact absurd hj (h j)
  · rfl

theorem frs_of {s : DynSt} (h : ∀ r, s.main ≠ .fronts r) : s.frs = [] := by
  unfold frs; split
  · rename_i r hr; exact absurd hr (h r)
  · rfl

/-- `fin` and the jobs waiting to notify, over one step of a thread. -/
theorem jobStep_tail {c : DynCfg} {s s' : DynSt} {st j oj} (hs : jobStep c s st j = some (s', oj)) :
    (s'.fin = s.fin ∨ (s'.fin = s.fin + 1 ∧ (s'.fin = c.totalEnd → oj = some .tailNotify))) ∧
    (s'.fin = s.fin ∧ j = .tailNotify → s'.main ≠ .asleep ∧ s'.main ≠ .preSleep ∨ oj = some .tailNotify) ∧
    (s'.fin ≠ s.fin → j ≠ .tailNotify) ∧
    (s'.status = s.status ∨ ∃ st', j = .errSet st' ∧ s'.status = s.status.add st') := by
  have hn : s.notify.fin = s.fin ∧ s.notify.status = s.status ∧ s.notify.main ≠ .asleep := by
    unfold notify; split <;> simp_all
  have hn2 : s.main ≠ .preSleep → s.notify.main ≠ .preSleep := by
    unfold notify; split <;> simp_all
  unfold jobStep at hs
  grind [push]

theorem sinv_init (c : DynCfg) : SInv c (init c) := by
  constructor <;> simp [init]

theorem sinv_step {c : DynCfg} (w : c.g.WF) (ha : AcyclicOn c.g.Edge c.g.elems) {s s' : DynSt} {a}
    (h : SInv c s) (hs : step c s a = some s') (hb : a = .begin → Clean s) : SInv c s' := by
  cases a with
  | begin =>
    simp only [step] at hs
    split at hs
    case isFalse => simp at hs
    rename_i hid
    simp only [Option.some.injEq] at hs
    subst hs
    have hcl := hb rfl
    -- facts about the state before
    have hpre : s.queue = [] ∧ (∀ j ∈ s.jobs, j.harmless = true) ∧
        (s.status.isOK = true → s.status = CStatus.ok ∧ ∀ v ∈ c.g.elems, s.left v = ((c.g.deps v).length : Int)) := by
      by_cases h0 : s.nrun = 0
      · have := h.first h0
        subst this
        simp only [init]
        exact ⟨trivial, by simp, fun _ => ⟨trivial, fun v hv => by simp [hv]⟩⟩
      · have hi := h.inv h0
        rw [allJobs_of (by simp [hid]), frs_of (by simp [hid])] at hi
        have hr := h.idle h0 hid
        obtain ⟨r, hr⟩ := Option.ne_none_iff_exists'.1 hr
        have hr2 := (h.ret r hr).2.2
        by_cases hfin : c.totalEnd ≤ s.fin
        · obtain ⟨q1, q2, -, q4, q5, q6⟩ := hi.quiet w ha hfin
          exact ⟨q2, q4, fun _ => ⟨q6, q5⟩⟩
        · have he : s.status.isErr = true := hr2.resolve_right hfin
          obtain ⟨p, hp, -⟩ := hi.stErr he
          rcases hcl with hcl | ⟨hq, hj⟩
          · simp [hcl] at hp
          · refine ⟨hq, hj, fun hok => ?_⟩
            rw [CStatus.isErr_not_ok he] at hok; simp at hok
    obtain ⟨p1, p2, p3⟩ := hpre
    have hjo : ∀ s2 : DynSt, ∀ j ∈ s.jobs, JobOk c s2 j := by
      intro s2 j hj
      have h1 := p2 j hj
      by_cases h0 : s.nrun = 0
      · have := h.first h0
        subst this
        simp [init] at hj
      · have hi := h.inv h0
        rw [allJobs_of (by simp [hid])] at hi
        have := hi.jobs j hj
        cases j <;> simp_all [JobOk, Job.harmless]
    by_cases hok : s.status.isOK = true
    · obtain ⟨p4, p5⟩ := p3 hok
      simp only [hok, if_true]
      constructor
      · simp
      · intro _
        rw [allJobs_of (by simp)]
        exact Inv.fresh w p2 p1 rfl rfl rfl rfl rfl p4 p5 (hjo _)
      · simp
      · simp
      · simp
    · simp only [hok]
      have hreset : s.status.reset = CStatus.ok := by
        have : ¬ s.status.code = 0 := fun h0 => hok ((CStatus.isOK_iff _).2 h0)
        simp [CStatus.reset, STATUS_OK, this, CStatus.ok]
      constructor
      · simp
      · intro _
        rw [allJobs_of (by simp)]
        exact Inv.fresh w p2 p1 rfl rfl rfl rfl rfl hreset (by intro v hv; simp [hv]) (hjo _)
      · simp
      · simp
      · simp
  | main st =>
    have hnr : s.nrun ≠ 0 := by
      intro h0
      have := h.first h0
      subst this
      simp [step, init] at hs
    have hi := h.inv hnr
    have hlr : s.main ≠ .idle → s.lastRet = none := by
      intro hne
      cases hl : s.lastRet with
      | none => rfl
      | some r => exact absurd (h.ret r hl).1 hne
    have hwake := h.wake
    simp only [step] at hs
    split at hs
    · simp at hs
    · -- fronts []
      rename_i hm
      simp only [Option.some.injEq] at hs; subst hs
      simp only [allJobs, frs, hm] at hi
      have hl := hlr (by simp [hm])
      constructor <;> simp_all [toWait, allJobs, frs]
      exact hi.congr rfl rfl rfl rfl rfl rfl rfl rfl
    · -- fronts [x]
      rename_i x hm
      simp only [allJobs, frs, hm] at hi
      have hl := hlr (by simp [hm])
      split at hs
      · rename_i he
        simp only [Option.some.injEq] at hs; subst hs
        constructor <;> simp_all [toWait, allJobs, frs]
        exact (hi.frSkip he).congr rfl rfl rfl rfl rfl rfl rfl rfl
      · split at hs
        · simp only [Option.some.injEq] at hs; subst hs
          constructor <;> simp_all [toWait, allJobs, frs]
          exact hi.frExec.congr rfl rfl rfl rfl rfl rfl rfl rfl
        · simp only [Option.some.injEq] at hs; subst hs
          constructor <;> simp_all [toWait, allJobs, frs, push]
          exact hi.frPush.congr rfl rfl rfl rfl rfl rfl rfl rfl
    · -- fronts (x :: y :: rest)
      rename_i x y rest hm
      simp only [allJobs, frs, hm] at hi
      have hl := hlr (by simp [hm])
      split at hs
      · rename_i he
        simp only [Option.some.injEq] at hs; subst hs
        constructor <;> simp_all [toWait, allJobs, frs]
        exact (hi.frSkip he).congr rfl rfl rfl rfl rfl rfl rfl rfl
      · simp only [Option.some.injEq] at hs; subst hs
        constructor <;> simp_all [toWait, allJobs, frs, push]
        exact hi.frPush.congr rfl rfl rfl rfl rfl rfl rfl rfl
    · -- inline
      rename_i j hm
      simp only [allJobs, frs, hm] at hi
      have hl := hlr (by simp [hm])
      split at hs
      · simp at hs
      · rename_i s1 j' hj
        have hf := jobStep_frame hj
        have hi' := jobStep_inv w hi hj
        simp only [Option.some.injEq] at hs; subst hs
        constructor <;> simp_all [allJobs, frs]
        exact hi'.congr rfl rfl rfl rfl rfl rfl rfl rfl
      · rename_i s1 hj
        have hf := jobStep_frame hj
        have hi' := jobStep_inv w hi hj
        simp only [Option.some.injEq] at hs; subst hs
        constructor <;> simp_all [allJobs, frs, toWait]
        exact hi'.congr rfl rfl rfl rfl rfl rfl rfl rfl
    · -- poll 0
      rename_i hm
      simp only [Option.some.injEq] at hs; subst hs
      simp only [allJobs, frs, hm] at hi
      have hl := hlr (by simp [hm])
      constructor <;> simp_all [toWait, allJobs, frs]
      exact hi.congr rfl rfl rfl rfl rfl rfl rfl rfl
    · rename_i n hm
      simp only [allJobs, frs, hm] at hi
      have hl := hlr (by simp [hm])
      split at hs
      · simp only [Option.some.injEq] at hs; subst hs
        constructor <;> simp_all [DynSt.ret, allJobs, frs]
        exact hi.congr rfl rfl rfl rfl rfl rfl rfl rfl
      · simp only [Option.some.injEq] at hs; subst hs
        constructor <;> simp_all [toWait, allJobs, frs]
        exact hi.congr rfl rfl rfl rfl rfl rfl rfl rfl
    · rename_i hm
      simp only [Option.some.injEq] at hs; subst hs
      simp only [allJobs, frs, hm] at hi
      have hl := hlr (by simp [hm])
      constructor <;> simp_all [toWait, allJobs, frs]
      exact hi.congr rfl rfl rfl rfl rfl rfl rfl rfl
    · rename_i hm
      simp only [allJobs, frs, hm] at hi
      have hl := hlr (by simp [hm])
      split at hs
      · rename_i hc
        simp only [Option.some.injEq] at hs; subst hs
        constructor <;> simp_all [DynSt.ret, allJobs, frs]
        · exact hi.congr rfl rfl rfl rfl rfl rfl rfl rfl
        · exact hc.symm
      · simp only [Option.some.injEq] at hs; subst hs
        constructor <;> simp_all [toWait, allJobs, frs]
        exact hi.congr rfl rfl rfl rfl rfl rfl rfl rfl
    · rename_i hm
      simp only [Option.some.injEq] at hs; subst hs
      simp only [allJobs, frs, hm] at hi
      have hl := hlr (by simp [hm])
      constructor <;> simp_all [toWait, allJobs, frs]
      exact hi.congr rfl rfl rfl rfl rfl rfl rfl rfl
    · simp at hs
    · rename_i hm
      simp only [Option.some.injEq] at hs; subst hs
      simp only [allJobs, frs, hm] at hi
      have hl := hlr (by simp [hm])
      constructor <;> simp_all [toWait, allJobs, frs]
      exact hi.congr rfl rfl rfl rfl rfl rfl rfl rfl
  | take i =>
    simp only [step] at hs
    split at hs
    · simp at hs
    rename_i e hq
    split at hs
    case isFalse => simp at hs
    simp only [Option.some.injEq] at hs
    subst hs
    have hnr : s.nrun ≠ 0 := by
      intro h0
      have := h.first h0
      subst this
      simp [init] at hq
    have hi := h.inv hnr
    obtain ⟨hlt, hqe⟩ := List.getElem?_eq_some_iff.1 hq
    have hp : s.queue.Perm (e :: s.queue.eraseIdx i) := by
      rw [← hqe]; exact (List.getElem_cons_eraseIdx_perm hlt).symm
    have hi' := hi.take hp
    constructor
    · intro h0; exact absurd h0 hnr
    · intro _
      have hall : (Job.exec e :: s.allJobs).Perm
          (allJobs { s with queue := s.queue.eraseIdx i, jobs := s.jobs ++ [.exec e] }) := by
        unfold allJobs
        dsimp only
        split
        · rw [← List.singleton_append, ← List.cons_append]
          exact List.perm_append_comm
        · rw [← List.singleton_append]
          exact List.perm_append_comm
      exact (hi'.perm hall).congr rfl rfl rfl rfl rfl rfl rfl rfl
    · exact h.ret
    · exact h.idle
    · intro h1 h2
      exact List.mem_append_left _ (h.wake h1 h2)
  | work i st =>
    simp only [step] at hs
    split at hs
    · simp at hs
    rename_i j hq
    have hnr : s.nrun ≠ 0 := by
      intro h0
      have := h.first h0
      subst this
      simp [init] at hq
    have hi := h.inv hnr
    obtain ⟨hlt, hqe⟩ := List.getElem?_eq_some_iff.1 hq
    have hp : s.jobs.Perm (j :: s.jobs.eraseIdx i) := by
      rw [← hqe]; exact (List.getElem_cons_eraseIdx_perm hlt).symm
    have hset : ∀ j', (s.jobs.set i j').Perm (j' :: s.jobs.eraseIdx i) :=
      fun j' => List.set_perm_cons_eraseIdx hlt j'
    -- the other jobs
    obtain ⟨O, hO, hO2⟩ : ∃ O : List Job, s.allJobs.Perm (j :: O) ∧ ∀ s2 : DynSt, ∀ l : List Job,
        (s2.main = s.main ∨ (s.main = .asleep ∧ s2.main = .waking)) → s2.jobs.Perm (l ++ s.jobs.eraseIdx i) →
        (l ++ O).Perm s2.allJobs ∧ s2.frs = s.frs := by
      unfold allJobs frs
      cases hm : s.main with
      | inline k =>
        refine ⟨k :: s.jobs.eraseIdx i, ?_, ?_⟩
        · simp only
          exact ((hp.cons k).trans (List.Perm.swap ..))
        · intro s2 l h1 h2
          have hm2 : s2.main = .inline k := by simpa using h1
          rw [hm2]
          exact ⟨(List.perm_middle).trans (h2.symm.cons k), rfl⟩
      | _ =>
        refine ⟨s.jobs.eraseIdx i, hp, ?_⟩
        intro s2 l h1 h2
        simp at h1
        first
        | rw [h1]; exact ⟨h2.symm, rfl⟩
        | (rcases h1 with h1 | h1 <;> rw [h1] <;> exact ⟨h2.symm, rfl⟩)
    have hi1 := hi.perm hO
    have key : ∀ (s1 : DynSt) (oj : Option Job) (L : List Job), jobStep c s st j = some (s1, oj) →
        L.Perm (oj.toList ++ s.jobs.eraseIdx i) → SInv c { s1 with jobs := L } := by
      intro s1 oj L hj hL
      obtain ⟨f1, f2, f3, f4⟩ := jobStep_frame hj
      obtain ⟨t1, t2, t3, t4⟩ := jobStep_tail hj
      have hi2 := jobStep_inv w hi1 hj
      obtain ⟨p1, p2⟩ := hO2 { s1 with jobs := L } oj.toList f4 hL
      constructor
      · intro h0; exact absurd (f2 ▸ h0) hnr
      · intro _
        rw [p2]
        exact (hi2.perm p1).congr rfl rfl rfl rfl rfl rfl rfl rfl
      · intro r hr
        dsimp only at hr ⊢
        rw [f3] at hr
        obtain ⟨r1, r2, r3⟩ := h.ret r hr
        have hm : s1.main = .idle := by
          rcases f4 with f4 | ⟨f4, -⟩
          · rw [f4, r1]
          · simp [r1] at f4
        refine ⟨hm, ?_⟩
        by_cases hfin : c.totalEnd ≤ s.fin
        · have hqt := hi1.quiet w ha hfin
          rcases t4 with t4 | ⟨st', t4, t5⟩
          · rw [t4]; refine ⟨r2, ?_⟩; right; omega
          · have := hqt.2.2.2.1 j (by simp)
            rw [t4] at this; simp [Job.harmless] at this
        · have he := r3.resolve_right hfin
          rcases t4 with t4 | ⟨st', t4, t5⟩
          · rw [t4]; exact ⟨r2, Or.inl he⟩
          · rw [t5, CStatus.add_of_err _ he]; exact ⟨r2, Or.inl he⟩
      · intro _ hm
        dsimp only at hm ⊢
        rw [f3]
        apply h.idle hnr
        rcases f4 with f4 | ⟨f4, f5⟩
        · rw [← f4, hm]
        · simp [hm] at f5
      · intro h1 h2
        dsimp only at h1 h2 ⊢
        rw [hL.mem_iff]
        have hm : s1.main = s.main := by
          rcases f4 with f4 | ⟨f4, f5⟩
          · exact f4
          · simp [f5] at h1
        have hin : c.totalEnd ≤ s.fin → Job.tailNotify ∈ j :: s.jobs.eraseIdx i := by
          intro hf
          rw [← hp.mem_iff]
          exact h.wake (hm ▸ h1) hf
        have hother : ∀ x, x ∈ j :: s.jobs.eraseIdx i → x ≠ j → x ∈ oj.toList ++ s.jobs.eraseIdx i := by
          intro x hx hne
          rcases List.mem_cons.1 hx with hx | hx
          · exact absurd hx hne
          · exact List.mem_append_right _ hx
        have hsome : oj = some .tailNotify → Job.tailNotify ∈ oj.toList ++ s.jobs.eraseIdx i := by
          intro ho; simp [ho]
        by_cases hf : s1.fin = s.fin
        · by_cases hjt : j = .tailNotify
          · rcases t2 ⟨hf, hjt⟩ with ⟨u1, u2⟩ | u
            · rcases h1 with h1 | h1
              · exact absurd h1 u1
              · exact absurd h1 u2
            · exact hsome u
          · exact hother _ (hin (hf ▸ h2)) (Ne.symm hjt)
        · rcases t1 with t1 | ⟨t1, t1'⟩
          · exact absurd t1 hf
          · by_cases he : s1.fin = c.totalEnd
            · exact hsome (t1' he)
            · exact hother _ (hin (by omega)) (Ne.symm (t3 hf))
    split at hs
    · simp at hs
    · rename_i s1 j' hj
      simp only [Option.some.injEq] at hs; subst hs
      exact key s1 _ _ hj (hset j')
    · rename_i s1 hj
      simp only [Option.some.injEq] at hs; subst hs
      exact key s1 _ _ hj (List.Perm.refl _)
  | spurious =>
    simp only [step] at hs
    split at hs
    case isFalse => simp at hs
    rename_i hm
    simp only [Option.some.injEq] at hs; subst hs
    have hnr : s.nrun ≠ 0 := by
      intro h0
      have := h.first h0
      subst this
      simp [init] at hm
    have hi := h.inv hnr
    simp only [allJobs, frs, hm] at hi
    have hl : s.lastRet = none := by
      cases hl : s.lastRet with
      | none => rfl
      | some r => have := (h.ret r hl).1; simp [hm] at this
    constructor <;> simp_all [toWait, allJobs, frs]
    exact hi.congr rfl rfl rfl rfl rfl rfl rfl rfl

theorem sinv_reach {c : DynCfg} (w : c.g.WF) (ha : AcyclicOn c.g.Edge c.g.elems) {s : DynSt}
    (h : Reach c s) : SInv c s := by
  induction h with
  | init => exact sinv_init c
  | step _ hs hb ih => exact sinv_step w ha ih hs hb

end DynSt
end CGraph
