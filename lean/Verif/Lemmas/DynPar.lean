import Verif.Model.DagType
import Verif.Lemmas.Status
import Mathlib.Data.List.Perm.Basic
import Mathlib.Data.List.Perm.Subperm
import Mathlib.Data.List.Count

/-! The fully parallel path of the dynamic engine under every interleaving. -/
namespace CGraph
namespace PJob

/-- Element handed to a thread, not yet started. -/
def held : PJob → List Eid
  | .start e => [e]
  | _ => []

/-- Element started and not yet counted. -/
def act : PJob → List Eid
  | .body e | .errSet e _ | .inc e => [e]
  | _ => []

/-- Element being executed. -/
def bodyOf : PJob → List Eid
  | .body e => [e]
  | _ => []

/-- Jobs that touch no element any more. -/
def harmless : PJob → Bool
  | .chk | .notify => true
  | _ => false

end PJob

namespace ParSt

set_option maxHeartbeats 2000000

/-- Occurrences over a bag of jobs. -/
def pcnt (f : PJob → List Eid) (J : List PJob) (x : Eid) : Nat := (J.flatMap f).count x

@[simp] theorem pcnt_nil (f : PJob → List Eid) (x : Eid) : pcnt f [] x = 0 := rfl

@[simp] theorem pcnt_cons (f : PJob → List Eid) (j : PJob) (J : List PJob) (x : Eid) :
    pcnt f (j :: J) x = (f j).count x + pcnt f J x := by simp [pcnt]

theorem pcnt_append (f : PJob → List Eid) (J K : List PJob) (x : Eid) :
    pcnt f (J ++ K) x = pcnt f J x + pcnt f K x := by simp [pcnt]

theorem pcnt_perm (f : PJob → List Eid) {J J' : List PJob} (h : J.Perm J') (x : Eid) : pcnt f J x = pcnt f J' x :=
  (h.flatMap_right f).count_eq x

theorem pcnt_harmless {f : PJob → List Eid} (hf : f .chk = [] ∧ f .notify = []) {J : List PJob}
    (h : ∀ j ∈ J, j.harmless = true) (x : Eid) : pcnt f J x = 0 := by
  induction J with
  | nil => rfl
  | cons j J ih =>
    have h1 := h j (by simp)
    rw [pcnt_cons, ih (fun k hk => h k (by simp [hk]))]
    cases j <;> simp_all [PJob.harmless]

/-- Tasks not yet handed over. -/
def rest : PMain → List Eid
  | .push r => r
  | _ => []

/-- Invariant of a run over the tasks `T`; the jobs are taken as a bag `J`. -/
structure Inv (T : List Eid) (s : ParSt) (J : List PJob) : Prop where
  tok : ∀ v, (rest s.main).count v + s.queue.count v + pcnt PJob.held J v + pcnt PJob.act J v + s.done.count v
    ≤ T.count v
  tokE : s.status.isErr = false → ∀ v,
    (rest s.main).count v + s.queue.count v + pcnt PJob.held J v + pcnt PJob.act J v + s.done.count v = T.count v
  num : s.num = s.done.length
  st : ∀ v, s.trace.count (.start v) = pcnt PJob.act J v + s.done.count v
  fi : ∀ v, s.trace.count (.finish v) + pcnt PJob.bodyOf J v = s.trace.count (.start v)
  fail : s.status.isErr = true → ∃ e, (e, s.status) ∈ s.failed
  pend : s.failed ≠ [] → s.status.isErr = true ∨ ∃ e st, PJob.errSet e st ∈ J
  job : ∀ e st, PJob.errSet e st ∈ J → (e, st) ∈ s.failed ∧ st.isErr = true
  failE : ∀ p ∈ s.failed, p.2.isErr = true ∧ Ev.finish p.1 ∈ s.trace
  wakeN : (s.main = .asleep ∨ s.main = .preSleep) → T.length ≤ s.num → PJob.notify ∈ J
  wakeE : (s.main = .asleep ∨ s.main = .preSleep) → s.status.isErr = true →
    ∃ j ∈ J, j = .chk ∨ j = .notify ∨ ∃ e, j = .inc e
  ret : ∀ r, s.lastRet = some r → s.main = .idle ∧ r = s.status ∧ (s.status.isErr = true ∨ T.length ≤ s.num)
  idle : s.main = .idle → s.lastRet ≠ none

theorem Inv.perm {T s J J'} (h : Inv T s J) (p : J.Perm J') : Inv T s J' := by
  have hc := fun f x => pcnt_perm f p x
  constructor
  · intro v; simpa [← hc] using h.tok v
  · intro hE v; simpa [← hc] using h.tokE hE v
  · exact h.num
  · intro v; simpa [← hc] using h.st v
  · intro v; simpa [← hc] using h.fi v
  · exact h.fail
  · intro h1; simpa [← p.mem_iff] using h.pend h1
  · intro e st h1; exact h.job e st (p.mem_iff.2 h1)
  · exact h.failE
  · intro h1 h2; exact p.mem_iff.1 (h.wakeN h1 h2)
  · intro h1 h2; obtain ⟨j, hj, hj2⟩ := h.wakeE h1 h2; exact ⟨j, p.mem_iff.1 hj, hj2⟩
  · exact h.ret
  · exact h.idle

theorem Inv.congr {T s s' J} (h : Inv T s J) (h1 : s'.queue = s.queue) (h2 : s'.status = s.status)
    (h3 : s'.num = s.num) (h4 : s'.main = s.main) (h5 : s'.trace = s.trace) (h6 : s'.failed = s.failed)
    (h7 : s'.done = s.done) (h8 : s'.lastRet = s.lastRet) : Inv T s' J := by
  constructor
  · rw [h1, h4, h7]; exact h.tok
  · rw [h1, h4, h7, h2]; exact h.tokE
  · rw [h3, h7]; exact h.num
  · rw [h5, h7]; exact h.st
  · rw [h5]; exact h.fi
  · rw [h2, h6]; exact h.fail
  · rw [h2, h6]; exact h.pend
  · rw [h6]; exact h.job
  · rw [h6, h5]; exact h.failE
  · rw [h4, h3]; exact h.wakeN
  · rw [h4, h2]; exact h.wakeE
  · rw [h8, h4, h2, h3]; exact h.ret
  · rw [h4, h8]; exact h.idle

/-- When all tasks are counted nothing else is left. -/
theorem Inv.full {T s J} (h : Inv T s J) (hn : T.length ≤ s.num) :
    (∀ v, s.done.count v = T.count v) ∧ rest s.main = [] ∧ s.queue = [] ∧ ∀ j ∈ J, j.harmless = true := by
  have hsub : s.done.Subperm T := by
    rw [List.subperm_iff_count]; intro v; have := h.tok v; omega
  have hp : s.done.Perm T := hsub.perm_of_length_le (by rw [← h.num]; exact hn)
  have hc : ∀ v, s.done.count v = T.count v := fun v => hp.count_eq v
  have hz : ∀ v, (rest s.main).count v = 0 ∧ s.queue.count v = 0 ∧ pcnt PJob.held J v = 0 ∧ pcnt PJob.act J v = 0 := by
    intro v; have := h.tok v; have := hc v; omega
  refine ⟨hc, ?_, ?_, ?_⟩
  · rw [List.eq_nil_iff_forall_not_mem]; intro v hv
    have := (hz v).1; rw [List.count_eq_zero] at this; exact this hv
  · rw [List.eq_nil_iff_forall_not_mem]; intro v hv
    have := (hz v).2.1; rw [List.count_eq_zero] at this; exact this hv
  · intro j hj
    have h1 : ∀ v, v ∉ PJob.held j := fun v hv => by
      have := (hz v).2.2.1; rw [pcnt, List.count_eq_zero] at this
      exact this (List.mem_flatMap.2 ⟨j, hj, hv⟩)
    have h2 : ∀ v, v ∉ PJob.act j := fun v hv => by
      have := (hz v).2.2.2; rw [pcnt, List.count_eq_zero] at this
      exact this (List.mem_flatMap.2 ⟨j, hj, hv⟩)
    cases j <;> simp_all [PJob.held, PJob.act, PJob.harmless]

theorem job_inv {T : List Eid} {s s' : ParSt} {st j oj J} (h : Inv T s (j :: J))
    (hs : jobStep T.length s st j = some (s', oj)) : Inv T s' (oj.toList ++ J) := by
  cases j with
  | start e =>
    simp only [jobStep] at hs
    split at hs
    · simp only [Option.some.injEq, Prod.mk.injEq] at hs; obtain ⟨rfl, rfl⟩ := hs
      rename_i he
      obtain ⟨a1, a2, a3, a4, a5, a6, a7, a8, a9, a10, a11, a12, a13⟩ := h
      simp only [pcnt_cons, PJob.held, PJob.act, PJob.bodyOf, List.count_nil, List.count_cons, List.mem_cons] at *
      constructor <;> (try simp only [Option.toList, List.nil_append]) <;> grind
    · simp only [Option.some.injEq, Prod.mk.injEq] at hs; obtain ⟨rfl, rfl⟩ := hs
      rename_i he
      obtain ⟨a1, a2, a3, a4, a5, a6, a7, a8, a9, a10, a11, a12, a13⟩ := h
      simp only [pcnt_cons, PJob.held, PJob.act, PJob.bodyOf, List.count_nil, List.count_cons, List.mem_cons] at *
      constructor <;> (try simp only [Option.toList, List.cons_append, List.nil_append, pcnt_cons, PJob.held, PJob.act, PJob.bodyOf, List.count_nil, List.count_cons, List.count_append, List.mem_cons, List.mem_append]) <;> grind
  | body e =>
    simp only [jobStep] at hs
    split at hs
    all_goals
      simp only [Option.some.injEq, Prod.mk.injEq] at hs; obtain ⟨rfl, rfl⟩ := hs
      rename_i he
      obtain ⟨a1, a2, a3, a4, a5, a6, a7, a8, a9, a10, a11, a12, a13⟩ := h
      simp only [pcnt_cons, PJob.held, PJob.act, PJob.bodyOf, List.count_nil, List.count_cons, List.mem_cons] at *
      constructor <;> (try simp only [Option.toList, List.cons_append, List.nil_append, pcnt_cons, PJob.held, PJob.act, PJob.bodyOf, List.count_nil, List.count_cons, List.count_append, List.mem_cons, List.mem_append]) <;> grind
  | errSet e st' =>
    simp only [jobStep] at hs
    simp only [Option.some.injEq, Prod.mk.injEq] at hs; obtain ⟨rfl, rfl⟩ := hs
    have hst := h.job e st' (by simp)
    have hfull : T.length ≤ s.num → False := fun hn => by
      have := (h.full hn).2.2.2 (.errSet e st') (by simp)
      simp [PJob.harmless] at this
    have hadd : (s.status.isErr = true ∧ s.status.add st' = s.status) ∨
        (s.status.isErr = false ∧ s.status.add st' = st') := by
      cases hE : s.status.isErr with
      | true => left; exact ⟨rfl, CStatus.add_of_err _ hE⟩
      | false =>
        right; refine ⟨rfl, ?_⟩
        cases st'
        simp [CStatus.add, hE, hst.2]
    obtain ⟨a1, a2, a3, a4, a5, a6, a7, a8, a9, a10, a11, a12, a13⟩ := h
    simp only [pcnt_cons, PJob.held, PJob.act, PJob.bodyOf, List.count_nil, List.count_cons, List.mem_cons] at *
    constructor <;> (try simp only [Option.toList, List.cons_append, List.nil_append, pcnt_cons, PJob.held, PJob.act, PJob.bodyOf, List.count_nil, List.count_cons, List.count_append, List.mem_cons, List.mem_append]) <;> (try grind)
    exact fun _ _ => ⟨.inc e, Or.inl rfl, Or.inr (Or.inr ⟨e, rfl⟩)⟩
  | inc e =>
    simp only [jobStep] at hs
    simp only [Option.some.injEq, Prod.mk.injEq] at hs; obtain ⟨rfl, rfl⟩ := hs
    obtain ⟨a1, a2, a3, a4, a5, a6, a7, a8, a9, a10, a11, a12, a13⟩ := h
    simp only [pcnt_cons, PJob.held, PJob.act, PJob.bodyOf, List.count_nil, List.count_cons, List.mem_cons] at *
    split <;>
    constructor <;> (try simp only [Option.toList, List.cons_append, List.nil_append, pcnt_cons, PJob.held, PJob.act, PJob.bodyOf, List.count_nil, List.count_cons, List.count_append, List.mem_cons, List.mem_append, List.length_append, List.length_cons, List.length_nil]) <;> (try grind)
    exact fun _ _ => ⟨.chk, Or.inl rfl, Or.inl rfl⟩
  | chk =>
    simp only [jobStep] at hs
    simp only [Option.some.injEq, Prod.mk.injEq] at hs; obtain ⟨rfl, rfl⟩ := hs
    obtain ⟨a1, a2, a3, a4, a5, a6, a7, a8, a9, a10, a11, a12, a13⟩ := h
    simp only [pcnt_cons, PJob.held, PJob.act, PJob.bodyOf, List.count_nil, List.count_cons, List.mem_cons] at *
    split <;>
    constructor <;> (try simp only [Option.toList, List.cons_append, List.nil_append, pcnt_cons, PJob.held, PJob.act, PJob.bodyOf, List.count_nil, List.count_cons, List.count_append, List.mem_cons, List.mem_append, List.length_append, List.length_cons, List.length_nil]) <;> grind
  | notify =>
    simp only [jobStep] at hs
    split at hs
    · simp at hs
    simp only [Option.some.injEq, Prod.mk.injEq] at hs; obtain ⟨rfl, rfl⟩ := hs
    rename_i hne
    unfold notify
    obtain ⟨a1, a2, a3, a4, a5, a6, a7, a8, a9, a10, a11, a12, a13⟩ := h
    simp only [pcnt_cons, PJob.held, PJob.act, PJob.bodyOf, List.count_nil, List.count_cons, List.mem_cons] at *
    split <;>
    constructor <;> (try simp only [Option.toList, List.cons_append, List.nil_append, pcnt_cons, PJob.held, PJob.act, PJob.bodyOf, List.count_nil, List.count_cons, List.count_append, List.mem_cons, List.mem_append, List.length_append, List.length_cons, List.length_nil]) <;> grind [rest]

/-- Fresh start over harmless left-over jobs. -/
theorem Inv.fresh {T : List Eid} {s : ParSt} {J} (hj : ∀ j ∈ J, j.harmless = true) (hq : s.queue = [])
    (hm : s.main = .push T) (hst : s.status.isErr = false) (hn : s.num = 0) (hd : s.done = []) (ht : s.trace = [])
    (hf : s.failed = []) (hl : s.lastRet = none) : Inv T s J := by
  have h1 := pcnt_harmless (f := PJob.held) (by simp [PJob.held]) hj
  have h2 := pcnt_harmless (f := PJob.act) (by simp [PJob.act]) hj
  have h3 := pcnt_harmless (f := PJob.bodyOf) (by simp [PJob.bodyOf]) hj
  have h4 : ∀ e st, PJob.errSet e st ∉ J := fun e st h => by have := hj _ h; simp [PJob.harmless] at this
  constructor <;> simp_all [rest]

/-- A new run may begin: nothing failed before, or all earlier tasks are over. -/
def Clean (s : ParSt) : Prop := s.failed = [] ∨ (s.queue = [] ∧ ∀ j ∈ s.jobs, j.harmless = true)

/-- States reachable when a new run is only begun from a clean state. -/
inductive Reach (T : List Eid) (w ep : Nat) : ParSt → Prop
  | init : Reach T w ep init
  | step {s a s'} : Reach T w ep s → step T T.length w ep s a = some s' → (a = .begin → Clean s) → Reach T w ep s'

/-- Whole-system invariant. -/
structure SInv (T : List Eid) (s : ParSt) : Prop where
  first : s.nrun = 0 → s = init
  inv : s.nrun ≠ 0 → Inv T s s.jobs

theorem jobStep_frame {n : Nat} {s s' : ParSt} {st j oj} (hs : jobStep n s st j = some (s', oj)) :
    s'.nrun = s.nrun ∧ s'.queue = s.queue ∧
    (s'.main = s.main ∨ (s.main = .asleep ∧ s'.main = .waking ∧ j = .notify)) := by
  have h1 : s.notify.nrun = s.nrun ∧ s.notify.queue = s.queue ∧
    (s.notify.main = s.main ∨ (s.main = .asleep ∧ s.notify.main = .waking)) := by unfold notify; split <;> simp_all
  unfold jobStep at hs
  grind

theorem sinv_step {T : List Eid} {w ep : Nat} {s s' : ParSt} {a} (h : SInv T s)
    (hs : step T T.length w ep s a = some s') (hb : a = .begin → Clean s) : SInv T s' := by
  cases a with
  | begin =>
    simp only [step] at hs
    split at hs
    case isFalse => simp at hs
    rename_i hid
    simp only [Option.some.injEq] at hs
    subst hs
    have hpre : s.queue = [] ∧ (∀ j ∈ s.jobs, j.harmless = true) := by
      by_cases h0 : s.nrun = 0
      · have := h.first h0; subst this; simp [init]
      · have hi := h.inv h0
        obtain ⟨r, hr⟩ := Option.ne_none_iff_exists'.1 (hi.idle hid)
        rcases (hi.ret r hr).2.2 with h1 | h1
        · obtain ⟨e, he⟩ := hi.fail h1
          rcases hb rfl with h2 | h2
          · simp [h2] at he
          · exact h2
        · exact (hi.full h1).2.2
    refine ⟨by simp, fun _ => Inv.fresh hpre.2 hpre.1 rfl ?_ rfl rfl rfl rfl rfl⟩
    dsimp only
    split
    · rename_i hok; exact CStatus.isOK_not_err hok
    · rename_i hok
      have : ¬ s.status.code = 0 := fun h0 => hok ((CStatus.isOK_iff _).2 h0)
      simp [CStatus.reset, STATUS_OK, this]
      decide
  | main st =>
    have hnr : s.nrun ≠ 0 := by
      intro h0
      have := h.first h0
      subst this
      simp [step, init] at hs
    have hi := h.inv hnr
    refine ⟨?_, fun _ => ?_⟩
    · intro h0
      exfalso
      have : s'.nrun = s.nrun := by
        simp only [step] at hs
        grind [ParSt.ret]
      exact hnr (this ▸ h0)
    · obtain ⟨a1, a2, a3, a4, a5, a6, a7, a8, a9, a10, a11, a12, a13⟩ := hi
      simp only [step] at hs
      split at hs
      · simp at hs
      all_goals (try (split at hs))
      all_goals (first
        | (exfalso; simp at hs; done)
        | (simp only [Option.some.injEq] at hs; subst hs
           constructor <;> (try simp only [ParSt.ret]) <;> grind [rest]))
  | take i =>
    simp only [step] at hs
    split at hs
    · simp at hs
    rename_i e hq
    split at hs
    case isFalse => simp at hs
    simp only [Option.some.injEq] at hs
    subst hs
    have hnr : s.nrun ≠ 0 := by
      intro h0
      have := h.first h0
      subst this
      simp [init] at hq
    have hi := h.inv hnr
    obtain ⟨hlt, hqe⟩ := List.getElem?_eq_some_iff.1 hq
    have hp : s.queue.Perm (e :: s.queue.eraseIdx i) := by
      rw [← hqe]; exact (List.getElem_cons_eraseIdx_perm hlt).symm
    have hc : ∀ v, s.queue.count v = (s.queue.eraseIdx i).count v + if e = v then 1 else 0 := by
      intro v; rw [hp.count_eq, List.count_cons]; simp
    refine ⟨fun h0 => absurd h0 hnr, fun _ => ?_⟩
    refine Inv.perm (J := .start e :: s.jobs) ?_ (by
      rw [← List.singleton_append]; exact List.perm_append_comm)
    obtain ⟨a1, a2, a3, a4, a5, a6, a7, a8, a9, a10, a11, a12, a13⟩ := hi
    simp only [hc] at a1 a2
    constructor <;> (try simp only [pcnt_cons, PJob.held, PJob.act, PJob.bodyOf, List.count_nil, List.count_cons, List.mem_cons]) <;> grind
  | work i st =>
    simp only [step] at hs
    split at hs
    · simp at hs
    rename_i j hq
    have hnr : s.nrun ≠ 0 := by
      intro h0
      have := h.first h0
      subst this
      simp [init] at hq
    have hi := h.inv hnr
    obtain ⟨hlt, hqe⟩ := List.getElem?_eq_some_iff.1 hq
    have hp : s.jobs.Perm (j :: s.jobs.eraseIdx i) := by
      rw [← hqe]; exact (List.getElem_cons_eraseIdx_perm hlt).symm
    have hset : ∀ j', (s.jobs.set i j').Perm (j' :: s.jobs.eraseIdx i) :=
      fun j' => List.set_perm_cons_eraseIdx hlt j'
    have hi1 := hi.perm hp
    have key : ∀ (s1 : ParSt) (oj : Option PJob) (L : List PJob), jobStep T.length s st j = some (s1, oj) →
        L.Perm (oj.toList ++ s.jobs.eraseIdx i) → SInv T { s1 with jobs := L } := by
      intro s1 oj L hj hL
      have hf := jobStep_frame hj
      refine ⟨fun h0 => absurd (hf.1 ▸ h0) hnr, fun _ => ?_⟩
      exact ((job_inv hi1 hj).perm hL.symm).congr rfl rfl rfl rfl rfl rfl rfl rfl
    split at hs
    · simp at hs
    · rename_i s1 j' hj
      simp only [Option.some.injEq] at hs; subst hs
      exact key s1 _ _ hj (hset j')
    · rename_i s1 hj
      simp only [Option.some.injEq] at hs; subst hs
      exact key s1 _ _ hj (List.Perm.refl _)
  | spurious =>
    simp only [step] at hs
    split at hs
    case isFalse => simp at hs
    rename_i hm
    simp only [Option.some.injEq] at hs; subst hs
    have hnr : s.nrun ≠ 0 := by
      intro h0
      have := h.first h0
      subst this
      simp [init] at hm
    refine ⟨fun h0 => absurd h0 hnr, fun _ => ?_⟩
    obtain ⟨a1, a2, a3, a4, a5, a6, a7, a8, a9, a10, a11, a12, a13⟩ := h.inv hnr
    constructor <;> (try dsimp only) <;> grind [rest]

theorem sinv_reach {T : List Eid} {w ep : Nat} {s : ParSt} (h : Reach T w ep s) : SInv T s := by
  induction h with
  | init => exact ⟨fun _ => rfl, fun h => absurd rfl h⟩
  | step _ hs hb ih => exact sinv_step ih hs hb

theorem jobStep_enabled {n : Nat} {s : ParSt} {st j} (h1 : s.main ≠ .check) (h2 : s.main ≠ .preSleep) :
    jobStep n s st j ≠ none := by
  intro h
  unfold jobStep at h
  grind

/-- A run can always continue, whatever fails. -/
theorem not_stuck {T : List Eid} {w ep : Nat} (hw : 1 ≤ w) {s : ParSt} (h : SInv T s) (hm : s.main ≠ .idle) :
    ∃ a, a ≠ .begin ∧ a ≠ .spurious ∧ step T T.length w ep s a ≠ none := by
  by_contra hcon
  have hst : ∀ a, a ≠ .begin → a ≠ .spurious → step T T.length w ep s a = none := by
    intro a h1 h2; by_contra h3; exact hcon ⟨a, h1, h2, h3⟩
  have hn : s.nrun ≠ 0 := fun h0 => by have := h.first h0; subst this; simp [init] at hm
  have hmain : s.main = .asleep := by
    have h0 := hst (.main CStatus.ok) (by simp) (by simp)
    simp only [step] at h0
    grind
  have hj : s.jobs = [] := by
    cases hjs : s.jobs with
    | nil => rfl
    | cons j t =>
      exfalso
      have h0 := hst (.work 0 CStatus.ok) (by simp) (by simp)
      have := jobStep_enabled (n := T.length) (s := s) (st := CStatus.ok) (j := j) (by simp [hmain]) (by simp [hmain])
      simp only [step, hjs, List.getElem?_cons_zero] at h0
      grind
  have hq : s.queue = [] := by
    cases hqs : s.queue with
    | nil => rfl
    | cons e t =>
      exfalso
      have h0 := hst (.take 0) (by simp) (by simp)
      simp only [step, hqs, List.getElem?_cons_zero, hj] at h0
      simp at h0
      omega
  have hi := h.inv hn
  rw [hj] at hi
  cases he : s.status.isErr with
  | true => obtain ⟨j, hj, -⟩ := hi.wakeE (Or.inl hmain) he; simp at hj
  | false =>
    have h1 := hi.tokE he
    simp only [hmain, rest, hq, List.count_nil, pcnt_nil] at h1
    have hp : s.done.Perm T := by
      rw [List.perm_iff_count]; intro v; have := h1 v; omega
    have := hi.wakeN (Or.inl hmain) (by rw [hi.num, hp.length_eq]; exact Nat.le_refl _)
    simp at this

/-- Steps a job can still cause. -/
def jobW : PJob → Nat
  | .start _ => 9
  | .body _ => 8
  | .errSet _ _ => 7
  | .inc _ => 6
  | .chk => 5
  | .notify => 4

/-- Same for the caller. -/
def mainW (ep : Nat) : PMain → Nat
  | .idle => 0
  | .push r => 7 + ep + 11 * r.length
  | .poll n => 5 + n
  | .lock => 4
  | .check => 3
  | .preSleep => 2
  | .asleep => 1
  | .waking => 4

/-- The measure. -/
def work (ep : Nat) (s : ParSt) : Nat := 10 * s.queue.length + mainW ep s.main + (s.jobs.map jobW).sum

theorem step_work {T : List Eid} {w ep : Nat} {s s' : ParSt} {a} (hs : step T T.length w ep s a = some s')
    (hb : a ≠ .begin) : work ep s' + 1 ≤ work ep s + (if a = .spurious then 4 else 0) := by
  cases a with
  | begin => exact absurd rfl hb
  | main st =>
    simp only [step] at hs
    unfold work
    grind [ParSt.ret, mainW]
  | take i =>
    simp only [step] at hs
    split at hs
    · simp at hs
    rename_i e hq
    split at hs
    case isFalse => simp at hs
    simp only [Option.some.injEq] at hs
    subst hs
    obtain ⟨hlt, hqe⟩ := List.getElem?_eq_some_iff.1 hq
    have hlen := List.length_eraseIdx_of_lt hlt
    unfold work
    simp [jobW, hlen]
    omega
  | work i st =>
    simp only [step] at hs
    split at hs
    · simp at hs
    rename_i j hq
    obtain ⟨hlt, hqe⟩ := List.getElem?_eq_some_iff.1 hq
    have hp : s.jobs.Perm (j :: s.jobs.eraseIdx i) := by
      rw [← hqe]; exact (List.getElem_cons_eraseIdx_perm hlt).symm
    have hset : ∀ j', (s.jobs.set i j').Perm (j' :: s.jobs.eraseIdx i) :=
      fun j' => List.set_perm_cons_eraseIdx hlt j'
    have e1 := (hp.map jobW).sum_nat
    rw [List.map_cons, List.sum_cons] at e1
    have key : ∀ (s1 : ParSt) (oj : Option PJob) (L : List PJob), jobStep T.length s st j = some (s1, oj) →
        L.Perm (oj.toList ++ s.jobs.eraseIdx i) → work ep { s1 with jobs := L } + 1 ≤ work ep s := by
      intro s1 oj L hj hL
      obtain ⟨f1, f2, f3⟩ := jobStep_frame hj
      have e2 := (hL.map jobW).sum_nat
      rw [List.map_append, List.sum_append] at e2
      have hw : mainW ep s1.main + (oj.toList.map jobW).sum + 1 ≤ mainW ep s.main + jobW j := by
        rcases f3 with f3 | ⟨f3, f4, f5⟩
        · rw [f3]
          unfold jobStep at hj
          grind [jobW]
        · rw [f3, f4]
          subst f5
          simp only [jobStep] at hj
          grind [jobW, mainW]
      unfold work
      dsimp only
      rw [f2]
      omega
    simp only [reduceCtorEq, if_false, Nat.add_zero]
    split at hs
    · simp at hs
    · rename_i s1 j' hj
      simp only [Option.some.injEq] at hs; subst hs
      exact key s1 _ _ hj (hset j')
    · rename_i s1 hj
      simp only [Option.some.injEq] at hs; subst hs
      exact key s1 _ _ hj (List.Perm.refl _)
  | spurious =>
    simp only [step] at hs
    split at hs
    case isFalse => simp at hs
    rename_i hm
    simp only [Option.some.injEq] at hs; subst hs
    unfold work
    simp [hm, mainW]; omega

end ParSt
end CGraph
