import Verif.Lemmas.DynPar

/-! Runs of the fully parallel path with work left over from earlier runs: every run returns. -/
namespace CGraph.ParSt

set_option maxHeartbeats 1000000

/-- States reached by any sequence of steps; `run` may be called whenever the caller is free. -/
inductive Any (T : List Eid) (w ep : Nat) : ParSt → Prop where
  | init : Any T w ep init
  | step {s s' a} : Any T w ep s → step T T.length w ep s a = some s' → Any T w ep s'

/-- Will still be counted, unless dropped. -/
def liveN : PJob → Nat
  | .start _ | .body _ | .errSet _ _ | .inc _ => 1
  | _ => 0

/-- Enough is on its way to wake the caller; the jobs are taken as a bag `J`. -/
structure LInv (T : List Eid) (s : ParSt) (J : List PJob) : Prop where
  enough : s.main ≠ .idle → s.status.isErr = false →
    T.length ≤ s.num + (rest s.main).length + s.queue.length + (J.map liveN).sum
  wakeN : (s.main = .asleep ∨ s.main = .preSleep) → T.length ≤ s.num → PJob.notify ∈ J
  wakeE : (s.main = .asleep ∨ s.main = .preSleep) → s.status.isErr = true →
    ∃ j ∈ J, j = .chk ∨ j = .notify ∨ ∃ e, j = .inc e
  errs : ∀ e st, PJob.errSet e st ∈ J → st.isErr = true

theorem LInv.perm {T s J J'} (h : LInv T s J) (p : J.Perm J') : LInv T s J' := by
  refine ⟨fun h1 h2 => ?_, fun h1 h2 => p.mem_iff.1 (h.wakeN h1 h2), fun h1 h2 => ?_, fun e st h1 => h.errs e st (p.mem_iff.2 h1)⟩
  · rw [← (p.map liveN).sum_nat]; exact h.enough h1 h2
  · obtain ⟨j, hj, hj2⟩ := h.wakeE h1 h2; exact ⟨j, p.mem_iff.1 hj, hj2⟩

theorem ljob {T : List Eid} {s s' : ParSt} {st j oj J} (h : LInv T s (j :: J))
    (hs : jobStep T.length s st j = some (s', oj)) : LInv T s' (oj.toList ++ J) := by
  obtain ⟨a1, a2, a3, a4⟩ := h
  have h1 : s.notify.num = s.num ∧ s.notify.queue = s.queue ∧ s.notify.status = s.status ∧
    (s.notify.main = s.main ∧ s.main ≠ .asleep ∨ (s.main = .asleep ∧ s.notify.main = .waking)) := by
    unfold notify; split <;> simp_all
  have hadd := CStatus.add_isErr
  cases j <;> simp only [jobStep] at hs <;> (try split at hs) <;>
    (try simp only [Option.some.injEq, Prod.mk.injEq, reduceCtorEq] at hs) <;>
    (try (obtain ⟨hs1, hs2⟩ := hs; subst hs1; subst hs2)) <;>
    constructor <;> simp only [List.map_cons, List.sum_cons, liveN, Option.toList, List.cons_append, List.nil_append] at * <;>
    grind [liveN, rest]

theorem linv_step {T : List Eid} {w ep : Nat} {s s' : ParSt} {a} (h : LInv T s s.jobs)
    (hs : step T T.length w ep s a = some s') : LInv T s' s'.jobs := by
  cases a with
  | begin =>
    simp only [step] at hs
    split at hs
    case isFalse => simp at hs
    simp only [Option.some.injEq] at hs
    subst hs
    refine ⟨?_, by simp, by simp, h.errs⟩
    intro _ _; simp [rest]; omega
  | main st =>
    obtain ⟨a1, a2, a3, a4⟩ := h
    simp only [step] at hs
    split at hs
    · simp at hs
    all_goals (try (split at hs))
    all_goals (first
      | (exfalso; simp at hs; done)
      | (simp only [Option.some.injEq] at hs; subst hs
         constructor <;> (try simp only [ParSt.ret]) <;> grind [rest]))
  | take i =>
    simp only [step] at hs
    split at hs
    · simp at hs
    rename_i e hq
    split at hs
    case isFalse => simp at hs
    simp only [Option.some.injEq] at hs
    subst hs
    obtain ⟨hlt, hqe⟩ := List.getElem?_eq_some_iff.1 hq
    have hlen := List.length_eraseIdx_of_lt hlt
    obtain ⟨a1, a2, a3, a4⟩ := h
    constructor
    · intro h1 h2
      have := a1 h1 h2
      simp only [hlen, List.map_append, List.sum_append, List.map_cons, List.map_nil, List.sum_cons, List.sum_nil, liveN]
      omega
    · intro h1 h2; exact List.mem_append_left _ (a2 h1 h2)
    · intro h1 h2; obtain ⟨j, hj, hj2⟩ := a3 h1 h2; exact ⟨j, List.mem_append_left _ hj, hj2⟩
    · intro e' st h1; simp at h1; exact a4 e' st h1
  | work i st =>
    simp only [step] at hs
    split at hs
    · simp at hs
    rename_i j hq
    obtain ⟨hlt, hqe⟩ := List.getElem?_eq_some_iff.1 hq
    have hp : s.jobs.Perm (j :: s.jobs.eraseIdx i) := by
      rw [← hqe]; exact (List.getElem_cons_eraseIdx_perm hlt).symm
    have hi1 := h.perm hp
    split at hs
    · simp at hs
    · rename_i s1 j' hj
      simp only [Option.some.injEq] at hs; subst hs
      have := (ljob hi1 hj).perm (List.set_perm_cons_eraseIdx hlt j').symm
      exact ⟨this.1, this.2, this.3, this.4⟩
    · rename_i s1 hj
      simp only [Option.some.injEq] at hs; subst hs
      have := ljob hi1 hj
      exact ⟨this.1, this.2, this.3, this.4⟩
  | spurious =>
    simp only [step] at hs
    split at hs
    case isFalse => simp at hs
    rename_i hm
    simp only [Option.some.injEq] at hs; subst hs
    obtain ⟨a1, a2, a3, a4⟩ := h
    constructor <;> (try dsimp only) <;> grind [rest]

theorem linv_any {T : List Eid} {w ep : Nat} {s : ParSt} (h : Any T w ep s) : LInv T s s.jobs := by
  induction h with
  | init => exact ⟨by simp [init], by simp [init], by simp [init], by simp [init]⟩
  | step _ hs ih => exact linv_step ih hs

/-- A run can always continue, whatever is left over. -/
theorem not_stuck_any {T : List Eid} {w ep : Nat} (hw : 1 ≤ w) {s : ParSt} (h : LInv T s s.jobs) (hm : s.main ≠ .idle) :
    ∃ a, a ≠ .begin ∧ a ≠ .spurious ∧ step T T.length w ep s a ≠ none := by
  by_contra hcon
  have hst : ∀ a, a ≠ .begin → a ≠ .spurious → step T T.length w ep s a = none := by
    intro a h1 h2; by_contra h3; exact hcon ⟨a, h1, h2, h3⟩
  have hmain : s.main = .asleep := by
    have h0 := hst (.main CStatus.ok) (by simp) (by simp)
    simp only [step] at h0
    grind
  have hj : s.jobs = [] := by
    cases hjs : s.jobs with
    | nil => rfl
    | cons j t =>
      exfalso
      have h0 := hst (.work 0 CStatus.ok) (by simp) (by simp)
      have := jobStep_enabled (n := T.length) (s := s) (st := CStatus.ok) (j := j) (by simp [hmain]) (by simp [hmain])
      simp only [step, hjs, List.getElem?_cons_zero] at h0
      grind
  have hq : s.queue = [] := by
    cases hqs : s.queue with
    | nil => rfl
    | cons e t =>
      exfalso
      have h0 := hst (.take 0) (by simp) (by simp)
      simp only [step, hqs, List.getElem?_cons_zero, hj] at h0
      simp at h0
      omega
  rw [hj] at h
  cases he : s.status.isErr with
  | true => obtain ⟨j, hj, -⟩ := h.wakeE (Or.inl hmain) he; simp at hj
  | false =>
    have h1 := h.enough hm he
    simp only [hmain, rest, hq, List.length_nil, List.map_nil, List.sum_nil, Nat.add_zero] at h1
    have := h.wakeN (Or.inl hmain) h1
    simp at this

end CGraph.ParSt
