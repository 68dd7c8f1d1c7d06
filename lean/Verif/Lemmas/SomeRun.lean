import Verif.Lemmas.Some
import Mathlib.Tactic.ByContra

/-! # Executions of the some-group -/
namespace CGraph
open CGraph.Spec
namespace SomeSt

/-- Any step but a new call keeps the invariant. -/
theorem Inv.step {w n k : Nat} {old cur : List KidJob} {H new : List SomeEv} {s s' : SomeSt}
    (I : Inv n k old cur H new s) {a : SomeAct} (ha : ∀ k, a ≠ .call k) (h : s.step w n a = some s') :
    ∃ cur' new', Inv n k old cur' H new' s' := by
  cases a with
  | call k => exact absurd rfl (ha k)
  | main => exact I.main h
  | spurious =>
    simp only [SomeSt.step] at h
    split at h
    · next hp =>
      simp at h; subst h
      have hk := I.kids
      have hfin := I.fin
      have hnorm := I.norm
      have hst := I.stat (by rw [hp]; simp)
      rw [hp] at hk hfin hnorm
      refine ⟨cur, new, ?_⟩
      exact { hist := I.hist, jobs := I.jobs, gone := I.gone, kids := hk, le := Nat.le_refl _, num := I.num,
              fin := fun _ => hfin rfl, norm := fun _ => hnorm rfl, nodup := I.nodup, mem := I.mem, sub := I.sub,
              ended := I.ended,
              stat := fun _ h => hst h, marking := by simp, backs := I.backs, run := by simp }
    · simp at h
  | take j =>
    simp only [SomeSt.step] at h
    split at h
    · next c hj =>
      split at h
      · simp at h
        rw [I.jobs] at hj
        obtain ⟨i, hi, hset⟩ := current I.gone hj (by simp)
        refine ⟨_, new ++ [], I.move hi (p := .taken) ?_ ?_ ?_ ?_ ?_ (by subst h; rfl) (by subst h; rfl) (by subst h; rfl) (by subst h; rfl)
          (ev := []) ?_ (.inl rfl)⟩
        · left; rfl
        · rfl
        · simp [past]
        · simp
        · subst h; simp [setJob, I.jobs, hset]
        · subst h; simp [setJob]
      · simp at h
    · simp at h
  | look j =>
    simp only [SomeSt.step] at h
    split at h
    · next c hj =>
      simp only [Option.some.injEq] at h
      rw [I.jobs] at hj
      obtain ⟨i, hi, hset⟩ := current I.gone hj (by simp)
      refine ⟨_, new ++ [], I.move hi (p := if s.marked c then .ended CStatus.ok else .waits)
        ?_ ?_ ?_ ?_ ?_ (by subst h; rfl) (by subst h; rfl) (by subst h; rfl) (by subst h; rfl)
          (ev := []) ?_ (.inl rfl)⟩
      · cases he : early s.pc with
        | false => right; rfl
        | true => left; rw [I.norm he c]; rfl
      · cases s.marked c <;> rfl
      · simp [past]
      · intro st; cases s.marked c <;> simp +contextual [eq_comm]
      · subst h; simp [setJob, I.jobs, hset]
      · subst h; simp [setJob]
    · simp at h
  | enter j =>
    simp only [SomeSt.step] at h
    split at h
    · next c hj =>
      split at h
      · simp at h
        rw [I.jobs] at hj
        obtain ⟨i, hi, hset⟩ := current I.gone hj (by simp)
        refine ⟨_, new ++ [.enter c], I.move hi (p := .body) ?_ ?_ ?_ ?_ ?_ (by subst h; rfl) (by subst h; rfl) (by subst h; rfl) (by subst h; rfl)
          (ev := [.enter c]) ?_
          (.inr rfl)⟩
        · left; rfl
        · rfl
        · simp [past]
        · simp
        · subst h; simp [setJob, I.jobs, hset]
        · subst h; simp [setJob]
      · simp at h
    · simp at h
  | leave j st =>
    simp only [SomeSt.step] at h
    split at h
    · next c hj =>
      simp at h; subst h
      rw [I.jobs] at hj
      obtain ⟨i, hi, hset⟩ := current I.gone hj (by simp)
      exact ⟨_, _, I.leave hi st (by simp [setJob, I.jobs, hset]) rfl rfl rfl rfl (by simp [setJob])⟩
    · simp at h
  | count j =>
    simp only [SomeSt.step] at h
    split at h
    · next c st hj =>
      split at h
      · simp at h
      · next hh =>
        simp only [Option.some.injEq] at h
        rw [I.jobs] at hj
        obtain ⟨i, hi, hset⟩ := current I.gone hj (by simp)
        refine ⟨_, new, I.count hi (s' := s') ?_ ?_ ?_ ?_ ?_ ?_ ?_⟩
        · subst h; unfold SomeSt.count; simp only; split <;> simp [setJob, I.jobs, hset]
        · subst h; unfold SomeSt.count; simp only; split <;> simp [setJob]
        · subst h; unfold SomeSt.count; simp only; split <;> simp [setJob]
        · intro l hl; simp [held, hl] at hh
        · subst h; unfold SomeSt.count; simp only; split
          · next hc => right; simp [setJob] at hc; exact ⟨of_decide_eq_true hc.2, rfl⟩
          · left; rfl
        · subst h; unfold SomeSt.count; simp only; split <;> simp [setJob]
        · subst h; unfold SomeSt.count; simp only; split <;> simp [setJob]
    · simp at h
  | reset c =>
    simp only [SomeSt.step] at h
    split at h
    · next st hp =>
      split at h
      · simp at h
      · simp at h; subst h
        have hk := I.kids
        rw [hp] at hk
        refine ⟨cur, new, ?_⟩
        exact { hist := I.hist, jobs := I.jobs, gone := I.gone, kids := by rw [hp]; exact hk
                le := I.le, num := I.num,
                fin := by rw [hp]; simp [early], norm := by rw [hp]; simp [early]
                nodup := I.nodup, mem := I.mem, sub := I.sub, ended := I.ended,
                stat := I.stat, marking := by rw [hp]; simp, backs := I.backs, run := I.run }
    · simp at h

/-- Any schedule without a new call keeps the invariant. -/
theorem Inv.exec {w n k : Nat} {old : List KidJob} {H : List SomeEv} :
    ∀ (acts : List SomeAct), (∀ a ∈ acts, ∀ k, a ≠ .call k) → ∀ (s : SomeSt) (cur : List KidJob)
      (new : List SomeEv), Inv n k old cur H new s →
      ∃ cur' new', Inv n k old cur' H new' (s.exec w n acts)
  | [], _, s, cur, new, I => ⟨cur, new, I⟩
  | a :: as, ha, s, cur, new, I => by
    rw [SomeSt.exec]
    cases hs : s.step w n a with
    | none => exact Inv.exec as (fun b hb => ha b (by simp [hb])) s cur new I
    | some s' =>
      obtain ⟨cur', new', I'⟩ := I.step (ha a (by simp)) hs
      exact Inv.exec as (fun b hb => ha b (by simp [hb])) s' cur' new' I'

/-- All tasks of earlier runs are over and all children are normal. -/
structure Clean (s : SomeSt) : Prop where
  gone : ∀ q ∈ s.jobs, q.pc = .gone
  norm : ∀ c, s.marked c = false

/-- The invariant holds when a run begins in a clean state. -/
theorem Clean.call {n k : Nat} {s : SomeSt} (hc : Clean s) (hk : k ≤ n) :
    Inv n k s.jobs [] (s.hist ++ [.call k]) [] (s.call n k) := by
  have hk' : ¬ n < k := by omega
  unfold SomeSt.call
  rw [if_neg hk']
  exact { hist := by simp, jobs := by simp, gone := hc.gone, kids := by simp [pushed], le := Nat.zero_le _
          num := by simp, fin := by simp [finished], norm := fun _ => hc.norm, nodup := by simp [finished]
          mem := by simp, sub := by simp [finished], ended := by simp, stat := by simp, marking := by simp
          backs := by intro a b st h; simp at h
          run := by simp }

/-- The thread never sleeps while the condition holds. -/
def Awake (s : SomeSt) : Prop := s.pc = .asleep → s.ready = false

theorem Awake.step {w n : Nat} {s s' : SomeSt} {a : SomeAct} (I : Awake s) (h : s.step w n a = some s') :
    Awake s' := by
  cases a with
  | call k =>
    simp only [SomeSt.step] at h
    have : s' = s.call n k := by
      split at h <;> simp at h <;> exact h.symm
    subst this
    unfold SomeSt.call Awake
    split <;> simp
  | main =>
    simp only [SomeSt.step, SomeSt.main] at h
    split at h
    · simp at h
    · simp at h; subst h; simp [Awake]
    · split at h <;> (simp at h; subst h; simp [Awake])
    · split at h
      · simp at h; subst h; simp [Awake]
      · next hr => simp at h; subst h; intro _; simpa [SomeSt.ready] using hr
    · simp at h
    · split at h <;> (simp at h; subst h; simp [Awake])
    · simp at h
  | spurious =>
    simp only [SomeSt.step] at h
    split at h
    · simp at h; subst h; simp [Awake]
    · simp at h
  | take j =>
    simp only [SomeSt.step] at h
    split at h
    · split at h
      · simp at h; subst h; exact I
      · simp at h
    · simp at h
  | look j =>
    simp only [SomeSt.step] at h
    split at h
    · simp only [Option.some.injEq] at h; subst h; exact I
    · simp at h
  | enter j =>
    simp only [SomeSt.step] at h
    split at h
    · split at h
      · simp at h; subst h; exact I
      · simp at h
    · simp at h
  | leave j st =>
    simp only [SomeSt.step] at h
    split at h
    · simp at h; subst h; exact I
    · simp at h
  | count j =>
    simp only [SomeSt.step] at h
    split at h
    · split at h
      · simp at h
      · simp only [Option.some.injEq] at h; subst h
        unfold SomeSt.count
        simp only
        split
        · simp [Awake]
        · next hc =>
          intro hp
          simp at hc
          cases hr : SomeSt.ready _ with
          | false => rfl
          | true => exact absurd hp (hc hr)
    · simp at h
  | reset c =>
    simp only [SomeSt.step] at h
    split at h
    · split at h
      · simp at h
      · simp at h; subst h; exact I
    · simp at h

theorem Awake.exec {w n : Nat} : ∀ (acts : List SomeAct) (s : SomeSt), Awake s → Awake (s.exec w n acts)
  | [], _, I => I
  | a :: as, s, I => by
    rw [SomeSt.exec]
    cases hs : s.step w n a with
    | none => exact Awake.exec as s I
    | some s' => exact Awake.exec as s' (I.step hs)

/-- Steps the group's thread needs to return once enough tasks are over. -/
def left (n : Nat) : SomePc → Nat
  | .idle => 0
  | .reset => 2 * n + 5
  | .push i => (n - i) + n + 4
  | .test => n + 2
  | .asleep => n + 3
  | .mark i => (n - i) + 1
  | .ret _ => 0

/-- The thread is inside `run`. -/
def inside : SomePc → Bool
  | .idle => false
  | .ret _ => false
  | _ => true

theorem main_left {n : Nat} {s : SomeSt} (hA : Awake s) (hi : inside s.pc = true)
    (hr : s.num ≤ 0 ∨ (s.status.isErr = true ∧ s.pc ≠ .reset)) :
    ∃ s', s.main n = some s' ∧ left n s'.pc + 1 ≤ left n s.pc ∧ Awake s' ∧
      (s'.num ≤ 0 ∨ (s'.status.isErr = true ∧ s'.pc ≠ .reset)) ∧ s'.pc ≠ .idle := by
  have hready : s.pc ≠ .reset → s.ready = true := by
    intro h
    rcases hr with h1 | h1
    · simp [ready, h1]
    · simp [ready, h1.1]
  have hstep : ∀ s', s.main n = some s' → Awake s' := fun s' h => hA.step (w := 0) (n := n) (a := .main) h
  unfold SomeSt.main at hstep ⊢
  cases hp : s.pc with
  | idle => rw [hp] at hi; simp [inside] at hi
  | ret st => rw [hp] at hi; simp [inside] at hi
  | asleep =>
    have := hA hp
    rw [hready (by rw [hp]; simp)] at this
    simp at this
  | reset =>
    rw [hp] at hstep
    refine ⟨_, rfl, ?_, hstep _ rfl, ?_, by simp⟩
    · simp [left]; omega
    · rcases hr with h | h
      · exact .inl h
      · exact absurd hp h.2
  | push i =>
    rw [hp] at hstep
    simp only at hstep ⊢
    have hr' : ∀ p : SomePc, p ≠ .reset → s.num ≤ 0 ∨ (s.status.isErr = true ∧ p ≠ .reset) := by
      intro p hp'
      rcases hr with h | h
      · exact .inl h
      · exact .inr ⟨h.1, hp'⟩
    split
    · next h =>
      rw [if_pos h] at hstep
      exact ⟨_, rfl, by simp [left]; omega, hstep _ rfl, hr' _ (by simp), by simp⟩
    · next h =>
      rw [if_neg h] at hstep
      exact ⟨_, rfl, by simp [left]; omega, hstep _ rfl, hr' _ (by simp), by simp⟩
  | test =>
    rw [hp] at hstep
    have h := hready (by rw [hp]; simp)
    simp only [h, if_true] at hstep ⊢
    refine ⟨_, rfl, by simp [left], hstep _ rfl, ?_, by simp⟩
    rcases hr with h | h
    · exact .inl h
    · exact .inr ⟨h.1, by simp⟩
  | mark i =>
    rw [hp] at hstep
    simp only at hstep ⊢
    have hr' : ∀ p : SomePc, p ≠ .reset → s.num ≤ 0 ∨ (s.status.isErr = true ∧ p ≠ .reset) := by
      intro p hp'
      rcases hr with h | h
      · exact .inl h
      · exact .inr ⟨h.1, hp'⟩
    split
    · next h =>
      rw [if_pos h] at hstep
      exact ⟨_, rfl, by simp [left]; omega, hstep _ rfl, hr' _ (by simp), by simp⟩
    · next h =>
      rw [if_neg h] at hstep
      exact ⟨_, rfl, by simp [left], hstep _ rfl, hr' _ (by simp), by simp⟩

/-- Once the condition holds the group's thread returns by itself. -/
theorem main_returns {w n : Nat} : ∀ (m : Nat) (s : SomeSt), left n s.pc ≤ m → Awake s → s.pc ≠ .idle →
    (s.num ≤ 0 ∨ (s.status.isErr = true ∧ s.pc ≠ .reset)) →
    ∃ st, (s.exec w n (List.replicate m .main)).pc = .ret st
  | 0, s, hl, _, hi, _ => by
    cases hp : s.pc <;> rw [hp] at hl hi <;> simp [left] at hl hi
    exact ⟨_, hp⟩
  | m + 1, s, hl, hA, hi, hr => by
    rw [List.replicate_succ, SomeSt.exec]
    cases hin : inside s.pc with
    | true =>
      obtain ⟨s', h1, h2, h3, h4, h5⟩ := main_left (n := n) hA hin hr
      have : s.step w n .main = some s' := h1
      rw [this]
      exact main_returns m s' (by omega) h3 h5 h4
    | false =>
      cases hp : s.pc <;> rw [hp] at hin hi <;> simp [inside] at hin hi
      have : s.step w n .main = none := by simp [SomeSt.step, SomeSt.main, hp]
      rw [this]
      exact main_returns m s (by rw [hp]; simp [left]) hA (by rw [hp]; simp) hr

/-! ## Termination -/

/-- Work left of a task. -/
def jobWork (q : KidJob) : Nat :=
  match q.pc with
  | .queued => 5
  | .taken => 4
  | .waits => 3
  | .body => 2
  | .ended _ => 1
  | .gone => 0

/-- Work left of the group's thread. -/
def mainWork (n : Nat) (s : SomeSt) : Nat :=
  match s.pc with
  | .idle => 0
  | .reset => 7 * n + 7
  | .push i => 6 * (n - i) + n + 6
  | .test => if s.ready then n + 3 else n + 5
  | .asleep => n + 4
  | .mark i => (n - i) + 1
  | .ret _ => 0

/-- Work left. -/
def workLeft (n : Nat) (s : SomeSt) : Nat := (s.jobs.map jobWork).sum + mainWork n s

theorem work_setJob {s : SomeSt} {j : Nat} {q : KidJob} (h : s.jobs[j]? = some q) (p : KidPc) :
    ((s.setJob j q p).jobs.map jobWork).sum + jobWork q = (s.jobs.map jobWork).sum + jobWork ⟨q.kid, p⟩ :=
  sum_set_some jobWork ⟨q.kid, p⟩ s.jobs j q h

theorem work_step {w n : Nat} {s s' : SomeSt} {a : SomeAct} (hA : Awake s) (h1 : ∀ k, a ≠ .call k)
    (h2 : ∀ c, a ≠ .reset c)
    (h : s.step w n a = some s') :
    workLeft n s' + 1 ≤ workLeft n s + (if a = .spurious then 2 else 0) := by
  cases a with
  | call k => exact absurd rfl (h1 k)
  | reset c => exact absurd rfl (h2 c)
  | main =>
    simp only [SomeSt.step, SomeSt.main] at h
    split at h
    · simp at h
    · next hp => simp at h; subst h; simp [workLeft, mainWork, hp]; omega
    · next i hp =>
      split at h
      · simp at h; subst h; simp [workLeft, mainWork, hp, jobWork]; omega
      · simp at h; subst h; simp [workLeft, mainWork, hp]; split <;> omega
    · next hp =>
      split at h
      · next hr => simp at h; subst h; simp [workLeft, mainWork, hp, hr]; omega
      · next hr => simp at h; subst h; simp [workLeft, mainWork, hp, hr]; omega
    · simp at h
    · next i hp =>
      split at h
      · simp at h; subst h; simp [workLeft, mainWork, hp]; omega
      · simp at h; subst h; simp [workLeft, mainWork, hp]
    · simp at h
  | spurious =>
    simp only [SomeSt.step] at h
    split at h
    · next hp =>
      simp at h; subst h
      simp only [workLeft, mainWork, hp, if_true]
      split <;> omega
    · simp at h
  | take j =>
    simp only [SomeSt.step] at h
    split at h
    · next c hj =>
      split at h
      · simp at h; subst h
        have := work_setJob hj .taken
        have hm : mainWork n (s.setJob j ⟨c, .queued⟩ .taken) = mainWork n s := rfl
        simp [workLeft, hm]; simp [jobWork] at this; omega
      · simp at h
    · simp at h
  | look j =>
    simp only [SomeSt.step] at h
    split at h
    · next c hj =>
      simp only [Option.some.injEq] at h; subst h
      have := work_setJob hj (if s.marked c then .ended CStatus.ok else .waits)
      have hm : mainWork n (s.setJob j ⟨c, .taken⟩ (if s.marked c then .ended CStatus.ok else .waits))
        = mainWork n s := rfl
      have hw : jobWork ⟨c, if s.marked c then .ended CStatus.ok else .waits⟩ ≤ 3 := by
        cases s.marked c <;> simp [jobWork]
      have hq : jobWork ⟨c, .taken⟩ = 4 := rfl
      simp only [workLeft, hm]
      simp only [hq] at this
      simp; omega
    · simp at h
  | enter j =>
    simp only [SomeSt.step] at h
    split at h
    · next c hj =>
      split at h
      · simp at h; subst h
        have := work_setJob hj .body
        have hm : mainWork n { s.setJob j ⟨c, .waits⟩ .body with hist := s.hist ++ [.enter c] } = mainWork n s := rfl
        simp only [workLeft, hm]; simp [jobWork] at this; simp; omega
      · simp at h
    · simp at h
  | leave j st =>
    simp only [SomeSt.step] at h
    split at h
    · next c hj =>
      simp at h; subst h
      have := work_setJob hj (.ended st)
      have hm : mainWork n { s.setJob j ⟨c, .body⟩ (.ended st) with hist := s.hist ++ [.leave c st] }
        = mainWork n s := rfl
      simp only [workLeft, hm]; simp [jobWork] at this; simp; omega
    · simp at h
  | count j =>
    simp only [SomeSt.step] at h
    split at h
    · next c st hj =>
      split at h
      · simp at h
      · next hh =>
        simp only [Option.some.injEq] at h; subst h
        have := work_setJob hj .gone
        simp [jobWork] at this
        have hmono : s.ready = true → ∀ s1 : SomeSt, s1.num = s.num - 1 → s1.status = s.status.add st →
            s1.ready = true := by
          intro h0 s1 e1 e2
          simp only [ready, Bool.or_eq_true, decide_eq_true_eq] at h0 ⊢
          rw [e1, e2, CStatus.add_isErr]
          rcases h0 with h0 | h0
          · left; omega
          · right; simp [h0]
        unfold SomeSt.count
        simp only
        split
        · next hc =>
          simp only [Bool.and_eq_true, decide_eq_true_eq] at hc
          have hp : s.pc = .asleep := hc.2
          have hr : SomeSt.ready { s.setJob j ⟨c, .ended st⟩ .gone with
              num := s.num - 1, status := s.status.add st, pc := .test } = true := hc.1
          simp only [workLeft, mainWork, hp, hr]
          simp; simp [setJob] at this ⊢; omega
        · simp only [workLeft, mainWork]
          have hpc : (s.setJob j ⟨c, .ended st⟩ .gone).pc = s.pc := rfl
          simp only [hpc]
          cases hp : s.pc with
          | test =>
            simp only
            cases hr : s.ready with
            | true =>
              rw [hmono hr _ rfl rfl]
              simp; simp [setJob] at this ⊢; omega
            | false =>
              have hif : ∀ b : Bool, (if b = true then n + 3 else n + 5) ≤ n + 5 := by
                intro b; cases b <;> simp
              refine Nat.le_trans (Nat.add_le_add_right (Nat.add_le_add_left (hif _) _) 1) ?_
              simp [setJob] at this ⊢
              omega
          | _ => simp [setJob] at this ⊢; omega
    · simp at h

/-- Some useful step is possible until the group returns, if there are more workers than children. -/
theorem Inv.progress {w n k : Nat} (hw : n < w) (hk : k ≤ n) {old cur : List KidJob} {H new : List SomeEv}
    {s : SomeSt} (I : Inv n k old cur H new s) (hA : Awake s) (hr : ∀ st, s.pc ≠ .ret st) :
    ∃ a, (∀ k, a ≠ .call k) ∧ (∀ c, a ≠ .reset c) ∧ a ≠ .spurious ∧ (s.step w n a).isSome = true := by
  by_cases hp : s.pc = .asleep
  · have hnr := hA hp
    simp only [ready, Bool.or_eq_false_iff, decide_eq_false_iff_not] at hnr
    have hnum := I.num
    have hlen : cur.length = n := by
      have := congrArg List.length I.kids
      simpa [hp, pushed] using this
    have hold : (old.map fun j => j.pc.uses).sum = 0 := by
      apply List.sum_eq_zero_iff_forall_eq_nat.2
      intro x hx
      obtain ⟨q, hq, e⟩ := List.mem_map.1 hx
      rw [← e, I.gone q hq]; rfl
    have hidx : ∀ q ∈ cur, ∃ j : Nat, s.jobs[j]? = some q := by
      intro q hq
      exact List.mem_iff_getElem?.1 (by rw [I.jobs]; simp [hq])
    by_cases hsome : ∃ q ∈ cur, q.pc ≠ .gone ∧ q.pc ≠ .queued ∧ q.pc ≠ .waits
    · obtain ⟨q, hq, h1, h2, h3⟩ := hsome
      obtain ⟨j, hj⟩ := hidx q hq
      obtain ⟨c, p⟩ := q
      cases p with
      | gone => exact absurd rfl h1
      | queued => exact absurd rfl h2
      | waits => exact absurd rfl h3
      | taken => exact ⟨.look j, by simp, by simp, by simp, by simp [SomeSt.step, hj]⟩
      | body => exact ⟨.leave j CStatus.ok, by simp, by simp, by simp, by simp [SomeSt.step, hj]⟩
      | ended st => exact ⟨.count j, by simp, by simp, by simp, by simp [SomeSt.step, hj, held, hp]⟩
    · have hall : ∀ q ∈ cur, q.pc = .gone ∨ q.pc = .queued ∨ q.pc = .waits := by
        intro q hq
        by_contra hne
        exact hsome ⟨q, hq, fun h => hne (.inl h), fun h => hne (.inr (.inl h)), fun h => hne (.inr (.inr h))⟩
      have hused : s.used ≤ n := by
        unfold SomeSt.used
        rw [I.jobs, List.map_append, List.sum_append, hold, ← hlen]
        have : ∀ l : List KidJob, (∀ q ∈ l, q.pc.uses ≤ 1) → (l.map fun j => j.pc.uses).sum ≤ l.length := by
          intro l
          induction l with
          | nil => simp
          | cons x l ih =>
            intro h
            have h1 := h x (by simp)
            have h2 := ih (fun q hq => h q (by simp [hq]))
            simp; omega
        have := this cur (by
          intro q hq
          rcases hall q hq with e | e | e <;> rw [e] <;> simp [KidPc.uses])
        omega
      have hex : ∃ q ∈ cur, q.pc ≠ .gone := by
        by_contra hne
        have : cur.countP over = cur.length := by
          apply List.countP_eq_length.2
          intro q hq
          by_contra h
          exact hne ⟨q, hq, by simpa [over] using h⟩
        omega
      obtain ⟨q, hq, hg⟩ := hex
      obtain ⟨j, hj⟩ := hidx q hq
      obtain ⟨c, p⟩ := q
      rcases hall _ hq with e | e | e
      · exact absurd e hg
      · simp only at e; subst e
        exact ⟨.take j, by simp, by simp, by simp, by simp [SomeSt.step, hj]; omega⟩
      · simp only at e; subst e
        exact ⟨.enter j, by simp, by simp, by simp, by simp [SomeSt.step, hj]; omega⟩
  · refine ⟨.main, by simp, by simp, by simp, ?_⟩
    simp only [SomeSt.step, SomeSt.main]
    cases h : s.pc with
    | idle => exact absurd h I.run
    | asleep => exact absurd h hp
    | ret st => exact absurd h (hr st)
    | reset => rfl
    | push i => simp only; split <;> rfl
    | test => simp only; split <;> rfl
    | mark i => simp only; split <;> rfl

end SomeSt
end CGraph
