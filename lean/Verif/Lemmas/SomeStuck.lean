import Verif.Lemmas.SomeRun

/-! # Some-groups that hang, and what is left after a return -/
namespace CGraph
open CGraph.Spec
namespace SomeSt

theorem exec_append {w n : Nat} : ∀ (a b : List SomeAct) (s : SomeSt),
    s.exec w n (a ++ b) = (s.exec w n a).exec w n b
  | [], _, _ => rfl
  | x :: a, b, s => by
    simp only [List.cons_append, SomeSt.exec]
    exact exec_append a b _

/-! ## All workers wait -/

/-- All workers wait for bodies that nobody executes. -/
structure Jam (w : Nat) (s : SomeSt) : Prop where
  jobs : ∀ q ∈ s.jobs, q.pc = .queued ∨ q.pc = .waits
  full : w ≤ s.used
  pc : s.pc = .asleep ∨ s.pc = .test
  notReady : s.ready = false

theorem Jam.step {w n : Nat} {s s' : SomeSt} (J : Jam w s) {a : SomeAct} (h : s.step w n a = some s') : Jam w s' := by
  have hget : ∀ (j : Nat) (q : KidJob), s.jobs[j]? = some q → q.pc = .queued ∨ q.pc = .waits :=
    fun j q hj => J.jobs q (List.mem_of_getElem? hj)
  cases a with
  | call k => rcases J.pc with hp | hp <;> simp [SomeSt.step, hp] at h
  | main =>
    simp only [SomeSt.step, SomeSt.main] at h
    rcases J.pc with hp | hp
    · simp [hp] at h
    · simp [hp, J.notReady] at h
      subst h
      exact ⟨J.jobs, J.full, .inl rfl, J.notReady⟩
  | spurious =>
    simp only [SomeSt.step] at h
    split at h
    · simp at h; subst h; exact ⟨J.jobs, J.full, .inr rfl, J.notReady⟩
    · simp at h
  | take j =>
    simp only [SomeSt.step] at h
    split at h
    · split at h
      · have := J.full; omega
      · simp at h
    · simp at h
  | look j =>
    simp only [SomeSt.step] at h
    split at h
    · next c hj => have := hget j _ hj; simp at this
    · simp at h
  | enter j =>
    simp only [SomeSt.step] at h
    split at h
    · split at h
      · have := J.full; omega
      · simp at h
    · simp at h
  | leave j st =>
    simp only [SomeSt.step] at h
    split at h
    · next c hj => have := hget j _ hj; simp at this
    · simp at h
  | count j =>
    simp only [SomeSt.step] at h
    split at h
    · next c st hj => have := hget j _ hj; simp at this
    · simp at h
  | reset c => rcases J.pc with hp | hp <;> simp [SomeSt.step, hp] at h

theorem Jam.exec {w n : Nat} : ∀ (acts : List SomeAct) (s : SomeSt), Jam w s → Jam w (s.exec w n acts)
  | [], _, J => J
  | a :: as, s, J => by
    rw [SomeSt.exec]
    cases hs : s.step w n a with
    | none => exact Jam.exec as s J
    | some s' => exact Jam.exec as s' (J.step hs)

/-- The tasks when the first `m` of `n` wait. -/
def jamJobs (m n : Nat) : List KidJob := (List.range n).map fun c => ⟨c, if c < m then .waits else .queued⟩

theorem jamJobs_used (m : Nat) : ∀ n, m ≤ n → ((jamJobs m n).map fun j => j.pc.uses).sum = m := by
  have key : ∀ n, ((jamJobs m n).map fun j => j.pc.uses).sum = min m n := by
    intro n
    induction n with
    | zero => simp [jamJobs]
    | succ n ih =>
      simp only [jamJobs, List.range_succ, List.map_append, List.sum_append] at ih ⊢
      rw [ih]
      simp only [List.map_cons, List.map_nil, List.sum_cons, List.sum_nil]
      split <;> simp [KidPc.uses] <;> omega
  intro n h
  rw [key]; omega

/-- All children are submitted. -/
theorem submit_all {w n k : Nat} (hist : List SomeEv) (mk : Nat → Bool) : ∀ (d i : Nat), i + d = n →
    ∃ acts, SomeSt.exec w n ⟨(k : Int), CStatus.ok, .push i, jamJobs 0 i, mk, hist⟩ acts =
      ⟨(k : Int), CStatus.ok, .test, jamJobs 0 n, mk, hist⟩
  | 0, i, h => by
    have : i = n := by omega
    subst this
    exact ⟨[.main], by simp [SomeSt.exec, SomeSt.step, SomeSt.main]⟩
  | d + 1, i, h => by
    obtain ⟨acts, ha⟩ := submit_all (w := w) (n := n) (k := k) hist mk d (i + 1) (by omega)
    refine ⟨.main :: acts, ?_⟩
    rw [SomeSt.exec, ← ha]
    have : i < n := by omega
    congr 1
    simp [SomeSt.step, SomeSt.main, this, jamJobs, List.range_succ]

/-- A worker takes the next task and waits for its body. -/
theorem jam_one {w n m : Nat} (num : Int) (pc : SomePc) (hist : List SomeEv) (h : m < w) (hn : w ≤ n) :
    SomeSt.exec w n ⟨num, CStatus.ok, pc, jamJobs m n, fun _ => false, hist⟩ [.take m, .look m] =
      ⟨num, CStatus.ok, pc, jamJobs (m + 1) n, fun _ => false, hist⟩ := by
  have hm : m < n := by omega
  have hu := jamJobs_used m n (by omega)
  have hg : (jamJobs m n)[m]? = some ⟨m, .queued⟩ := by simp [jamJobs, hm]
  have hl : (jamJobs m n).length = n := by simp [jamJobs]
  have hset : ((jamJobs m n).set m ⟨m, .taken⟩).set m ⟨m, .waits⟩ = jamJobs (m + 1) n := by
    rw [List.set_set]
    apply List.ext_getElem?
    intro l
    rw [List.getElem?_set]
    split
    · next e => subst e; simp [jamJobs, hm]
    · next e =>
      simp only [jamJobs, List.getElem?_map]
      rcases Nat.lt_or_ge l n with hln | hln
      · simp only [List.getElem?_range hln, Option.map_some, Option.some.injEq, KidJob.mk.injEq, true_and]
        have : l < m ↔ l < m + 1 := by omega
        simp [this]
      · simp [List.getElem?_eq_none, hln]
  simp only [SomeSt.exec, SomeSt.step, SomeSt.used, hg, hu, setJob]
  have h1 : m + 1 ≤ w := h
  simp only [h1, if_true, Option.getD_some]
  have hg2 : ((jamJobs m n).set m ⟨m, .taken⟩)[m]? = some ⟨m, .taken⟩ :=
    List.getElem?_set_self (by rw [hl]; exact hm)
  simp only [hg2, Option.getD_some, Bool.false_eq_true, if_false, hset]

/-- Every pool not larger than the number of children can be jammed. -/
theorem jam_reach {w n : Nat} (num : Int) (pc : SomePc) (hist : List SomeEv) (hn : w ≤ n) : ∀ m ≤ w,
    ∃ acts, SomeSt.exec w n ⟨num, CStatus.ok, pc, jamJobs 0 n, fun _ => false, hist⟩ acts =
      ⟨num, CStatus.ok, pc, jamJobs m n, fun _ => false, hist⟩
  | 0, _ => ⟨[], rfl⟩
  | m + 1, h => by
    obtain ⟨acts, ha⟩ := jam_reach num pc hist hn m (by omega)
    refine ⟨acts ++ [.take m, .look m], ?_⟩
    rw [exec_append, ha, jam_one num pc hist (by omega) hn]

/-! ## The marks -/

/-- Which children are marked. -/
structure Marks (n : Nat) (s : SomeSt) : Prop where
  marking : ∀ i, s.pc = .mark i → ∀ c < i, s.marked c = true
  ret : ∀ st, s.pc = .ret st → ∀ c < n, s.marked c = true

theorem Marks.step {w n : Nat} {s s' : SomeSt} {a : SomeAct} (I : Marks n s) (h1 : ∀ k, a ≠ .call k)
    (h2 : ∀ c, a ≠ .reset c) (h : s.step w n a = some s') : Marks n s' := by
  cases a with
  | call k => exact absurd rfl (h1 k)
  | reset c => exact absurd rfl (h2 c)
  | main =>
    simp only [SomeSt.step, SomeSt.main] at h
    split at h
    · simp at h
    · simp at h; subst h; exact ⟨by simp, by simp⟩
    · split at h <;> (simp at h; subst h; exact ⟨by simp, by simp⟩)
    · split at h <;> (simp at h; subst h; exact ⟨by intro i hi c hc; simp at hi; try omega, by simp⟩)
    · simp at h
    · next i hp =>
      split at h
      · simp at h; subst h
        refine ⟨?_, by simp⟩
        intro l hl c hc
        simp at hl; subst hl
        by_cases hci : c = i
        · simp [hci]
        · simp [hci, I.marking i hp c (by omega)]
      · next hi =>
        simp at h; subst h
        refine ⟨by simp, ?_⟩
        intro st _ c hc
        exact I.marking i hp c (by omega)
    · simp at h
  | spurious =>
    simp only [SomeSt.step] at h
    split at h
    · simp at h; subst h; exact ⟨by simp, by simp⟩
    · simp at h
  | take j =>
    simp only [SomeSt.step] at h
    split at h
    · split at h
      · simp at h; subst h; exact ⟨I.marking, I.ret⟩
      · simp at h
    · simp at h
  | look j =>
    simp only [SomeSt.step] at h
    split at h
    · simp only [Option.some.injEq] at h; subst h; exact ⟨I.marking, I.ret⟩
    · simp at h
  | enter j =>
    simp only [SomeSt.step] at h
    split at h
    · split at h
      · simp at h; subst h; exact ⟨I.marking, I.ret⟩
      · simp at h
    · simp at h
  | leave j st =>
    simp only [SomeSt.step] at h
    split at h
    · simp at h; subst h; exact ⟨I.marking, I.ret⟩
    · simp at h
  | count j =>
    simp only [SomeSt.step] at h
    split at h
    · split at h
      · simp at h
      · simp only [Option.some.injEq] at h; subst h
        unfold SomeSt.count
        simp only
        split
        · exact ⟨by simp, by simp⟩
        · exact ⟨I.marking, I.ret⟩
    · simp at h

theorem Marks.exec {w n : Nat} : ∀ (acts : List SomeAct), (∀ a ∈ acts, (∀ k, a ≠ .call k) ∧ ∀ c, a ≠ .reset c) →
    ∀ s : SomeSt, Marks n s → Marks n (s.exec w n acts)
  | [], _, _, I => I
  | a :: as, ha, s, I => by
    rw [SomeSt.exec]
    have h1 := ha a (by simp)
    have h2 : ∀ b ∈ as, (∀ k, b ≠ .call k) ∧ ∀ c, b ≠ .reset c := fun b hb => ha b (by simp [hb])
    cases hs : s.step w n a with
    | none => exact Marks.exec as h2 s I
    | some s' => exact Marks.exec as h2 s' (I.step h1.1 h1.2 hs)

/-! ## A run with all children marked -/

/-- Nothing is executed and nothing goes wrong. -/
structure Idle (n : Nat) (H new : List SomeEv) (s : SomeSt) : Prop where
  hist : s.hist = H ++ new
  marked : ∀ c < n, s.marked c = true
  jobs : ∀ q ∈ s.jobs, q.pc = .gone ∨
    (q.kid < n ∧ (q.pc = .queued ∨ q.pc = .taken ∨ q.pc = .ended CStatus.ok))
  status : s.pc ≠ .reset → s.status.isErr = false
  none : entered new = []
  backs : ∀ st, .back st ∈ new → st.isErr = false

theorem Idle.set {n : Nat} {s : SomeSt} {H new : List SomeEv} (I : Idle n H new s) {j : Nat} {q : KidJob}
    {p : KidPc} (hq : s.jobs[j]? = some q)
    (hp : p = .gone ∨ (q.kid < n ∧ (p = .taken ∨ p = .ended CStatus.ok))) :
    ∀ r ∈ s.jobs.set j ⟨q.kid, p⟩, r.pc = .gone ∨
    (r.kid < n ∧ (r.pc = .queued ∨ r.pc = .taken ∨ r.pc = .ended CStatus.ok)) := by
  intro r hr
  rcases List.mem_or_eq_of_mem_set hr with h | h
  · exact I.jobs r h
  · subst h
    rcases hp with h | ⟨h1, h2 | h2⟩
    · exact .inl h
    · exact .inr ⟨h1, .inr (.inl h2)⟩
    · exact .inr ⟨h1, .inr (.inr h2)⟩

theorem Idle.step {w n : Nat} {s s' : SomeSt} {H new : List SomeEv} {a : SomeAct} (I : Idle n H new s)
    (h1 : ∀ k, a ≠ .call k) (h2 : ∀ c, a ≠ .reset c) (h : s.step w n a = some s') :
    ∃ new', Idle n H new' s' := by
  have hget : ∀ (j : Nat) (q : KidJob), s.jobs[j]? = some q → q.pc = .gone ∨
      (q.kid < n ∧ (q.pc = .queued ∨ q.pc = .taken ∨ q.pc = .ended CStatus.ok)) :=
    fun j q hj => I.jobs q (List.mem_of_getElem? hj)
  cases a with
  | call k => exact absurd rfl (h1 k)
  | reset c => exact absurd rfl (h2 c)
  | main =>
    simp only [SomeSt.step, SomeSt.main] at h
    split at h
    · simp at h
    · simp at h; subst h
      exact ⟨new, I.hist, I.marked, I.jobs, by simp, I.none, I.backs⟩
    · next i hp =>
      have hst := I.status (by rw [hp]; simp)
      split at h
      · next hi =>
        simp at h; subst h
        refine ⟨new, I.hist, I.marked, ?_, fun _ => hst, I.none, I.backs⟩
        intro q hq
        simp at hq
        rcases hq with hq | hq
        · exact I.jobs q hq
        · subst hq; exact .inr ⟨hi, .inl rfl⟩
      · simp at h; subst h
        exact ⟨new, I.hist, I.marked, I.jobs, fun _ => hst, I.none, I.backs⟩
    · next hp =>
      have hst := I.status (by rw [hp]; simp)
      split at h <;> (simp at h; subst h; exact ⟨new, I.hist, I.marked, I.jobs, fun _ => hst, I.none, I.backs⟩)
    · simp at h
    · next i hp =>
      have hst := I.status (by rw [hp]; simp)
      split at h
      · simp at h; subst h
        refine ⟨new, I.hist, ?_, I.jobs, fun _ => hst, I.none, I.backs⟩
        intro c hc
        simp [I.marked c hc]
      · simp at h; subst h
        refine ⟨new ++ [.back s.status], by simp [I.hist], I.marked, I.jobs, fun _ => hst, ?_, ?_⟩
        · simp [entered_append, I.none, entered]
        · intro st hm
          simp at hm
          rcases hm with hm | hm
          · exact I.backs st hm
          · subst hm; exact hst
    · simp at h
  | spurious =>
    simp only [SomeSt.step] at h
    split at h
    · next hp =>
      simp at h; subst h
      exact ⟨new, I.hist, I.marked, I.jobs, fun _ => I.status (by rw [hp]; simp), I.none, I.backs⟩
    · simp at h
  | take j =>
    simp only [SomeSt.step] at h
    split at h
    · next c hj =>
      split at h
      · simp at h; subst h
        have := hget j _ hj
        simp at this
        exact ⟨new, I.hist, I.marked, I.set hj (.inr ⟨this, .inl rfl⟩), I.status, I.none, I.backs⟩
      · simp at h
    · simp at h
  | look j =>
    simp only [SomeSt.step] at h
    split at h
    · next c hj =>
      simp only [Option.some.injEq] at h; subst h
      have := hget j _ hj
      simp at this
      rw [I.marked c this]
      exact ⟨new, I.hist, I.marked, I.set hj (.inr ⟨this, .inr rfl⟩), I.status, I.none, I.backs⟩
    · simp at h
  | enter j =>
    simp only [SomeSt.step] at h
    split at h
    · next c hj => have := hget j _ hj; simp at this
    · simp at h
  | leave j st =>
    simp only [SomeSt.step] at h
    split at h
    · next c hj => have := hget j _ hj; simp at this
    · simp at h
  | count j =>
    simp only [SomeSt.step] at h
    split at h
    · next c st hj =>
      have hok := hget j _ hj
      simp at hok
      obtain ⟨hc, hok⟩ := hok
      subst hok
      split at h
      · simp at h
      · simp only [Option.some.injEq] at h; subst h
        have hadd : ∀ x : CStatus, x.add CStatus.ok = x := fun x => CStatus.add_not_err_right (by simp)
        unfold SomeSt.count
        simp only [hadd]
        split
        · next hx =>
          simp only [Bool.and_eq_true, decide_eq_true_eq] at hx
          have hp : s.pc = .asleep := hx.2
          exact ⟨new, I.hist, I.marked, I.set hj (.inl rfl), fun _ => I.status (by rw [hp]; simp), I.none, I.backs⟩
        · exact ⟨new, I.hist, I.marked, I.set hj (.inl rfl), I.status, I.none, I.backs⟩
    · simp at h

theorem Idle.exec {w n : Nat} {H : List SomeEv} : ∀ (acts : List SomeAct),
    (∀ a ∈ acts, (∀ k, a ≠ .call k) ∧ ∀ c, a ≠ .reset c) →
    ∀ (s : SomeSt) (new : List SomeEv), Idle n H new s → ∃ new', Idle n H new' (s.exec w n acts)
  | [], _, _, new, I => ⟨new, I⟩
  | a :: as, ha, s, new, I => by
    rw [SomeSt.exec]
    have h1 := ha a (by simp)
    have h2 : ∀ b ∈ as, (∀ k, b ≠ .call k) ∧ ∀ c, b ≠ .reset c := fun b hb => ha b (by simp [hb])
    cases hs : s.step w n a with
    | none => exact Idle.exec as h2 s new I
    | some s' =>
      obtain ⟨new', I'⟩ := I.step h1.1 h1.2 hs
      exact Idle.exec as h2 s' new' I'

end SomeSt
end CGraph
