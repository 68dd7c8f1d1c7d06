import Verif.Lemmas.SomeStuck

/-! # Properties of some-groups: C49, C70 -/
namespace CGraph
open CGraph.Spec
namespace SomeSt

/-- Three children, two of them awaited. -/
def exSome : SomeSt := SomeSt.init.call 3 2

/-- The group's thread submits the three children and falls asleep. -/
def exSubmit : List SomeAct := List.replicate 6 .main

/-- Task `j` is executed from beginning to end. -/
def exDo (j : Nat) (st : CStatus) : List SomeAct := [.take j, .look j, .enter j, .leave j st, .count j]

/-! ## C49 -/

/-- **C49** (never too early).  The run began with all tasks of earlier runs over and all children in their normal
state.  However the steps of the workers and of the group's thread are interleaved: whenever `run` returns without an
error, the bodies of at least `k` different children have ended in this run; when it returns an error, it is the error
a child returned in this run.
Missing: runs that begin while tasks of an earlier run are left, see `C49_stale_task_violated`. -/
theorem C49_not_early_partial (w n k : Nat) (s : SomeSt) (hs : Clean s) (hk : k ≤ n) (acts : List SomeAct)
    (ha : ∀ a ∈ acts, ∀ k, a ≠ .call k) :
    ∃ new, ((s.call n k).exec w n acts).hist = s.hist ++ [.call k] ++ new ∧
      ∀ a b st, new = a ++ .back st :: b →
        (finished a).Nodup ∧ (if st.isErr then ∃ c, .leave c st ∈ a else k ≤ (finished a).length) := by
  obtain ⟨cur, new, I⟩ := Inv.exec (w := w) acts ha _ _ _ (hs.call hk)
  refine ⟨new, I.hist, fun a b st h => ⟨?_, I.backs a b st h⟩⟩
  have h1 := I.nodup
  rw [h, finished_append] at h1
  exact (List.nodup_append.1 h1).1

example : Clean SomeSt.init := ⟨by simp [init], by simp [init]⟩
example : ((exSome.exec 7 3 (exSubmit ++ exDo 2 .ok ++ exDo 0 .ok ++ List.replicate 5 .main)).hist =
    [.call 2, .enter 2, .leave 2 .ok, .enter 0, .leave 0 .ok, .back .ok]) := by decide +kernel
example : ((exSome.exec 7 3 (exSubmit ++ exDo 2 (.err "bad") ++ List.replicate 5 .main)).hist =
    [.call 2, .enter 2, .leave 2 (.err "bad"), .back (.err "bad")]) := by decide +kernel

/-- **C49** (returns without the rest).  Once `k` tasks of the run are over, or one of them with an error, the group's
thread returns without any further step of a worker, whatever the other children are doing. -/
theorem C49_returns_without_rest (w n k : Nat) (s : SomeSt) (hs : Clean s) (hk : k ≤ n) (acts : List SomeAct)
    (ha : ∀ a ∈ acts, ∀ k, a ≠ .call k)
    (hd : k ≤ ((((s.call n k).exec w n acts).jobs.drop s.jobs.length).filter fun q => q.pc = .gone).length ∨
      (((s.call n k).exec w n acts).status.isErr = true ∧ ((s.call n k).exec w n acts).pc ≠ .reset)) :
    ∃ st, (((s.call n k).exec w n acts).exec w n (List.replicate (2 * n + 5) .main)).pc = .ret st := by
  obtain ⟨cur, new, I⟩ := Inv.exec (w := w) acts ha _ _ _ (hs.call hk)
  have hA : Awake ((s.call n k).exec w n acts) := by
    apply Awake.exec
    have hk' : ¬ n < k := by omega
    simp [SomeSt.call, hk', Awake]
  generalize (s.call n k).exec w n acts = S at *
  apply main_returns _ _ _ hA I.run
  · rcases hd with h | h
    · left
      rw [I.jobs, List.drop_left, ← List.countP_eq_length_filter] at h
      rw [I.num]
      have : cur.countP over = cur.countP (fun q => decide (q.pc = .gone)) := by
        congr 1
      omega
    · exact .inr h
  · cases hp : S.pc <;> simp only [left] <;> omega

/-- Here child 1 never ends its body. -/
example : (exSome.exec 7 3 (exSubmit ++ [.take 1, .look 1, .enter 1] ++ exDo 2 .ok ++ exDo 0 .ok ++
    List.replicate 11 .main)).pc = .ret .ok ∧
    (exSome.exec 7 3 (exSubmit ++ [.take 1, .look 1, .enter 1] ++ exDo 2 .ok ++ exDo 0 .ok ++
    List.replicate 11 .main)).jobs[1]? = some ⟨1, .body⟩ := by decide +kernel

/-- A task left over from the first run counts in the second: run 1 ends with child 2 still in the pool's queue; in run
2 that task and the new one for child 2 both execute child 2. -/
def exStale : List SomeAct :=
  exSubmit ++ exDo 0 .ok ++ exDo 1 .ok ++ List.replicate 5 .main ++ [.reset 0, .reset 1, .reset 2] ++
  [.call 2] ++ exSubmit ++ exDo 2 .ok ++ exDo 5 .ok ++ List.replicate 5 .main

/-- **C49 is false** when a task of an earlier run is left: the second run returns success although a single child has
been executed (twice) where two were asked for. -/
theorem C49_stale_task_violated :
    (exSome.exec 7 3 exStale).hist =
      [.call 2, .enter 0, .leave 0 .ok, .enter 1, .leave 1 .ok, .back .ok,
       .call 2, .enter 2, .leave 2 .ok, .enter 2, .leave 2 .ok, .back .ok] := by decide +kernel

/-- **C49 is false** for the children that finished: when `run` has returned, every child is in the state `TIMEOUT`,
also those that finished in time, until the pipeline's run is over. -/
theorem C49_finished_children_timed_out_violated (w n k : Nat) (s : SomeSt) (hk : k ≤ n) (acts : List SomeAct)
    (ha : ∀ a ∈ acts, (∀ k, a ≠ .call k) ∧ ∀ c, a ≠ .reset c) (st : CStatus)
    (hr : ((s.call n k).exec w n acts).pc = .ret st) (c : Nat) (hc : c < n) :
    ((s.call n k).exec w n acts).marked c = true := by
  have hk' : ¬ n < k := by omega
  have h0 : Marks n (s.call n k) := by
    simp only [SomeSt.call, hk', if_false]
    exact ⟨by simp, by simp⟩
  exact (Marks.exec acts ha _ h0).ret st hr c hc

example : ((exSome.exec 7 3 (exSubmit ++ exDo 0 .ok ++ exDo 1 .ok ++ List.replicate 5 .main)).pc = .ret .ok) := by
  decide +kernel

/-- **C49 is false** for a group that runs again before the pipeline's run is over (a cluster with a loop around it):
with all tasks of the previous run over and all children marked, the run executes no child at all and never reports an
error. -/
theorem C49_second_round_empty_violated (w n k : Nat) (s : SomeSt) (hk : k ≤ n)
    (hg : ∀ q ∈ s.jobs, q.pc = .gone) (hm : ∀ c < n, s.marked c = true) (acts : List SomeAct)
    (ha : ∀ a ∈ acts, (∀ k, a ≠ .call k) ∧ ∀ c, a ≠ .reset c) :
    ∃ new, ((s.call n k).exec w n acts).hist = s.hist ++ [.call k] ++ new ∧ entered new = [] ∧
      ∀ st, .back st ∈ new → st.isErr = false := by
  have hk' : ¬ n < k := by omega
  have h0 : Idle n (s.hist ++ [.call k]) [] (s.call n k) := by
    simp only [SomeSt.call, hk', if_false]
    exact ⟨by simp, hm, fun q hq => .inl (hg q hq), by simp, rfl, by simp⟩
  obtain ⟨new, I⟩ := Idle.exec (w := w) acts ha _ _ h0
  exact ⟨new, I.hist, I.none, I.backs⟩

/-- Two rounds of a loop: two of three children in the first, none in the second, both reported as success. -/
example : (SomeSt.exec 7 3 ((exSome.exec 7 3 (exSubmit ++ exDo 0 .ok ++ exDo 1 .ok ++ List.replicate 5 .main ++
      [.take 2, .look 2, .count 2])).call 3 2)
      (exSubmit ++ [.take 3, .look 3, .count 3, .take 4, .look 4, .count 4] ++ List.replicate 5 .main)).hist =
    [.call 2, .enter 0, .leave 0 .ok, .enter 1, .leave 1 .ok, .back .ok, .call 2, .back .ok] := by decide +kernel

/-! ## C70 -/

/-- **C70** (termination with enough workers).  With more workers than children, a run that begins in a clean state
does at most `7 * n + 7` steps (two more for each spurious wake-up), and until it has returned some step of a worker or
of the group's thread is possible.
Missing: pools with at most `n` workers, see `C70_small_pool_violated`. -/
theorem C70_returns_partial (w n k : Nat) (hw : n < w) (s : SomeSt) (hs : Clean s) (hk : k ≤ n)
    (acts : List SomeAct) (h1 : ∀ a ∈ acts, ∀ k, a ≠ .call k) (h2 : ∀ a ∈ acts, ∀ c, a ≠ .reset c) (S : SomeSt)
    (hS : acts.foldlM (SomeSt.step w n) (s.call n k) = some S) :
    acts.length ≤ 7 * n + 7 + 2 * acts.count .spurious ∧
    ((∃ st, S.pc = .ret st) ∨
      ∃ a, (∀ k, a ≠ .call k) ∧ (∀ c, a ≠ .reset c) ∧ a ≠ .spurious ∧ (S.step w n a).isSome = true) := by
  have hk' : ¬ n < k := by omega
  have hA0 : Awake (s.call n k) := by simp [SomeSt.call, hk', Awake]
  have hw0 : workLeft n (s.call n k) = 7 * n + 7 := by
    have : (s.jobs.map jobWork).sum = 0 := by
      apply List.sum_eq_zero_iff_forall_eq_nat.2
      intro x hx
      obtain ⟨q, hq, e⟩ := List.mem_map.1 hx
      rw [← e]; simp [jobWork, hs.gone q hq]
    simp [SomeSt.call, hk', workLeft, mainWork, this]
  have key : ∀ (acts : List SomeAct) (s1 : SomeSt) (cur : List KidJob) (new : List SomeEv),
      (∀ a ∈ acts, ∀ k, a ≠ .call k) → (∀ a ∈ acts, ∀ c, a ≠ .reset c) → Awake s1 →
      Inv n k s.jobs cur (s.hist ++ [.call k]) new s1 → acts.foldlM (SomeSt.step w n) s1 = some S →
      acts.length ≤ workLeft n s1 + 2 * acts.count .spurious ∧ Awake S ∧
        ∃ cur new, Inv n k s.jobs cur (s.hist ++ [.call k]) new S := by
    intro acts
    induction acts with
    | nil =>
      intro s1 cur new _ _ hA I hf
      simp at hf; subst hf
      exact ⟨by simp, hA, cur, new, I⟩
    | cons a as ih =>
      intro s1 cur new h1 h2 hA I hf
      simp only [List.foldlM_cons] at hf
      cases hst : s1.step w n a with
      | none => simp [hst] at hf
      | some s2 =>
        simp only [hst, Option.bind_eq_bind, Option.bind_some] at hf
        obtain ⟨cur', new', I'⟩ := I.step (h1 a (by simp)) hst
        obtain ⟨h3, h4⟩ := ih s2 cur' new' (fun b hb => h1 b (by simp [hb])) (fun b hb => h2 b (by simp [hb]))
          (hA.step hst) I' hf
        have h5 := work_step hA (h1 a (by simp)) (h2 a (by simp)) hst
        refine ⟨?_, h4⟩
        simp only [List.length_cons, List.count_cons]
        by_cases hsp : a = .spurious
        · simp [hsp] at h5 ⊢; omega
        · simp [hsp] at h5 ⊢; omega
  obtain ⟨h3, h4, cur, new, I⟩ := key acts _ _ _ h1 h2 hA0 (hs.call hk) hS
  rw [hw0] at h3
  refine ⟨h3, ?_⟩
  by_cases hr : ∃ st, S.pc = .ret st
  · exact .inl hr
  · exact .inr (I.progress hw hk h4 (fun st h => hr ⟨st, h⟩))

example : ((exSubmit ++ exDo 0 .ok ++ exDo 1 .ok ++ List.replicate 5 SomeAct.main).foldlM (SomeSt.step 4 3) exSome).isSome =
    true := by decide +kernel

/-- **C70 is false** for every pool that has at most as many workers as the group has children: there is an execution
in which every worker waits for a body that is queued behind it, and from there no continuation whatever makes the
group return (no body has been started either). -/
theorem C70_small_pool_violated (w n k : Nat) (h1 : 1 ≤ k) (hk : k ≤ n) (hw : w ≤ n) :
    ∃ acts, (SomeSt.exec w n (SomeSt.init.call n k) acts).hist = [.call k] ∧
      ∀ more st, (SomeSt.exec w n (SomeSt.init.call n k) (acts ++ more)).pc ≠ .ret st := by
  have hk' : ¬ n < k := by omega
  obtain ⟨a1, e1⟩ := submit_all (w := w) (n := n) (k := k) [.call k] (fun _ => false) n 0 (by omega)
  obtain ⟨a2, e2⟩ := jam_reach (w := w) (n := n) (k : Int) .test [.call k] hw w (Nat.le_refl _)
  have e0 : SomeSt.exec w n (SomeSt.init.call n k) [.main] =
      ⟨(k : Int), CStatus.ok, .push 0, jamJobs 0 0, fun _ => false, [.call k]⟩ := by
    simp [SomeSt.call, hk', SomeSt.init, SomeSt.exec, SomeSt.step, SomeSt.main, jamJobs]
  have e : SomeSt.exec w n (SomeSt.init.call n k) ([.main] ++ (a1 ++ a2)) =
      ⟨(k : Int), CStatus.ok, .test, jamJobs w n, fun _ => false, [.call k]⟩ := by
    rw [exec_append, e0, exec_append, e1, e2]
  refine ⟨[.main] ++ (a1 ++ a2), by rw [e], ?_⟩
  intro more st
  rw [exec_append, e]
  have J : Jam w ⟨(k : Int), CStatus.ok, .test, jamJobs w n, fun _ => false, [.call k]⟩ := by
    refine ⟨?_, ?_, .inr rfl, ?_⟩
    · intro q hq
      obtain ⟨c, _, e⟩ := List.mem_map.1 hq
      rw [← e]
      by_cases h : c < w <;> simp [h]
    · exact Nat.le_of_eq (jamJobs_used w n hw).symm
    · simp [ready]; omega
  rcases (Jam.exec (n := n) more _ J).pc with h | h <;> rw [h] <;> simp

/-- The default pool has eight threads; the group itself may occupy one of them. -/
example : (1 : Nat) ≤ 1 ∧ (1 : Nat) ≤ 8 ∧ (8 : Nat) ≤ 8 := by decide

end SomeSt
end CGraph
