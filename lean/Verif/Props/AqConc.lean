import Verif.Lemmas.AqConc

/-! # C108 — the shared queue of the pool, used by many threads -/
namespace CGraph.AqConc
open Spec
variable {α : Type}

/-- **C108 (at once)** After any schedule there is an order of the calls of all threads, each at a moment between its
beginning and its end, that a queue executing one call after the other could have produced, with the same results; and
when no thread is inside, contents and flag are those of that queue. -/
theorem C108_atomic (n : Nat) (l : List (AqAct α)) :
    ∃ q, FqHist ([], true) (AqSt.run n l).hist q ∧
      ((AqSt.run n l).owner = none → ((AqSt.run n l).queue, (AqSt.run n l).ready) = q) := by
  obtain ⟨q, h1, h2⟩ := inv_run n l
  exact ⟨q, h1, fun h => (h2.free h).symm⟩

/-- **C108 (every call once)** The calls of a thread take effect in the order in which it makes them, each once. -/
theorem C108_once (n : Nat) (l : List (AqAct α)) (t : Nat) :
    (AqSt.run n l).begun t = (AqSt.run n l).done t ++ ((AqSt.run n l).pc t).pending.toList := acc_run n l t

/-- **C108 (nobody is forgotten)** While the queue is open, a thread that waits for a value sleeps in front of a
non-empty queue only as long as some other thread is awake in a call: one that will notify, or that was woken. -/
theorem C108_awake (n : Nat) (l : List (AqAct α)) (hr : (AqSt.run n l).ready = true) (t : Nat)
    (ht : ((AqSt.run n l).pc t).asleep = true) (hq : (AqSt.run n l).queue ≠ []) :
    ∃ u, u < n ∧ ((AqSt.run n l).pc u).asleep = false ∧ (AqSt.run n l).pc u ≠ .idle := by
  have h := (wk_run n l).wake hr t ht
  have hpos : 0 < (AqSt.run n l).queue.length := List.length_pos_iff.2 hq
  obtain ⟨u, hu, hw⟩ := sumN_pos (Nat.lt_of_lt_of_le hpos h)
  refine ⟨u, hu, ?_, ?_⟩
  · cases hp : (AqSt.run n l).pc u <;> rw [hp] at hw <;> first | rfl | simp [wt] at hw
  · rintro hp; rw [hp] at hw; simp [wt] at hw

/-- **C108 (closing)** Once `reset` has returned, nobody sleeps in `popWithTimeout`. -/
theorem C108_closed (n : Nat) (l : List (AqAct α)) (hr : (AqSt.run n l).ready = false)
    (hn : ∀ u, ((AqSt.run n l).pc u).pending ≠ some .reset ∧ (AqSt.run n l).pc u ≠ .tell true) (t : Nat) :
    (AqSt.run n l).pc t ≠ .sleep .popTimeout := by
  intro ht
  obtain ⟨u, hu⟩ := (wk_run n l).closed hr t ht
  revert hu
  have := hn u
  cases hp : (AqSt.run n l).pc u with
  | unlock c r =>
    rw [hp] at this
    cases c <;> simp [AqPc.telling]
    exact this.1 rfl
  | tell a =>
    rw [hp] at this
    cases a <;> simp [AqPc.telling]
    exact this.2 rfl
  | _ => simp [AqPc.telling]

theorem run_snoc (n : Nat) (l : List (AqAct α)) (a : AqAct α) : AqSt.run n (l ++ [a]) = (AqSt.run n l).step n a := by
  simp [AqSt.run]

/-- **C108 (released)** A thread that got the mutex gives it back after finitely many of its own steps. -/
theorem C108_release (n : Nat) (l : List (AqAct α)) (t k : Nat) (h : (AqSt.run n l).owner = some t) :
    ∃ m, (AqSt.run n (l ++ List.replicate m (.go t k))).owner = none := by
  suffices ∀ b l, (AqSt.run n l).owner = some t → ((AqSt.run n l).pc t).todo (AqSt.run n l).queue < b →
      ∃ m, (AqSt.run n (l ++ List.replicate m (.go t k))).owner = none from
    this _ l h (Nat.lt_succ_self _)
  intro b
  induction b with
  | zero => intro l _ hk; omega
  | succ b ih =>
    intro l ho hk
    have htn : t < n := by
      by_cases h : t < n
      · exact h
      · have e := (wk_run n l).out t (by omega)
        obtain ⟨q, -, ok⟩ := inv_run n l
        have := (ok.own t).1 ho
        rw [e] at this; cases this
    have e : AqSt.run n (l ++ [.go t k]) = (AqSt.run n l).go n t k := by
      rw [run_snoc]; simp [AqSt.step, htn]
    rcases owner_step (n := n) (inv_run n l) k ho with h1 | ⟨h1, h2⟩
    · exact ⟨1, by rw [List.replicate_one, e]; exact h1⟩
    · obtain ⟨m, hm⟩ := ih (l ++ [.go t k]) (by rw [e]; exact h1) (by rw [e]; omega)
      exact ⟨m + 1, by rwa [List.append_assoc, ← List.replicate_one, List.replicate_append_replicate,
        Nat.add_comm] at hm⟩

/-- Steps in which a woken thread at a closed queue leaves. -/
theorem leaves (n : Nat) (l : List (AqAct α)) {t : Nat} (k : Nat) (htn : t < n) {late : Bool}
    (ho : (AqSt.run n l).owner = none) (hr : (AqSt.run n l).ready = false)
    (hp : (AqSt.run n l).pc t = .woken .popTimeout late) :
    (AqSt.run n (l ++ [.go t k, .go t k, .go t k])).log =
      (AqSt.run n l).log ++ [(t, .popTimeout, .got [] false)] ∧
    (AqSt.run n (l ++ [.go t k, .go t k, .go t k])).pc t = .idle := by
  have e : l ++ [AqAct.go t k, .go t k, .go t k] = ((l ++ [.go t k]) ++ [.go t k]) ++ [.go t k] := by simp
  rw [e, run_snoc, run_snoc, run_snoc]
  generalize AqSt.run n l = s at ho hr hp
  have s1 : s.step n (.go t k) = { s.setPc t (.cond .popTimeout late) with owner := some t } := by
    simp only [AqSt.step, htn, if_true, AqSt.go, hp, AqSt.tryLock, ho]
  rw [s1]
  have s2 : ({ s.setPc t (.cond .popTimeout late) with owner := some t } : AqSt α).step n (.go t k) =
      ({ s.setPc t (.cond .popTimeout late) with owner := some t } : AqSt α).setPc t
        (.unlock .popTimeout (.got [] false)) := by
    simp [AqSt.step, htn, AqSt.go, AqSt.setPc, AqSt.condStep, hr]
  rw [s2]
  constructor <;> simp [AqSt.step, htn, AqSt.go, AqSt.setPc, AqSt.finish, AqSt.after]

/-- **C108 (destroy does not wait for the time to pass)** A thread that was asleep in `popWithTimeout` when the queue was closed
and everybody was notified returns with nothing after three steps of its own, made while no other thread is inside. -/
theorem C108_leaves (n : Nat) (l : List (AqAct α)) (t k : Nat) (ho : (AqSt.run n l).owner = none)
    (hr : (AqSt.run n l).ready = false) (late : Bool) (hp : (AqSt.run n l).pc t = .woken .popTimeout late) :
    (AqSt.run n (l ++ [.go t k, .go t k, .go t k])).done t = (AqSt.run n l).done t ++ [.popTimeout] ∧
    (AqSt.run n (l ++ [.go t k, .go t k, .go t k])).pc t = .idle := by
  have htn : t < n := by
    by_cases h : t < n
    · exact h
    · have e := (wk_run n l).out t (by omega)
      rw [e] at hp; cases hp
  obtain ⟨h1, h2⟩ := leaves n l k htn ho hr hp
  exact ⟨by simp [AqSt.done, h1], h2⟩

/-- **C108 (the time is over)** A thread whose time is over returns after four steps of its own, made while no other
thread is inside. -/
theorem C108_timeout (n : Nat) (l : List (AqAct α)) (t k : Nat) (ho : (AqSt.run n l).owner = none)
    (hp : (AqSt.run n l).pc t = .woken .popTimeout true) :
    (AqSt.run n (l ++ [.go t k, .go t k, .go t k, .go t k])).pc t = .idle := by
  have htn : t < n := by
    by_cases h : t < n
    · exact h
    · have e := (wk_run n l).out t (by omega)
      rw [e] at hp; cases hp
  have e : l ++ [AqAct.go t k, .go t k, .go t k, .go t k] = (((l ++ [.go t k]) ++ [.go t k]) ++ [.go t k]) ++ [.go t k] := by
    simp
  rw [e, run_snoc, run_snoc, run_snoc, run_snoc]
  generalize AqSt.run n l = s at ho hp
  have s1 : s.step n (.go t k) = { s.setPc t (.cond .popTimeout true) with owner := some t } := by
    simp only [AqSt.step, htn, if_true, AqSt.go, hp, AqSt.tryLock, ho]
  rw [s1]
  cases hq : s.queue with
  | nil =>
    have s2 : ({ s.setPc t (.cond .popTimeout true) with owner := some t } : AqSt α).step n (.go t k) =
        ({ s.setPc t (.cond .popTimeout true) with owner := some t } : AqSt α).setPc t
          (.unlock .popTimeout (.got [] false)) := by
      cases hr : s.ready <;> simp [AqSt.step, htn, AqSt.go, AqSt.setPc, AqSt.condStep, hq, hr]
    rw [s2]
    simp [AqSt.step, htn, AqSt.go, AqSt.setPc, AqSt.finish, AqSt.after]
  | cons x d =>
    cases hr : s.ready with
    | false =>
      have s2 : ({ s.setPc t (.cond .popTimeout true) with owner := some t } : AqSt α).step n (.go t k) =
          ({ s.setPc t (.cond .popTimeout true) with owner := some t } : AqSt α).setPc t
            (.unlock .popTimeout (.got [] false)) := by
        simp [AqSt.step, htn, AqSt.go, AqSt.setPc, AqSt.condStep, hq, hr]
      rw [s2]
      simp [AqSt.step, htn, AqSt.go, AqSt.setPc, AqSt.finish, AqSt.after]
    | true =>
      have s2 : ({ s.setPc t (.cond .popTimeout true) with owner := some t } : AqSt α).step n (.go t k) =
          ({ s.setPc t (.cond .popTimeout true) with owner := some t } : AqSt α).setPc t (.take .popTimeout 0 []) := by
        simp [AqSt.step, htn, AqSt.go, AqSt.setPc, AqSt.condStep, hq, hr]
      rw [s2]
      simp [AqSt.step, htn, AqSt.go, AqSt.setPc, AqSt.finish, AqSt.after, AqSt.takeStep, hq]

example : (AqSt.run 3 ([.call 1 .popTimeout, .go 1 0, .go 1 0, .expire 1] : List (AqAct Nat))).pc 1 =
    .woken .popTimeout true := by decide +kernel

/-- Two threads are about to access the queue at the same time, one of them modifying it: a data race. -/
def Race (s : AqSt α) (t u : Nat) : Prop := t ≠ u ∧ (s.pc t).access = .write ∧ (s.pc u).access ≠ .none

/-- **C108 (only the owner modifies)** Nobody but the possessor of the mutex modifies the queue, and the only accesses
that can meet a modification are the tests for emptiness that `tryPop` makes without the mutex. -/
theorem C108_race_partial (n : Nat) (l : List (AqAct α)) (t u : Nat) (h : Race (AqSt.run n l) t u) :
    (AqSt.run n l).owner = some t ∧ ∃ c, (AqSt.run n l).pc u = .test c ∧ (c = .tryPop ∨ ∃ z, c = .tryPopN z) := by
  obtain ⟨q, -, ok⟩ := inv_run n l
  obtain ⟨hne, hw, hu⟩ := h
  have ht : (AqSt.run n l).owner = some t := by
    rw [ok.own t]
    cases hp : (AqSt.run n l).pc t <;> rw [hp] at hw <;> first | rfl | simp [AqPc.access] at hw
  refine ⟨ht, ?_⟩
  have hnu : ((AqSt.run n l).pc u).inside = false := by
    cases hi : ((AqSt.run n l).pc u).inside with
    | false => rfl
    | true => have := (ok.own u).2 hi; rw [ht] at this; injection this with this; exact absurd this hne
  have hpos := ok.pos u
  cases hp : (AqSt.run n l).pc u <;> rw [hp] at hpos hnu hu <;>
    first | exact ⟨_, rfl, hpos⟩ | exact absurd rfl hu | cases hnu

/-- **C108 (data race)** The accesses of the queue are not all protected: while one thread pushes, another reads the
queue in `tryPop`. -/
theorem C108_race_violated : ∃ l : List (AqAct Nat), Race (AqSt.run 2 l) 0 1 :=
  ⟨[.call 0 (.push 7), .call 1 .tryPop, .go 0 0], by unfold Race; decide⟩

/-- **C108 (closed with values inside)** After `reset`, `popWithTimeout` gives nothing although a value is waiting: what is
left in the queue when the pool is destroyed is not executed (C20). -/
theorem C108_drained_violated : ∃ l : List (AqAct Nat), (AqSt.run 2 l).owner = none ∧ (AqSt.run 2 l).queue = [7] ∧
    (AqSt.run 2 l).log.getLast? = some (1, .popTimeout, .got [] false) :=
  ⟨[.call 0 (.push 7), .go 0 0, .go 0 0, .go 0 0, .go 0 0, .call 0 .reset, .go 0 0, .go 0 0, .go 0 0, .go 0 0,
    .call 1 .popTimeout, .go 1 0, .go 1 0, .go 1 0], by decide +kernel⟩

/-! Three threads: 0 waits, 1 waits for some time, 2 pushes (waking 1) and closes the queue. -/

/-- The schedule of the example. -/
def exRun : List (AqAct Nat) :=
  [.call 0 .waitPop, .go 0 0, .go 0 0, .call 1 .popTimeout, .go 1 0, .go 1 0, .call 2 (.push 5), .go 2 1, .go 2 1, .go 2 1,
   .go 2 1, .go 1 0, .go 1 0, .go 1 0, .go 1 0, .call 1 .popTimeout, .go 1 0, .go 1 0, .call 2 .reset, .go 2 0, .go 2 0,
   .go 2 0]

example : (AqSt.run 3 (exRun.take 10)).pc 1 = .sleep .popTimeout ∧ (AqSt.run 3 (exRun.take 10)).queue = [5] ∧
    (AqSt.run 3 (exRun.take 10)).ready = true ∧ (AqSt.run 3 (exRun.take 10)).pc 2 = .tell false := by decide +kernel

example : (AqSt.run 3 (exRun ++ [.go 2 0])).pc 1 = .woken .popTimeout false ∧
    (AqSt.run 3 (exRun ++ [.go 2 0])).ready = false ∧ (AqSt.run 3 (exRun ++ [.go 2 0])).owner = none ∧
    (AqSt.run 3 (exRun ++ [.go 2 0])).pc 2 = .idle := by decide +kernel

example : (AqSt.run 3 (exRun ++ [.go 2 0] ++ [.go 1 0, .go 1 0, .go 1 0])).log =
    [(2, .push 5, .done), (1, .popTimeout, .got [5] false), (2, .reset, .done), (1, .popTimeout, .got [] false)] := by
  decide +kernel

example : (AqSt.run 3 (exRun.take 8)).owner = some 2 := by decide +kernel

end CGraph.AqConc
