import Verif.Lemmas.PrimaryLive

/-! # C109 — an idle thread of the pool does not sleep through its tasks -/
namespace CGraph.Prim
variable {α : Type}

/-- **C109 (no task is slept through)** The primary thread sleeps while there is a task in its own queue only as long as the
thread that pushes is still inside `pushTask`, before its notification. -/
theorem C109_pushed (cf : PrimCfg) (n : Nat) (l : List (PAct α)) (hz : (PrSt.run cf n l).pc = .sleep)
    (hd : (PrSt.run cf n l).deque ≠ []) : ∃ u, u < n ∧ ((PrSt.run cf n l).cpc u).coming = true := by
  have hi := inv_run cf n l
  obtain ⟨u, hu⟩ := hi.sleepy.z1 hz hd
  exact ⟨u, in_n hi (by intro e; rw [e] at hu; cases hu), hu⟩

/-- **C109 (asleep means idle)** When no call is going on, a sleeping primary thread has no task in its own queue and was not told
to end. -/
theorem C109_idle (cf : PrimCfg) (n : Nat) (l : List (PAct α)) (hz : (PrSt.run cf n l).pc = .sleep)
    (hc : ∀ t, t < n → (PrSt.run cf n l).cpc t = .idle) :
    (PrSt.run cf n l).deque = [] ∧ (PrSt.run cf n l).live = true := by
  have hi := inv_run cf n l
  have hc : ∀ t, (PrSt.run cf n l).cpc t = .idle := fun t => by
    by_cases ht : t < n
    · exact hc t ht
    · exact hi.more.out t (by omega)
  constructor
  · apply Classical.byContradiction
    intro hd
    obtain ⟨u, hu⟩ := hi.sleepy.z1 hz hd
    rw [hc u] at hu; cases hu
  · cases hl : (PrSt.run cf n l).live with
    | true => rfl
    | false =>
      obtain ⟨u, hu⟩ := hi.sleepy.z3 hz hl
      rw [hc u] at hu; cases hu

/-- **C109 (destroying wakes)** Once the thread was told to end, it sleeps only as long as the one who told it has not
notified it yet. -/
theorem C109_told (cf : PrimCfg) (n : Nat) (l : List (PAct α)) (hz : (PrSt.run cf n l).pc = .sleep)
    (hl : (PrSt.run cf n l).live = false) :
    ∃ u, u < n ∧ ((PrSt.run cf n l).cpc u = .unlock .stop ∨ (PrSt.run cf n l).cpc u = .tell .stop) := by
  have hi := inv_run cf n l
  obtain ⟨u, hu⟩ := hi.sleepy.z3 hz hl
  refine ⟨u, in_n hi (by intro e; rw [e] at hu; cases hu), ?_⟩
  cases e : (PrSt.run cf n l).cpc u <;> rw [e] at hu <;> simp [CPc.told] at hu <;> subst hu <;> simp

/-- **C109 (no task lost)** The tasks pushed to the thread are those taken out of its queue, and those in it. -/
theorem C109_conserved (cf : PrimCfg) (n : Nat) (l : List (PAct α)) :
    (PrSt.run cf n l).pushed.Perm ((PrSt.run cf n l).taken ++ (PrSt.run cf n l).deque) :=
  (inv_run cf n l).more.perm

/-- **C109 (every task is taken, without the clock)** Whatever the schedule: if every thread goes on again and again, mutexes
are fair, calls end and nobody destroys the thread, then from some moment on every task ever pushed has been taken out of
the queue (once), although the time of the sleeping thread may never be over. -/
theorem C109_taken (cf : PrimCfg) (hz : 0 < cf.size) (n : Nat) (σ : Nat → PAct α) (hf : Fair cf n σ) (N : Nat)
    (hq : ∀ k, N ≤ k → ∀ t c, σ k ≠ .call t c) (hs : ∀ k t, σ k ≠ .call t .stop) :
    ∃ K, ∀ k, K ≤ k → (trace cf n σ k).deque = [] ∧ (trace cf n σ k).pushed.Perm (trace cf n σ k).taken := by
  have hq : ∀ k, N ≤ k → (σ k).quiet := by
    intro k hk
    cases e : σ k with
    | call t c => exact absurd e (hq k hk t c)
    | _ => trivial
  obtain ⟨K, hK⟩ := drains hf hz hq hs
  refine ⟨K, fun k hk => ⟨hK k hk, ?_⟩⟩
  have := (inv_trace cf n σ k).more.perm
  rwa [hK k hk, List.append_nil] at this

/-- **C109 (destroy returns, without the clock)** If somebody destroys the thread and calls end, then from some moment on the
thread has ended and every call has returned, `destroy` included, although the time of the sleeping thread may never be
over. -/
theorem C109_destroyed (cf : PrimCfg) (n : Nat) (σ : Nat → PAct α) (hf : Fair cf n σ) (N : Nat)
    (hq : ∀ k, N ≤ k → ∀ t c, σ k ≠ .call t c) (k0 t0 : Nat) (h0 : t0 < n) (hs : σ k0 = .call t0 .stop)
    (hi : (trace cf n σ k0).cpc t0 = .idle) :
    ∃ K, ∀ k, K ≤ k → (trace cf n σ k).pc = .gone ∧ ∀ t, (trace cf n σ k).cpc t = .idle := by
  have hq : ∀ k, N ≤ k → (σ k).quiet := by
    intro k hk
    cases e : σ k with
    | call t c => exact absurd e (hq k hk t c)
    | _ => trivial
  refine ends hf hq (k0 := k0 + 1) (.inr ⟨t0, .inl ?_⟩)
  show ((trace cf n σ k0).step cf n (σ k0)).cpc t0 = _
  rw [hs]
  simp [PrSt.step, h0, hi, CPc.isIdle, PrSt.setC, PCall.first]

/-- The configuration of the examples. -/
def exCfg : PrimCfg := ⟨1, 1⟩

/-- The primary thread moves `k` times. -/
def alone (k : Nat) : List (PAct Nat) := List.replicate k (.prim [] false)

/-- Until it sleeps: one empty round, two evaluations of the condition. -/
def toSleep : List (PAct Nat) := alone 17

example : (PrSt.run exCfg 2 toSleep).pc = .sleep ∧ (PrSt.run exCfg 2 toSleep).running = false := by decide +kernel

/-- A client pushes a task to the sleeping thread: before its notification the thread still sleeps. -/
example : (PrSt.run exCfg 2 (toSleep ++ [.call 0 (.push 7), .go 0, .go 0, .go 0])).pc = .sleep ∧
    (PrSt.run exCfg 2 (toSleep ++ [.call 0 (.push 7), .go 0, .go 0, .go 0])).deque = [7] := by decide +kernel

example : (PrSt.run exCfg 2 (toSleep ++ [.call 0 .stop, .go 0, .go 0])).pc = .sleep ∧
    (PrSt.run exCfg 2 (toSleep ++ [.call 0 .stop, .go 0, .go 0])).live = false := by decide +kernel

/-- A push (or not), one destroy (or not), then two clients and the thread in turn. -/
def exSched (c : PCall Nat) (k : Nat) : PAct Nat :=
  if k = 60 then .call 0 c else match k % 3 with
    | 0 => .prim [] false
    | 1 => .go 0
    | _ => .go 1

theorem exSched_later (c : PCall Nat) {K : Nat} (hK : 60 < K)
    (h1 : (trace exCfg 2 (exSched c) K).prim exCfg [] false = trace exCfg 2 (exSched c) K)
    (h2 : (trace exCfg 2 (exSched c) K).cpc 0 = .idle) (h3 : (trace exCfg 2 (exSched c) K).cpc 1 = .idle) (d : Nat) :
    trace exCfg 2 (exSched c) (K + d) = trace exCfg 2 (exSched c) K := by
  induction d with
  | zero => rfl
  | succ d ih =>
    show (trace exCfg 2 (exSched c) (K + d)).step exCfg 2 (exSched c (K + d)) = _
    rw [ih]
    have : K + d ≠ 60 := by omega
    simp only [exSched, this, if_false]
    split
    · exact h1
    · simp [PrSt.step, PrSt.go, h2]
    · simp [PrSt.step, PrSt.go, h3]

theorem exSched_fair (c : PCall Nat) {K : Nat} (hK : 60 < K)
    (h1 : (trace exCfg 2 (exSched c) K).prim exCfg [] false = trace exCfg 2 (exSched c) K)
    (h2 : (trace exCfg 2 (exSched c) K).cpc 0 = .idle) (h3 : (trace exCfg 2 (exSched c) K).cpc 1 = .idle) :
    Fair exCfg 2 (exSched c) := by
  have hs := exSched_later c hK h1 h2 h3
  have hcl : ∀ t, t < 2 → (trace exCfg 2 (exSched c) K).cpc t = .idle := by
    intro t ht
    match t, ht with
    | 0, _ => exact h2
    | 1, _ => exact h3
  have hgo : ∀ t, t < 2 → ∀ m, ∃ k, m ≤ k ∧ exSched c k = .go t ∧ ∃ d, k = K + d := by
    intro t ht m
    match t, ht with
    | 0, _ =>
      refine ⟨3 * (m + K) + 1, by omega, ?_, ⟨_, (Nat.add_sub_cancel' (by omega)).symm⟩⟩
      simp only [exSched, show ¬ (3 * (m + K) + 1 = 60) by omega, if_false, show (3 * (m + K) + 1) % 3 = 1 by omega]
    | 1, _ =>
      refine ⟨3 * (m + K) + 2, by omega, ?_, ⟨_, (Nat.add_sub_cancel' (by omega)).symm⟩⟩
      simp only [exSched, show ¬ (3 * (m + K) + 2 = 60) by omega, if_false, show (3 * (m + K) + 2) % 3 = 2 by omega]
  refine ⟨fun m => ⟨3 * (m + K), by omega, [], false, ?_⟩, ?_, ?_, ?_⟩
  · simp only [exSched, show ¬ (3 * (m + K) = 60) by omega, if_false, show (3 * (m + K)) % 3 = 0 by omega]
  · intro t ht m
    obtain ⟨k, a, b, -⟩ := hgo t ht m
    exact ⟨k, a, b⟩
  · intro t ht _ m
    obtain ⟨k, a, b, d, rfl⟩ := hgo t ht m
    exact ⟨_, a, b, .inr fun w => by rw [hs d, hcl t ht]; simp⟩
  · intro t ht _ m
    obtain ⟨k, a, b, d, rfl⟩ := hgo t ht m
    exact ⟨_, a, b, .inr fun w => by rw [hs d, hcl t ht]; simp⟩

theorem exFair {c : PCall Nat} {K : Nat} (hK : 60 < K)
    (h : (trace exCfg 2 (exSched c) K).pc = .sleep ∨ (trace exCfg 2 (exSched c) K).pc = .gone)
    (h2 : (trace exCfg 2 (exSched c) K).cpc 0 = .idle) (h3 : (trace exCfg 2 (exSched c) K).cpc 1 = .idle) :
    Fair exCfg 2 (exSched c) :=
  exSched_fair c hK (by unfold PrSt.prim; rcases h with h | h <;> rw [h]) h2 h3

/-- The hypotheses of `C109_taken` are met by a schedule without timeouts in which a sleeping thread gets a task. -/
example : Fair exCfg 2 (exSched (.push 7)) ∧ (∀ k, 61 ≤ k → ∀ t c, exSched (.push 7) k ≠ .call t c) ∧
    (∀ k t, exSched (.push 7) k ≠ .call t .stop) ∧ (trace exCfg 2 (exSched (.push 7)) 60).pc = .sleep := by
  refine ⟨exFair (K := 180) (by omega) (by decide +kernel) (by decide +kernel) (by decide +kernel), ?_, ?_, by decide +kernel⟩
  · intro k hk t c
    simp only [exSched, show ¬ (k = 60) by omega, if_false]
    split <;> simp
  · intro k t
    simp only [exSched]
    split
    · simp
    · split <;> simp

/-- The hypotheses of `C109_destroyed` likewise. -/
example : Fair exCfg 2 (exSched .stop) ∧ (∀ k, 61 ≤ k → ∀ t c, exSched .stop k ≠ .call t c) ∧
    exSched .stop 60 = .call 0 .stop ∧ (trace exCfg 2 (exSched .stop) 60).cpc 0 = .idle ∧
    (trace exCfg 2 (exSched .stop) 60).pc = .sleep := by
  refine ⟨exFair (K := 180) (by omega) (by decide +kernel) (by decide +kernel) (by decide +kernel), ?_, rfl,
    by decide +kernel, by decide +kernel⟩
  intro k hk t c
  simp only [exSched, show ¬ (k = 60) by omega, if_false]
  split <;> simp

/-- **C109 (the shared queue wakes nobody)** A task put into the pool's shared queue, which the primary thread reads,
does not wake it: it sleeps, with no call going on, until its time is over. -/
theorem C109_shared_violated : ∃ l : List (PAct Nat), (PrSt.run exCfg 2 l).pc = .sleep ∧ (PrSt.run exCfg 2 l).pool = [7] ∧
    ∀ t, t < 2 → (PrSt.run exCfg 2 l).cpc t = .idle :=
  ⟨toSleep ++ [.call 0 (.share 7), .go 0], by decide +kernel⟩

/-- **C109 (waking all threads is not enough)** Even with the strategy that wakes all threads, the notification gets lost if the
thread has evaluated its condition but does not sleep yet: `wakeup` notifies without `mutex_`. -/
theorem C109_trigger_violated : ∃ l : List (PAct Nat), (PAct.call 0 (.trigger 7) ∈ l) ∧ (PrSt.run exCfg 2 l).pc = .sleep ∧
    (PrSt.run exCfg 2 l).pool = [7] ∧ ∀ t, t < 2 → (PrSt.run exCfg 2 l).cpc t = .idle :=
  ⟨alone 16 ++ [.call 0 (.trigger 7), .go 0, .go 0, .go 0, .go 0, .go 0] ++ alone 1, by decide +kernel⟩

/-- **C109 (waking all threads at the same time)** Or if another thread is in `wakeupAllThread` and has passed the thread: the
later call returns at once without notifying, although its task came later. -/
theorem C109_overlap_violated : ∃ l : List (PAct Nat), (PAct.call 0 (.trigger 7) ∈ l) ∧ (PrSt.run exCfg 2 l).pc = .sleep ∧
    (PrSt.run exCfg 2 l).pool = [7] ∧ ∀ t, t < 2 → (PrSt.run exCfg 2 l).cpc t = .idle :=
  ⟨alone 4 ++ [.call 1 .wakeAll, .go 1, .go 1] ++ alone 13 ++ [.call 0 (.trigger 7), .go 0, .go 0, .go 1],
    by decide +kernel⟩

/-- In `wait_for` the thread counts as not running. -/
theorem off_run (cf : PrimCfg) (n : Nat) (l : List (PAct α)) (h : (PrSt.run cf n l).pc.waiting = true) :
    (PrSt.run cf n l).running = false :=
  off_inv cf n l h

/-- **C109 (waking a thread that sleeps)** A call of `wakeupAllThread` that finds the thread asleep, and nobody else in
`wakeupAllThread`, wakes it. -/
theorem C109_trigger_partial (cf : PrimCfg) (n : Nat) (l : List (PAct α)) (t : Nat) (hz : (PrSt.run cf n l).pc = .sleep)
    (ht : (PrSt.run cf n l).cpc t = .wLock) (hw : (PrSt.run cf n l).wmtx = none) :
    (PrSt.run cf n (l ++ [.go t, .go t, .go t])).pc = .woken false := by
  have htn : t < n := in_n (inv_run cf n l) (by rw [ht]; simp)
  have hr := off_run cf n l (by rw [hz]; rfl)
  have e : PrSt.run cf n (l ++ [.go t, .go t, .go t]) =
      (((PrSt.run cf n l).step cf n (.go t)).step cf n (.go t)).step cf n (.go t) := by
    simp [PrSt.run]
  rw [e]
  generalize PrSt.run cf n l = s at hz ht hw hr
  simp [PrSt.step, htn, PrSt.go, ht, hw, hr, hz, PrSt.setC, PrSt.notify, WPc.wake]

example : (PrSt.run exCfg 2 (toSleep ++ [.call 0 (.trigger 7), .go 0])).pc = .sleep ∧
    (PrSt.run exCfg 2 (toSleep ++ [.call 0 (.trigger 7), .go 0])).cpc 0 = .wLock ∧
    (PrSt.run exCfg 2 (toSleep ++ [.call 0 (.trigger 7), .go 0])).wmtx = none := by decide +kernel

/-- **C109 (not after so many empty rounds)** The thread goes to sleep although one of its last `primary_thread_busy_epoch_`
rounds found a task: tasks found do not set the count of empty rounds back. -/
theorem C109_rounds_violated : ∃ (cf : PrimCfg) (l : List (PAct Nat)), (PrSt.run cf 2 l).pc = .sleep ∧
    true ∈ (PrSt.run cf 2 l).rounds.take cf.busy.toNat :=
  ⟨⟨2, 1⟩, alone 9 ++ [.call 0 (.share 7), .go 0] ++ alone 30, by decide +kernel⟩

/-- **C109 (how often it may sleep)** Every time the thread gets ready to sleep costs at least
`primary_thread_busy_epoch_` empty rounds of its own. -/
theorem C109_rounds_partial (cf : PrimCfg) (n : Nat) (l : List (PAct α)) :
    cf.busy.toNat * (PrSt.run cf n l).waits ≤ (PrSt.run cf n l).rounds.count false := by
  have hm := (inv_run cf n l).more
  have h0 := hm.nneg
  have hc := hm.cnt
  generalize PrSt.run cf n l = s at h0 hc
  have : (cf.busy.toNat * s.waits : Int) ≤ (s.rounds.count false : Nat) := by
    refine Int.le_trans ?_ hc
    cases s.pc <;> simp only [need, Int.mul_add] <;> omega
  exact_mod_cast this

example : (PrSt.run ⟨2, 1⟩ 2 (alone 9 ++ [.call 0 (.share 7), .go 0] ++ alone 30)).rounds = [false, true, false] ∧
    (PrSt.run ⟨2, 1⟩ 2 (alone 9 ++ [.call 0 (.share 7), .go 0] ++ alone 30)).waits = 1 := by decide +kernel

/-- The next step of the primary thread reads `done_`. -/
def WPc.readsDone : WPc α → Bool
  | .head => true
  | .rd _ i => i == 3
  | _ => false

/-- A client is about to write `done_` while the primary thread is about to read it: a data race. -/
def Race (s : PrSt α) (t : Nat) : Prop := s.cpc t = .store .stop ∧ s.pc.readsDone = true

/-- **C109 (data race)** `done_` is not atomic, and the loop reads it without the mutex under which it is written. -/
theorem C109_race_violated : ∃ l : List (PAct Nat), Race (PrSt.run exCfg 2 l) 0 :=
  ⟨alone 1 ++ [.call 0 .stop, .go 0], by unfold Race; decide +kernel⟩

/-- **C109 (only there)** That is the only place: the condition the thread waits for is read under the mutex. -/
theorem C109_race_partial (cf : PrimCfg) (n : Nat) (l : List (PAct α)) (t : Nat) (h : Race (PrSt.run cf n l) t) :
    (PrSt.run cf n l).pc = .head := by
  obtain ⟨h1, h2⟩ := h
  have hl := (inv_run cf n l).locks
  cases e : (PrSt.run cf n l).pc <;> rw [e] at h2 <;> first | rfl | cases h2 | skip
  have := excl hl t (by rw [e]; rfl)
  rw [h1] at this; cases this

end CGraph.Prim
