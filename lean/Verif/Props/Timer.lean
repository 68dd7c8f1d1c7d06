import Verif.Lemmas.Timer

/-! # C77: daemons -/
namespace CGraph.TmSt
open Spec

/-- C77: whatever is done in whatever order, two executions of the task never overlap: a task that begins after another one
finds it returned. -/
theorem C77_alone (as : List TmAct) {a b c : List TmEv} {x y : Nat}
    (h : (exec .new as).hist = a ++ .taskBegin x :: b ++ .taskBegin y :: c) (hb : ∀ e ∈ b, tmBegins e = false) :
    b.countP tmEnds = 1 := by
  have hv := (exec_inv as).1
  rw [h, TmView.valid_append] at hv
  obtain ⟨hv, hy⟩ := hv
  rw [TmView.valid_append] at hv
  obtain ⟨-, hx⟩ := hv
  have hc := (TmView.run_counts hx.2).1
  have hn : ((TmView.new.run a).upd (.taskBegin x)).run b = TmView.new.run (a ++ .taskBegin x :: b) := by
    rw [TmView.run_append]; rfl
  rw [hn, hy.1.2.1] at hc
  have h0 : b.countP tmBegins = 0 := List.countP_eq_zero.mpr fun e he => by simp [hb e he]
  simp [TmView.upd, h0] at hc
  exact hc.symm

/-- C77: the first execution comes no earlier than the interval after `start`. -/
theorem C77_first (as : List TmAct) {a b c : List TmEv} {iv : Int} {z y : Nat}
    (h : (exec .new as).hist = a ++ .started iv z :: b ++ .taskBegin y :: c) (hb : ∀ e ∈ b, tmStarts e = false) :
    z + iv ≤ y := by
  have hv := (exec_inv as).1
  have h' : (exec .new as).hist = a ++ (.started iv z :: (b ++ [.taskBegin y]) ++ c) := by simp [h]
  rw [h', TmView.valid_append] at hv
  have hv := (TmView.valid_append.mp hv.2).1
  exact TmView.run_first hv.2 (Int.le_refl _) hv.1.2.2 hb

/-- C77: two executions that follow each other are at least the interval apart, counted from the beginning of the first,
and from its end if it took longer than the interval; if `modify` asked for another time, that time lies between the end
of the first and the beginning of the second. -/
theorem C77_gap (as : List TmAct) {a b c d : List TmEv} {iv : Int} {z x y : Nat}
    (h : (exec .new as).hist = a ++ .started iv z :: b ++ .taskBegin x :: c ++ .taskBegin y :: d)
    (hb : ∀ e ∈ b, tmStarts e = false) (hc : ∀ e ∈ c, tmStarts e = false) (hn : ∀ e ∈ c, tmBegins e = false) :
    ∃ (c1 : List TmEv) (e : Nat) (ms : Int) (c2 : List TmEv), c = c1 ++ .taskEnd e ms :: c2 ∧ c.countP tmEnds = 1 ∧ x ≤ e ∧ e ≤ y ∧
      (ms ≤ 0 → x + iv ≤ y ∧ (iv ≤ (e : Int) - x → e + iv ≤ y)) ∧ (0 < ms → e + ms ≤ y) := by
  have hv := (exec_inv as).1
  have h' : (exec .new as).hist = (a ++ .started iv z :: b) ++ (.taskBegin x :: (c ++ .taskBegin y :: d)) := by simp [h]
  rw [h', TmView.valid_append] at hv
  obtain ⟨-, hx, hv⟩ := hv
  obtain ⟨hcv, hyv⟩ := TmView.valid_append.mp hv
  have hiv : (TmView.new.run (a ++ .started iv z :: b)).iv = iv := by
    rw [TmView.run_append, TmView.run_cons, TmView.run_iv hb]; rfl
  obtain ⟨c1, e, ms, c2, e1, e2, e3, e4, e5⟩ := TmView.run_gap hcv rfl (Nat.le_refl _) hc hn hyv.1.2.1
  refine ⟨c1, e, ms, c2, e1, e5, e2, Nat.le_trans e3 hyv.1.1, ?_⟩
  have hnext := hyv.1.2.2.1
  rw [e4] at hnext
  have hi : ((TmView.new.run (a ++ .started iv z :: b)).upd (.taskBegin x)).iv = iv := hiv
  rw [hi] at hnext
  have := nextLeft_le iv x e ms e2
  constructor
  · intro hm
    have := this.1 hm
    exact ⟨by omega, fun hq => by have := this.2 hq; omega⟩
  · intro hm
    have := this.2 hm
    omega

/-- C77: a thread calls `stop` while no other call of `stop` is in progress.  When it returns no task is being executed,
none begins until the next `start`, and between call and return at most one begins. -/
theorem C77_stop_partial (as : List TmAct) {a b c : List TmEv} {t z w : Nat}
    (h : (exec .new as).hist = a ++ .stopCall t z :: b ++ .stopRet t w :: c) (ha : NoStopOpen a)
    (hb : ∀ e ∈ b, tmStarts e = false) (hr : ∀ e ∈ b, tmRets t e = false) (hc : ∀ e ∈ c, tmStarts e = false) :
    NoTaskOpen (a ++ .stopCall t z :: b) ∧ (∀ e ∈ c, tmBegins e = false) ∧ b.countP tmBegins ≤ 1 := by
  obtain ⟨hv, -⟩ := exec_inv as
  have h' : (exec .new as).hist = (a ++ .stopCall t z :: b) ++ .stopRet t w :: c := by simp [h]
  rw [h', TmView.valid_append] at hv
  obtain ⟨hv1, hv2⟩ := hv
  have hcount := (TmView.run_counts hv1).1
  rw [TmView.valid_append] at hv1
  obtain ⟨hva, hvb⟩ := hv1
  have hac := (TmView.run_counts hva).2
  have hacalls : (TmView.new.run a).calls = 0 := by
    have hz : TmView.new.calls = 0 := rfl
    have : a.countP tmCall = a.countP tmRet := ha
    omega
  obtain ⟨w1, w2, w3⟩ := TmView.run_wf hva (by simp [TmView.new]) (fun _ => rfl) (fun _ => rfl)
  generalize hV : TmView.new.run a = V at *
  have hjn : V.joiner = none := by
    cases hj : V.joiner with
    | none => rfl
    | some u => have := w1 (by simp [hj]); omega
  have hrun : TmView.new.run (a ++ .stopCall t z :: b) = (V.upd (.stopCall t z)).run b := by
    rw [TmView.run_append, hV]; rfl
  rw [hrun] at hcount hv2
  cases hal : V.alive with
  | true =>
    have hu : V.upd (.stopCall t z) = { V with time := z, joiner := some t, calls := V.calls + 1 } := by
      simp [TmView.upd, hal, hjn]
    have hj := TmView.run_joiner (v := V.upd (.stopCall t z)) (t := t) (by rw [hu]) hb hr
    have hopn := (hv2.1.2.2.1 hj).1
    refine ⟨?_, TmView.run_dead hv2.2 (by
      generalize (V.upd (.stopCall t z)).run b = W at hj ⊢
      simp [TmView.upd, hj]) hc, ?_⟩
    · rw [hopn] at hcount
      simpa [NoTaskOpen, TmView.new] using hcount
    · have := TmView.run_after hvb.2 (by simp [hu]) (by simp [hu, w2 hjn]) hb
      omega
  | false =>
    have hu : V.upd (.stopCall t z) = { V with time := z, calls := V.calls + 1 } := by simp [TmView.upd, hal]
    have hd := TmView.run_dead (v := V.upd (.stopCall t z)) (l := b ++ .stopRet t w :: c)
      (TmView.valid_append.mpr ⟨hvb.2, hv2⟩) (by simp [hu, hal]) (by
        intro e he
        rcases List.mem_append.mp he with he | he
        · exact hb e he
        · rcases List.mem_cons.mp he with rfl | he
          · rfl
          · exact hc e he)
    have hb0 : b.countP tmBegins = 0 := List.countP_eq_zero.mpr fun e he => by simp [hd e (List.mem_append_left _ he)]
    have hopn : ((V.upd (.stopCall t z)).run b).opn = none := by
      have := (TmView.run_counts hvb.2).1
      have h0 : (V.upd (.stopCall t z)).opn = none := by rw [hu]; exact w3 hal
      rw [h0, hb0] at this
      cases hq : ((V.upd (.stopCall t z)).run b).opn with
      | none => rfl
      | some _ =>
        simp [hq] at this
        omega
    refine ⟨?_, fun e he => hd e (List.mem_append_right _ (List.mem_cons_of_mem _ he)), by omega⟩
    rw [hopn] at hcount
    simpa [NoTaskOpen, TmView.new] using hcount

/-- A run in which the timer is started, executes twice, is stopped, and is started again. -/
def tmDemo : List TmAct :=
  [.start 2, .main, .main, .tick, .tick, .timeout, .main, .main, .finish 0, .main, .main, .tick, .tick, .timeout, .main,
    .stop 1, .main, .notify, .finish 0, .main, .join, .start 5]

example : (exec .new tmDemo).hist =
    [.started 2 0, .taskBegin 2, .taskEnd 2 0, .stopCall 1 4, .taskBegin 4, .taskEnd 4 0, .stopRet 1 4, .started 5 4] := by
  decide +kernel

/-- The hypotheses of `C77_gap` and `C77_stop_partial` hold in this run. -/
example : (exec .new tmDemo).hist =
      [] ++ .started 2 0 :: [] ++ .taskBegin 2 :: [.taskEnd 2 0, .stopCall 1 4] ++ .taskBegin 4 ::
        [.taskEnd 4 0, .stopRet 1 4, .started 5 4] ∧
    (exec .new (tmDemo.take 21)).hist =
      [.started 2 0, .taskBegin 2, .taskEnd 2 0] ++ .stopCall 1 4 :: [.taskBegin 4, .taskEnd 4 0] ++ .stopRet 1 4 :: [] ∧
    NoStopOpen [.started 2 0, .taskBegin 2, .taskEnd 2 0] := by
  unfold NoStopOpen
  decide +kernel

/-- C77 does not hold without the restriction: a second thread that calls `stop` returns at once, while the task is being
executed, and a further task may begin after it has returned. -/
theorem C77_stop_violated : ∃ (as : List TmAct) (a : List TmEv) (t z w y : Nat) (c : List TmEv),
    (exec .new as).hist = a ++ .stopCall t z :: .stopRet t w :: .taskBegin y :: c :=
  ⟨[.start 0, .main, .main, .timeout, .main, .stop 1, .stop 2, .main], [.started 0 0, .stopCall 1 0], 2, 0, 0, 0, [],
    by decide +kernel⟩

/-! ## `stop` ends -/

/-- Steps the timer thread can make before it ends once `is_stop_` is set. -/
def toGo (s : TmSt) : Nat :=
  match s.pc with
  | .done => 0
  | .test => 1
  | .awake _ => 2
  | .task _ => 2
  | .asleep _ => 3
  | .calling => 3
  | .ready => 4

/-- A step of the timer thread. -/
def ofThread : TmAct → Bool
  | .main | .timeout | .spurious | .finish _ => true
  | _ => false

/-- C77: after `is_stop_` was set, every step of the timer thread brings it nearer to its end, whatever else happens does
not take it away, and the thread is held up only by the task that is being executed or by the rest of a waiting time. -/
theorem C77_stop_ends {s : TmSt} (hs : s.stop = true) :
    (∀ a s', s.step a = some s' → (∀ iv, a ≠ .start iv) → (s'.toGo ≤ s.toGo ∧ (ofThread a = true → s'.toGo < s.toGo))) ∧
    (s.toGo ≠ 0 → (∃ a s', ofThread a = true ∧ s.step a = some s' ∧ a ≠ .spurious) ∨
      ∃ d, s.pc = .asleep d ∧ (s.now : Int) < d) ∧
    (s.toGo = 0 → ∀ t, s.stopper = some (t, true) → ∃ s', s.step .join = some s' ∧ s'.hist = s.hist ++ [.stopRet t s.now]) := by
  refine ⟨?_, ?_, ?_⟩
  · intro a s' h hst
    cases a with
    | tick => simp only [step, Option.some.injEq] at h; subst h; simp [toGo, ofThread]
    | start iv =>
      exact absurd rfl (hst iv)
    | stop t =>
      simp only [step] at h
      split_ifs at h
      simp only [Option.some.injEq] at h
      subst h
      simp [toGo, ofThread]
    | notify =>
      simp only [step] at h
      split at h <;> simp only [Option.some.injEq, reduceCtorEq] at h <;> subst h <;> simp_all [toGo, ofThread]
    | join =>
      simp only [step] at h
      split at h <;> simp only [Option.some.injEq, reduceCtorEq] at h
      subst h
      simp_all [toGo, ofThread]
    | main =>
      simp only [step] at h
      split at h <;> simp only [Option.some.injEq, reduceCtorEq] at h <;> subst h <;> simp_all [toGo]
    | timeout =>
      simp only [step] at h
      split at h
      · split_ifs at h
        simp only [Option.some.injEq] at h
        subst h
        simp_all [toGo]
      · cases h
    | spurious =>
      simp only [step] at h
      split at h <;> simp only [Option.some.injEq, reduceCtorEq] at h
      subst h
      simp_all [toGo]
    | finish ms =>
      simp only [step] at h
      split at h <;> simp only [Option.some.injEq, reduceCtorEq] at h
      subst h
      simp_all [toGo]
    | free => simp only [step, Option.some.injEq] at h; subst h; simp [toGo, ofThread]
  · intro hg
    cases hp : s.pc with
    | done => simp [toGo, hp] at hg
    | task b => exact .inl ⟨.finish 0, _, rfl, by simp only [step, hp]; rfl, by simp⟩
    | asleep d =>
      by_cases hd : d ≤ s.now
      · exact .inl ⟨.timeout, _, rfl, by simp only [step, hp, hd, if_true]; rfl, by simp⟩
      · exact .inr ⟨d, rfl, by omega⟩
    | _ => exact .inl ⟨.main, _, rfl, by simp only [step, hp]; rfl, by simp⟩
  · intro hg t ht
    have hp : s.pc = .done := by cases hp : s.pc <;> simp [toGo, hp] at hg; rfl
    exact ⟨_, by simp only [step, ht, hp]; rfl, rfl⟩

theorem exec_append (s : TmSt) (as bs : List TmAct) : s.exec (as ++ bs) = (s.exec as).exec bs := by
  induction as generalizing s with
  | nil => rfl
  | cons a as ih => exact ih _

theorem exec_ticks (s : TmSt) (k : Nat) : s.exec (List.replicate k .tick) = { s with now := s.now + k } := by
  induction k generalizing s with
  | zero => rfl
  | succ k ih =>
    rw [List.replicate_succ]
    show exec ((s.step .tick).getD s) _ = _
    rw [ih]
    simp [step]
    omega

/-- C77 does not hold in this respect: `stop` does not end the waiting of the timer thread.  The notification is sent
without the mutex, and whatever the interval `n` there is an execution in which `stop` is called at once, no task is ever
executed, and at time `n - 1` the timer thread still sleeps: nothing but the clock (or a wake-up without a reason) can go
on, so `stop` returns after the whole interval. -/
theorem C77_delay_violated (n : Nat) (hn : 0 < n) : ∃ as : List TmAct,
    (exec .new as).hist = [.started n 0, .stopCall 1 0] ∧ (exec .new as).now = n - 1 ∧
    (exec .new as).pc = .asleep n ∧ (exec .new as).stopper = some (1, true) ∧
    ∀ a, (ofThread a = true ∨ a = .join ∨ a = .notify) → a ≠ .spurious → (exec .new as).step a = none := by
  refine ⟨[.start n, .main, .stop 1, .notify, .main] ++ List.replicate (n - 1) .tick, ?_⟩
  have h : exec .new ([.start n, .main, .stop 1, .notify, .main] ++ List.replicate (n - 1) .tick) =
      ⟨n - 1, true, n, n, .asleep n, some (1, true), [.started n 0, .stopCall 1 0]⟩ := by
    rw [exec_append, exec_ticks]
    simp [exec, step, new]
  rw [h]
  refine ⟨rfl, rfl, rfl, rfl, ?_⟩
  intro a ha hs
  cases a <;> simp_all [ofThread, step]
  omega

/-- C77: the user's object is deleted after a `stop` that was called while no other one was in progress: no task begins
afterwards. -/
theorem C77_freed_partial (as : List TmAct) {a b c d : List TmEv} {t z w : Nat}
    (h : (exec .new as).hist = a ++ .stopCall t z :: b ++ .stopRet t w :: c ++ .freed :: d) (ha : NoStopOpen a)
    (hb : ∀ e ∈ b, tmStarts e = false) (hr : ∀ e ∈ b, tmRets t e = false) (hc : ∀ e ∈ c, tmStarts e = false)
    (hd : ∀ e ∈ d, tmStarts e = false) : NoTaskOpen (a ++ .stopCall t z :: b) ∧ ∀ e ∈ d, tmBegins e = false := by
  have := C77_stop_partial as (c := c ++ .freed :: d) (by simpa using h) ha hb hr (by
    intro e he
    rcases List.mem_append.mp he with he | he
    · exact hc e he
    · rcases List.mem_cons.mp he with rfl | he
      · rfl
      · exact hd e he)
  exact ⟨this.1, fun e he => this.2.1 e (by simp [he])⟩

/-- C77 does not hold when a pipeline is deleted (`GPipelineFactory::remove`, `clear`) while it is initialised: the timer is
stopped by the destructor of the base class, after the user's part of the object is gone, and a task may begin in
between. -/
theorem C77_freed_violated : ∃ (as : List TmAct) (a : List TmEv) (z y w : Nat),
    (exec .new as).hist = a ++ [.freed, .stopCall 0 z, .taskBegin y, .taskEnd y 0, .stopRet 0 w] :=
  ⟨[.start 0, .main, .main, .timeout, .main, .free, .stop 0, .notify, .main, .finish 0, .main, .join], [.started 0 0], 0, 0,
    0, by decide +kernel⟩

end CGraph.TmSt
