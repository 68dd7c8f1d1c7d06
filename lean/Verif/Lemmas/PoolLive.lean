import Verif.Props.PoolRun

/-! # Infinite executions of the pool: fairness and what a worker reaches -/
namespace CGraph.PoolLive
open PoolSt

set_option maxHeartbeats 1000000

/-! ### infinite executions -/

/-- The states of an infinite schedule; impossible steps are skipped, as in `PoolSt.run`. -/
def trace (c : PoolCfg) (s0 : PoolSt) (σ : Nat → PAct) : Nat → PoolSt
  | 0 => s0
  | n + 1 => ((trace c s0 σ n).step c (σ n)).getD (trace c s0 σ n)

/-- A worker thread. -/
inductive Wk where
  /-- primary thread `i` -/
  | p (i : Int)
  /-- secondary thread `j` -/
  | s (j : Nat)

/-- Where the thread is. -/
def Wk.pc (s : PoolSt) : Wk → WPc
  | .p i => s.prim i
  | .s j => s.sec j

/-- A step of the thread. -/
def Wk.act : Wk → Bool → PAct
  | .p i, b => .prim i b
  | .s j, b => .sec j b

/-- The thread exists. -/
def Wk.here (c : PoolCfg) (s : PoolSt) : Wk → Prop
  | .p i => 0 ≤ i ∧ i < c.defaultSize
  | .s j => j < s.nsec

/-- `done_` of the thread. -/
def Wk.go (s : PoolSt) : Wk → Bool
  | .p i => s.pgo i
  | .s j => s.sgo j

/-- The queue of the thread is not held by a batch submission. -/
def Wk.free (s : PoolSt) : Wk → Prop
  | .p i => s.locked i = false
  | .s _ => True

/-- The operating system is fair: every thread is scheduled again and again, and a thread that tries a queue again
and again does not lose the race for its mutex for ever.  On an empty queue the oracle bit has no effect and may be
read as `true`. -/
structure Fair (c : PoolCfg) (s0 : PoolSt) (σ : Nat → PAct) : Prop where
  often : ∀ (w : Wk) (n : Nat), w.here c (trace c s0 σ n) → ∃ m, n ≤ m ∧ ∃ b, σ m = w.act b
  lock : ∀ (w : Wk) (P : WPc), P = .pop ∨ P = .pool ∨ P = .prio →
    (∀ n, ∃ m, n ≤ m ∧ w.pc (trace c s0 σ m) = P ∧ ∃ b, σ m = w.act b) →
    ∀ n, ∃ m, n ≤ m ∧ w.pc (trace c s0 σ m) = P ∧ σ m = w.act true ∧ w.free (trace c s0 σ m)

theorem trace_none {c : PoolCfg} {s0 : PoolSt} {σ : Nat → PAct} {n : Nat}
    (h : (trace c s0 σ n).step c (σ n) = none) : trace c s0 σ (n + 1) = trace c s0 σ n := by
  simp [trace, h]

theorem trace_some {c : PoolCfg} {s0 : PoolSt} {σ : Nat → PAct} {n : Nat} {s' : PoolSt}
    (h : (trace c s0 σ n).step c (σ n) = some s') : trace c s0 σ (n + 1) = s' := by
  simp [trace, h]

theorem trace_inv {c : PoolCfg} {s0 : PoolSt} (h0 : Inv c s0) (σ : Nat → PAct) (n : Nat) :
    Inv c (trace c s0 σ n) := by
  induction n with
  | zero => exact h0
  | succ n ih =>
    cases hs : (trace c s0 σ n).step c (σ n) with
    | none => rw [trace_none hs]; exact ih
    | some s' => rw [trace_some hs]; exact inv_step ih _ hs

/-! ### lists -/

theorem own_split (c : PoolCfg) (pre : Bool) (q : List Task) : (popOwn c pre q).2 ++ (popOwn c pre q).1 = q := by
  unfold popOwn
  split
  · unfold WsQueue.tryPopN
    split
    · simpa using WsQueue.popLoop_split q c.localBatch []
    · simp
  · unfold WsQueue.tryPop
    split
    · cases q <;> simp
    · simp

theorem steal_split (c : PoolCfg) (pre : Bool) (q : List Task) :
    (stealFrom c pre q).1 ++ (stealFrom c pre q).2.reverse = q := by
  unfold stealFrom
  split
  · unfold WsQueue.tryStealN
    split
    · have h := WsQueue.popLoop_split q.reverse c.stealBatch []
      simp only [WsQueue.stealLoop_eq, List.nil_append] at *
      have h2 := congrArg List.reverse h
      simpa using h2
    · simp
  · unfold WsQueue.trySteal
    split
    · cases h : q.getLast? with
      | none => simp
      | some x => simpa using List.dropLast_append_getLast? x h
    · simp

theorem shared_split (c : PoolCfg) (pre : Bool) (q : AQueue Task) :
    (popShared c pre q).2 ++ (popShared c pre q).1.queue = q.queue := by
  unfold popShared
  split
  · unfold AQueue.tryPopN
    split
    · simpa using AQueue.popLoop_split q.queue c.poolBatch []
    · simp
  · unfold AQueue.tryPop
    split
    · cases h : q.queue <;> simp [h]
    · simp

theorem timeout_split (pre : Bool) (q : AQueue Task) :
    (q.popWithTimeout pre).2.toList ++ (q.popWithTimeout pre).1.queue = q.queue := by
  unfold AQueue.popWithTimeout
  split
  · simp
  · cases h : q.queue with
    | nil => simp [h]
    | cons x r => simp only; split <;> simp [h]

theorem pq_split (pre : Bool) (q : PQueue Task) : ∃ rest, (PQueue.tryPop pre q).1 = rest ∧
    ∀ e ∈ q, e ∈ rest ∨ (PQueue.tryPop pre q).2 = some e := by
  refine ⟨_, rfl, fun e he => ?_⟩
  unfold PQueue.tryPop
  split
  · split
    · exact .inl he
    · rename_i m hm
      by_cases h : e = m
      · right; rw [h]
      · left; exact (List.mem_erase_of_ne h).2 he
  · exact .inl he

theorem front {t : Task} {r1 r2 p q : List Task} (h : r2 ++ r1 = p ++ t :: q) :
    t ∈ r2 ∨ ∃ p', r1 = p' ++ t :: q ∧ p'.length + r2.length = p.length := by
  rcases List.append_eq_append_iff.1 h with ⟨a, h1, h2⟩ | ⟨a, h1, h2⟩
  · exact .inr ⟨a, h2, by simp [h1]; omega⟩
  · cases a with
    | nil => exact .inr ⟨[], by simpa using h2.symm, by simp [h1]⟩
    | cons x a =>
      simp only [List.cons_append, List.cons.injEq] at h2
      left; rw [h1, h2.1]; simp

theorem back {t : Task} {r1 r2 p q : List Task} (h : r1 ++ r2 = p ++ t :: q) :
    t ∈ r2 ∨ ∃ q', r1 = p ++ t :: q' := by
  rcases List.append_eq_append_iff.1 h with ⟨a, h1, h2⟩ | ⟨a, h1, h2⟩
  · left; rw [h2]; simp
  · cases a with
    | nil => left; rw [List.nil_append] at h2; rw [← h2]; simp
    | cons x a =>
      simp only [List.cons_append, List.cons.injEq] at h2
      right; exact ⟨a, by rw [h1, h2.1]⟩

/-! ### steps of callers -/

/-- What callers change: queues only grow. -/
structure Ext (s s' : PoolSt) : Prop where
  prim : s'.prim = s.prim
  sec : s'.sec = s.sec
  nsec : s.nsec ≤ s'.nsec
  finished : s'.finished = s.finished
  wsq : ∀ i, ∃ x, s'.wsq i = s.wsq i ++ x
  shared : ∃ x, s'.shared.queue = s.shared.queue ++ x
  prio : ∀ e ∈ s.prioq, e ∈ s'.prioq

theorem ext_push {s : PoolSt} (k : Int) (t : Task) (sub : List Task) (lk : Int → Bool) (cur : Int) :
    Ext s { s.setWsq k (WsQueue.push (s.wsq k) t) with submitted := sub, locked := lk, cur := cur } where
  prim := rfl
  sec := rfl
  nsec := Nat.le_refl _
  finished := rfl
  wsq i := by
    by_cases h : i = k
    · subst h; exact ⟨[t], by simp [setWsq, WsQueue.push]⟩
    · exact ⟨[], by simp [setWsq, h]⟩
  shared := ⟨[], by simp [setWsq]⟩
  prio _ he := he

theorem ext_step {c : PoolCfg} {s s' : PoolSt} {a : PAct} (ha : a.isWorker = false)
    (hs : s.step c a = some s') : Ext s s' := by
  cases a with
  | submit t index running addr =>
    simp only [step] at hs
    split at hs
    · simp at hs
    · rename_i d cur' _
      cases d <;> simp only [deliver] at hs
      · split at hs
        · simp at hs
        · simp only [Option.some.injEq] at hs; subst hs; exact ext_push _ _ _ _ _
      · simp only [Option.some.injEq] at hs; subst hs
        exact ⟨rfl, rfl, Nat.le_refl _, rfl, fun i => ⟨[], by simp⟩, ⟨[], by simp⟩,
          fun e he => by simp [PQueue.push, he]⟩
      · simp only [Option.some.injEq] at hs; subst hs
        exact ⟨rfl, rfl, Nat.le_refl _, rfl, fun i => ⟨[], by simp⟩, ⟨[t], rfl⟩, fun e he => he⟩
  | submitPrio t p addr =>
    simp only [step, Option.some.injEq] at hs; subst hs
    exact ⟨rfl, rfl, Nat.le_refl _, rfl, fun i => ⟨[], by simp⟩, ⟨[], by simp⟩,
      fun e he => by simp [PQueue.push, he]⟩
  | pushTid t tid enable lockable =>
    simp only [step] at hs
    split at hs
    · split at hs
      · split at hs
        · simp at hs
        · simp only [Option.some.injEq] at hs; subst hs; exact ext_push _ _ _ _ _
      · split at hs
        · simp at hs
        · simp only [Option.some.injEq] at hs; subst hs; exact ext_push _ _ _ _ _
    · simp only [Option.some.injEq] at hs; subst hs
      exact ⟨rfl, rfl, Nat.le_refl _, rfl, fun i => ⟨[], by simp⟩, ⟨[t], rfl⟩, fun e he => he⟩
  | addSec =>
    simp only [step, Option.some.injEq] at hs; subst hs
    exact ⟨rfl, rfl, Nat.le_succ _, rfl, fun i => ⟨[], by simp⟩, ⟨[], by simp⟩, fun e he => he⟩
  | stop k =>
    simp only [step, Option.some.injEq] at hs; subst hs
    exact ⟨rfl, rfl, Nat.le_refl _, rfl, fun i => ⟨[], by simp⟩, ⟨[], by simp⟩, fun e he => he⟩
  | stopSec j =>
    simp only [step, Option.some.injEq] at hs; subst hs
    exact ⟨rfl, rfl, Nat.le_refl _, rfl, fun i => ⟨[], by simp⟩, ⟨[], by simp⟩, fun e he => he⟩
  | resetShared =>
    simp only [step, Option.some.injEq] at hs; subst hs
    exact ⟨rfl, rfl, Nat.le_refl _, rfl, fun i => ⟨[], by simp⟩, ⟨[], by simp [AQueue.reset]⟩, fun e he => he⟩
  | prim k pre => simp [PAct.isWorker] at ha
  | sec j pre => simp [PAct.isWorker] at ha

/-! ### steps of workers -/

/-- Somebody holds `t` and has not started it. -/
def Held (c : PoolCfg) (s : PoolSt) (t : Task) : Prop := ∃ w : Wk, w.here c s ∧ t ∈ (w.pc s).held

/-- What a step of one worker changes. -/
structure Wrk (c : PoolCfg) (s s' : PoolSt) (w : Wk) : Prop where
  here : w.here c s
  other : ∀ w' : Wk, w' ≠ w → w'.pc s' = w'.pc s
  nsec : s'.nsec = s.nsec
  finished : s'.finished = s.finished ∨ ∃ t ts, w.pc s = .busy t ts ∧ s'.finished = s.finished ++ [t]
  wsq : ∀ i, (∃ x, x ++ s'.wsq i = s.wsq i ∧ ∀ t ∈ x, t ∈ (w.pc s').held) ∨
    (∃ x, s'.wsq i ++ x = s.wsq i ∧ ∀ t ∈ x, t ∈ (w.pc s').held)
  shared : ∃ x, x ++ s'.shared.queue = s.shared.queue ∧ ∀ t ∈ x, t ∈ (w.pc s').held
  prio : ∀ e ∈ s.prioq, e ∈ s'.prioq ∨ e.val ∈ (w.pc s').held

theorem wrk_prim {c : PoolCfg} {s s' : PoolSt} {i : Int} {pre : Bool}
    (hs : s.step c (.prim i pre) = some s') : Wrk c s s' (.p i) := by
  simp only [step] at hs
  split at hs
  · rename_i hi
    have oth : ∀ (q : WPc) (r : PoolSt), r.prim = s.prim → r.sec = s.sec → ∀ w' : Wk, w' ≠ .p i →
        w'.pc (r.setPrim i q) = w'.pc s := by
      intro q r h1 h2 w' hw
      cases w' with
      | p k =>
        have : k ≠ i := fun h => hw (by rw [h])
        simp [Wk.pc, setPrim, this, h1]
      | s j => simp [Wk.pc, setPrim, h2]
    have me : ∀ (q : WPc) (r : PoolSt), (Wk.p i).pc (r.setPrim i q) = q := by
      intro q r; simp [Wk.pc, setPrim]
    have sw : ∀ (k : Int) (r1 r2 : List Task) (nx : WPc), (r1 ++ r2 = s.wsq k ∨ r2 ++ r1 = s.wsq k) →
        (∀ t ∈ r2, t ∈ nx.held) → ∀ j,
        (∃ x, x ++ ((s.setWsq k r1).setPrim i nx).wsq j = s.wsq j ∧ ∀ t ∈ x, t ∈ nx.held) ∨
        (∃ x, ((s.setWsq k r1).setPrim i nx).wsq j ++ x = s.wsq j ∧ ∀ t ∈ x, t ∈ nx.held) := by
      intro k r1 r2 nx h h' j
      by_cases hj : j = k
      · subst hj
        rcases h with h | h
        · exact .inr ⟨r2, by simpa [setWsq, setPrim] using h, h'⟩
        · exact .inl ⟨r2, by simpa [setWsq, setPrim] using h, h'⟩
      · exact .inl ⟨[], by simp [setWsq, setPrim, hj], by simp⟩
    unfold primStep at hs
    split at hs
    case h_1 hp =>
      simp only [Option.some.injEq] at hs; subst hs
      exact ⟨hi, oth _ _ rfl rfl, rfl, .inl rfl, fun j => .inl ⟨[], rfl, by simp⟩, ⟨[], rfl, by simp⟩,
        fun e he => .inl he⟩
    case h_2 hp =>
      simp only [Option.some.injEq] at hs; subst hs
      refine ⟨hi, oth _ _ rfl rfl, rfl, .inl rfl, ?_, ⟨[], rfl, by simp⟩, fun e he => .inl he⟩
      simp only [me]
      refine sw i _ (popOwn c (pre && !s.locked i) (s.wsq i)).2 _ (.inr (own_split _ _ _)) ?_
      intro t ht
      cases hr : (popOwn c (pre && !s.locked i) (s.wsq i)).2 with
      | nil => rw [hr] at ht; simp at ht
      | cons x r => rw [hr] at ht; simpa [WPc.held] using ht
    case h_3 hp =>
      simp only [Option.some.injEq] at hs; subst hs
      exact ⟨hi, oth _ _ rfl rfl, rfl, .inl rfl, fun j => .inl ⟨[], rfl, by simp⟩, ⟨[], rfl, by simp⟩,
        fun e he => .inl he⟩
    case h_4 k rest hp =>
      simp only [Option.some.injEq] at hs; subst hs
      refine ⟨hi, oth _ _ rfl rfl, rfl, .inl rfl, ?_, ⟨[], rfl, by simp⟩, fun e he => .inl he⟩
      simp only [me]
      refine sw k _ (stealFrom c (pre && !s.locked k) (s.wsq k)).2.reverse _ (.inl (steal_split _ _ _)) ?_
      intro t ht
      rw [List.mem_reverse] at ht
      cases hr : (stealFrom c (pre && !s.locked k) (s.wsq k)).2 with
      | nil => rw [hr] at ht; simp at ht
      | cons x r => rw [hr] at ht; simpa [WPc.held] using ht
    case h_5 hp =>
      simp only [Option.some.injEq] at hs; subst hs
      refine ⟨hi, oth _ _ rfl rfl, rfl, .inl rfl, fun j => .inl ⟨[], rfl, by simp⟩, ?_, fun e he => .inl he⟩
      simp only [me]
      refine ⟨(popShared c pre s.shared).2, shared_split _ _ _, ?_⟩
      intro t ht
      cases hr : (popShared c pre s.shared).2 with
      | nil => rw [hr] at ht; simp at ht
      | cons x r => rw [hr] at ht; simpa [WPc.held] using ht
    case h_6 => simp at hs
    case h_7 hp =>
      simp only [Option.some.injEq] at hs; subst hs
      exact ⟨hi, oth _ _ rfl rfl, rfl, .inl rfl, fun j => .inl ⟨[], rfl, by simp⟩, ⟨[], rfl, by simp⟩,
        fun e he => .inl he⟩
    case h_8 hp =>
      simp only [Option.some.injEq] at hs; subst hs
      exact ⟨hi, oth _ _ rfl rfl, rfl, .inl rfl, fun j => .inl ⟨[], rfl, by simp⟩, ⟨[], rfl, by simp⟩,
        fun e he => .inl he⟩
    case h_9 hp =>
      simp only [Option.some.injEq] at hs; subst hs
      exact ⟨hi, oth _ _ rfl rfl, rfl, .inl rfl, fun j => .inl ⟨[], rfl, by simp⟩, ⟨[], rfl, by simp⟩,
        fun e he => .inl he⟩
    case h_10 t ts hp =>
      simp only [Option.some.injEq] at hs; subst hs
      exact ⟨hi, oth _ _ rfl rfl, rfl, .inr ⟨t, ts, hp, rfl⟩, fun j => .inl ⟨[], rfl, by simp⟩, ⟨[], rfl, by simp⟩,
        fun e he => .inl he⟩
    case h_11 => simp at hs
  · simp at hs

theorem wrk_sec {c : PoolCfg} {s s' : PoolSt} {i : Nat} {pre : Bool}
    (hs : s.step c (.sec i pre) = some s') : Wrk c s s' (.s i) := by
  simp only [step] at hs
  split at hs
  · rename_i hi
    have oth : ∀ (q : WPc) (r : PoolSt), r.prim = s.prim → r.sec = s.sec → ∀ w' : Wk, w' ≠ .s i →
        w'.pc (r.setSec i q) = w'.pc s := by
      intro q r h1 h2 w' hw
      cases w' with
      | p k => simp [Wk.pc, setSec, h1]
      | s k =>
        have : k ≠ i := fun h => hw (by rw [h])
        simp [Wk.pc, setSec, this, h2]
    have me : ∀ (q : WPc) (r : PoolSt), (Wk.s i).pc (r.setSec i q) = q := by
      intro q r; simp [Wk.pc, setSec]
    unfold secStep at hs
    split at hs
    case h_1 hp =>
      simp only [Option.some.injEq] at hs; subst hs
      exact ⟨hi, oth _ _ rfl rfl, rfl, .inl rfl, fun j => .inl ⟨[], rfl, by simp⟩, ⟨[], rfl, by simp⟩,
        fun e he => .inl he⟩
    case h_2 => simp at hs
    case h_3 => simp at hs
    case h_4 hp =>
      simp only [Option.some.injEq] at hs; subst hs
      refine ⟨hi, oth _ _ rfl rfl, rfl, .inl rfl, fun j => .inl ⟨[], rfl, by simp⟩, ?_, fun e he => .inl he⟩
      simp only [me]
      refine ⟨(popShared c pre s.shared).2, shared_split _ _ _, ?_⟩
      intro t ht
      cases hr : (popShared c pre s.shared).2 with
      | nil => rw [hr] at ht; simp at ht
      | cons x r => rw [hr] at ht; simpa [WPc.held] using ht
    case h_5 hp =>
      simp only [Option.some.injEq] at hs; subst hs
      refine ⟨hi, oth _ _ rfl rfl, rfl, .inl rfl, fun j => .inl ⟨[], rfl, by simp⟩, ⟨[], rfl, by simp⟩, ?_⟩
      simp only [me]
      intro e he
      obtain ⟨rest, h1, h2⟩ := pq_split pre s.prioq
      rcases h2 e he with h | h
      · left; show e ∈ (PQueue.tryPop pre s.prioq).1; rw [h1]; exact h
      · right; rw [h]; simp [WPc.held]
    case h_6 hp =>
      simp only [Option.some.injEq] at hs; subst hs
      refine ⟨hi, oth _ _ rfl rfl, rfl, .inl rfl, fun j => .inl ⟨[], rfl, by simp⟩, ?_, fun e he => .inl he⟩
      simp only [me]
      refine ⟨(s.shared.popWithTimeout (!pre)).2.toList, timeout_split _ _, ?_⟩
      intro t ht
      cases hr : (s.shared.popWithTimeout (!pre)).2 with
      | none => rw [hr] at ht; simp at ht
      | some x => rw [hr] at ht; simpa [WPc.held] using ht
    case h_7 hp =>
      simp only [Option.some.injEq] at hs; subst hs
      exact ⟨hi, oth _ _ rfl rfl, rfl, .inl rfl, fun j => .inl ⟨[], rfl, by simp⟩, ⟨[], rfl, by simp⟩,
        fun e he => .inl he⟩
    case h_8 hp =>
      simp only [Option.some.injEq] at hs; subst hs
      exact ⟨hi, oth _ _ rfl rfl, rfl, .inl rfl, fun j => .inl ⟨[], rfl, by simp⟩, ⟨[], rfl, by simp⟩,
        fun e he => .inl he⟩
    case h_9 t ts hp =>
      simp only [Option.some.injEq] at hs; subst hs
      exact ⟨hi, oth _ _ rfl rfl, rfl, .inr ⟨t, ts, hp, rfl⟩, fun j => .inl ⟨[], rfl, by simp⟩, ⟨[], rfl, by simp⟩,
        fun e he => .inl he⟩
    case h_10 => simp at hs
  · simp at hs

/-- Every step is one of a caller or one of a worker. -/
theorem step_cases {c : PoolCfg} {s s' : PoolSt} {a : PAct} (hs : s.step c a = some s') :
    (Ext s s' ∧ ∀ (w : Wk) (b : Bool), a ≠ w.act b) ∨ ∃ w b, a = Wk.act w b ∧ Wrk c s s' w := by
  by_cases ha : a.isWorker = true
  · right
    cases a with
    | prim i pre => exact ⟨.p i, pre, rfl, wrk_prim hs⟩
    | sec j pre => exact ⟨.s j, pre, rfl, wrk_sec hs⟩
    | _ => simp [PAct.isWorker] at ha
  · left
    refine ⟨ext_step (by simpa using ha) hs, ?_⟩
    rintro w b rfl
    cases w <;> simp [Wk.act, PAct.isWorker] at ha

theorem act_inj {w w' : Wk} {b b' : Bool} (h : w.act b = w'.act b') : w = w' ∧ b = b' := by
  cases w <;> cases w' <;> simp_all [Wk.act]

section
variable {c : PoolCfg} {s0 : PoolSt} {σ : Nat → PAct}

theorem here_step {n : Nat} {w : Wk} (h : w.here c (trace c s0 σ n)) : w.here c (trace c s0 σ (n + 1)) := by
  cases w with
  | p i => exact h
  | s j =>
    cases hs : (trace c s0 σ n).step c (σ n) with
    | none => rw [trace_none hs]; exact h
    | some s' =>
      rw [trace_some hs]
      rcases step_cases hs with ⟨e, _⟩ | ⟨w, b, _, e⟩
      · exact Nat.lt_of_lt_of_le h e.nsec
      · show j < s'.nsec; rw [e.nsec]; exact h

theorem here_le {n m : Nat} {w : Wk} (hnm : n ≤ m) (h : w.here c (trace c s0 σ n)) :
    w.here c (trace c s0 σ m) := by
  induction m, hnm using Nat.le_induction with
  | base => exact h
  | succ m _ ih => exact here_step ih

theorem pc_other {n : Nat} {w : Wk} (h : ∀ b, σ n ≠ w.act b) :
    w.pc (trace c s0 σ (n + 1)) = w.pc (trace c s0 σ n) := by
  cases hs : (trace c s0 σ n).step c (σ n) with
  | none => rw [trace_none hs]
  | some s' =>
    rw [trace_some hs]
    rcases step_cases hs with ⟨e, _⟩ | ⟨w', b, ha, e⟩
    · cases w with
      | p i => exact congrFun e.prim i
      | s j => exact congrFun e.sec j
    · exact e.other w (fun hw => h b (by rw [ha, hw]))

theorem fin_step (n : Nat) : ∃ x, (trace c s0 σ (n + 1)).finished = (trace c s0 σ n).finished ++ x := by
  cases hs : (trace c s0 σ n).step c (σ n) with
  | none => rw [trace_none hs]; exact ⟨[], by simp⟩
  | some s' =>
    rw [trace_some hs]
    rcases step_cases hs with ⟨e, _⟩ | ⟨w', b, ha, e⟩
    · exact ⟨[], by simp [e.finished]⟩
    · rcases e.finished with h | ⟨t, ts, _, h⟩
      · exact ⟨[], by simp [h]⟩
      · exact ⟨[t], h⟩

theorem fin_le {n m : Nat} (h : n ≤ m) : ∃ x, (trace c s0 σ m).finished = (trace c s0 σ n).finished ++ x := by
  induction m, h using Nat.le_induction with
  | base => exact ⟨[], by simp⟩
  | succ m _ ih =>
    obtain ⟨x, hx⟩ := ih
    obtain ⟨y, hy⟩ := fin_step (c := c) (s0 := s0) (σ := σ) m
    exact ⟨x ++ y, by rw [hy, hx, List.append_assoc]⟩

/-- The next step of a thread finds it where it was. -/
theorem next (hf : Fair c s0 σ) {w : Wk} {n : Nat} (hw : w.here c (trace c s0 σ n)) :
    ∃ m, n ≤ m ∧ w.pc (trace c s0 σ m) = w.pc (trace c s0 σ n) ∧ ∃ b, σ m = w.act b := by
  obtain ⟨m, hm, hb⟩ := hf.often w n hw
  have key : ∀ (d n : Nat), n + d = m →
      ∃ m', n ≤ m' ∧ w.pc (trace c s0 σ m') = w.pc (trace c s0 σ n) ∧ ∃ b, σ m' = w.act b := by
    intro d
    induction d with
    | zero => intro n hn; exact ⟨n, Nat.le_refl _, rfl, by rw [← hn] at hb; exact hb⟩
    | succ d ih =>
      intro n hn
      by_cases h : ∃ b, σ n = w.act b
      · exact ⟨n, Nat.le_refl _, rfl, h⟩
      · obtain ⟨m', h1, h2, h3⟩ := ih (n + 1) (by omega)
        exact ⟨m', by omega, h2.trans (pc_other (fun b hb => h ⟨b, hb⟩)), h3⟩
  exact key (m - n) n (by omega)

/-! ### what follows in the thread -/

theorem tr_prim {i : Int} {n : Nat} {b : Bool} (hi : 0 ≤ i ∧ i < c.defaultSize) (ha : σ n = .prim i b) :
    trace c s0 σ (n + 1) = (primStep c (trace c s0 σ n) i b).getD (trace c s0 σ n) := by
  simp only [trace]
  rw [ha]; simp only [step]; rw [if_pos hi]

theorem tr_sec {j : Nat} {n : Nat} {b : Bool} (hj : j < (trace c s0 σ n).nsec) (ha : σ n = .sec j b) :
    trace c s0 σ (n + 1) = (secStep c (trace c s0 σ n) j b).getD (trace c s0 σ n) := by
  simp only [trace]
  rw [ha]; simp only [step]; rw [if_pos hj]

theorem step_hand {w : Wk} {n : Nat} {b : Bool} {t : Task} {ts : List Task} (hw : w.here c (trace c s0 σ n))
    (hp : w.pc (trace c s0 σ n) = .hand (t :: ts)) (ha : σ n = w.act b) :
    w.pc (trace c s0 σ (n + 1)) = .busy t ts := by
  cases w with
  | p i =>
    have hp' : (trace c s0 σ n).prim i = _ := hp
    rw [tr_prim hw ha]; simp [primStep, hp', Wk.pc, setPrim]
  | s j =>
    have hp' : (trace c s0 σ n).sec j = _ := hp
    rw [tr_sec hw ha]; simp [secStep, hp', Wk.pc, setSec]

theorem step_busy {w : Wk} {n : Nat} {b : Bool} {t : Task} {ts : List Task} (hw : w.here c (trace c s0 σ n))
    (hp : w.pc (trace c s0 σ n) = .busy t ts) (ha : σ n = w.act b) :
    w.pc (trace c s0 σ (n + 1)) = .hand ts ∧
      (trace c s0 σ (n + 1)).finished = (trace c s0 σ n).finished ++ [t] := by
  cases w with
  | p i =>
    have hp' : (trace c s0 σ n).prim i = _ := hp
    rw [tr_prim hw ha]; simp [primStep, hp', Wk.pc, setPrim]
  | s j =>
    have hp' : (trace c s0 σ n).sec j = _ := hp
    rw [tr_sec hw ha]; simp [secStep, hp', Wk.pc, setSec]

theorem step_done {w : Wk} {n : Nat} {b : Bool} (hw : w.here c (trace c s0 σ n))
    (hp : w.pc (trace c s0 σ n) = .hand []) (ha : σ n = w.act b) :
    w.pc (trace c s0 σ (n + 1)) = .loop := by
  cases w with
  | p i =>
    have hp' : (trace c s0 σ n).prim i = _ := hp
    rw [tr_prim hw ha]; simp [primStep, hp', Wk.pc, setPrim]
  | s j =>
    have hp' : (trace c s0 σ n).sec j = _ := hp
    rw [tr_sec hw ha]; simp [secStep, hp', Wk.pc, setSec]

/-- `t` ends at some step at or after `n`. -/
def Ends (c : PoolCfg) (s0 : PoolSt) (σ : Nat → PAct) (n : Nat) (t : Task) : Prop :=
  ∃ m, n ≤ m ∧ (trace c s0 σ (m + 1)).finished = (trace c s0 σ m).finished ++ [t]

theorem Ends.mono {n m : Nat} {t : Task} (h : n ≤ m) (e : Ends c s0 σ m t) : Ends c s0 σ n t := by
  obtain ⟨k, h1, h2⟩ := e
  exact ⟨k, by omega, h2⟩

theorem busy_ends (hf : Fair c s0 σ) {w : Wk} {n : Nat} (hw : w.here c (trace c s0 σ n)) {t : Task} {ts : List Task}
    (hp : w.pc (trace c s0 σ n) = .busy t ts) :
    Ends c s0 σ n t ∧ ∃ m, n ≤ m ∧ w.pc (trace c s0 σ m) = .hand ts := by
  obtain ⟨m, h1, h2, b, h3⟩ := next hf hw
  have := step_busy (here_le h1 hw) (h2.trans hp) h3
  exact ⟨⟨m, h1, this.2⟩, m + 1, by omega, this.1⟩

/-- A thread works off what it holds and comes back to the head of its loop. -/
theorem hand_loop (hf : Fair c s0 σ) {w : Wk} (ts : List Task) : ∀ {n : Nat}, w.here c (trace c s0 σ n) →
    w.pc (trace c s0 σ n) = .hand ts →
    (∀ t ∈ ts, Ends c s0 σ n t) ∧ ∃ m, n ≤ m ∧ w.pc (trace c s0 σ m) = .loop := by
  induction ts with
  | nil =>
    intro n hw hp
    obtain ⟨m, h1, h2, b, h3⟩ := next hf hw
    exact ⟨by simp, m + 1, by omega, step_done (here_le h1 hw) (h2.trans hp) h3⟩
  | cons t ts ih =>
    intro n hw hp
    obtain ⟨m, h1, h2, b, h3⟩ := next hf hw
    have h4 := step_hand (here_le h1 hw) (h2.trans hp) h3
    have hw' := here_le (σ := σ) (show n ≤ m + 1 by omega) hw
    obtain ⟨h5, m2, h6, h7⟩ := busy_ends hf hw' h4
    obtain ⟨h8, m3, h9, h10⟩ := ih (here_le h6 hw') h7
    refine ⟨?_, m3, by omega, h10⟩
    intro u hu
    rcases List.mem_cons.1 hu with rfl | hu
    · exact h5.mono (by omega)
    · exact (h8 u hu).mono (by omega)

theorem busy_loop (hf : Fair c s0 σ) {w : Wk} {n : Nat} (hw : w.here c (trace c s0 σ n)) {t : Task} {ts : List Task}
    (hp : w.pc (trace c s0 σ n) = .busy t ts) : ∃ m, n ≤ m ∧ w.pc (trace c s0 σ m) = .loop := by
  obtain ⟨_, m, h1, h2⟩ := busy_ends hf hw hp
  obtain ⟨_, m2, h3, h4⟩ := hand_loop hf ts (here_le h1 hw) h2
  exact ⟨m2, by omega, h4⟩

/-- A task in the hands of a thread is executed. -/
theorem held_ends (hf : Fair c s0 σ) {n : Nat} {t : Task} (h : Held c (trace c s0 σ n) t) : Ends c s0 σ n t := by
  obtain ⟨w, hw, ht⟩ := h
  cases hp : w.pc (trace c s0 σ n) with
  | hand ts => rw [hp] at ht; exact (hand_loop hf ts hw hp).1 t ht
  | busy u ts =>
    rw [hp] at ht
    obtain ⟨_, m, h1, h2⟩ := busy_ends hf hw hp
    exact ((hand_loop hf ts (here_le h1 hw) h2).1 t ht).mono h1
  | _ => rw [hp] at ht; simp [WPc.held] at ht

/-! ### primary threads -/

theorem ite_hand (l : List Task) (P : WPc) :
    (if l.isEmpty = true then P else .hand l) = P ∨ ∃ t ts, (if l.isEmpty = true then P else .hand l) = .hand (t :: ts) := by
  cases l with
  | nil => exact .inl rfl
  | cons x r => exact .inr ⟨x, r, rfl⟩

/-- Steps of a primary thread outside of its work. -/
theorem prim_quiet {i : Int} {n : Nat} {b : Bool} (hi : 0 ≤ i ∧ i < c.defaultSize) (ha : σ n = .prim i b) :
    ((trace c s0 σ n).prim i = .loop → (trace c s0 σ n).pgo i = true → (trace c s0 σ (n + 1)).prim i = .pop) ∧
    ((trace c s0 σ n).prim i = .wait → (trace c s0 σ (n + 1)).prim i = .loop) ∧
    ((trace c s0 σ n).prim i = .steal [] → (trace c s0 σ (n + 1)).prim i = .pool) ∧
    (∀ k rest, (trace c s0 σ n).prim i = .steal (k :: rest) → (trace c s0 σ (n + 1)).prim i = .steal rest ∨
      ∃ t ts, (trace c s0 σ (n + 1)).prim i = .hand (t :: ts)) ∧
    ((trace c s0 σ n).prim i = .pool → (trace c s0 σ (n + 1)).prim i = .wait ∨
      ∃ t ts, (trace c s0 σ (n + 1)).prim i = .hand (t :: ts)) ∧
    ((trace c s0 σ n).prim i = .pop → (trace c s0 σ (n + 1)).prim i = .steal (c.stealTargets i) ∨
      ∃ t ts, (trace c s0 σ (n + 1)).prim i = .hand (t :: ts)) := by
  refine ⟨fun hp hg => ?_, fun hp => ?_, fun hp => ?_, fun k rest hp => ?_, fun hp => ?_, fun hp => ?_⟩
  · rw [tr_prim hi ha]; simp only [primStep, hp, Option.getD_some]; simp [setPrim, hg]
  · rw [tr_prim hi ha]; simp only [primStep, hp, Option.getD_some]; simp [setPrim]
  · rw [tr_prim hi ha]; simp only [primStep, hp, Option.getD_some]; simp [setPrim]
  · rw [tr_prim hi ha]; simp only [primStep, hp, Option.getD_some]
    simp only [setPrim, if_true]
    exact ite_hand _ _
  · rw [tr_prim hi ha]; simp only [primStep, hp, Option.getD_some]
    simp only [setPrim, if_true]
    exact ite_hand _ _
  · rw [tr_prim hi ha]; simp only [primStep, hp, Option.getD_some]
    simp only [setPrim, if_true]
    exact ite_hand _ _

/-- Primary thread `i` is about to do step `P`, and does a step. -/
def At (c : PoolCfg) (s0 : PoolSt) (σ : Nat → PAct) (w : Wk) (P : WPc) (n m : Nat) : Prop :=
  n ≤ m ∧ w.pc (trace c s0 σ m) = P ∧ ∃ b, σ m = w.act b

theorem at_next (hf : Fair c s0 σ) {w : Wk} {P : WPc} {n : Nat} (hw : w.here c (trace c s0 σ n))
    (hp : w.pc (trace c s0 σ n) = P) : ∃ m, At c s0 σ w P n m := by
  obtain ⟨m, h1, h2, h3⟩ := next hf hw
  exact ⟨m, h1, h2.trans hp, h3⟩

theorem At.mono {w : Wk} {P : WPc} {n k m : Nat} (h : n ≤ k) (e : At c s0 σ w P k m) : At c s0 σ w P n m :=
  ⟨by have := e.1; omega, e.2⟩

theorem prim_loop_pop (hf : Fair c s0 σ) {i : Int} (hi : 0 ≤ i ∧ i < c.defaultSize)
    (hg : ∀ n, (trace c s0 σ n).pgo i = true) {n : Nat} (hp : (trace c s0 σ n).prim i = .loop) :
    ∃ m, At c s0 σ (.p i) .pop n m := by
  obtain ⟨m, h1, h2, b, h3⟩ := at_next hf (w := .p i) hi hp
  have h4 := (prim_quiet hi h3).1 h2 (hg m)
  obtain ⟨m2, h5⟩ := at_next hf (w := .p i) (n := m + 1) hi h4
  exact ⟨m2, h5.mono (by omega)⟩

theorem prim_steal_end (hf : Fair c s0 σ) {i : Int} (hi : 0 ≤ i ∧ i < c.defaultSize) (rest : List Int) :
    ∀ {n : Nat}, (trace c s0 σ n).prim i = .steal rest →
    (∃ m, At c s0 σ (.p i) .pool n m) ∨
      ∃ m t ts, n ≤ m ∧ (trace c s0 σ m).prim i = .hand (t :: ts) := by
  induction rest with
  | nil =>
    intro n hp
    obtain ⟨m, h1, h2, b, h3⟩ := at_next hf (w := .p i) hi hp
    have h4 := (prim_quiet hi h3).2.2.1 h2
    obtain ⟨m2, h5⟩ := at_next hf (w := .p i) (n := m + 1) hi h4
    exact .inl ⟨m2, h5.mono (by omega)⟩
  | cons k rest ih =>
    intro n hp
    obtain ⟨m, h1, h2, b, h3⟩ := at_next hf (w := .p i) hi hp
    rcases (prim_quiet hi h3).2.2.2.1 k rest h2 with h4 | ⟨t, ts, h4⟩
    · rcases ih h4 with ⟨m2, h5⟩ | ⟨m2, t, ts, h5, h6⟩
      · exact .inl ⟨m2, h5.mono (by omega)⟩
      · exact .inr ⟨m2, t, ts, by omega, h6⟩
    · exact .inr ⟨m + 1, t, ts, by omega, h4⟩

/-- A primary thread that is never told to stop looks into its own queue again and again. -/
theorem prim_to_pop (hf : Fair c s0 σ) (h0 : Inv c s0) {i : Int} (hi : 0 ≤ i ∧ i < c.defaultSize)
    (hg : ∀ n, (trace c s0 σ n).pgo i = true) (n : Nat) : ∃ m, At c s0 σ (.p i) .pop n m := by
  have viaHand : ∀ (k : Nat) (ts : List Task), n ≤ k → (trace c s0 σ k).prim i = .hand ts →
      ∃ m, At c s0 σ (.p i) .pop n m := by
    intro k ts hk hp
    obtain ⟨_, m, h1, h2⟩ := hand_loop hf (w := .p i) ts hi hp
    obtain ⟨m2, h3⟩ := prim_loop_pop hf hi hg h2
    exact ⟨m2, h3.mono (by omega)⟩
  have viaWait : ∀ (k : Nat), n ≤ k → (trace c s0 σ k).prim i = .wait → ∃ m, At c s0 σ (.p i) .pop n m := by
    intro k hk hp
    obtain ⟨m, h1, h2, b, h3⟩ := at_next hf (w := .p i) hi hp
    have h4 := (prim_quiet hi h3).2.1 h2
    obtain ⟨m2, h5⟩ := prim_loop_pop hf hi hg h4
    exact ⟨m2, h5.mono (by omega)⟩
  have viaPool : ∀ (k m : Nat), n ≤ k → At c s0 σ (.p i) .pool k m → ∃ m, At c s0 σ (.p i) .pop n m := by
    rintro k m hk ⟨h1, h2, b, h3⟩
    rcases (prim_quiet hi h3).2.2.2.2.1 h2 with h4 | ⟨t, ts, h4⟩
    · exact viaWait (m + 1) (by omega) h4
    · exact viaHand (m + 1) _ (by omega) h4
  cases hp : (trace c s0 σ n).prim i with
  | loop => exact prim_loop_pop hf hi hg hp
  | pop => exact at_next hf (w := .p i) hi hp
  | steal rest =>
    rcases prim_steal_end hf hi rest hp with ⟨m, h⟩ | ⟨m, t, ts, h1, h2⟩
    · exact viaPool n m (Nat.le_refl _) h
    · exact viaHand m _ h1 h2
  | pool =>
    obtain ⟨m, h⟩ := at_next hf (w := .p i) hi hp
    exact viaPool n m (Nat.le_refl _) h
  | prio => exact absurd hp ((trace_inv h0 σ n).pnp i)
  | wait => exact viaWait n (Nat.le_refl _) hp
  | hand ts => exact viaHand n ts (Nat.le_refl _) hp
  | busy t ts =>
    obtain ⟨m, h1, h2⟩ := busy_loop hf (w := .p i) hi hp
    obtain ⟨m2, h3⟩ := prim_loop_pop hf hi hg h2
    exact ⟨m2, h3.mono h1⟩
  | exited => have := (trace_inv h0 σ n).pex i hp; rw [hg n] at this; simp at this

/-! ### secondary threads -/

theorem sec_quiet {j : Nat} {n : Nat} {b : Bool} (hj : j < (trace c s0 σ n).nsec) (ha : σ n = .sec j b) :
    ((trace c s0 σ n).sec j = .loop → (trace c s0 σ n).sgo j = true → (trace c s0 σ (n + 1)).sec j = .pool) ∧
    ((trace c s0 σ n).sec j = .wait → (trace c s0 σ (n + 1)).sec j = .loop ∨
      ∃ t, (trace c s0 σ (n + 1)).sec j = .hand [t]) ∧
    ((trace c s0 σ n).sec j = .prio → (trace c s0 σ (n + 1)).sec j = .wait ∨
      ∃ t, (trace c s0 σ (n + 1)).sec j = .hand [t]) ∧
    ((trace c s0 σ n).sec j = .pool → (trace c s0 σ (n + 1)).sec j = .prio ∨
      ∃ t ts, (trace c s0 σ (n + 1)).sec j = .hand (t :: ts)) := by
  refine ⟨fun hp hg => ?_, fun hp => ?_, fun hp => ?_, fun hp => ?_⟩
  · rw [tr_sec hj ha]; simp only [secStep, hp, Option.getD_some]; simp [setSec, hg]
  · rw [tr_sec hj ha]; simp only [secStep, hp, Option.getD_some]
    simp only [setSec, if_true]
    split
    · exact .inl rfl
    · exact .inr ⟨_, rfl⟩
  · rw [tr_sec hj ha]; simp only [secStep, hp, Option.getD_some]
    simp only [setSec, if_true]
    split
    · exact .inl rfl
    · exact .inr ⟨_, rfl⟩
  · rw [tr_sec hj ha]; simp only [secStep, hp, Option.getD_some]
    simp only [setSec, if_true]
    exact ite_hand _ _

theorem sec_loop_pool (hf : Fair c s0 σ) {j : Nat} {n : Nat} (hj : j < (trace c s0 σ n).nsec)
    (hg : ∀ m, n ≤ m → (trace c s0 σ m).sgo j = true) (hp : (trace c s0 σ n).sec j = .loop) :
    ∃ m, At c s0 σ (.s j) .pool n m := by
  obtain ⟨m, h1, h2, b, h3⟩ := at_next hf (w := .s j) hj hp
  have hm : (Wk.s j).here c (trace c s0 σ m) := here_le h1 hj
  have h4 := (sec_quiet hm h3).1 h2 (hg m h1)
  obtain ⟨m2, h5⟩ := at_next hf (w := .s j) (n := m + 1) (here_step hm) h4
  exact ⟨m2, h5.mono (by omega)⟩

/-- A secondary thread that is never told to stop looks into the shared queue again and again. -/
theorem sec_to_pool (hf : Fair c s0 σ) (h0 : Inv c s0) {j : Nat} {n : Nat} (hj : j < (trace c s0 σ n).nsec)
    (hg : ∀ m, n ≤ m → (trace c s0 σ m).sgo j = true) : ∃ m, At c s0 σ (.s j) .pool n m := by
  have hh : ∀ k, n ≤ k → (Wk.s j).here c (trace c s0 σ k) := fun k hk => here_le (w := .s j) hk hj
  have viaLoop : ∀ (k : Nat), n ≤ k → (trace c s0 σ k).sec j = .loop → ∃ m, At c s0 σ (.s j) .pool n m := by
    intro k hk hp
    obtain ⟨m, h⟩ := sec_loop_pool hf (hh k hk) (fun m hm => hg m (by omega)) hp
    exact ⟨m, h.mono hk⟩
  have viaHand : ∀ (k : Nat) (ts : List Task), n ≤ k → (trace c s0 σ k).sec j = .hand ts →
      ∃ m, At c s0 σ (.s j) .pool n m := by
    intro k ts hk hp
    obtain ⟨_, m, h1, h2⟩ := hand_loop hf (w := .s j) ts (hh k hk) hp
    exact viaLoop m (by omega) h2
  have viaWait : ∀ (k : Nat), n ≤ k → (trace c s0 σ k).sec j = .wait → ∃ m, At c s0 σ (.s j) .pool n m := by
    intro k hk hp
    obtain ⟨m, h1, h2, b, h3⟩ := at_next hf (w := .s j) (hh k hk) hp
    rcases (sec_quiet (hh m (by omega)) h3).2.1 h2 with h4 | ⟨t, h4⟩
    · exact viaLoop (m + 1) (by omega) h4
    · exact viaHand (m + 1) _ (by omega) h4
  cases hp : (trace c s0 σ n).sec j with
  | loop => exact viaLoop n (Nat.le_refl _) hp
  | pop => exact absurd hp ((trace_inv h0 σ n).snp j).1
  | steal rest => exact absurd hp (((trace_inv h0 σ n).snp j).2 rest)
  | pool => exact at_next hf (w := .s j) hj hp
  | prio =>
    obtain ⟨m, h1, h2, b, h3⟩ := at_next hf (w := .s j) hj hp
    rcases (sec_quiet (hh m (by omega)) h3).2.2.1 h2 with h4 | ⟨t, h4⟩
    · exact viaWait (m + 1) (by omega) h4
    · exact viaHand (m + 1) _ (by omega) h4
  | wait => exact viaWait n (Nat.le_refl _) hp
  | hand ts => exact viaHand n ts (Nat.le_refl _) hp
  | busy t ts =>
    obtain ⟨m, h1, h2⟩ := busy_loop hf (w := .s j) hj hp
    exact viaLoop m h1 h2
  | exited => have := (trace_inv h0 σ n).sex j hp; rw [hg n (Nat.le_refl _)] at this; simp at this

/-! ### what becomes of a queued task -/

/-- In one step, a task of queue `i` stays with no more tasks in front of it, or somebody takes it. -/
theorem wsq_step {i : Int} {n : Nat} {t : Task} {p q : List Task} (h : (trace c s0 σ n).wsq i = p ++ t :: q) :
    Held c (trace c s0 σ (n + 1)) t ∨
      ∃ p' q', (trace c s0 σ (n + 1)).wsq i = p' ++ t :: q' ∧ p'.length ≤ p.length := by
  cases hs : (trace c s0 σ n).step c (σ n) with
  | none => rw [trace_none hs]; exact .inr ⟨p, q, h, Nat.le_refl _⟩
  | some s' =>
    rw [trace_some hs]
    rcases step_cases hs with ⟨e, _⟩ | ⟨w, b, _, e⟩
    · obtain ⟨x, hx⟩ := e.wsq i
      exact .inr ⟨p, q ++ x, by rw [hx, h]; simp, Nat.le_refl _⟩
    · have hw : w.here c s' := by
        have := here_step (σ := σ) e.here
        rwa [trace_some hs] at this
      rcases e.wsq i with ⟨x, h1, h2⟩ | ⟨x, h1, h2⟩
      · rw [h] at h1
        rcases front h1 with h3 | ⟨p', h3, h4⟩
        · exact .inl ⟨w, hw, h2 t h3⟩
        · exact .inr ⟨p', q, h3, by omega⟩
      · rw [h] at h1
        rcases back h1 with h3 | ⟨q', h3⟩
        · exact .inl ⟨w, hw, h2 t h3⟩
        · exact .inr ⟨p, q', h3, Nat.le_refl _⟩

theorem wsq_walk {i : Int} {n m : Nat} {t : Task} {p q : List Task} (hnm : n ≤ m)
    (h : (trace c s0 σ n).wsq i = p ++ t :: q) :
    (∃ k, n ≤ k ∧ Held c (trace c s0 σ k) t) ∨
      ∃ p' q', (trace c s0 σ m).wsq i = p' ++ t :: q' ∧ p'.length ≤ p.length := by
  induction m, hnm using Nat.le_induction with
  | base => exact .inr ⟨p, q, h, Nat.le_refl _⟩
  | succ m hm ih =>
    rcases ih with h1 | ⟨p', q', h1, h2⟩
    · exact .inl h1
    · rcases wsq_step h1 with h3 | ⟨p2, q2, h3, h4⟩
      · exact .inl ⟨m + 1, by omega, h3⟩
      · exact .inr ⟨p2, q2, h3, by omega⟩

theorem shared_step {n : Nat} {t : Task} {p q : List Task} (h : (trace c s0 σ n).shared.queue = p ++ t :: q) :
    Held c (trace c s0 σ (n + 1)) t ∨
      ∃ p' q', (trace c s0 σ (n + 1)).shared.queue = p' ++ t :: q' ∧ p'.length ≤ p.length := by
  cases hs : (trace c s0 σ n).step c (σ n) with
  | none => rw [trace_none hs]; exact .inr ⟨p, q, h, Nat.le_refl _⟩
  | some s' =>
    rw [trace_some hs]
    rcases step_cases hs with ⟨e, _⟩ | ⟨w, b, _, e⟩
    · obtain ⟨x, hx⟩ := e.shared
      exact .inr ⟨p, q ++ x, by rw [hx, h]; simp, Nat.le_refl _⟩
    · have hw : w.here c s' := by
        have := here_step (σ := σ) e.here
        rwa [trace_some hs] at this
      obtain ⟨x, h1, h2⟩ := e.shared
      rw [h] at h1
      rcases front h1 with h3 | ⟨p', h3, h4⟩
      · exact .inl ⟨w, hw, h2 t h3⟩
      · exact .inr ⟨p', q, h3, by omega⟩

theorem shared_walk {n m : Nat} {t : Task} {p q : List Task} (hnm : n ≤ m)
    (h : (trace c s0 σ n).shared.queue = p ++ t :: q) :
    (∃ k, n ≤ k ∧ Held c (trace c s0 σ k) t) ∨
      ∃ p' q', (trace c s0 σ m).shared.queue = p' ++ t :: q' ∧ p'.length ≤ p.length := by
  induction m, hnm using Nat.le_induction with
  | base => exact .inr ⟨p, q, h, Nat.le_refl _⟩
  | succ m hm ih =>
    rcases ih with h1 | ⟨p', q', h1, h2⟩
    · exact .inl h1
    · rcases shared_step h1 with h3 | ⟨p2, q2, h3, h4⟩
      · exact .inl ⟨m + 1, by omega, h3⟩
      · exact .inr ⟨p2, q2, h3, by omega⟩

theorem prio_walk {n m : Nat} {e : PqEntry Task} (hnm : n ≤ m) (h : e ∈ (trace c s0 σ n).prioq) :
    (∃ k, n ≤ k ∧ Held c (trace c s0 σ k) e.val) ∨ e ∈ (trace c s0 σ m).prioq := by
  induction m, hnm using Nat.le_induction with
  | base => exact .inr h
  | succ m hm ih =>
    rcases ih with h1 | h1
    · exact .inl h1
    · cases hs : (trace c s0 σ m).step c (σ m) with
      | none => rw [trace_none hs]; exact .inr h1
      | some s' =>
        rcases step_cases hs with ⟨x, _⟩ | ⟨w, b, _, x⟩
        · rw [trace_some hs]; exact .inr (x.prio e h1)
        · rcases x.prio e h1 with h2 | h2
          · rw [trace_some hs]; exact .inr h2
          · have hw := here_step (σ := σ) x.here
            exact .inl ⟨m + 1, by omega, w, hw, by rw [trace_some hs]; exact h2⟩

/-- **Own queue**: whoever holds it in the end, a task in the queue of a primary thread that keeps running is taken. -/
theorem own_held (hf : Fair c s0 σ) (h0 : Inv c s0) (hb : c.batch = true → c.localBatch ≠ 0) {i : Int}
    (hi : 0 ≤ i ∧ i < c.defaultSize) (hg : ∀ n, (trace c s0 σ n).pgo i = true) {t : Task} (d : Nat) :
    ∀ {n : Nat} {p q : List Task}, (trace c s0 σ n).wsq i = p ++ t :: q → p.length = d →
    ∃ m, n ≤ m ∧ Held c (trace c s0 σ m) t := by
  induction d using Nat.strong_induction_on with
  | _ d ih =>
    intro n p q h hd
    obtain ⟨m, h1, h2, h3, h4⟩ := hf.lock (.p i) .pop (.inl rfl) (prim_to_pop hf h0 hi hg) n
    rcases wsq_walk h1 h with h5 | ⟨p', q', h5, h6⟩
    · exact h5
    · have h2' : (trace c s0 σ m).prim i = _ := h2
      have ht := tr_prim (c := c) (s0 := s0) hi h3
      simp only [primStep, h2', Option.getD_some] at ht
      have hne : (trace c s0 σ m).wsq i ≠ [] := by rw [h5]; simp
      have hl : (true && !(trace c s0 σ m).locked i) = true := by
        rw [show (trace c s0 σ m).locked i = false from h4]; rfl
      obtain ⟨x, xs, hx⟩ := popOwn_ne hb hne
      have hsp := own_split c true ((trace c s0 σ m).wsq i)
      rw [hl] at ht
      rw [hx] at ht hsp
      have hpc : (trace c s0 σ (m + 1)).prim i = .hand (x :: xs) := by
        rw [ht]; simp [setPrim]
      have hq : (trace c s0 σ (m + 1)).wsq i = (popOwn c true ((trace c s0 σ m).wsq i)).1 := by
        rw [ht]; simp [setPrim, setWsq]
      rw [← hq] at hsp
      rw [show (trace c s0 σ m).wsq i = p' ++ t :: q' from h5] at hsp
      rcases front hsp with h7 | ⟨p2, h7, h8⟩
      · exact ⟨m + 1, by omega, .p i, hi, by rw [show (Wk.p i).pc _ = _ from hpc]; exact h7⟩
      · simp only [List.length_cons] at h8
        obtain ⟨m2, h9, h10⟩ := ih p2.length (by omega) h7 rfl
        exact ⟨m2, by omega, h10⟩

/-- A worker at `pool` that gets the mutex takes the oldest task of the shared queue. -/
theorem shared_take (hb : c.batch = true → 0 < c.poolBatch) {w : Wk} {m : Nat} (hw : w.here c (trace c s0 σ m))
    (h2 : w.pc (trace c s0 σ m) = .pool) (h3 : σ m = w.act true) {t : Task} {p q : List Task}
    (h5 : (trace c s0 σ m).shared.queue = p ++ t :: q) :
    Held c (trace c s0 σ (m + 1)) t ∨
      ∃ p' q', (trace c s0 σ (m + 1)).shared.queue = p' ++ t :: q' ∧ p'.length < p.length := by
  have hne : (trace c s0 σ m).shared.queue ≠ [] := by rw [h5]; simp
  obtain ⟨x, xs, hx⟩ := popShared_ne hb hne
  have hsp := shared_split c true (trace c s0 σ m).shared
  have key : w.pc (trace c s0 σ (m + 1)) = .hand (x :: xs) ∧
      (trace c s0 σ (m + 1)).shared = (popShared c true (trace c s0 σ m).shared).1 := by
    cases w with
    | p i =>
      have h2' : (trace c s0 σ m).prim i = _ := h2
      have ht := tr_prim (c := c) (s0 := s0) hw h3
      simp only [primStep, h2', Option.getD_some] at ht
      rw [hx] at ht
      rw [ht]; simp [Wk.pc, setPrim]
    | s j =>
      have h2' : (trace c s0 σ m).sec j = _ := h2
      have ht := tr_sec (c := c) (s0 := s0) hw h3
      simp only [secStep, h2', Option.getD_some] at ht
      rw [hx] at ht
      rw [ht]; simp [Wk.pc, setSec]
  rw [← key.2, hx, h5] at hsp
  rcases front hsp with h7 | ⟨p2, h7, h8⟩
  · exact .inl ⟨w, here_step hw, by rw [key.1]; exact h7⟩
  · exact .inr ⟨p2, q, h7, by simp only [List.length_cons] at h8; omega⟩

/-- **Shared queue**: with a thread that looks there again and again, a task in the shared queue is taken. -/
theorem shared_held (hf : Fair c s0 σ) (hb : c.batch = true → 0 < c.poolBatch) {w : Wk} {t : Task} (d : Nat) :
    ∀ {n : Nat} {p q : List Task}, w.here c (trace c s0 σ n) →
    (∀ k, ∃ m, At c s0 σ w .pool k m) →
    (trace c s0 σ n).shared.queue = p ++ t :: q → p.length = d →
    ∃ m, n ≤ m ∧ Held c (trace c s0 σ m) t := by
  induction d using Nat.strong_induction_on with
  | _ d ih =>
    intro n p q hw hat h hd
    obtain ⟨m, h1, h2, h3, h4⟩ := hf.lock w .pool (.inr (.inl rfl)) hat n
    rcases shared_walk h1 h with h5 | ⟨p', q', h5, h6⟩
    · exact h5
    · rcases shared_take hb (here_le h1 hw) h2 h3 h5 with h7 | ⟨p2, q2, h7, h8⟩
      · exact ⟨m + 1, by omega, h7⟩
      · obtain ⟨m2, h9, h10⟩ := ih p2.length (by omega) (here_le (by omega) hw) hat h7 rfl
        exact ⟨m2, by omega, h10⟩

end
end CGraph.PoolLive
