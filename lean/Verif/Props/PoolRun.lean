import Verif.Lemmas.PoolRun
import Mathlib.Data.List.Perm.Subperm
import Mathlib.Data.List.Count

/-! # C15, C20, C68: executing tasks in the thread pool -/
namespace CGraph
open PoolSt

set_option maxHeartbeats 1000000

/-! ## C15 -/

/-- **C15**, safety: under every interleaving of callers, primary and secondary workers, batches, steals and
stopping threads, every task is executed at most as often as it was submitted (at most once if it was submitted
once), and a task that was not executed is in exactly one place: a queue or the hands of one worker. -/
theorem C15_at_most_once (c : PoolCfg) (k : Nat) (l : List PAct) (t : Task) :
    let s := run c (init k) l
    s.started.count t ≤ s.submitted.count t ∧
    s.finished.count t ≤ s.started.count t ∧
    s.submitted.count t = inQ c s t + held c s t + s.started.count t := by
  have h := inv_run (c := c) k l
  refine ⟨?_, ?_, h.cons t⟩
  · have := h.cons t; omega
  · have := h.fin t; omega

/-- What is needed for tasks to be run: there is a primary thread, no stop was requested, no batch submission is half
done, batches are not empty, and if the priority queue is used there is a secondary thread that was not told to
stop. -/
structure PoolSt.Alive (c : PoolCfg) (s : PoolSt) : Prop where
  one : 0 < c.defaultSize
  go : ∀ i, s.pgo i = true
  unlocked : ∀ i, s.locked i = false
  batch : c.batch = true → c.localBatch ≠ 0 ∧ 0 < c.poolBatch
  prio : s.prioq = [] ∨ ∃ j, j < s.nsec ∧ s.sgo j = true

/-- Worker steps. -/
def PAct.isWorker : PAct → Bool
  | .prim _ _ => true
  | .sec _ _ => true
  | _ => false

/-- Nothing but queues, places and the record of executions changes. -/
structure PoolSt.Frame (s s' : PoolSt) : Prop where
  pgo : s'.pgo = s.pgo
  sgo : s'.sgo = s.sgo
  locked : s'.locked = s.locked
  nsec : s'.nsec = s.nsec
  submitted : s'.submitted = s.submitted
  prio : s.prioq = [] → s'.prioq = []

theorem PoolSt.Frame.refl (s : PoolSt) : Frame s s := ⟨rfl, rfl, rfl, rfl, rfl, id⟩

theorem PoolSt.Frame.trans {a b c : PoolSt} (h : Frame a b) (h' : Frame b c) : Frame a c :=
  ⟨h'.pgo.trans h.pgo, h'.sgo.trans h.sgo, h'.locked.trans h.locked, h'.nsec.trans h.nsec,
    h'.submitted.trans h.submitted, fun e => h'.prio (h.prio e)⟩

theorem PoolSt.frame_step {c : PoolCfg} {s s' : PoolSt} {a : PAct} (ha : a.isWorker = true)
    (hs : s.step c a = some s') : Frame s s' := by
  cases a with
  | prim i pre =>
    simp only [step] at hs
    split at hs
    · unfold primStep at hs
      split at hs <;> simp only [Option.some.injEq, reduceCtorEq] at hs <;> subst hs <;>
        exact ⟨rfl, rfl, rfl, rfl, rfl, id⟩
    · simp at hs
  | sec j pre =>
    simp only [step] at hs
    split at hs
    · unfold secStep at hs
      split at hs <;> simp only [Option.some.injEq, reduceCtorEq] at hs <;> subst hs
      all_goals first
        | exact ⟨rfl, rfl, rfl, rfl, rfl, id⟩
        | (refine ⟨rfl, rfl, rfl, rfl, rfl, ?_⟩
           intro he
           simp [he, setSec, PQueue.tryPop, PQueue.top])
    · simp at hs
  | _ => simp [PAct.isWorker] at ha

theorem PoolSt.frame_run {c : PoolCfg} {l : List PAct} (hl : ∀ a ∈ l, a.isWorker = true) (s : PoolSt) :
    Frame s (run c s l) := by
  unfold run
  induction l generalizing s with
  | nil => exact .refl s
  | cons a l ih =>
    simp only [List.foldl_cons]
    have h1 : Frame s ((s.step c a).getD s) := by
      cases h : s.step c a with
      | none => exact .refl s
      | some s' => exact frame_step (hl a (by simp)) h
    exact h1.trans (ih (fun b hb => hl b (by simp [hb])) _)

theorem PoolSt.Alive.frame {c : PoolCfg} {s s' : PoolSt} (h : Alive c s) (f : Frame s s') : Alive c s' where
  one := h.one
  go i := by rw [f.pgo]; exact h.go i
  unlocked i := by rw [f.locked]; exact h.unlocked i
  batch := h.batch
  prio := by
    rcases h.prio with h | ⟨j, h1, h2⟩
    · exact .inl (f.prio h)
    · exact .inr ⟨j, by rw [f.nsec]; exact h1, by rw [f.sgo]; exact h2⟩

theorem PoolSt.inv_run' {c : PoolCfg} {s : PoolSt} (h : Inv c s) (l : List PAct) : Inv c (run c s l) := by
  unfold run
  induction l generalizing s with
  | nil => exact h
  | cons a l ih =>
    simp only [List.foldl_cons]
    apply ih
    cases ha : s.step c a with
    | none => simpa [ha] using h
    | some s' => simpa [ha] using inv_step h a ha

theorem PoolSt.run_append (c : PoolCfg) (s : PoolSt) (l l' : List PAct) :
    run c s (l ++ l') = run c (run c s l) l' := by
  simp [run, List.foldl_append]

theorem PoolSt.run_cons {c : PoolCfg} {s s' : PoolSt} {a : PAct} (h : s.step c a = some s') (l : List PAct) :
    run c s (a :: l) = run c s' l := by
  simp [run, h]

/-- A number of worker steps that finish one more task. -/
def PoolSt.CanFinishOne (c : PoolCfg) (s : PoolSt) : Prop :=
  ∃ l : List PAct, (∀ a ∈ l, a.isWorker = true) ∧ (run c s l).finished.length = s.finished.length + 1

/-- After worker steps that finish nothing. -/
theorem PoolSt.CanFinishOne.after {c : PoolCfg} {s s' : PoolSt} {l : List PAct} (hl : ∀ a ∈ l, a.isWorker = true)
    (hr : run c s l = s') (hf : s'.finished = s.finished) (h : CanFinishOne c s') : CanFinishOne c s := by
  obtain ⟨l', hl', he⟩ := h
  refine ⟨l ++ l', ?_, ?_⟩
  · intro a ha
    rcases List.mem_append.1 ha with ha | ha
    · exact hl a ha
    · exact hl' a ha
  · rw [run_append, hr, he, hf]

theorem PoolSt.finish_prim_busy {c : PoolCfg} {s : PoolSt} {i : Int} (hi : 0 ≤ i ∧ i < c.defaultSize) {t ts}
    (hp : s.prim i = .busy t ts) : CanFinishOne c s := by
  refine ⟨[.prim i true], by simp [PAct.isWorker], ?_⟩
  simp [run, step, hi, primStep, hp, setPrim]

theorem PoolSt.finish_prim_hand {c : PoolCfg} {s : PoolSt} {i : Int} (hi : 0 ≤ i ∧ i < c.defaultSize) {t ts}
    (hp : s.prim i = .hand (t :: ts)) : CanFinishOne c s := by
  refine .after (l := [.prim i true]) (s' := ({ s with started := s.started ++ [t] } : PoolSt).setPrim i (.busy t ts))
    (by simp [PAct.isWorker]) (by simp [run, step, hi, primStep, hp]) rfl ?_
  exact finish_prim_busy hi (t := t) (ts := ts) (by simp [setPrim])

theorem PoolSt.finish_sec_busy {c : PoolCfg} {s : PoolSt} {j : Nat} (hj : j < s.nsec) {t ts}
    (hp : s.sec j = .busy t ts) : CanFinishOne c s := by
  refine ⟨[.sec j true], by simp [PAct.isWorker], ?_⟩
  simp [run, step, hj, secStep, hp, setSec]

theorem PoolSt.finish_sec_hand {c : PoolCfg} {s : PoolSt} {j : Nat} (hj : j < s.nsec) {t ts}
    (hp : s.sec j = .hand (t :: ts)) : CanFinishOne c s := by
  refine .after (l := [.sec j true]) (s' := ({ s with started := s.started ++ [t] } : PoolSt).setSec j (.busy t ts))
    (by simp [PAct.isWorker]) (by simp [run, step, hj, secStep, hp]) rfl ?_
  exact finish_sec_busy (by simpa [setSec] using hj) (t := t) (ts := ts) (by simp [setSec])

theorem PoolSt.setPrim_setPrim (s : PoolSt) (i : Int) (p q : WPc) : (s.setPrim i p).setPrim i q = s.setPrim i q := by
  simp only [setPrim, PoolSt.mk.injEq, true_and, and_true]
  funext k; split <;> rfl

theorem PoolSt.setSec_setSec (s : PoolSt) (i : Nat) (p q : WPc) : (s.setSec i p).setSec i q = s.setSec i q := by
  simp only [setSec, PoolSt.mk.injEq, true_and, and_true]
  funext k; split <;> rfl

theorem PoolSt.setWsq_self (s : PoolSt) (i : Int) : s.setWsq i (s.wsq i) = s := by
  cases s
  simp only [setWsq, PoolSt.mk.injEq, and_true]
  funext k; split
  · subst k; rfl
  · rfl

theorem PoolSt.setPrim_self (s : PoolSt) (i : Int) {p : WPc} (h : s.prim i = p) : s.setPrim i p = s := by
  subst h
  cases s
  simp only [setPrim, PoolSt.mk.injEq, true_and, and_true]
  funext k; split
  · subst k; rfl
  · rfl

theorem PoolSt.setSec_self (s : PoolSt) (i : Nat) {p : WPc} (h : s.sec i = p) : s.setSec i p = s := by
  subst h
  cases s
  simp only [setSec, PoolSt.mk.injEq, true_and, and_true]
  funext k; split
  · subst k; rfl
  · rfl

/-- `s` can go to `s'` with worker steps. -/
def PoolSt.Reach (c : PoolCfg) (s s' : PoolSt) : Prop :=
  ∃ l : List PAct, (∀ a ∈ l, a.isWorker = true) ∧ run c s l = s'

theorem PoolSt.Reach.refl (c : PoolCfg) (s : PoolSt) : Reach c s s := ⟨[], by simp, rfl⟩

theorem PoolSt.Reach.trans {c : PoolCfg} {s s' s'' : PoolSt} (h : Reach c s s') (h' : Reach c s' s'') :
    Reach c s s'' := by
  obtain ⟨l, hl, he⟩ := h
  obtain ⟨l', hl', he'⟩ := h'
  refine ⟨l ++ l', ?_, by rw [run_append, he, he']⟩
  intro a ha
  rcases List.mem_append.1 ha with ha | ha
  · exact hl a ha
  · exact hl' a ha

theorem PoolSt.Reach.single {c : PoolCfg} {s s' : PoolSt} (a : PAct) (ha : a.isWorker = true)
    (h : s.step c a = some s') : Reach c s s' := ⟨[a], by simpa using ha, by simp [run, h]⟩

theorem PoolSt.Reach.finish {c : PoolCfg} {s s' : PoolSt} (h : Reach c s s') (hf : s'.finished = s.finished)
    (h' : CanFinishOne c s') : CanFinishOne c s := by
  obtain ⟨l, hl, he⟩ := h
  exact .after hl he hf h'

theorem PoolSt.reach_steal_pool (c : PoolCfg) (i : Int) (hi : 0 ≤ i ∧ i < c.defaultSize) (rest : List Int) :
    ∀ s : PoolSt, Reach c (s.setPrim i (.steal rest)) (s.setPrim i .pool) := by
  induction rest with
  | nil =>
    intro s
    refine .single (.prim i false) rfl ?_
    simp only [step, hi, and_self, if_true, primStep]
    have : (s.setPrim i (.steal [])).prim i = .steal [] := by simp [setPrim]
    rw [this]
    simp [setPrim_setPrim]
  | cons k rest ih =>
    intro s
    refine .trans (.single (.prim i false) rfl ?_) (ih s)
    simp only [step, hi, and_self, if_true, primStep]
    have : (s.setPrim i (.steal (k :: rest))).prim i = .steal (k :: rest) := by simp [setPrim]
    rw [this]
    have h2 : stealFrom c (false && !(s.setPrim i (.steal (k :: rest))).locked k)
        ((s.setPrim i (.steal (k :: rest))).wsq k) = ((s.setPrim i (.steal (k :: rest))).wsq k, []) := by
      simp [stealFrom, WsQueue.tryStealN, WsQueue.trySteal]
    simp only [h2]
    simp [setWsq_self, setPrim_setPrim]

theorem PoolSt.reach_pool_loop (c : PoolCfg) (i : Int) (hi : 0 ≤ i ∧ i < c.defaultSize) (s : PoolSt) :
    Reach c (s.setPrim i .pool) (s.setPrim i .loop) := by
  have h1 : Reach c (s.setPrim i .pool) (s.setPrim i .wait) := by
    refine .single (.prim i false) rfl ?_
    have : (s.setPrim i .pool).prim i = .pool := by simp [setPrim]
    simp only [step, hi, and_self, if_true, primStep]
    rw [this]
    have h2 : popShared c false (s.setPrim i .pool).shared = ((s.setPrim i .pool).shared, []) := by
      simp [popShared, AQueue.tryPopN, AQueue.tryPop]
    rw [h2]
    exact congrArg some (setPrim_setPrim s i .pool .wait)
  have h2 : Reach c (s.setPrim i .wait) (s.setPrim i .loop) := by
    refine .single (.prim i false) rfl ?_
    have : (s.setPrim i .wait).prim i = .wait := by simp [setPrim]
    simp only [step, hi, and_self, if_true, primStep]
    rw [this]
    simp [setPrim_setPrim]
  exact h1.trans h2

theorem PoolSt.reach_loop_pop {c : PoolCfg} {i : Int} (hi : 0 ≤ i ∧ i < c.defaultSize) {s : PoolSt}
    (hg : s.pgo i = true) : Reach c (s.setPrim i .loop) (s.setPrim i .pop) := by
  refine .single (.prim i false) rfl ?_
  have : (s.setPrim i .loop).prim i = .loop := by simp [setPrim]
  simp only [step, hi, and_self, if_true, primStep]
  rw [this]
  have h2 : (s.setPrim i .loop).pgo i = true := hg
  simp [h2, setPrim_setPrim]

theorem PoolSt.reach_pop_pool (c : PoolCfg) {i : Int} (hi : 0 ≤ i ∧ i < c.defaultSize) (s : PoolSt) :
    Reach c (s.setPrim i .pop) (s.setPrim i .pool) := by
  refine .trans (.single (.prim i false) rfl ?_) (reach_steal_pool c i hi (c.stealTargets i) s)
  simp only [step, hi, and_self, if_true, primStep]
  have : (s.setPrim i .pop).prim i = .pop := by simp [setPrim]
  rw [this]
  have h2 : popOwn c (false && !(s.setPrim i .pop).locked i) ((s.setPrim i .pop).wsq i) =
      ((s.setPrim i .pop).wsq i, []) := by
    simp [popOwn, WsQueue.tryPopN, WsQueue.tryPop]
  rw [h2]
  simp [setWsq_self, setPrim_setPrim]

/-- A primary worker that is not stopped either has a task at hand or can go to its own queue without touching
anything. -/
theorem PoolSt.prim_to_pop {c : PoolCfg} {s : PoolSt} (hI : Inv c s) (hA : Alive c s) {i : Int}
    (hi : 0 ≤ i ∧ i < c.defaultSize) : CanFinishOne c s ∨ Reach c s (s.setPrim i .pop) := by
  have hlp := reach_loop_pop (c := c) hi (hA.go i)
  cases hp : s.prim i with
  | loop => right; rwa [setPrim_self s i hp] at hlp
  | pop => right; rw [setPrim_self s i hp]; exact .refl c s
  | steal rest =>
    right
    have h := (reach_steal_pool c i hi rest s).trans ((reach_pool_loop c i hi s).trans hlp)
    rwa [setPrim_self s i hp] at h
  | pool =>
    right
    have h := (reach_pool_loop c i hi s).trans hlp
    rwa [setPrim_self s i hp] at h
  | prio => exact absurd hp (hI.pnp i)
  | wait =>
    right
    refine .trans (.single (.prim i false) rfl ?_) hlp
    simp [step, hi, primStep, hp]
  | hand ts =>
    cases ts with
    | nil =>
      right
      refine .trans (.single (.prim i false) rfl ?_) hlp
      simp [step, hi, primStep, hp]
    | cons t ts => left; exact finish_prim_hand hi hp
  | busy t ts => left; exact finish_prim_busy hi hp
  | exited => have := hI.pex i hp; rw [hA.go i] at this; simp at this

theorem PoolSt.popOwn_ne {c : PoolCfg} (hb : c.batch = true → c.localBatch ≠ 0) {q : List Task} (hq : q ≠ []) :
    ∃ t ts, (popOwn c true q).2 = t :: ts := by
  obtain ⟨x, q, rfl⟩ := List.exists_cons_of_ne_nil hq
  unfold popOwn
  split
  · rename_i h
    have hn := hb h
    rcases Int.lt_or_lt_of_ne hn with h0 | h0
    · exact ⟨x, q, by simp [WsQueue.tryPopN, WsQueue.popLoop_neg _ _ h0]⟩
    · obtain ⟨n, hn'⟩ := Int.eq_ofNat_of_zero_le (Int.le_of_lt h0)
      rw [hn'] at h0 ⊢
      refine ⟨x, q.take (n - 1), ?_⟩
      simp only [WsQueue.tryPopN, if_true]
      rw [WsQueue.popLoop_nat]
      obtain ⟨m, rfl⟩ : ∃ m, n = m + 1 := ⟨n - 1, by omega⟩
      simp
  · exact ⟨x, [], by simp [WsQueue.tryPop]⟩

theorem PoolSt.popShared_ne {c : PoolCfg} (hb : c.batch = true → 0 < c.poolBatch) {q : AQueue Task}
    (hq : q.queue ≠ []) : ∃ t ts, (popShared c true q).2 = t :: ts := by
  obtain ⟨x, r, he⟩ := List.exists_cons_of_ne_nil hq
  unfold popShared
  split
  · rename_i h
    have hn := hb h
    have key := AQueue.popLoop_split r (c.poolBatch - 1) [x]
    have hpre : ∀ (r : List Task) (n : Int) (acc : List Task), ∃ z, (AQueue.popLoop r n acc).2 = acc ++ z := by
      intro r
      induction r with
      | nil => intro n acc; exact ⟨[], by simp [AQueue.popLoop]⟩
      | cons y r ih =>
        intro n acc
        unfold AQueue.popLoop
        split
        · obtain ⟨z, hz⟩ := ih (n - 1) (acc ++ [y])
          exact ⟨y :: z, by rw [hz]; simp⟩
        · exact ⟨[], by simp⟩
    obtain ⟨z, hz⟩ := hpre r (c.poolBatch - 1) ([] ++ [x])
    refine ⟨x, z, ?_⟩
    simp only [AQueue.tryPopN, if_true, he]
    unfold AQueue.popLoop
    rw [if_pos (by omega), hz]
    rfl
  · exact ⟨x, [], by simp [AQueue.tryPop, he]⟩

/-- A task waiting in the queue of a primary thread can be run. -/
theorem PoolSt.finish_wsq {c : PoolCfg} {s : PoolSt} (hI : Inv c s) (hA : Alive c s) {i : Int}
    (hi : 0 ≤ i ∧ i < c.defaultSize) (hq : s.wsq i ≠ []) : CanFinishOne c s := by
  rcases prim_to_pop hI hA hi with h | h
  · exact h
  · refine h.finish rfl ?_
    obtain ⟨t, ts, he⟩ := popOwn_ne (c := c) (fun hb => (hA.batch hb).1) hq
    have hstep : (s.setPrim i .pop).step c (.prim i true) =
        some (((s.setPrim i .pop).setWsq i (popOwn c true (s.wsq i)).1).setPrim i (.hand (t :: ts))) := by
      simp only [step, hi, and_self, if_true, primStep]
      have : (s.setPrim i .pop).prim i = .pop := by simp [setPrim]
      rw [this]
      have hl : (s.setPrim i .pop).locked i = false := hA.unlocked i
      have hw : (s.setPrim i .pop).wsq i = s.wsq i := rfl
      simp [hl, hw, he]
    refine (Reach.single (.prim i true) rfl hstep).finish rfl ?_
    exact finish_prim_hand hi (t := t) (ts := ts) (by simp [setPrim])

/-- A task waiting in the shared queue can be run. -/
theorem PoolSt.finish_shared {c : PoolCfg} {s : PoolSt} (hI : Inv c s) (hA : Alive c s)
    (hq : s.shared.queue ≠ []) : CanFinishOne c s := by
  have hi : 0 ≤ (0 : Int) ∧ (0 : Int) < c.defaultSize := ⟨Int.le_refl _, hA.one⟩
  rcases prim_to_pop hI hA hi with h | h
  · exact h
  · refine (h.trans (reach_pop_pool c hi s)).finish rfl ?_
    obtain ⟨t, ts, he⟩ := popShared_ne (c := c) (fun hb => (hA.batch hb).2) hq
    have hstep : (s.setPrim 0 .pool).step c (.prim 0 true) =
        some ((({ (s.setPrim 0 .pool) with shared := (popShared c true s.shared).1 } : PoolSt)).setPrim 0
          (.hand (t :: ts))) := by
      simp only [step, hi, and_self, if_true, primStep]
      have : (s.setPrim 0 .pool).prim 0 = .pool := by simp [setPrim]
      rw [this]
      have hw : (s.setPrim 0 .pool).shared = s.shared := rfl
      simp [hw, he]
    refine (Reach.single (.prim 0 true) rfl hstep).finish rfl ?_
    exact finish_prim_hand hi (t := t) (ts := ts) (by simp [setPrim])

theorem PoolSt.reach_sec_loop_prio {c : PoolCfg} {j : Nat} {s : PoolSt} (hj : j < s.nsec) (hg : s.sgo j = true) :
    Reach c (s.setSec j .loop) (s.setSec j .prio) := by
  have h1 : Reach c (s.setSec j .loop) (s.setSec j .pool) := by
    refine .single (.sec j false) rfl ?_
    have : (s.setSec j .loop).sec j = .loop := by simp [setSec]
    have hn : j < (s.setSec j .loop).nsec := hj
    simp only [step, hn, if_true, secStep]
    rw [this]
    have h2 : (s.setSec j .loop).sgo j = true := hg
    simp [h2, setSec_setSec]
  have h2 : Reach c (s.setSec j .pool) (s.setSec j .prio) := by
    refine .single (.sec j false) rfl ?_
    have : (s.setSec j .pool).sec j = .pool := by simp [setSec]
    have hn : j < (s.setSec j .pool).nsec := hj
    simp only [step, hn, if_true, secStep]
    rw [this]
    have h2 : popShared c false (s.setSec j .pool).shared = ((s.setSec j .pool).shared, []) := by
      simp [popShared, AQueue.tryPopN, AQueue.tryPop]
    rw [h2]
    exact congrArg some (setSec_setSec s j .pool .prio)
  exact h1.trans h2

/-- A secondary worker that is not stopped either has a task at hand or can go to the priority queue. -/
theorem PoolSt.sec_to_prio {c : PoolCfg} {s : PoolSt} (hI : Inv c s) {j : Nat} (hj : j < s.nsec)
    (hg : s.sgo j = true) : CanFinishOne c s ∨ Reach c s (s.setSec j .prio) := by
  have hlp := reach_sec_loop_prio (c := c) hj hg
  cases hp : s.sec j with
  | loop => right; rwa [setSec_self s j hp] at hlp
  | pop => exact absurd hp (hI.snp j).1
  | steal rest => exact absurd hp ((hI.snp j).2 rest)
  | pool =>
    right
    refine .single (.sec j false) rfl ?_
    have h2 : popShared c false s.shared = (s.shared, []) := by
      simp [popShared, AQueue.tryPopN, AQueue.tryPop]
    simp [step, hj, secStep, hp, h2]
  | prio => right; rw [setSec_self s j hp]; exact .refl c s
  | wait =>
    right
    refine .trans (.single (.sec j false) rfl ?_) hlp
    simp [step, hj, secStep, hp, AQueue.popWithTimeout]
  | hand ts =>
    cases ts with
    | nil =>
      right
      refine .trans (.single (.sec j false) rfl ?_) hlp
      simp [step, hj, secStep, hp]
    | cons t ts => left; exact finish_sec_hand hj hp
  | busy t ts => left; exact finish_sec_busy hj hp
  | exited => have := hI.sex j hp; rw [hg] at this; simp at this

/-- A task waiting in the priority queue can be run. -/
theorem PoolSt.finish_prio {c : PoolCfg} {s : PoolSt} (hI : Inv c s) (hA : Alive c s)
    (hq : s.prioq ≠ []) : CanFinishOne c s := by
  obtain ⟨j, hj, hg⟩ := hA.prio.resolve_left hq
  rcases sec_to_prio hI hj hg with h | h
  · exact h
  · refine h.finish rfl ?_
    cases he : PQueue.top s.prioq with
    | none => exact absurd (pq_top_none he) hq
    | some e =>
      have hstep : (s.setSec j .prio).step c (.sec j true) =
          some ((({ (s.setSec j .prio) with prioq := s.prioq.erase e } : PoolSt)).setSec j (.hand [e.val])) := by
        have hn : j < (s.setSec j .prio).nsec := hj
        simp only [step, hn, if_true, secStep]
        have : (s.setSec j .prio).sec j = .prio := by simp [setSec]
        rw [this]
        have hw : (s.setSec j .prio).prioq = s.prioq := rfl
        simp [hw, PQueue.tryPop, he]
      refine (Reach.single (.sec j true) rfl hstep).finish rfl ?_
      exact finish_sec_hand (by simpa [setSec] using hj) (t := e.val) (ts := []) (by simp [setSec])

/-- While a task is unfinished, the workers can finish one. -/
theorem PoolSt.can_finish_one {c : PoolCfg} {s : PoolSt} (hI : Inv c s) (hA : Alive c s) (t : Task)
    (ht : s.finished.count t < s.submitted.count t) : CanFinishOne c s := by
  have h1 := hI.cons t
  have h2 := hI.fin t
  have hone := hA.one
  have hsz : ∀ k : Int, k < ((c.defaultSize.toNat : Nat) : Int) → k < c.defaultSize := by
    intro k hk; omega
  have h3 : 0 < inQ c s t ∨ 0 < held c s t ∨ 0 < exec c s t := by omega
  rcases h3 with h3 | h3 | h3
  · simp only [inQ] at h3
    have h4 : 0 < sumI c.defaultSize.toNat (fun i => (s.wsq i).count t) ∨ 0 < s.shared.queue.count t ∨
        0 < (s.prioq.map PqEntry.val).count t := by omega
    rcases h4 with h4 | h4 | h4
    · obtain ⟨k, hk0, hk, hc⟩ := sumI_pos h4
      refine finish_wsq hI hA ⟨hk0, hsz k hk⟩ ?_
      intro he; simp [he] at hc
    · refine finish_shared hI hA ?_
      intro he; simp [he] at h4
    · refine finish_prio hI hA ?_
      intro he; simp [he] at h4
  · simp only [held] at h3
    have h4 : 0 < sumI c.defaultSize.toNat (fun i => ((s.prim i).held).count t) ∨
        0 < sumN s.nsec (fun j => ((s.sec j).held).count t) := by omega
    rcases h4 with h4 | h4
    · obtain ⟨k, hk0, hk, hc⟩ := sumI_pos h4
      cases hp : s.prim k with
      | hand ts =>
        cases ts with
        | nil => simp [hp, WPc.held] at hc
        | cons u ts => exact finish_prim_hand ⟨hk0, hsz k hk⟩ hp
      | busy u ts => exact finish_prim_busy ⟨hk0, hsz k hk⟩ hp
      | _ => simp [hp, WPc.held] at hc
    · obtain ⟨k, hk, hc⟩ := sumN_pos h4
      cases hp : s.sec k with
      | hand ts =>
        cases ts with
        | nil => simp [hp, WPc.held] at hc
        | cons u ts => exact finish_sec_hand hk hp
      | busy u ts => exact finish_sec_busy hk hp
      | _ => simp [hp, WPc.held] at hc
  · simp only [exec] at h3
    have h4 : 0 < sumI c.defaultSize.toNat (fun i => ((s.prim i).exec).count t) ∨
        0 < sumN s.nsec (fun j => ((s.sec j).exec).count t) := by omega
    rcases h4 with h4 | h4
    · obtain ⟨k, hk0, hk, hc⟩ := sumI_pos h4
      cases hp : s.prim k with
      | busy u ts => exact finish_prim_busy ⟨hk0, hsz k hk⟩ hp
      | _ => simp [hp, WPc.exec] at hc
    · obtain ⟨k, hk, hc⟩ := sumN_pos h4
      cases hp : s.sec k with
      | busy u ts => exact finish_sec_busy hk hp
      | _ => simp [hp, WPc.exec] at hc

theorem PoolSt.finished_subperm {c : PoolCfg} {s : PoolSt} (hI : Inv c s) : s.finished.Subperm s.submitted := by
  rw [List.subperm_ext_iff]
  intro t _
  have h1 := hI.cons t
  have h2 := hI.fin t
  omega

theorem PoolSt.can_finish_all {c : PoolCfg} (n : Nat) : ∀ {s : PoolSt}, Inv c s → Alive c s →
    s.submitted.length ≤ s.finished.length + n →
    ∃ l : List PAct, (∀ a ∈ l, a.isWorker = true) ∧ (run c s l).submitted = s.submitted ∧
      (run c s l).finished.Perm s.submitted := by
  induction n with
  | zero =>
    intro s hI _ hn
    exact ⟨[], by simp, rfl, (finished_subperm hI).perm_of_length_le (by simpa using hn)⟩
  | succ n ih =>
    intro s hI hA hn
    by_cases hlt : s.submitted.length ≤ s.finished.length
    · exact ⟨[], by simp, rfl, (finished_subperm hI).perm_of_length_le hlt⟩
    · have hex : ∃ t, s.finished.count t < s.submitted.count t := by
        by_contra hcon
        simp only [not_exists, Nat.not_lt] at hcon
        have : s.submitted.Subperm s.finished := List.subperm_ext_iff.2 (fun t _ => hcon t)
        exact hlt this.length_le
      obtain ⟨t, ht⟩ := hex
      obtain ⟨l, hl, hf⟩ := can_finish_one hI hA t ht
      have hfr := frame_run (c := c) hl s
      obtain ⟨l', hl', hs', hp⟩ := ih (inv_run' hI l) (hA.frame hfr) (by rw [hfr.submitted, hf]; omega)
      refine ⟨l ++ l', ?_, ?_, ?_⟩
      · intro a ha
        rcases List.mem_append.1 ha with ha | ha
        · exact hl a ha
        · exact hl' a ha
      · rw [run_append, hs', hfr.submitted]
      · rw [run_append, ← hfr.submitted]; exact hp

/-- **C15**, progress: from every reachable state in which the pool is alive, the workers alone can bring every
submitted task to an end, each exactly as often as it was submitted; no reachable state strands a task. -/
theorem C15_can_finish (c : PoolCfg) (k : Nat) (l : List PAct) (hA : Alive c (run c (init k) l)) :
    ∃ l' : List PAct, (∀ a ∈ l', a.isWorker = true) ∧
      (run c (init k) (l ++ l')).submitted = (run c (init k) l).submitted ∧
      (run c (init k) (l ++ l')).finished.Perm (run c (init k) l).submitted := by
  obtain ⟨l', h1, h2, h3⟩ := can_finish_all (c := c) (run c (init k) l).submitted.length (inv_run k l) hA (by omega)
  exact ⟨l', h1, by rw [run_append]; exact h2, by rw [run_append]; exact h3⟩

/-- **C15**: once every submitted task is finished, queues and workers hold nothing. -/
theorem C15_quiescent (c : PoolCfg) (k : Nat) (l : List PAct) (t : Task)
    (h : (run c (init k) l).finished.count t = (run c (init k) l).submitted.count t) :
    inQ c (run c (init k) l) t = 0 ∧ held c (run c (init k) l) t = 0 ∧ exec c (run c (init k) l) t = 0 := by
  have hI := inv_run (c := c) k l
  have h1 := hI.cons t
  have h2 := hI.fin t
  omega

/-! ## C20 -/

/-- Two primary threads, no secondary, used in examples. -/
def exPool : PoolCfg where
  defaultSize := 2
  secondarySize := 0
  maxSize := 2
  stealRange := 2
  localBatch := 2
  poolBatch := 2
  stealBatch := 2
  ttl := 10
  monitorSpan := 5
  batch := false
  monitorOn := false
  deliverRunning := true

example : Alive exPool (run exPool (init 0) [.submit 7 (-1) false 0, .submit 8 0 false 0, .submit 9 5 false 0,
    .prim 1 true]) := by
  refine ⟨by decide, fun i => rfl, ?_, by decide, .inl (by decide)⟩
  intro i; rfl

/-- **C20** does not hold: a task accepted before `destroy` is never executed if the thread leaves its loop first. -/
theorem C20_dropped_violated :
    let s := run exPool (init 0) [.submit 7 0 false 0, .stop 0, .prim 0 true, .stop 1, .prim 1 true]
    s.submitted = [7] ∧ s.prim 0 = .exited ∧ s.prim 1 = .exited ∧ s.started = [] ∧ s.wsq 0 = [7] := by
  decide

theorem PoolSt.run_exited {c : PoolCfg} (l : List PAct) : ∀ {s : PoolSt} {i : Int}, s.prim i = .exited →
    (run c s l).prim i = .exited := by
  unfold run
  induction l with
  | nil => intro s i h; exact h
  | cons a l ih =>
    intro s i h
    simp only [List.foldl_cons]
    apply ih
    cases hs : s.step c a with
    | none => simpa [hs] using h
    | some s' =>
      simp only [Option.getD_some]
      cases a with
      | submit t index running addr =>
        simp only [step] at hs
        split at hs
        · simp at hs
        · rename_i d cur' _
          cases d <;> simp only [deliver] at hs
          · split at hs
            · simp at hs
            · simp only [Option.some.injEq] at hs; subst hs; exact h
          · simp only [Option.some.injEq] at hs; subst hs; exact h
          · simp only [Option.some.injEq] at hs; subst hs; exact h
      | submitPrio t p addr => simp only [step, Option.some.injEq] at hs; subst hs; exact h
      | pushTid t tid enable lockable =>
        simp only [step] at hs
        split at hs
        · split at hs
          · split at hs
            · simp at hs
            · simp only [Option.some.injEq] at hs; subst hs; exact h
          · split at hs
            · simp at hs
            · simp only [Option.some.injEq] at hs; subst hs; exact h
        · simp only [Option.some.injEq] at hs; subst hs; exact h
      | addSec => simp only [step, Option.some.injEq] at hs; subst hs; exact h
      | stop k => simp only [step, Option.some.injEq] at hs; subst hs; exact h
      | stopSec j => simp only [step, Option.some.injEq] at hs; subst hs; exact h
      | resetShared => simp only [step, Option.some.injEq] at hs; subst hs; exact h
      | prim k pre =>
        simp only [step] at hs
        split at hs
        · by_cases hk : k = i
          · subst hk; simp [primStep, h] at hs
          · unfold primStep at hs
            split at hs <;> simp only [Option.some.injEq, reduceCtorEq] at hs <;> subst hs <;>
              simp [setPrim, setWsq, Ne.symm hk, h]
        · simp at hs
      | sec j pre =>
        simp only [step] at hs
        split at hs
        · unfold secStep at hs
          split at hs <;> simp only [Option.some.injEq, reduceCtorEq] at hs <;> subst hs <;> exact h
        · simp at hs

/-- **C20**, what does hold: when all workers have returned, a task was either executed to its end or is still in a
queue (nothing is lost in the hands of a worker, nothing is half executed), and exited workers stay exited.  Missing:
the tasks still queued are discarded. -/
theorem C20_queued_partial (c : PoolCfg) (k : Nat) (l : List PAct)
    (hp : ∀ i, 0 ≤ i → i < c.defaultSize → (run c (init k) l).prim i = .exited)
    (hsx : ∀ j, j < (run c (init k) l).nsec → (run c (init k) l).sec j = .exited) (t : Task) :
    let s := run c (init k) l
    s.submitted.count t = inQ c s t + s.finished.count t ∧ s.started.count t = s.finished.count t ∧
    ∀ l' i, 0 ≤ i → i < c.defaultSize → (run c s l').prim i = .exited := by
  have hI := inv_run (c := c) k l
  have h1 := hI.cons t
  have h2 := hI.fin t
  have hh : held c (run c (init k) l) t = 0 := by
    simp only [held]
    rw [sumI_zero, sumN_zero]
    · intro j hj; rw [hsx j hj]; simp [WPc.held]
    · intro i hi; rw [hp i (by omega) (by omega)]; simp [WPc.held]
  have he : exec c (run c (init k) l) t = 0 := by
    simp only [exec]
    rw [sumI_zero, sumN_zero]
    · intro j hj; rw [hsx j hj]; simp [WPc.exec]
    · intro i hi; rw [hp i (by omega) (by omega)]; simp [WPc.exec]
  refine ⟨by omega, by omega, fun l' i h0 h1 => run_exited l' (hp i h0 h1)⟩

theorem PoolSt.finished_mono {c : PoolCfg} (t : Task) (l : List PAct) : ∀ s : PoolSt,
    s.finished.count t ≤ (run c s l).finished.count t := by
  unfold run
  induction l with
  | nil => intro s; exact Nat.le_refl _
  | cons a l ih =>
    intro s
    simp only [List.foldl_cons]
    refine Nat.le_trans ?_ (ih _)
    cases hs : s.step c a with
    | none => simp
    | some s' =>
      simp only [Option.getD_some]
      cases a with
      | submit t index running addr =>
        simp only [step] at hs
        split at hs
        · simp at hs
        · rename_i d cur' _
          cases d <;> simp only [deliver] at hs
          · split at hs
            · simp at hs
            · simp only [Option.some.injEq] at hs; subst hs; exact Nat.le_refl _
          · simp only [Option.some.injEq] at hs; subst hs; exact Nat.le_refl _
          · simp only [Option.some.injEq] at hs; subst hs; exact Nat.le_refl _
      | pushTid t tid enable lockable =>
        simp only [step] at hs
        split at hs
        · split at hs
          · split at hs
            · simp at hs
            · simp only [Option.some.injEq] at hs; subst hs; exact Nat.le_refl _
          · split at hs
            · simp at hs
            · simp only [Option.some.injEq] at hs; subst hs; exact Nat.le_refl _
        · simp only [Option.some.injEq] at hs; subst hs; exact Nat.le_refl _
      | prim k pre =>
        simp only [step] at hs
        split at hs
        · unfold primStep at hs
          split at hs <;> simp only [Option.some.injEq, reduceCtorEq] at hs <;> subst hs <;>
            simp [setPrim, setWsq]
        · simp at hs
      | sec j pre =>
        simp only [step] at hs
        split at hs
        · unfold secStep at hs
          split at hs <;> simp only [Option.some.injEq, reduceCtorEq] at hs <;> subst hs <;> simp [setSec]
        · simp at hs
      | _ => simp only [step, Option.some.injEq] at hs; subst hs; exact Nat.le_refl _

/-- **C20**: `destroy` called when everything has been executed drops nothing: with all submitted tasks finished
before the stop requests, every later state has finished exactly the submitted tasks as long as nothing new is
submitted. -/
theorem C20_idle_destroy (c : PoolCfg) (k : Nat) (l l' : List PAct) (t : Task)
    (h : (run c (init k) l).finished.count t = (run c (init k) l).submitted.count t)
    (hsub : (run c (init k) (l ++ l')).submitted = (run c (init k) l).submitted) :
    (run c (init k) (l ++ l')).finished.count t = (run c (init k) (l ++ l')).submitted.count t := by
  have hI := inv_run (c := c) k (l ++ l')
  have h1 := hI.cons t
  have h2 := hI.fin t
  have h3 := finished_mono (c := c) t l' (run c (init k) l)
  rw [← run_append] at h3
  rw [hsub] at *
  omega

example : let s := run exPool (init 0) [.submit 7 0 false 0, .prim 0 true, .prim 0 true, .prim 0 true, .prim 0 true]
    s.finished = [7] ∧ s.submitted = [7] := by decide

/-! ## C68 -/

/-- The pushes of GDynamicEngine.cpp:235-239 after the first one. -/
def batchRest (i : Int) : List Task → List PAct
  | [] => []
  | [t] => [.pushTid t i true false]
  | t :: t' :: ts => .pushTid t i false false :: batchRest i (t' :: ts)

/-- The pushes of GDynamicEngine.cpp:235-239: `enable` on first and last, `lockable` on the first. -/
def batchActs (i : Int) : List Task → List PAct
  | [] => []
  | t :: ts => .pushTid t i true true :: batchRest i ts

/-- A push of a batch for thread `i`. -/
def PAct.isTid (i : Int) : PAct → Bool
  | .pushTid _ k _ _ => k == i
  | _ => false

/-- A step other than a batch push for `i` does not touch a locked queue. -/
theorem PoolSt.locked_step {c : PoolCfg} {s s' : PoolSt} {i : Int} (hl : s.locked i = true) {a : PAct}
    (ha : a.isTid i = false) (hs : s.step c a = some s') : s'.wsq i = s.wsq i ∧ s'.locked i = true := by
  cases a with
  | submit t index running addr =>
    simp only [step] at hs
    split at hs
    · simp at hs
    · rename_i d cur' _
      cases d with
      | primary k =>
        simp only [deliver] at hs
        split at hs
        · simp at hs
        · rename_i hk
          simp only [Option.some.injEq] at hs
          subst hs
          have : i ≠ k := by rintro rfl; simp [hl] at hk
          simp [setWsq, this, hl]
      | priority => simp only [deliver, Option.some.injEq] at hs; subst hs; exact ⟨rfl, hl⟩
      | shared w => simp only [deliver, Option.some.injEq] at hs; subst hs; exact ⟨rfl, hl⟩
  | submitPrio t p addr => simp only [step, Option.some.injEq] at hs; subst hs; exact ⟨rfl, hl⟩
  | pushTid t tid enable lockable =>
    have hne : tid ≠ i := by simpa [PAct.isTid] using ha
    simp only [step, PoolCfg.placeTid] at hs
    split at hs
    · rename_i k hk
      split at hk
      · simp only [Dest.primary.injEq] at hk
        subst hk
        split at hs
        · split at hs
          · simp at hs
          · simp only [Option.some.injEq] at hs; subst hs; simp [setWsq, Ne.symm hne, hl]
        · split at hs
          · simp at hs
          · simp only [Option.some.injEq] at hs; subst hs; simp [setWsq, Ne.symm hne, hl]
      · simp at hk
    · simp only [Option.some.injEq] at hs; subst hs; exact ⟨rfl, hl⟩
  | addSec => simp only [step, Option.some.injEq] at hs; subst hs; exact ⟨rfl, hl⟩
  | stop k => simp only [step, Option.some.injEq] at hs; subst hs; exact ⟨rfl, hl⟩
  | stopSec j => simp only [step, Option.some.injEq] at hs; subst hs; exact ⟨rfl, hl⟩
  | resetShared => simp only [step, Option.some.injEq] at hs; subst hs; exact ⟨rfl, hl⟩
  | prim k pre =>
    simp only [step] at hs
    split at hs
    · unfold primStep at hs
      split at hs <;> simp only [Option.some.injEq, reduceCtorEq] at hs <;> subst hs <;>
        simp only [setPrim, setWsq, hl, and_true]
      · split
        · rename_i he; subst he
          simp [hl, popOwn, WsQueue.tryPopN, WsQueue.tryPop]
        · rfl
      · split
        · rename_i he; subst he
          simp [hl, stealFrom, WsQueue.tryStealN, WsQueue.trySteal]
        · rfl
    · simp at hs
  | sec j pre =>
    simp only [step] at hs
    split at hs
    · unfold secStep at hs
      split at hs <;> simp only [Option.some.injEq, reduceCtorEq] at hs <;> subst hs <;> exact ⟨rfl, hl⟩
    · simp at hs

theorem PoolSt.batch_rest {c : PoolCfg} {i : Int} (hi : 0 ≤ i ∧ i < c.defaultSize) (l : List PAct) :
    ∀ {s : PoolSt} (ts : List Task) (last : Task), Inv c s → s.locked i = true →
    l.filter (PAct.isTid i) = ts.map (fun t => .pushTid t i false false) →
    (run c s (l ++ [.pushTid last i true false])).wsq i = s.wsq i ++ ts ++ [last] ∧
      (run c s (l ++ [.pushTid last i true false])).locked i = false := by
  induction l with
  | nil =>
    intro s ts last _ hl hf
    have : ts = [] := by simpa using hf.symm
    subst this
    simp [run, step, PoolCfg.placeTid, hi, hl, setWsq, WsQueue.push]
  | cons a l ih =>
    intro s ts last hI hl hf
    by_cases ha : a.isTid i = true
    · rw [List.filter_cons_of_pos ha] at hf
      cases ts with
      | nil => simp at hf
      | cons t ts =>
        simp only [List.map_cons, List.cons.injEq] at hf
        obtain ⟨rfl, hf⟩ := hf
        have hstep : s.step c (.pushTid t i false false) = some { s.setWsq i (WsQueue.push (s.wsq i) t) with
            submitted := s.submitted ++ [t], locked := fun k => if k = i then true else s.locked k } := by
          simp [step, PoolCfg.placeTid, hi, hl]
        rw [List.cons_append, run_cons hstep]
        have := ih (s := { s.setWsq i (WsQueue.push (s.wsq i) t) with
            submitted := s.submitted ++ [t], locked := fun k => if k = i then true else s.locked k })
          ts last (inv_step hI _ hstep) (by simp) hf
        refine ⟨?_, this.2⟩
        rw [this.1]
        simp [setWsq, WsQueue.push]
    · have ha' : a.isTid i = false := by simpa using ha
      rw [List.filter_cons_of_neg ha] at hf
      cases hs : s.step c a with
      | none =>
        have : run c s (a :: l ++ [.pushTid last i true false]) = run c s (l ++ [.pushTid last i true false]) := by
          simp [run, hs]
        rw [this]
        exact ih ts last hI hl hf
      | some s' =>
        rw [List.cons_append, run_cons hs]
        have h1 := locked_step hl ha' hs
        have := ih ts last (inv_step hI a hs) h1.2 hf
        rwa [h1.1] at this

/-- **C68**: a batch of at least two tasks given to thread `i` by `executeWithTid` (lock with the first, unlock with
the last) arrives complete, contiguous and in order, and the queue is unlocked afterwards, whatever workers and other
callers do in between. -/
theorem C68_batch (c : PoolCfg) (k : Nat) (l : List PAct) (i : Int) (hi : 0 ≤ i ∧ i < c.defaultSize)
    (hu : (run c (init k) l).locked i = false) (first : Task) (ts : List Task) (last : Task) (mid : List PAct)
    (hm : mid.filter (PAct.isTid i) = ts.map (fun t => .pushTid t i false false)) :
    let s := run c (init k) l
    let s' := run c s (.pushTid first i true true :: mid ++ [.pushTid last i true false])
    s'.wsq i = s.wsq i ++ first :: ts ++ [last] ∧ s'.locked i = false := by
  intro s s'
  have hI : Inv c s := inv_run k l
  have hstep : s.step c (.pushTid first i true true) = some { s.setWsq i (WsQueue.push (s.wsq i) first) with
      submitted := s.submitted ++ [first], locked := fun k => if k = i then true else s.locked k } := by
    have : s.locked i = false := hu
    simp [step, PoolCfg.placeTid, hi, this]
  have h1 := batch_rest (c := c) hi mid (s := { s.setWsq i (WsQueue.push (s.wsq i) first) with
      submitted := s.submitted ++ [first], locked := fun k => if k = i then true else s.locked k })
    ts last (inv_step hI _ hstep) (by simp) hm
  have h2 : s' = run c { s.setWsq i (WsQueue.push (s.wsq i) first) with
      submitted := s.submitted ++ [first], locked := fun k => if k = i then true else s.locked k }
      (mid ++ [.pushTid last i true false]) := by
    show run c s _ = _
    rw [List.cons_append, run_cons hstep]
  rw [h2]
  refine ⟨?_, h1.2⟩
  rw [h1.1]
  simp [setWsq, WsQueue.push]

/-- **C68**: the pushes made by `parallelRunAll` for a row of at least two elements have the shape `C68_batch` asks
for. -/
theorem C68_shape (i : Int) (first : Task) (ts : List Task) (last : Task) :
    batchActs i (first :: ts ++ [last]) =
      .pushTid first i true true :: ts.map (fun t => PAct.pushTid t i false false) ++ [.pushTid last i true false] := by
  simp only [batchActs, List.cons_append, List.cons.injEq, true_and]
  induction ts with
  | nil => rfl
  | cons t ts ih =>
    cases ts with
    | nil => rfl
    | cons u ts =>
      simp only [List.cons_append, batchRest, List.map_cons] at ih ⊢
      rw [ih]

/-- **C68**: a batch of one would leave the queue locked for ever (hence the separate branch at
GDynamicEngine.cpp:240-245). -/
theorem C68_batch_of_one (c : PoolCfg) (s : PoolSt) (i : Int) (hi : 0 ≤ i ∧ i < c.defaultSize)
    (hu : s.locked i = false) (t : Task) : (run c s (batchActs i [t])).locked i = true := by
  simp [batchActs, batchRest, run, step, PoolCfg.placeTid, hi, hu]

example : ([.prim 0 true, .pushTid 5 1 false false, .submit 9 1 true 0, .prim 1 true] : List PAct).filter
    (PAct.isTid 1) = [5].map (fun t => .pushTid t 1 false false) := by decide

end CGraph
