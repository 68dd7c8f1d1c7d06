import Verif.Model.EngPool
import Verif.Lemmas.DynProgress
import Verif.Props.PoolRun
import Mathlib.Data.List.Perm.Basic

/-! # The engine on the pool simulates the engine alone -/
namespace CGraph.EngPool
open EpSt

set_option maxHeartbeats 1000000

/-- An engine state with tasks `Q` waiting and threads at `J`. -/
def ext (e : DynSt) (Q : List Eid) (J : List Job) : DynSt := { e with queue := Q, jobs := J }

theorem jobStep_ext {c : DynCfg} {e : DynSt} (he : e.queue = []) (Q : List Eid) (J : List Job) (st : CStatus) (j : Job) :
    DynSt.jobStep c (ext e Q J) st j =
      (DynSt.jobStep c e st j).map (fun r => (ext r.1 (Q ++ r.1.queue) J, r.2)) := by
  cases j with
  | exec v => simp [DynSt.jobStep, ext, he]
  | body v => by_cases h : st.isNotErr <;> simp [DynSt.jobStep, ext, he, h]
  | after v =>
    by_cases h : e.status.isErr
    · simp [DynSt.jobStep, ext, he, h]
    · cases hs : c.shapeOf v with
      | linkable => cases hv : c.g.succs v <;> simp [DynSt.jobStep, ext, he, h, hs, hv]
      | _ => simp [DynSt.jobStep, ext, he, h, hs]
  | nIter v rest r =>
    cases rest with
    | nil => cases r <;> simp [DynSt.jobStep, ext, he]
    | cons x rest =>
      by_cases h : e.left x - 1 = 0
      · cases r <;> simp [DynSt.jobStep, ext, he, h]
      · simp [DynSt.jobStep, ext, he, h]
  | nPost v x rest y => by_cases h : e.status.isErr <;> simp [DynSt.jobStep, ext, he, h, DynSt.push]
  | rIter v rest =>
    match rest with
    | [] => simp [DynSt.jobStep, ext, he]
    | [x] => simp [DynSt.jobStep, ext, he]
    | x :: y :: rest => by_cases h : e.status.isErr <;> simp [DynSt.jobStep, ext, he, h, DynSt.push]
  | proc v =>
    by_cases h : e.status.isErr
    · simp [DynSt.jobStep, ext, he, h]
    · cases h2 : c.isDefault v <;> simp [DynSt.jobStep, ext, he, h, h2, DynSt.push]
  | tailInc v => by_cases h : e.fin + 1 = c.totalEnd <;> simp [DynSt.jobStep, ext, he, h]
  | tailNotify =>
    by_cases h : e.main = .check ∨ e.main = .preSleep
    · simp [DynSt.jobStep, ext, h]
    · by_cases h2 : e.main = .asleep <;> simp [DynSt.jobStep, ext, he, h, h2, DynSt.notify]
  | errSet st => simp [DynSt.jobStep, ext, he]
  | errNotify => by_cases h2 : e.main = .asleep <;> simp [DynSt.jobStep, ext, he, h2, DynSt.notify]

theorem main_ext {c : DynCfg} {e : DynSt} (he : e.queue = []) (Q : List Eid) (J : List Job) (st : CStatus) :
    DynSt.step c (ext e Q J) (.main st) =
      (DynSt.step c e (.main st)).map (fun r => ext r (Q ++ r.queue) J) := by
  have hm : (ext e Q J).main = e.main := rfl
  cases hp : e.main with
  | idle => simp [DynSt.step, hm, hp]
  | fronts rest =>
    match rest with
    | [] => simp [DynSt.step, hp, ext, DynSt.toWait, he]
    | [x] =>
      by_cases h : e.status.isErr
      · simp [DynSt.step, hp, ext, DynSt.toWait, he, h]
      · cases h2 : c.isDefault x <;> simp [DynSt.step, hp, ext, DynSt.toWait, he, h, h2, DynSt.push]
    | x :: y :: rest => by_cases h : e.status.isErr <;> simp [DynSt.step, hp, ext, he, h, DynSt.push]
  | inline j =>
    simp only [DynSt.step, hm, hp]
    rw [jobStep_ext he]
    cases hj : DynSt.jobStep c e st j with
    | none => simp
    | some r =>
      obtain ⟨e', o⟩ := r
      cases o <;> simp [ext, DynSt.toWait]
  | poll n =>
    cases n with
    | zero => simp [DynSt.step, hp, ext, he]
    | succ n => by_cases h : e.fin ≥ c.totalEnd <;> simp [DynSt.step, hp, ext, he, h, DynSt.ret]
  | check =>
    by_cases h : e.fin ≥ c.totalEnd ∨ e.status.isErr = true <;> simp [DynSt.step, hp, ext, he, h, DynSt.ret]
  | _ => simp [DynSt.step, hp, ext, he]

theorem begin_ext {c : DynCfg} {e : DynSt} (Q : List Eid) (J : List Job) :
    DynSt.step c (ext e Q J) .begin = (DynSt.step c e .begin).map (fun r => ext r Q J) := by
  by_cases h : e.main = .idle
  · cases h2 : e.status.isOK <;> simp [DynSt.step, ext, h, h2]
  · simp [DynSt.step, ext, h]

theorem spurious_ext {c : DynCfg} {e : DynSt} (Q : List Eid) (J : List Job) :
    DynSt.step c (ext e Q J) .spurious = (DynSt.step c e .spurious).map (fun r => ext r Q J) := by
  by_cases h : e.main = .asleep <;> simp [DynSt.step, ext, h]

theorem main_jobs {c : DynCfg} {e e' : DynSt} {st} (h : DynSt.step c e (.main st) = some e') : e'.jobs = e.jobs := by
  have hj := fun j s1 oj (h : DynSt.jobStep c e st j = some (s1, oj)) => (DynSt.jobStep_frame h).1
  simp only [DynSt.step] at h
  split at h <;> grind [DynSt.push, DynSt.toWait, DynSt.ret]

/-! ### the pool -/

/-- The conditions on the configuration: there is a primary thread, batches are not empty, and if a task can get into
the priority queue there is a secondary thread.  With more than 101 threads the index that `dispatch` computes is
-101, the mark of the priority queue, once the counter has become negative. -/
structure Ok (c : EpCfg) : Prop where
  one : 0 < c.pool.defaultSize
  max : 0 < c.pool.maxSize
  batch : c.pool.batch = true → c.pool.localBatch ≠ 0 ∧ 0 < c.pool.poolBatch
  prio : 0 < c.secs ∨ ((∀ e, c.bind e ≠ longTimeStrategy) ∧ c.pool.maxSize ≤ 101)

/-- What holds of the pool all the time. -/
structure PInv (c : EpCfg) (p : PoolSt) : Prop where
  reach : ∃ l, p = PoolSt.run c.pool (PoolSt.init c.secs) l
  unl : ∀ i, p.locked i = false
  pgo : ∀ i, p.pgo i = true
  sgo : ∀ j, p.sgo j = true
  nsec : p.nsec = c.secs
  prio : p.prioq = [] ∨ 0 < c.secs

theorem PInv.inv {c : EpCfg} {p : PoolSt} (h : PInv c p) : PoolSt.Inv c.pool p := by
  obtain ⟨l, rfl⟩ := h.reach
  exact PoolSt.inv_run _ l

theorem PInv.alive {c : EpCfg} {p : PoolSt} (h : PInv c p) (ok : Ok c) : PoolSt.Alive c.pool p where
  one := ok.one
  go := h.pgo
  unlocked := h.unl
  batch := ok.batch
  prio := by
    rcases h.prio with h' | h'
    · exact .inl h'
    · exact .inr ⟨0, by rw [h.nsec]; exact h', h.sgo 0⟩

theorem reach_snoc {c : PoolCfg} {p0 p p' : PoolSt} {a : PAct} (h : ∃ l, p = PoolSt.run c p0 l)
    (hs : p.step c a = some p') : ∃ l, p' = PoolSt.run c p0 l := by
  obtain ⟨l, rfl⟩ := h
  refine ⟨l ++ [a], ?_⟩
  rw [PoolSt.run_append]
  simp [PoolSt.run] at hs ⊢
  simp [hs]

theorem pinv_init (c : EpCfg) : PInv c (PoolSt.init c.secs) :=
  ⟨⟨[], rfl⟩, fun _ => rfl, fun _ => rfl, fun _ => rfl, rfl, .inl rfl⟩

theorem pinv_worker {c : EpCfg} {p p' : PoolSt} (h : PInv c p) {a : PAct} (ha : a.isWorker = true)
    (hs : p.step c.pool a = some p') : PInv c p' := by
  have f := PoolSt.frame_step ha hs
  refine ⟨reach_snoc h.reach hs, ?_, ?_, ?_, ?_, ?_⟩
  · rw [f.locked]; exact h.unl
  · rw [f.pgo]; exact h.pgo
  · rw [f.sgo]; exact h.sgo
  · rw [f.nsec]; exact h.nsec
  · rcases h.prio with h' | h'
    · exact .inl (f.prio h')
    · exact .inr h'

/-- What handing over one task does to the pool. -/
structure Sub (t : Task) (p p' : PoolSt) : Prop where
  submitted : p'.submitted = p.submitted ++ [t]
  started : p'.started = p.started
  finished : p'.finished = p.finished
  prim : p'.prim = p.prim
  sec : p'.sec = p.sec

theorem place_prio {c : EpCfg} (ok : Ok c) (hs : c.secs = 0) {run cur x d cur'}
    (h : c.pool.execute run cur (c.bind x) = some (d, cur')) : d ≠ .priority := by
  obtain ⟨hb, hm⟩ : (∀ e, c.bind e ≠ longTimeStrategy) ∧ c.pool.maxSize ≤ 101 := by
    rcases ok.prio with h | h
    · omega
    · exact h
  have hmax := ok.max
  simp only [PoolCfg.execute, Option.map_eq_some_iff, Prod.mk.injEq] at h
  obtain ⟨⟨i, cu⟩, h1, h2, h3⟩ := h
  subst h2
  have hi : i ≠ longTimeStrategy := by
    simp only [PoolCfg.dispatch] at h1
    split at h1
    · split at h1
      · simp at h1
      · have h5 := Int.natAbs_tmod cur c.pool.maxSize
        have h6 : cur.natAbs % c.pool.maxSize.natAbs < c.pool.maxSize.natAbs := Nat.mod_lt _ (by omega)
        split at h1 <;> simp only [Option.some.injEq, Prod.mk.injEq] at h1
        · rw [← h1.1]; decide
        · rw [← h1.1]; simp only [longTimeStrategy]; omega
    · simp only [Option.some.injEq, Prod.mk.injEq] at h1
      rw [← h1.1]; exact hb x
  simp only [PoolCfg.place, if_neg hi]
  split
  · simp
  · split <;> simp

theorem sub_step {c : EpCfg} (ok : Ok c) {p : PoolSt} (h : PInv c p) (t : Task) (x : Eid) (run : Bool) (addr : Nat) :
    ∃ p', p.step c.pool (.submit t (c.bind x) run addr) = some p' ∧ PInv c p' ∧ Sub t p p' := by
  have he : ∃ d cur, c.pool.execute (fun _ => run) p.cur (c.bind x) = some (d, cur) := by
    have hm := ok.max
    simp only [PoolCfg.execute, PoolCfg.dispatch]
    split
    · rw [if_neg (by omega)]; split <;> exact ⟨_, _, rfl⟩
    · exact ⟨_, _, rfl⟩
  obtain ⟨d, cur, he⟩ := he
  have hstep : ∃ p', p.step c.pool (.submit t (c.bind x) run addr) = some p' ∧ Sub t p p' ∧
      p'.locked = p.locked ∧ p'.pgo = p.pgo ∧ p'.sgo = p.sgo ∧ p'.nsec = p.nsec ∧
      (c.secs = 0 → p'.prioq = p.prioq) := by
    simp only [PoolSt.step, he]
    cases d with
    | primary i =>
      simp only [PoolSt.deliver, h.unl i]
      exact ⟨_, rfl, ⟨rfl, rfl, rfl, rfl, rfl⟩, rfl, rfl, rfl, rfl, fun _ => rfl⟩
    | priority =>
      exact ⟨_, rfl, ⟨rfl, rfl, rfl, rfl, rfl⟩, rfl, rfl, rfl, rfl, fun hs => absurd rfl (place_prio ok hs he)⟩
    | shared b => exact ⟨_, rfl, ⟨rfl, rfl, rfl, rfl, rfl⟩, rfl, rfl, rfl, rfl, fun _ => rfl⟩
  obtain ⟨p', h1, h2, h3, h4, h5, h6, h7⟩ := hstep
  refine ⟨p', h1, ⟨reach_snoc h.reach h1, ?_, ?_, ?_, ?_, ?_⟩, h2⟩
  · rw [h3]; exact h.unl
  · rw [h4]; exact h.pgo
  · rw [h5]; exact h.sgo
  · rw [h6]; exact h.nsec
  · rcases h.prio with h' | h'
    · by_cases hs : c.secs = 0
      · left; rw [h7 hs]; exact h'
      · right; omega
    · exact .inr h'

/-! ### the relation to the engine alone -/

/-- The thread exists. -/
def Thr.here (c : EpCfg) : Thr → Prop
  | .p i => 0 ≤ i ∧ i < c.pool.defaultSize
  | .s j => j < c.secs

/-- The state `d` of the engine alone that belongs to `s`: its queue are the tasks `q` that were handed over and not
called, in whichever queue or hand they are, its jobs those of the threads. -/
structure Rel (c : EpCfg) (s : EpSt) (d : DynSt) (L : List (Thr × Job)) (q : List Task) : Prop where
  eq : d = ext s.eng (q.map s.elt) (L.map Prod.snd)
  emp : s.eng.queue = []
  nd : (L.map Prod.fst).Nodup
  mem : ∀ w j, (w, j) ∈ L ↔ s.job w = some j
  cnt : ∀ t, q.count t + s.pool.started.count t = s.pool.submitted.count t
  lt : ∀ t ∈ s.pool.submitted, t < s.next
  here : ∀ w j, s.job w = some j → w.here c
  pool : PInv c s.pool

theorem rel_init (c : EpCfg) : Rel c (init c) (DynSt.init c.dyn) [] [] where
  eq := rfl
  emp := rfl
  nd := List.nodup_nil
  mem := by simp [init]
  cnt := by simp [init, PoolSt.init]
  lt := by simp [init, PoolSt.init]
  here := by simp [init]
  pool := pinv_init c

/-- Handing over: everything but the pool stays, the tasks are in the pool. -/
theorem submit_rel {c : EpCfg} (ok : Ok c) (run : Bool) (addr : Nat) (xs : List Eid) : ∀ {s : EpSt} {d L q},
    Rel c s d L q → ∃ s' q', submit c run addr xs s = some s' ∧ s'.eng = s.eng ∧ s'.job = s.job ∧
      Rel c s' { d with queue := d.queue ++ xs } L q' := by
  induction xs with
  | nil =>
    intro s d L q h
    refine ⟨s, q, rfl, rfl, rfl, ?_⟩
    have := h.eq
    subst this
    simpa [ext] using h
  | cons x xs ih =>
    intro s d L q h
    obtain ⟨p', h1, h2, h3⟩ := sub_step ok h.pool s.next x run addr
    have hq : ∀ t ∈ q, t < s.next := by
      intro t ht
      have := h.cnt t
      have h4 := List.count_pos_iff.2 ht
      exact h.lt t (List.count_pos_iff.1 (by omega))
    have hr : Rel c { s with pool := p', elt := fun t => if t = s.next then x else s.elt t, next := s.next + 1 }
        { d with queue := d.queue ++ [x] } L (q ++ [s.next]) := by
      refine ⟨?_, h.emp, h.nd, h.mem, ?_, ?_, h.here, h2⟩
      · rw [h.eq]
        simp only [ext, List.map_append, List.map_cons, List.map_nil, if_true]
        congr 2
        apply List.map_congr_left
        intro t ht
        rw [if_neg (Nat.ne_of_lt (hq t ht))]
      · intro t
        have := h.cnt t
        simp only [h3.submitted, h3.started, List.count_append]
        omega
      · intro t ht
        rw [h3.submitted, List.mem_append, List.mem_singleton] at ht
        rcases ht with ht | rfl
        · exact Nat.lt_succ_of_lt (h.lt t ht)
        · simp
    obtain ⟨s', q', h4, h5, h6, h7⟩ := ih hr
    refine ⟨s', q', ?_, h5, h6, ?_⟩
    · simp only [submit, h1]; exact h4
    · simpa using h7

/-- Which step of the engine alone a step amounts to. -/
inductive Move (c : EpCfg) (s s' : EpSt) (d d' : DynSt) : EpAct → Prop
  | begin (h : DynSt.step c.dyn d .begin = some d') : Move c s s' d d' .begin
  | main (st run addr) (h : DynSt.step c.dyn d (.main st) = some d') : Move c s s' d d' (.main st run addr)
  | spurious (h : DynSt.step c.dyn d .spurious = some d') : Move c s s' d d' .spurious
  | job (w : Thr) (pre st run addr) (i : Nat) (j : Job) (hj : s.job w = some j)
      (h : DynSt.step c.dyn d (.work i st) = some d') : Move c s s' d d' (.work w pre st run addr)
  | take (w : Thr) (pre st run addr) (i : Nat) (hj : s.job w = none)
      (h : DynSt.step c.dyn d (.take i) = some d') : Move c s s' d d' (.work w pre st run addr)
  | pool (w : Thr) (pre st run addr) (hj : s.job w = none) (hd : d' = d) (he : s'.eng = s.eng) (hk : s'.job = s.job)
      (hp : s.pool.step c.pool (w.act pre) = some s'.pool) : Move c s s' d d' (.work w pre st run addr)

/-- The worker step that calls a task. -/
theorem worker_started {c : PoolCfg} {p p' : PoolSt} {w : Thr} {pre : Bool} (hs : p.step c (w.act pre) = some p') :
    (∃ t ts, w.pc p = .hand (t :: ts) ∧ p'.started = p.started ++ [t]) ∨
    ((∀ t ts, w.pc p ≠ .hand (t :: ts)) ∧ p'.started = p.started) := by
  cases w with
  | p i =>
    simp only [Thr.act, PoolSt.step] at hs
    split at hs
    · unfold PoolSt.primStep at hs
      simp only [Thr.pc]
      split at hs <;> simp only [Option.some.injEq, reduceCtorEq] at hs <;> subst hs <;> rename_i hp
      all_goals first
        | (left; exact ⟨_, _, hp, rfl⟩)
        | (right; refine ⟨?_, rfl⟩; intro t ts; rw [hp]; simp)
    · simp at hs
  | s j =>
    simp only [Thr.act, PoolSt.step] at hs
    split at hs
    · unfold PoolSt.secStep at hs
      simp only [Thr.pc]
      split at hs <;> simp only [Option.some.injEq, reduceCtorEq] at hs <;> subst hs <;> rename_i hp
      all_goals first
        | (left; exact ⟨_, _, hp, rfl⟩)
        | (right; refine ⟨?_, rfl⟩; intro t ts; rw [hp]; simp)
    · simp at hs

theorem worker_here {c : EpCfg} {p p' : PoolSt} (h : PInv c p) {w : Thr} {pre : Bool}
    (hs : p.step c.pool (w.act pre) = some p') : w.here c := by
  cases w with
  | p i =>
    simp only [Thr.act, PoolSt.step] at hs
    split at hs
    · assumption
    · simp at hs
  | s j =>
    simp only [Thr.act, PoolSt.step] at hs
    split at hs
    · rename_i hj; rw [h.nsec] at hj; exact hj
    · simp at hs

/-- A task in the hand of a thread has not been called. -/
theorem hand_pending {c : EpCfg} {p : PoolSt} (h : PInv c p) {w : Thr} (hw : w.here c) {t ts}
    (hp : w.pc p = .hand (t :: ts)) : p.started.count t < p.submitted.count t := by
  have h1 := h.inv.cons t
  have h2 : 0 < PoolSt.held c.pool p t := by
    simp only [PoolSt.held]
    cases w with
    | p i =>
      have := le_sumI (n := c.pool.defaultSize.toNat) (f := fun i => (p.prim i).held.count t) hw.1 (by have := hw.2; omega)
      simp only [Thr.pc] at hp
      have h3 : 0 < (p.prim i).held.count t := by rw [hp]; simp [WPc.held]
      omega
    | s j =>
      have := le_sumN (n := p.nsec) (f := fun j => (p.sec j).held.count t) (by rw [h.nsec]; exact hw)
      simp only [Thr.pc] at hp
      have h3 : 0 < (p.sec j).held.count t := by rw [hp]; simp [WPc.held]
      omega
  omega

/-! ### the simulation -/

/-- All threads. -/
def thrs (c : EpCfg) : List Thr :=
  (List.range c.pool.defaultSize.toNat).map (fun k => .p (k : Int)) ++ (List.range c.secs).map .s

theorem mem_thrs {c : EpCfg} {w : Thr} (h : w.here c) : w ∈ thrs c := by
  cases w with
  | p i =>
    simp only [thrs, List.mem_append, List.mem_map, List.mem_range]
    left
    have h1 := h.1
    have h2 := h.2
    exact ⟨i.toNat, by omega, by rw [Int.toNat_of_nonneg h1]⟩
  | s j =>
    simp only [thrs, List.mem_append, List.mem_map, List.mem_range]
    right
    exact ⟨j, h, rfl⟩

theorem length_le_thr {l m : List Thr} (hl : l.Nodup) (h : ∀ x ∈ l, x ∈ m) : l.length ≤ m.length :=
  (List.subperm_of_subset hl h).length_le

theorem Rel.room {c : EpCfg} {s : EpSt} {d L q} (h : Rel c s d L q) {w : Thr} (hw : w.here c) (hj : s.job w = none) :
    L.length < c.dyn.workers := by
  have hn : (w :: L.map Prod.fst).Nodup := by
    refine List.nodup_cons.2 ⟨?_, h.nd⟩
    intro hm
    obtain ⟨⟨w', j⟩, h1, h2⟩ := List.mem_map.1 hm
    simp only at h2
    subst h2
    rw [(h.mem w' j).1 h1] at hj
    simp at hj
  have hl := length_le_thr hn (by
    intro x hx
    rcases List.mem_cons.1 hx with rfl | hx
    · exact mem_thrs hw
    · obtain ⟨⟨w', j⟩, h1, h2⟩ := List.mem_map.1 hx
      simp only at h2
      subst h2
      exact mem_thrs (h.here w' j ((h.mem w' j).1 h1)))
  simp only [List.length_cons, List.length_map, thrs, List.length_append, List.length_range] at hl
  simp only [EpCfg.dyn]
  omega

/-- Replacing or removing the job of a thread. -/
theorem jobs_set {L : List (Thr × Job)} {f : Thr → Option Job} (nd : (L.map Prod.fst).Nodup)
    (mem : ∀ w j, (w, j) ∈ L ↔ f w = some j) {i : Nat} {w : Thr} {j : Job} (hi : L[i]? = some (w, j)) (o : Option Job) :
    let L' := match o with | some j' => L.set i (w, j') | none => L.eraseIdx i
    (L'.map Prod.fst).Nodup ∧ ∀ w' j', (w', j') ∈ L' ↔ (if w' = w then o else f w') = some j' := by
  obtain ⟨hlt, he⟩ := List.getElem?_eq_some_iff.1 hi
  have hp : ((w, j) :: L.eraseIdx i).Perm L := by
    have := List.getElem_cons_eraseIdx_perm hlt
    rwa [he] at this
  have hnd : (w :: (L.eraseIdx i).map Prod.fst).Nodup := ((hp.map Prod.fst).nodup_iff).2 nd
  obtain ⟨hn1, hn2⟩ := List.nodup_cons.1 hnd
  have hR : ∀ w' j', (w', j') ∈ L.eraseIdx i ↔ w' ≠ w ∧ f w' = some j' := by
    intro w' j'
    constructor
    · intro h1
      refine ⟨?_, (mem w' j').1 (hp.mem_iff.1 (List.mem_cons_of_mem _ h1))⟩
      rintro rfl
      exact hn1 (List.mem_map.2 ⟨_, h1, rfl⟩)
    · rintro ⟨h1, h2⟩
      rcases List.mem_cons.1 (hp.mem_iff.2 ((mem w' j').2 h2)) with h3 | h3
      · simp only [Prod.mk.injEq] at h3; exact absurd h3.1 h1
      · exact h3
  cases o with
  | none =>
    refine ⟨hn2, fun w' j' => ?_⟩
    rw [hR]
    by_cases h : w' = w <;> simp [h]
  | some j1 =>
    have hp' : (L.set i (w, j1)).Perm ((w, j1) :: L.eraseIdx i) := List.set_perm_cons_eraseIdx hlt _
    refine ⟨((hp'.map Prod.fst).nodup_iff).2 hnd, fun w' j' => ?_⟩
    rw [hp'.mem_iff, List.mem_cons, hR]
    by_cases h : w' = w
    · subst h; simp [eq_comm]
    · simp [h]

theorem sim {c : EpCfg} (ok : Ok c) {s s' : EpSt} {d L q} (h : Rel c s d L q) {a : EpAct} (hs : s.step c a = some s') :
    ∃ d' L' q', Rel c s' d' L' q' ∧ Move c s s' d d' a := by
  cases a with
  | begin =>
    simp only [step, Option.map_eq_some_iff] at hs
    obtain ⟨e, he, rfl⟩ := hs
    refine ⟨ext e (q.map s.elt) (L.map Prod.snd), L, q, ⟨rfl, ?_, h.nd, h.mem, h.cnt, h.lt, h.here, h.pool⟩, .begin ?_⟩
    · have := h.emp
      simp only [DynSt.step] at he
      split at he
      · simp only [Option.some.injEq] at he
        subst he
        simp only
        split <;> exact this
      · simp at he
    · rw [h.eq, begin_ext, he]; rfl
  | spurious =>
    simp only [step, Option.map_eq_some_iff] at hs
    obtain ⟨e, he, rfl⟩ := hs
    refine ⟨ext e (q.map s.elt) (L.map Prod.snd), L, q, ⟨rfl, ?_, h.nd, h.mem, h.cnt, h.lt, h.here, h.pool⟩,
      .spurious ?_⟩
    · have := h.emp
      simp only [DynSt.step] at he
      split at he
      · simp only [Option.some.injEq] at he
        subst he
        exact this
      · simp at he
    · rw [h.eq, spurious_ext, he]; rfl
  | main st run addr =>
    simp only [step] at hs
    cases he : DynSt.step c.dyn s.eng (.main st) with
    | none => simp [he] at hs
    | some e =>
      simp only [he, flush] at hs
      have hr : Rel c { s with eng := { e with queue := [] } } (ext e (q.map s.elt) (L.map Prod.snd)) L q :=
        ⟨rfl, rfl, h.nd, h.mem, h.cnt, h.lt, h.here, h.pool⟩
      obtain ⟨s2, q2, h1, h2, h3, h4⟩ := submit_rel ok run addr e.queue hr
      rw [h1] at hs
      simp only [Option.some.injEq] at hs
      subst hs
      refine ⟨_, L, q2, h4, .main _ _ _ ?_⟩
      rw [h.eq, main_ext h.emp, he]
      rfl
  | work w pre st run addr =>
    simp only [step, workStep] at hs
    cases hj : s.job w with
    | some j =>
      simp only [hj] at hs
      cases he : DynSt.jobStep c.dyn s.eng st j with
      | none => simp [he] at hs
      | some r =>
        obtain ⟨e, o⟩ := r
        simp only [he, flush] at hs
        obtain ⟨i, hi⟩ := List.mem_iff_getElem?.1 ((h.mem w j).2 hj)
        obtain ⟨hn, hm⟩ := jobs_set h.nd h.mem hi o
        generalize hL' : (match o with | some j' => L.set i (w, j') | none => L.eraseIdx i) = L' at hn hm
        have hr : Rel c { s.setJob w o with eng := { e with queue := [] } } (ext e (q.map s.elt) (L'.map Prod.snd)) L' q := by
          refine ⟨rfl, rfl, hn, ?_, h.cnt, h.lt, ?_, h.pool⟩
          · intro w' j'
            rw [hm]
            rfl
          · intro w' j' hw'
            simp only [setJob] at hw'
            split at hw'
            · rename_i hww; rw [hww]; exact h.here w j hj
            · exact h.here w' j' hw'
        obtain ⟨s2, q2, h1, h2, h3, h4⟩ := submit_rel ok run addr e.queue hr
        rw [h1] at hs
        simp only [Option.some.injEq] at hs
        subst hs
        refine ⟨_, L', q2, h4, .job w _ _ _ _ i j hj ?_⟩
        have hd : d.jobs[i]? = some j := by rw [h.eq]; simp [ext, hi]
        simp only [DynSt.step, hd]
        rw [h.eq, jobStep_ext h.emp, he]
        subst hL'
        cases o <;> simp [ext, List.map_set, List.eraseIdx_map]
    | none =>
      simp only [hj] at hs
      cases he : s.pool.step c.pool (w.act pre) with
      | none => simp [he] at hs
      | some p =>
        simp only [he, Option.some.injEq] at hs
        have hw := worker_here h.pool he
        have hworker : (w.act pre).isWorker = true := by cases w <;> rfl
        have f := PoolSt.frame_step hworker he
        have hP := pinv_worker h.pool hworker he
        rcases worker_started he with ⟨t, ts, h1, h2⟩ | ⟨h1, h2⟩
        · rw [h1] at hs
          subst hs
          have hlt := hand_pending h.pool hw h1
          have hc := h.cnt t
          have ht : t ∈ q := List.count_pos_iff.1 (by omega)
          obtain ⟨i, hi⟩ := List.mem_iff_getElem?.1 ht
          obtain ⟨hil, hie⟩ := List.getElem?_eq_some_iff.1 hi
          have hp : (t :: q.eraseIdx i).Perm q := by
            have := List.getElem_cons_eraseIdx_perm hil
            rwa [hie] at this
          refine ⟨ext s.eng ((q.eraseIdx i).map s.elt) ((L ++ [(w, Job.exec (s.elt t))]).map Prod.snd),
            L ++ [(w, Job.exec (s.elt t))], q.eraseIdx i, ⟨rfl, h.emp, ?_, ?_, ?_, ?_, ?_, hP⟩, ?_⟩
          · simp only [List.map_append, List.map_cons, List.map_nil]
            rw [List.nodup_append]
            refine ⟨h.nd, by simp, ?_⟩
            intro x hx y hy
            simp only [List.mem_singleton] at hy
            rintro rfl
            obtain ⟨⟨w', j⟩, h3, h4⟩ := List.mem_map.1 hx
            simp only at h4
            rw [h4, hy] at h3
            rw [(h.mem w j).1 h3] at hj
            simp at hj
          · intro w' j'
            simp only [List.mem_append, List.mem_singleton, Prod.mk.injEq, setJob]
            by_cases hww : w' = w
            · subst hww
              simp only [if_true, true_and, Option.some.injEq]
              constructor
              · rintro (h3 | h3)
                · rw [(h.mem w' j').1 h3] at hj; simp at hj
                · exact h3.symm
              · intro h3; exact .inr h3.symm
            · simp only [hww, false_and, or_false, if_false]
              exact h.mem w' j'
          · intro u
            have h3 := h.cnt u
            have h4 := hp.count_eq u
            simp only [setJob, h2, f.submitted, List.count_append, List.count_cons, List.count_nil] at h4 ⊢
            omega
          · intro u hu
            simp only [setJob, f.submitted] at hu ⊢
            exact h.lt u hu
          · intro w' j' hw'
            simp only [setJob] at hw'
            split at hw'
            · rename_i hww; rw [hww]; exact hw
            · exact h.here w' j' hw'
          · refine .take w _ _ _ _ i hj ?_
            have hd : d.queue[i]? = some (s.elt t) := by rw [h.eq]; simp [ext, hi]
            have hl : d.jobs.length < c.dyn.workers := by rw [h.eq]; simpa [ext] using h.room hw hj
            simp only [DynSt.step, hd, hl, if_true]
            rw [h.eq]
            simp [ext, List.eraseIdx_map]
        · have hs' : s' = { s with pool := p } := by
            rw [← hs]
            simp only [setJob]
            congr 1
            funext k
            by_cases hk : k = w
            · rw [if_pos hk, hk, hj]
            · rw [if_neg hk]
          subst hs'
          refine ⟨d, L, q, ⟨h.eq, h.emp, h.nd, h.mem, ?_, ?_, h.here, hP⟩, .pool w _ _ _ _ hj rfl rfl rfl he⟩
          · intro u; rw [h2, f.submitted]; exact h.cnt u
          · intro u hu; rw [f.submitted] at hu; exact h.lt u hu

end CGraph.EngPool
