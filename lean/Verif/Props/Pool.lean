import Verif.Model.Pool
import Verif.Lemmas.Status
import Mathlib.Data.List.Nodup
import Mathlib.Data.List.Induction
import Mathlib.Order.Nat
import Mathlib.Data.Nat.Find
import Mathlib.Data.List.Count

/-! # C13, C14, C16 – C19: routing, steal targets, thread management, task groups -/
namespace CGraph

/-! ## C13 -/

theorem check_spec {c : PoolCfg} (h : c.check = true) :
    0 ≤ c.defaultSize ∧ 0 ≤ c.secondarySize ∧ c.defaultSize + c.secondarySize ≤ c.maxSize := by
  unfold PoolCfg.check at h
  split at h
  · simp at h
  · split at h
    · simp at h
    · rename_i h1 h2
      simp at h1 h2
      omega

/-- **C13**: with a valid configuration that has at least one slot, `execute` puts the task in exactly one queue:
that of primary thread `index` if there is one, the priority queue for the long-time strategy, the shared queue for
any other explicit index.  For the default strategy the task goes to the thread of the current slot, or to the
shared queue, never to the priority queue.  Restricted to a counter that has not wrapped around, or at most 101
slots. -/
theorem C13_route_partial (c : PoolCfg) (hv : c.check = true) (hm : 0 < c.maxSize) (running : Int → Bool)
    (cur index : Int) (hcur : 0 ≤ cur ∨ c.maxSize ≤ 101) :
    ∃ d cur', c.execute running cur index = some (d, cur') ∧
      (0 ≤ index ∧ index < c.defaultSize → d = .primary index) ∧
      (index = -101 → d = .priority) ∧
      (index ≠ -1 → index ≠ -101 → ¬ (0 ≤ index ∧ index < c.defaultSize) → d = .shared (index = -102)) ∧
      (index = -1 → d ≠ .priority ∧ cur' = wrap32 (cur + 1) ∧
        (∀ i, d = .primary i ↔ 0 ≤ i ∧ i < c.defaultSize ∧ cur.tmod c.maxSize = i ∧
          (running i = false ∨ c.deliverRunning = true))) := by
  obtain ⟨h1, h2, h3⟩ := check_spec hv
  have hneg : ¬ 0 ≤ cur → c.maxSize ≤ 101 → -101 < cur.tmod c.maxSize := by
    intro hc hm1
    have h5 := Int.natAbs_tmod cur c.maxSize
    have h6 := Nat.mod_lt cur.natAbs (y := c.maxSize.natAbs) (by omega)
    omega
  have hpos : 0 ≤ cur → 0 ≤ cur.tmod c.maxSize := fun h => Int.tmod_nonneg _ h
  generalize hr : cur.tmod c.maxSize = r at *
  have hm0 : c.maxSize ≠ 0 := by omega
  simp only [PoolCfg.execute, PoolCfg.dispatch, hr, hm0, defaultStrategy, triggerAllStrategy, if_false]
  by_cases hi : index = -1
  · subst hi
    simp only [if_true]
    split
    · rename_i hrun
      simp at hrun
      refine ⟨_, _, rfl, ?_⟩
      simp only [PoolCfg.place, longTimeStrategy, triggerAllStrategy]
      grind
    · rename_i hrun
      refine ⟨_, _, rfl, ?_⟩
      simp only [PoolCfg.place, longTimeStrategy, triggerAllStrategy]
      simp at hrun
      grind
  · simp only [hi, if_false]
    refine ⟨_, _, rfl, ?_⟩
    simp only [PoolCfg.place, longTimeStrategy, triggerAllStrategy]
    grind

/-- **C13** fails after the 32 bit counter has wrapped around in a pool with more than 101 slots: a default task is
routed to the priority queue, which only secondary threads read. -/
theorem C13_wrapped_counter_violated : ∃ c : PoolCfg, c.check = true ∧ c.secondarySize = 0 ∧
    ∃ cur, -2147483648 ≤ cur ∧ cur < 2147483648 ∧ c.execute (fun _ => false) cur (-1) = some (.priority, cur + 1) :=
  ⟨{ defaultSize := 128, maxSize := 128 }, by decide, rfl, -101, by decide, by decide, by decide⟩

/-- **C13** fails for the pool that `GPipeline::makeSerial` configures (all sizes zero, accepted by `check`): the
default strategy divides by zero. -/
theorem C13_empty_pool_undefined_violated : ∃ c : PoolCfg, c.check = true ∧
    ∀ running cur, c.execute running cur (-1) = none :=
  ⟨{ defaultSize := 0, secondarySize := 0, maxSize := 0 }, by decide, fun _ _ => rfl⟩

/-- The queues chosen by `k` consecutive default submissions while no thread is running. -/
def PoolCfg.rounds (c : PoolCfg) : Nat → Int → List (Option Dest)
  | 0, _ => []
  | k + 1, cur =>
    match c.execute (fun _ => false) cur (-1) with
    | none => [none]
    | some (d, cur') => some d :: c.rounds k cur'

theorem rounds_eq (c : PoolCfg) (hm : 0 < c.maxSize) : ∀ (k : Nat) (cur : Int), 0 ≤ cur → cur + k < 2147483648 →
    c.rounds k cur = (List.range k).map (fun i : Nat => some (c.place ((cur + i) % c.maxSize))) := by
  intro k
  induction k with
  | zero => intro cur _ _; rfl
  | succ k ih =>
    intro cur h0 h1
    have hw : wrap32 (cur + 1) = cur + 1 := by unfold wrap32; omega
    have he : c.execute (fun _ => false) cur (-1) = some (c.place (cur % c.maxSize), cur + 1) := by
      simp [PoolCfg.execute, PoolCfg.dispatch, defaultStrategy, hw, show c.maxSize ≠ 0 by omega,
        Int.tmod_eq_emod_of_nonneg h0]
    simp only [PoolCfg.rounds, he]
    rw [ih (cur + 1) (by omega) (by omega), List.range_succ_eq_map, List.map_cons, List.map_map]
    simp only [Int.natCast_zero, Int.add_zero, List.cons.injEq, true_and]
    apply List.map_congr_left
    intro i _
    simp only [Function.comp]
    congr 3
    push_cast
    omega

/-- **C13** (round robin): of as many consecutive default submissions as there are slots, each primary thread gets
exactly one. -/
theorem C13_round_robin (c : PoolCfg) (hv : c.check = true) (m : Nat) (hmm : c.maxSize = m) (hm : 0 < m)
    (cur : Int) (h0 : 0 ≤ cur) (h1 : cur + m < 2147483648) (i : Int) (hi : 0 ≤ i ∧ i < c.defaultSize) :
    (c.rounds m cur).count (some (.primary i)) = 1 := by
  obtain ⟨k1, k2, k3⟩ := check_spec hv
  rw [rounds_eq c (by omega) m cur h0 h1]
  have hfun : ∀ k : Nat, (some (c.place ((cur + k) % c.maxSize)) = some (.primary i)) ↔ (cur + k) % c.maxSize = i := by
    intro k
    simp only [PoolCfg.place, Option.some.injEq]
    grind
  rw [List.count, List.countP_map]
  have hcong : ∀ k ∈ List.range m, ((fun x => x == some (Dest.primary i)) ∘
      fun k : Nat => some (c.place ((cur + k) % c.maxSize))) k = decide (k = ((i - cur) % c.maxSize).toNat) := by
    intro k hk
    have hk' := List.mem_range.1 hk
    simp only [Function.comp]
    rw [Bool.eq_iff_iff, beq_iff_eq, hfun, decide_eq_true_eq, hmm]
    have hp : (0 : Int) < m := by omega
    constructor
    · intro h
      have h2 : (i - cur) % (m : Int) = (k : Int) % m := by
        rw [← h, Int.emod_sub_emod, show cur + (k : Int) - cur = k by omega]
      rw [h2, Int.emod_eq_of_lt (by omega) (by omega)]
      simp
    · intro h
      have h3 : 0 ≤ (i - cur) % (m : Int) := Int.emod_nonneg _ (by omega)
      have h4 : (k : Int) = (i - cur) % (m : Int) := by omega
      rw [h4, Int.add_emod, Int.emod_emod, ← Int.add_emod, show cur + (i - cur) = i by omega]
      exact Int.emod_eq_of_lt hi.1 (by omega)
  rw [List.countP_congr (fun k hk => by rw [hcong k hk])]
  have hlt : ((i - cur) % c.maxSize).toNat < m := by
    have := Int.emod_lt_of_pos (i - cur) (show (0 : Int) < c.maxSize by omega)
    omega
  have := List.count_eq_one_of_mem (List.nodup_range (n := m)) (List.mem_range.2 hlt)
  rw [List.count] at this
  rw [← this]
  apply List.countP_congr
  intro k _
  simp

/-- **C13** (`executeWithTid`): a primary thread's queue for its index, the shared queue otherwise. -/
theorem C13_tid (c : PoolCfg) (tid : Int) :
    (0 ≤ tid ∧ tid < c.defaultSize → c.placeTid tid = .primary tid) ∧
    (¬ (0 ≤ tid ∧ tid < c.defaultSize) → c.placeTid tid = .shared false) := by
  unfold PoolCfg.placeTid
  split <;> simp_all

example : ({ defaultSize := 2, maxSize := 3 } : PoolCfg).rounds 6 1 =
    [some (.primary 1), some (.shared false), some (.primary 0), some (.primary 1), some (.shared false),
     some (.primary 0)] := by decide

/-! ## C14 -/

/-- **C14**: the steal targets are distinct, valid, and never the thread itself; with a large enough range they are
all other threads. -/
theorem C14_steal_targets (c : PoolCfg) (index : Int) (hi : 0 ≤ index ∧ index < c.defaultSize) :
    (c.stealTargets index).Nodup ∧
    (∀ t ∈ c.stealTargets index, 0 ≤ t ∧ t < c.defaultSize ∧ t ≠ index) ∧
    (c.stealTargets index).length = (min c.stealRange (c.defaultSize - 1)).toNat ∧
    (c.defaultSize - 1 ≤ c.stealRange → ∀ t, 0 ≤ t → t < c.defaultSize → t ≠ index → t ∈ c.stealTargets index) := by
  have hval : ∀ k : Nat, (k : Int) < c.defaultSize - 1 → (index + (k : Int) + 1).tmod c.defaultSize =
      if index + k + 1 < c.defaultSize then index + k + 1 else index + k + 1 - c.defaultSize := by
    intro k hk
    rw [Int.tmod_eq_emod_of_nonneg (by omega)]
    split
    · exact Int.emod_eq_of_lt (by omega) (by omega)
    · rw [show index + (k : Int) + 1 = (index + k + 1 - c.defaultSize) + c.defaultSize by omega, Int.add_emod_right]
      rw [show index + (k : Int) + 1 - c.defaultSize + c.defaultSize - c.defaultSize = index + k + 1 - c.defaultSize by omega]
      exact Int.emod_eq_of_lt (by omega) (by omega)
  have hlt : ∀ k ∈ List.range c.calcStealRange.toNat, (k : Int) < c.defaultSize - 1 := by
    intro k hk
    have := List.mem_range.1 hk
    unfold PoolCfg.calcStealRange at this
    omega
  refine ⟨?_, ?_, by simp [PoolCfg.stealTargets, PoolCfg.calcStealRange], ?_⟩
  · apply List.Nodup.map_on _ List.nodup_range
    intro a ha b hb hab
    rw [hval a (hlt a ha), hval b (hlt b hb)] at hab
    have h1 := hlt a ha
    have h2 := hlt b hb
    split at hab <;> split at hab <;> omega
  · intro t ht
    obtain ⟨k, hk, rfl⟩ := List.mem_map.1 ht
    have := hlt k hk
    rw [hval k this]
    split <;> omega
  · intro hr t h0 h1 h2
    refine List.mem_map.2 ⟨(if index < t then t - index - 1 else t + c.defaultSize - index - 1).toNat, ?_, ?_⟩
    · rw [List.mem_range]
      unfold PoolCfg.calcStealRange
      split <;> omega
    · rw [hval _ (by split <;> omega)]
      split <;> split <;> omega

example : ({ defaultSize := 4, stealRange := 7 } : PoolCfg).stealTargets 2 = [3, 0, 1] := by decide

/-! ## C17 -/

namespace PoolMgr

theorem length_markSecs (l : List SecThread) (n : Int) : (markSecs l n).length = l.length := by
  induction l generalizing n with
  | nil => rfl
  | cons t ts ih => simp only [markSecs]; split <;> simp [ih]

theorem length_freezePass (c : PoolCfg) (obs : Nat → Bool) (l : List SecThread) (k : Nat) :
    (freezePass c obs k l).length ≤ l.length := by
  induction l generalizing k with
  | nil => simp [freezePass]
  | cons t ts ih =>
    have := ih (k + 1)
    simp only [freezePass]
    split <;> simp <;> omega

/-- Primary threads are none or the configured number; secondary threads fit in what is left. -/
def Sized (c : PoolCfg) (s : PoolMgr) : Prop :=
  (s.prims = if s.isInit then c.defaultSize.toNat else 0) ∧ (s.secs.length : Int) ≤ c.maxSize - c.defaultSize

theorem sized_create {c : PoolCfg} {s : PoolMgr} (h : Sized c s) (n : Int) : Sized c (s.createSecondary c n) := by
  obtain ⟨h1, h2⟩ := h
  refine ⟨h1, ?_⟩
  simp only [createSecondary, addSecs, realSize, List.length_append, List.length_replicate]
  omega

theorem sized_step {c : PoolCfg} {s : PoolMgr} (h : Sized c s) (o : Op) : Sized c (s.step c o) := by
  cases o with
  | init =>
    simp only [step, init]
    split
    · exact h
    · rename_i hi
      have h1 := h.1
      rw [if_neg hi] at h1
      have h2 : Sized c { isInit := s.isInit, prims := 0, secs := s.secs, prio := s.prio } :=
        ⟨by simp at hi; simp [hi], h.2⟩
      have h3 := sized_create h2 c.secondarySize
      refine ⟨by simp [createSecondary, addSecs, h1], ?_⟩
      simpa [createSecondary, addSecs] using h3.2
  | create n => exact sized_create h n
  | release n =>
    have hl := List.length_filter_le (·.done) s.secs
    simp only [step, release]
    split
    · refine ⟨h.1, ?_⟩; have := h.2; simp only; omega
    · refine ⟨h.1, ?_⟩; have := h.2; simp only [length_markSecs]; omega
  | monitor b o =>
    simp only [step, monitorRound]
    have h1 : Sized c (if (decide (s.prims ≠ 0) && b || decide (s.prio ≠ 0)) = true then s.createSecondary c 1
        else s) := by
      split
      · exact sized_create h 1
      · exact h
    have := length_freezePass c (fun k => o.getD k false) (if (decide (s.prims ≠ 0) && b || decide (s.prio ≠ 0)) = true then s.createSecondary c 1
        else s).secs 0
    refine ⟨h1.1, ?_⟩
    have h2 := h1.2
    simp only
    omega
  | commitPrio =>
    simp only [step, commitPrio]
    split
    · exact sized_create h 1
    · exact h
  | commitLong => exact h
  | serve => simp only [step]; split <;> exact h
  | destroy =>
    simp only [step, destroy]
    split
    · refine ⟨by simp, ?_⟩
      have := h.2
      simp only [List.length_nil]
      omega
    · exact h

theorem sized_run {c : PoolCfg} (hv : c.check = true) (ops : List Op) : Sized c (run c ops) := by
  have h0 : Sized c empty := by
    obtain ⟨h1, h2, h3⟩ := check_spec hv
    exact ⟨rfl, by simp [empty]; omega⟩
  unfold run
  generalize empty = s at h0
  induction ops generalizing s with
  | nil => exact h0
  | cons o ops ih => exact ih _ (sized_step h0 o)

end PoolMgr

/-- **C17** (calls one at a time): after any history the pool has at most `max_thread_size` threads. -/
theorem C17_max_threads_partial (c : PoolCfg) (hv : c.check = true) (ops : List PoolMgr.Op) :
    ((PoolMgr.run c ops).prims + (PoolMgr.run c ops).secs.length : Int) ≤ c.maxSize := by
  have h := PoolMgr.sized_run hv ops
  obtain ⟨h1, h2, h3⟩ := check_spec hv
  have h4 := h.1
  have h5 := h.2
  split at h4 <;> omega

/-- **C17** fails when two callers create secondary threads at the same time: both compute the free room before
taking the lock.  With room for one, two threads are added. -/
theorem C17_concurrent_create_violated :
    ∃ c : PoolCfg, c.check = true ∧ ∃ acts : List PoolMgr.RaceAct,
      let s := acts.foldl (PoolMgr.Race.step c) ⟨PoolMgr.run c [.init], fun _ => none⟩
      c.maxSize < s.pool.prims + s.pool.secs.length :=
  ⟨{ defaultSize := 2, maxSize := 3 }, by decide, [.size 0 1, .size 1 1, .insert 0, .insert 1], by decide⟩

/-- **C17** (release): a release that is refused asked for more threads than there are live ones, and leaves the
live ones as they were; an accepted one stops exactly `size` of the live threads. -/
theorem C17_release (s : PoolMgr) (size : Int) (h0 : 0 ≤ size) :
    ((s.release size).2 = false ↔ (s.secs.countP (·.done) : Int) < size) ∧
    ((s.release size).2 = false → (s.release size).1.secs = s.secs.filter (·.done)) ∧
    ((s.release size).2 = true → ((s.release size).1.secs.countP (·.done) : Int) + size = s.secs.countP (·.done)) := by
  have hmark : ∀ (l : List SecThread) (n : Int), (∀ t ∈ l, t.done = true) → 0 ≤ n → n ≤ (l.length : Int) →
      ((PoolMgr.markSecs l n).countP (·.done) : Int) + n = l.length := by
    intro l
    induction l with
    | nil => intro n _ h1 h2; simp [PoolMgr.markSecs] at *; omega
    | cons t ts ih =>
      intro n hd h1 h2
      simp only [PoolMgr.markSecs]
      split
      · have := ih (n - 1) (fun t ht => hd t (List.mem_cons_of_mem _ ht)) (by omega)
          (by simp at h2; omega)
        simp only [List.countP_cons, List.length_cons]
        push_cast
        simp
        omega
      · have hn : n = 0 := by omega
        subst hn
        have : (t :: ts).countP (·.done) = (t :: ts).length := List.countP_eq_length.2 hd
        simp only [this]
        omega
  have hl : (s.secs.filter (·.done)).length = s.secs.countP (·.done) := (List.countP_eq_length_filter).symm
  simp only [PoolMgr.release]
  split
  · rename_i h
    rw [hl] at h
    simp
    omega
  · rename_i h
    rw [hl] at h
    refine ⟨by simp; omega, by simp, fun _ => ?_⟩
    have := hmark (s.secs.filter (·.done)) size (fun t ht => (List.mem_filter.1 ht).2) h0 (by rw [hl]; omega)
    rw [hl] at this
    exact this

example : let c : PoolCfg := { defaultSize := 2, secondarySize := 1, maxSize := 4 }
    let s := PoolMgr.run c [.init, .create 5, .release 1, .release 9, .monitor true [], .commitPrio]
    (s.prims, s.secs.length) = (2, 2) := by decide

/-! ## C16 -/

theorem PoolMgr.create_none {c : PoolCfg} (hc : c.maxSize = c.defaultSize) {s : PoolMgr} (hs : s.secs = [])
    (n : Int) : s.createSecondary c n = s := by
  have : (PoolMgr.realSize c n s.secs.length).toNat = 0 := by
    simp only [PoolMgr.realSize, hs, List.length_nil]; omega
  cases s
  simp_all [PoolMgr.createSecondary, PoolMgr.addSecs]

/-- **C16** fails whenever `max_thread_size` equals `default_thread_size`, as in the default configuration: after
init and `commitWithPriority` the task is in a queue that no thread reads, and this stays so for ever. -/
theorem C16_no_secondary_violated (c : PoolCfg) (hv : c.check = true) (hc : c.maxSize = c.defaultSize)
    (ops : List PoolMgr.Op) :
    let s := PoolMgr.run c (.init :: .commitPrio :: ops)
    s.secs = [] ∧ 1 ≤ s.prio := by
  have key : ∀ (ops : List PoolMgr.Op) (s : PoolMgr), s.secs = [] →
      (ops.foldl (PoolMgr.step c) s).secs = [] ∧ s.prio ≤ (ops.foldl (PoolMgr.step c) s).prio := by
    intro ops
    induction ops with
    | nil => intro s h1; exact ⟨h1, Nat.le_refl _⟩
    | cons o ops ih =>
      intro s h1
      have h3 : (s.step c o).secs = [] ∧ s.prio ≤ (s.step c o).prio := by
        cases o with
        | init =>
          simp only [PoolMgr.step, PoolMgr.init]
          split
          · exact ⟨h1, Nat.le_refl _⟩
          · rw [PoolMgr.create_none hc (by exact h1)]; exact ⟨h1, Nat.le_refl _⟩
        | create n => simp only [PoolMgr.step]; rw [PoolMgr.create_none hc h1]; exact ⟨h1, Nat.le_refl _⟩
        | release n => simp only [PoolMgr.step, PoolMgr.release, h1]; split <;> simp [PoolMgr.markSecs]
        | monitor b o =>
          simp only [PoolMgr.step, PoolMgr.monitorRound, PoolMgr.create_none hc h1, ite_self, h1]
          simp [PoolMgr.freezePass]
        | commitPrio =>
          simp only [PoolMgr.step, PoolMgr.commitPrio, PoolMgr.create_none hc h1, ite_self, h1]
          simp
        | commitLong => simp [PoolMgr.step, PoolMgr.commitLong, h1]
        | serve => simp [PoolMgr.step, h1]
        | destroy => simp only [PoolMgr.step, PoolMgr.destroy]; split <;> simp [h1]
      have := ih _ h3.1
      exact ⟨this.1, Nat.le_trans h3.2 this.2⟩
  have h0 : (PoolMgr.step c PoolMgr.empty .init).secs = [] ∧ _ := key [.init] PoolMgr.empty rfl
  have h1 : (PoolMgr.commitPrio c (PoolMgr.step c PoolMgr.empty .init)).secs = [] ∧
      1 ≤ (PoolMgr.commitPrio c (PoolMgr.step c PoolMgr.empty .init)).prio := by
    simp only [PoolMgr.commitPrio, PoolMgr.create_none hc h0.1, ite_self]
    exact ⟨h0.1, by omega⟩
  have h2 := key ops _ h1.1
  exact ⟨h2.1, Nat.le_trans h1.2 h2.2⟩

example : ({} : PoolCfg).check = true ∧ ({} : PoolCfg).maxSize = ({} : PoolCfg).defaultSize := by decide

/-- **C16** fails after a release even if the configuration leaves room: the released thread stays in the list, so
`commitWithPriority` creates no new one. -/
theorem C16_after_release_violated :
    let c : PoolCfg := { defaultSize := 1, secondarySize := 1, maxSize := 4 }
    let s := PoolMgr.run c [.init, .release 1, .commitPrio]
    1 ≤ s.prio ∧ s.secs.any (·.done) = false := by decide

/-- **C16** fails for the long-time strategy, which creates no secondary thread. -/
theorem C16_long_time_violated :
    let c : PoolCfg := { defaultSize := 1, maxSize := 4 }
    let s := PoolMgr.run c [.init, .commitLong]
    1 ≤ s.prio ∧ s.secs = [] := by decide

/-- **C16** (what holds): if the configuration leaves room for a secondary thread and no thread was ever released,
then right after `commitWithPriority` a live secondary thread exists. -/
theorem C16_served_partial (c : PoolCfg) (hroom : c.defaultSize < c.maxSize) (ops : List PoolMgr.Op)
    (hr : ∀ n, PoolMgr.Op.release n ∉ ops) :
    (PoolMgr.run c (ops ++ [.commitPrio])).secs.any (·.done) = true := by
  have hfr : ∀ (obs : Nat → Bool) (l : List SecThread) (k : Nat), (∀ t ∈ l, t.done = true) →
      ∀ t ∈ PoolMgr.freezePass c obs k l, t.done = true := by
    intro obs l
    induction l with
    | nil => intro k _ t ht; simp [PoolMgr.freezePass] at ht
    | cons x l ih =>
      intro k hl t ht
      simp only [PoolMgr.freezePass] at ht
      have hx := hl x (by simp)
      have ih' := ih (k + 1) (fun y hy => hl y (by simp [hy]))
      split at ht
      · exact ih' t ht
      · rcases List.mem_cons.1 ht with rfl | ht
        · exact hx
        · exact ih' t ht
  have hcr : ∀ (s : PoolMgr) (n : Int), (∀ t ∈ s.secs, t.done = true) →
      ∀ t ∈ (s.createSecondary c n).secs, t.done = true := by
    intro s n h t ht
    simp only [PoolMgr.createSecondary, PoolMgr.addSecs, List.mem_append, List.mem_replicate] at ht
    rcases ht with ht | ⟨_, rfl⟩
    · exact h t ht
    · rfl
  have inv : ∀ (ops : List PoolMgr.Op) (s : PoolMgr), (∀ n, PoolMgr.Op.release n ∉ ops) →
      (∀ t ∈ s.secs, t.done = true) → ∀ t ∈ (ops.foldl (PoolMgr.step c) s).secs, t.done = true := by
    intro ops
    induction ops with
    | nil => intro s _ h; exact h
    | cons o ops ih =>
      intro s hr h
      refine ih _ (fun n hn => hr n (by simp [hn])) ?_
      cases o with
      | init =>
        simp only [PoolMgr.step, PoolMgr.init]
        split
        · exact h
        · exact hcr _ _ h
      | create n => exact hcr s n h
      | release n => exact absurd (by simp) (hr n)
      | monitor b o =>
        simp only [PoolMgr.step, PoolMgr.monitorRound]
        apply hfr
        split
        · exact hcr _ _ h
        · exact h
      | commitPrio =>
        simp only [PoolMgr.step, PoolMgr.commitPrio]
        split
        · exact hcr _ _ h
        · exact h
      | commitLong => exact h
      | serve => simp only [PoolMgr.step]; split <;> exact h
      | destroy =>
        simp only [PoolMgr.step, PoolMgr.destroy]
        split
        · simp
        · exact h
  have h := inv ops PoolMgr.empty hr (by simp [PoolMgr.empty])
  simp only [PoolMgr.run, List.foldl_append, List.foldl_cons, List.foldl_nil, PoolMgr.step, PoolMgr.commitPrio]
  split
  · rename_i he
    have he' : (ops.foldl (PoolMgr.step c) PoolMgr.empty).secs = [] := by simpa using he
    have hs : (PoolMgr.realSize c 1 (ops.foldl (PoolMgr.step c) PoolMgr.empty).secs.length).toNat = 1 := by
      rw [he']; simp only [PoolMgr.realSize, List.length_nil]; omega
    simp [PoolMgr.createSecondary, PoolMgr.addSecs, hs]
  · rename_i he
    cases hl : (ops.foldl (PoolMgr.step c) PoolMgr.empty).secs with
    | nil => simp [hl] at he
    | cons t ts =>
      have := h t (by rw [hl]; simp)
      simp [this]

example : let c : PoolCfg := { defaultSize := 1, maxSize := 2 }
    (PoolMgr.run c ([.init, .create 1, .monitor false [false]] ++ [.commitPrio])).secs = [⟨true, 9⟩] := by decide

/-! ## C18 -/

/-- Successive `freeze` calls on one thread: the number of the round in which it is retired, counting from `k`. -/
def freezeRounds (cfgTtl : Int) : Nat → SecThread → List Bool → Option Nat
  | _, _, [] => none
  | k, t, o :: os =>
    let r := t.freeze cfgTtl o
    if r.2 then some k else freezeRounds cfgTtl (k + 1) r.1 os

/-- Idle minus busy observations. -/
def idleExcess (l : List Bool) : Int := (l.countP (fun b => !b) : Int) - l.countP (fun b => b)

theorem idleExcess_cons (b : Bool) (l : List Bool) :
    idleExcess (b :: l) = idleExcess l + (if b then -1 else 1) := by
  cases b <;> simp [idleExcess] <;> omega

theorem idleExcess_append (a b : List Bool) : idleExcess (a ++ b) = idleExcess a + idleExcess b := by
  simp [idleExcess]; omega

/-- **C18**: a secondary thread whose ttl is `T` is retired in round `n` (and not before) iff some window of
consecutive observations ending in that round contains `T` more idle than busy ones, and no earlier window did. -/
theorem C18_retire_exact (T : Nat) (hT : 1 ≤ T) (obs : List Bool) (n : Nat) :
    freezeRounds T 0 ⟨true, T⟩ obs = some n ↔
      (n < obs.length ∧ (∃ a w, a ++ w = obs.take (n + 1) ∧ (T : Int) ≤ idleExcess w) ∧
        ∀ m, m < n → ∀ a w, a ++ w = obs.take (m + 1) → idleExcess w < T) := by
  -- credit after a history
  let credit : List Bool → Int := fun past => past.foldl (fun x o => if o then min (x + 1) T else x - 1) T
  -- the credit is the minimum over windows ending now
  have hcredit : ∀ past, (∀ a w, a ++ w = past → credit past ≤ T - idleExcess w) ∧
      (∃ a w, a ++ w = past ∧ credit past = T - idleExcess w) := by
    intro past
    induction past using List.reverseRecOn with
    | nil =>
      refine ⟨?_, [], [], rfl, by simp [credit, idleExcess]⟩
      intro a w h
      simp at h
      obtain ⟨rfl, rfl⟩ := h
      simp [credit, idleExcess]
    | append_singleton past o ih =>
      have hc : credit (past ++ [o]) = if o then min (credit past + 1) T else credit past - 1 := by
        simp [credit]
      obtain ⟨ih1, a0, w0, ih2, ih3⟩ := ih
      constructor
      · intro a w h
        rcases List.eq_nil_or_concat w with hw | ⟨w', x, hw⟩
        · subst hw
          rw [hc]
          have : credit past ≤ T := by
            have := ih1 past [] (by simp)
            simpa [idleExcess] using this
          simp only [idleExcess, List.countP_nil]
          split <;> omega
        · rw [List.concat_eq_append] at hw
          subst hw
          rw [← List.append_assoc] at h
          obtain ⟨h1, h2⟩ := List.append_inj' h rfl
          have := ih1 a w' h1
          simp at h2
          subst h2
          rw [hc, idleExcess_append, idleExcess_cons]
          cases x <;> simp [idleExcess] at * <;> omega
      · by_cases hmin : o = true ∧ (T : Int) < credit past + 1
        · refine ⟨past ++ [o], [], by simp, ?_⟩
          rw [hc]
          simp only [hmin.1, if_true, idleExcess, List.countP_nil]
          omega
        · refine ⟨a0, w0 ++ [o], by rw [← List.append_assoc, ih2], ?_⟩
          rw [hc, idleExcess_append, idleExcess_cons]
          cases o <;> simp [idleExcess] at * <;> omega
  -- the code keeps exactly this credit
  have hcode : ∀ (os past : List Bool), freezeRounds T past.length ⟨true, credit past⟩ os = some n ↔
      (past.length ≤ n ∧ n < past.length + os.length ∧ credit ((past ++ os).take (n + 1)) ≤ 0 ∧
        ∀ m, past.length ≤ m → m < n → 0 < credit ((past ++ os).take (m + 1))) := by
    intro os
    induction os with
    | nil => intro past; simp [freezeRounds]; omega
    | cons o os ih =>
      intro past
      have hc : credit (past ++ [o]) = if o then min (credit past + 1) T else credit past - 1 := by
        simp [credit]
      have htk : ((past ++ o :: os).take (past.length + 1)) = past ++ [o] := by
        rw [List.take_append]; simp [List.take_of_length_le]
      simp only [freezeRounds, SecThread.freeze, ← hc, Bool.and_true, decide_eq_true_eq]
      split
      · rename_i hle
        simp only [Option.some.injEq]
        constructor
        · rintro rfl
          refine ⟨Nat.le_refl _, by simp, by rw [htk]; exact hle, ?_⟩
          intro m h1 h2; omega
        · rintro ⟨h1, h2, h3, h4⟩
          by_contra hne
          have := h4 past.length (Nat.le_refl _) (by omega)
          rw [htk] at this
          omega
      · rename_i hle
        have := ih (past ++ [o])
        simp only [List.length_append, List.length_singleton, List.append_assoc, List.singleton_append] at this
        rw [this]
        constructor
        · rintro ⟨h1, h2, h3, h4⟩
          refine ⟨by omega, by simp; omega, h3, ?_⟩
          intro m hm1 hm2
          rcases Nat.eq_or_lt_of_le hm1 with rfl | hlt
          · rw [htk]; omega
          · exact h4 m hlt hm2
        · rintro ⟨h1, h2, h3, h4⟩
          have hne : n ≠ past.length := by
            rintro rfl
            rw [htk] at h3
            exact hle h3
          refine ⟨by omega, by simp at h2; omega, h3, ?_⟩
          intro m hm1 hm2
          exact h4 m (by omega) hm2
  have h0 := hcode obs []
  have hcr0 : credit [] = T := rfl
  rw [hcr0] at h0
  simp only [List.length_nil, List.nil_append, Nat.zero_le, true_and, Nat.zero_add] at h0
  rw [h0]
  constructor
  · rintro ⟨h1, h2, h3⟩
    refine ⟨h1, ?_, ?_⟩
    · obtain ⟨a, w, h4, h5⟩ := (hcredit (obs.take (n + 1))).2
      exact ⟨a, w, h4, by omega⟩
    · intro m hm a w haw
      have := (hcredit (obs.take (m + 1))).2
      by_contra hno
      have h6 := (hcredit (obs.take (m + 1))).1 a w haw
      have := h3 m (by simp) hm
      omega
  · rintro ⟨h1, ⟨a, w, h2, h3⟩, h4⟩
    refine ⟨h1, ?_, ?_⟩
    · have := (hcredit (obs.take (n + 1))).1 a w h2
      omega
    · intro m _ hm
      obtain ⟨a, w, h5, h6⟩ := (hcredit (obs.take (m + 1))).2
      have := h4 m hm a w h5
      omega

/-- **C18** (idle): a thread seen idle in `T` consecutive rounds is retired by then. -/
theorem C18_idle_retires (T : Nat) (hT : 1 ≤ T) (pre : List Bool) :
    ∃ n, freezeRounds T 0 ⟨true, T⟩ (pre ++ List.replicate T false) = some n := by
  by_contra hno
  have hnone : freezeRounds T 0 ⟨true, T⟩ (pre ++ List.replicate T false) = none := by
    cases h : freezeRounds T 0 ⟨true, T⟩ (pre ++ List.replicate T false) with
    | none => rfl
    | some n => exact absurd ⟨n, h⟩ hno
  -- the least round with a sufficient window
  classical
  let P : Nat → Prop := fun n => ∃ a w, a ++ w = (pre ++ List.replicate T false).take (n + 1) ∧ (T : Int) ≤ idleExcess w
  have hex : ∃ n, n < (pre ++ List.replicate T false).length ∧ P n := by
    refine ⟨pre.length + T - 1, by simp; omega, pre, List.replicate T false, ?_, ?_⟩
    · rw [List.take_of_length_le (by simp; omega)]
    · simp [idleExcess, List.countP_replicate]
  have hP : ∃ n, P n := ⟨_, hex.choose_spec.2⟩
  have hmin : ∀ m, m < Nat.find hP → ¬ P m := fun m hm => Nat.find_min hP hm
  have hfind := Nat.find_spec hP
  have hlt : Nat.find hP < (pre ++ List.replicate T false).length :=
    Nat.lt_of_le_of_lt (Nat.find_min' hP hex.choose_spec.2) hex.choose_spec.1
  have := (C18_retire_exact T hT (pre ++ List.replicate T false) (Nat.find hP)).2 ⟨hlt, hfind, fun m hm a w haw => by
    by_contra hc
    exact hmin m hm ⟨a, w, haw, by omega⟩⟩
  rw [this] at hnone
  simp at hnone

/-- **C18** (busy): a thread with positive credit seen busy is not retired in that round; a released thread is never
retired by the monitor. -/
theorem C18_busy_stays (T : Int) (t : SecThread) (h : 0 < t.ttl) (hT : 0 < T) :
    (t.freeze T true).2 = false ∧ (∀ o, (SecThread.freeze T o { t with done := false }).2 = false) := by
  constructor
  · simp only [SecThread.freeze, if_true, Bool.and_eq_false_iff, decide_eq_false_iff_not]
    left; omega
  · intro o; simp [SecThread.freeze]

example : freezeRounds 2 0 ⟨true, 2⟩ [false, true, true, true, false, true, false, false] = some 7 := by decide

/-! ## C19 -/

/-- **C19**: on an initialised pool every task is handed over once and the callback gets the returned status exactly
once; if all tasks finished by the deadline `now + min(group ttl, call ttl)` the status is OK; if the status is OK
then every task had finished when its wait ended. -/
theorem C19_submit (hasCb : Bool) (now gttl cttl : Nat) (obs : List FutureObs)
    (hv : ∀ o ∈ obs, validObs (submitDeadline now gttl cttl) o) :
    let r := submitGroup true hasCb obs
    r.handed = obs.length ∧ r.callbacks = (if hasCb then [r.status] else []) ∧
    ((∀ o ∈ obs, ∃ t, o.fin = some t ∧ t ≤ now + min gttl cttl) → r.status.isOK = true) ∧
    (r.status.isOK = true → ∀ o ∈ obs, ∃ t, o.fin = some t ∧ t ≤ o.seen) ∧
    (r.status.isOK = false → r.status.isErr = true ∧ ∃ o ∈ obs, (∀ t, o.fin = some t → o.seen < t) ∧
      now + min gttl cttl ≤ o.seen) := by
  have key : ∀ (obs : List FutureObs) (st : CStatus), st.isErr = true ∨ st = CStatus.ok →
      let st' := obs.foldl (fun st o => if o.ready then st else st.add (CStatus.err "thread status timeout")) st
      (st.isErr = true → st'.isErr = true) ∧
      (st = CStatus.ok → ((∀ o ∈ obs, o.ready = true) ∧ st' = CStatus.ok) ∨
        ((∃ o ∈ obs, o.ready = false) ∧ st'.isErr = true)) := by
    intro obs
    induction obs with
    | nil => intro st h; simp
    | cons o obs ih =>
      intro st h
      simp only [List.foldl_cons]
      cases ho : o.ready with
      | true =>
        have := ih st h
        simp only [if_true, List.mem_cons, forall_eq_or_imp, exists_eq_or_imp, ho]
        simpa using this
      | false =>
        have he : (st.add (CStatus.err "thread status timeout")).isErr = true := by
          rcases h with h | h
          · rw [CStatus.add_of_err _ h]; exact h
          · subst h; decide
        have := (ih _ (Or.inl he)).1 he
        simp only [Bool.false_eq_true, if_false]
        refine ⟨fun _ => this, fun _ => Or.inr ⟨⟨o, by simp, ho⟩, this⟩⟩
  have hk := (key obs CStatus.ok (Or.inr rfl)).2 rfl
  have hready : ∀ o : FutureObs, o.ready = true ↔ ∃ t, o.fin = some t ∧ t ≤ o.seen := by
    intro o
    unfold FutureObs.ready
    cases o.fin <;> simp
  simp only [submitGroup, Bool.not_true, Bool.false_eq_true, if_false, true_and]
  rcases hk with ⟨h1, h2⟩ | ⟨⟨o, ho, h1⟩, h2⟩
  · rw [h2]
    refine ⟨fun _ => rfl, fun _ o ho => (hready o).1 (h1 o ho), ?_⟩
    intro h; exact absurd h (by decide)
  · have hnok := CStatus.isErr_not_ok h2
    refine ⟨?_, ?_, ?_⟩
    · intro hall
      obtain ⟨t, ht1, ht2⟩ := hall o ho
      rcases hv o ho with hr | hr
      · rw [h1] at hr; simp at hr
      · have : o.ready = true := (hready o).2 ⟨t, ht1, by unfold submitDeadline at hr; omega⟩
        rw [h1] at this; simp at this
    · intro hok; rw [hnok] at hok; simp at hok
    · intro _
      refine ⟨h2, o, ho, ?_, ?_⟩
      · intro t ht
        by_contra hc
        have := (hready o).2 ⟨t, ht, by omega⟩
        rw [h1] at this; simp at this
      · rcases hv o ho with hr | hr
        · rw [h1] at hr; simp at hr
        · exact hr

/-- **C19** (before init): refused, nothing handed over, no callback. -/
theorem C19_not_init (hasCb : Bool) (obs : List FutureObs) :
    (submitGroup false hasCb obs).status.isErr = true ∧ (submitGroup false hasCb obs).handed = 0 ∧
      (submitGroup false hasCb obs).callbacks = [] := by
  refine ⟨?_, rfl, rfl⟩
  show (CStatus.err _).isErr = true
  decide

example : ∀ o ∈ [(⟨some 3, 3⟩ : FutureObs), ⟨none, 12⟩, ⟨some 14, 15⟩], validObs (submitDeadline 2 10 20) o := by
  simp [validObs, FutureObs.ready, submitDeadline]

end CGraph
