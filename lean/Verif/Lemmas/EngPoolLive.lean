import Verif.Lemmas.EngPool
import Verif.Props.PoolLive
import Verif.Props.Dynamic

/-! # Fair executions of the engine on the pool -/
namespace CGraph.EngPool
open EpSt Spec

set_option maxHeartbeats 1000000

/-- The operating system is fair: the caller is scheduled again and again; so is every thread of the pool, also at
moments when the caller does not hold the engine's mutex; and a thread that tries a queue again and again does not lose
the race for its mutex for ever. -/
structure Fair (c : EpCfg) (σ : Nat → EpAct) : Prop where
  caller : ∀ n, ∃ m, n ≤ m ∧ ∃ st run addr, σ m = .main st run addr
  often : ∀ (w : Thr) (n : Nat), w.here c → ∃ m, n ≤ m ∧ (∃ pre st run addr, σ m = .work w pre st run addr) ∧
    (trace c σ m).eng.main ≠ .check ∧ (trace c σ m).eng.main ≠ .preSleep
  lock : ∀ (w : Thr) (P : WPc), P = .pop ∨ P = .pool ∨ P = .prio →
    (∀ n, ∃ m, n ≤ m ∧ w.pc (trace c σ m).pool = P ∧ ∃ pre st run addr, σ m = .work w pre st run addr) →
    ∀ n, ∃ m, n ≤ m ∧ w.pc (trace c σ m).pool = P ∧ ∃ st run addr, σ m = .work w true st run addr

/-- Runs are begun only when no element of the last one failed, or when all that the last one handed over has been
executed. -/
def Calm (c : EpCfg) (σ : Nat → EpAct) : Prop :=
  ∀ n, σ n = .begin → (trace c σ n).eng.failed = [] ∨
    ((trace c σ n).pool.started.Perm (trace c σ n).pool.submitted ∧
      ∀ w j, (trace c σ n).job w = some j → j.harmless = true)

/-! ### the states of the engine alone -/

/-- What one step of the schedule does. -/
def Next (c : EpCfg) (σ : Nat → EpAct) (n : Nat) (d d' : DynSt) : Prop :=
  ((trace c σ n).step c (σ n) = none ∧ trace c σ (n + 1) = trace c σ n ∧ d' = d) ∨
  ((trace c σ n).step c (σ n) = some (trace c σ (n + 1)) ∧ Move c (trace c σ n) (trace c σ (n + 1)) d d' (σ n))

theorem nxt {c : EpCfg} (ok : Ok c) {σ : Nat → EpAct} {n : Nat} {d : DynSt} (h : ∃ L q, Rel c (trace c σ n) d L q) :
    ∃ d', (∃ L q, Rel c (trace c σ (n + 1)) d' L q) ∧ Next c σ n d d' := by
  obtain ⟨L, q, h⟩ := h
  cases hs : (trace c σ n).step c (σ n) with
  | none =>
    have : trace c σ (n + 1) = trace c σ n := by simp [trace, hs]
    exact ⟨d, ⟨L, q, by rw [this]; exact h⟩, .inl ⟨hs, this, rfl⟩⟩
  | some s' =>
    have he : trace c σ (n + 1) = s' := by simp [trace, hs]
    obtain ⟨d', L', q', h1, h2⟩ := sim ok h hs
    refine ⟨d', ⟨L', q', by rw [he]; exact h1⟩, .inr ⟨by rw [hs, he], by rw [he]; exact h2⟩⟩

/-- The states of the engine alone along a schedule. -/
noncomputable def seq {c : EpCfg} (ok : Ok c) (σ : Nat → EpAct) :
    (n : Nat) → { d : DynSt // ∃ L q, Rel c (trace c σ n) d L q }
  | 0 => ⟨DynSt.init c.dyn, [], [], rel_init c⟩
  | n + 1 => ⟨Classical.choose (nxt ok (seq ok σ n).2), (Classical.choose_spec (nxt ok (seq ok σ n).2)).1⟩

theorem seq_next {c : EpCfg} (ok : Ok c) (σ : Nat → EpAct) (n : Nat) :
    Next c σ n (seq ok σ n).1 (seq ok σ (n + 1)).1 := (Classical.choose_spec (nxt ok (seq ok σ n).2)).2

theorem seq_main {c : EpCfg} (ok : Ok c) (σ : Nat → EpAct) (n : Nat) :
    (seq ok σ n).1.main = (trace c σ n).eng.main ∧ (seq ok σ n).1.failed = (trace c σ n).eng.failed ∧
    (seq ok σ n).1.trace = (trace c σ n).eng.trace ∧ (seq ok σ n).1.lastRet = (trace c σ n).eng.lastRet ∧
    (seq ok σ n).1.status = (trace c σ n).eng.status := by
  obtain ⟨L, q, h⟩ := (seq ok σ n).2
  rw [h.eq]
  exact ⟨rfl, rfl, rfl, rfl, rfl⟩

theorem seq_reach {c : EpCfg} (ok : Ok c) {σ : Nat → EpAct} (hc : Calm c σ) (n : Nat) :
    DynSt.Reach c.dyn (seq ok σ n).1 := by
  induction n with
  | zero => exact .init
  | succ n ih =>
    rcases seq_next ok σ n with ⟨_, _, h⟩ | ⟨_, hm⟩
    · rw [h]; exact ih
    · generalize hd' : (seq ok σ (n + 1)).1 = d' at hm
      generalize hact : σ n = a at hm
      cases hm with
      | begin h =>
        refine .step ih h fun _ => ?_
        rcases hc n hact with h1 | ⟨h1, h2⟩
        · left; rw [(seq_main ok σ n).2.1]; exact h1
        · right
          obtain ⟨L, q, hr⟩ := (seq ok σ n).2
          constructor
          · have : q = [] := by
              cases q with
              | nil => rfl
              | cons t q =>
                have h3 := hr.cnt t
                have h4 := h1.count_eq t
                simp only [List.count_cons_self] at h3
                omega
            rw [hr.eq, this]; rfl
          · intro j hj
            rw [hr.eq] at hj
            simp only [ext, List.mem_map] at hj
            obtain ⟨⟨w, j'⟩, h3, rfl⟩ := hj
            exact h2 w j' ((hr.mem w j').1 h3)
      | main _ _ _ h => exact .step ih h (fun h' => by simp at h')
      | spurious h => exact .step ih h (fun h' => by simp at h')
      | job _ _ _ _ _ _ _ _ h => exact .step ih h (fun h' => by simp at h')
      | take _ _ _ _ _ _ _ h => exact .step ih h (fun h' => by simp at h')
      | pool _ _ _ _ _ _ hd _ _ _ => rw [hd]; exact ih

/-! ### a measure that stays only while the caller waits -/

/-- The caller has finished the busy wait. -/
def slow : MainPc → Bool
  | .lock => true
  | .check => true
  | .preSleep => true
  | .asleep => true
  | .waking => true
  | _ => false

/-- `DynSt.mainW` with the states of waiting made equal. -/
def mainV (c : DynCfg) (m : MainPc) : Nat := if slow m then 4 else DynSt.mainW c m

/-- The measure. -/
def V (c : DynCfg) (s : DynSt) : Nat :=
  DynSt.restW c s.trace + 3 * s.queue.length + mainV c s.main + ((s.allJobs).map (DynSt.jobW c.g)).sum

theorem V_work {c : DynCfg} {s : DynSt} : V c s + DynSt.mainW c s.main = DynSt.work c s + mainV c s.main := by
  simp only [V, DynSt.work]; omega

/-- How the waiting caller moves. -/
def rank : MainPc → Nat
  | .lock => 3
  | .waking => 3
  | .check => 2
  | .preSleep => 1
  | _ => 0

/-- Steps that keep the measure. -/
structure Idle (a : DynAct) (d d' : DynSt) : Prop where
  sl : slow d.main = true
  sl' : slow d'.main = true
  eq : d' = { d with main := d'.main }
  rk : (a = .spurious ∧ d.main = .asleep) ∨ rank d'.main < rank d.main

theorem step_V {c : DynCfg} (w : c.g.WF) {d d' : DynSt} {a} (h : DynSt.SInv c d) (hs : DynSt.step c d a = some d')
    (hb : a ≠ .begin) (hi : d'.main ≠ .idle) :
    V c d' < V c d ∨ (V c d' = V c d ∧ Idle a d d' ∧ (a = .spurious ∨ ∃ st, a = .main st)) := by
  have hw := DynSt.step_work w h hs hb
  have h1 := V_work (c := c) (s := d)
  have h2 := V_work (c := c) (s := d')
  have hjob : (d'.main = d.main ∨ (d.main = .asleep ∧ d'.main = .waking)) → a ≠ .spurious → V c d' < V c d := by
    rintro (h3 | ⟨h3, h4⟩) h5
    · rw [h3] at h2
      rw [if_neg h5] at hw
      omega
    · rw [h3] at h1
      rw [h4] at h2
      rw [if_neg h5] at hw
      simp only [mainV, slow, DynSt.mainW, if_true] at h1 h2
      omega
  cases a with
  | begin => exact absurd rfl hb
  | take i =>
    left
    refine hjob ?_ (by simp)
    simp only [DynSt.step] at hs
    grind
  | work i st =>
    left
    refine hjob ?_ (by simp)
    simp only [DynSt.step] at hs
    split at hs
    · simp at hs
    · split at hs
      · simp at hs
      · rename_i hj
        have := (DynSt.jobStep_frame hj).2.2.2
        simp only [Option.some.injEq] at hs; subst hs; exact this
      · rename_i hj
        have := (DynSt.jobStep_frame hj).2.2.2
        simp only [Option.some.injEq] at hs; subst hs; exact this
  | spurious =>
    right
    simp only [DynSt.step] at hs
    split at hs
    · rename_i hm
      simp only [Option.some.injEq] at hs
      subst hs
      refine ⟨?_, ⟨by rw [hm]; rfl, rfl, rfl, .inl ⟨rfl, hm⟩⟩, .inl rfl⟩
      simp [V, DynSt.allJobs, hm, mainV, slow]
    · simp at hs
  | main st =>
    cases hm : d.main with
    | idle => simp [DynSt.step, hm] at hs
    | fronts rest =>
      left
      have : d'.main = .idle ∨ slow d'.main = false := by
        simp only [DynSt.step, hm] at hs
        match rest, hs with
        | [], hs => simp only [Option.some.injEq] at hs; subst hs; right; rfl
        | [x], hs =>
          simp only at hs
          split at hs
          · simp only [Option.some.injEq] at hs; subst hs; right; rfl
          · split at hs <;> simp only [Option.some.injEq] at hs <;> subst hs <;> right <;> rfl
        | x :: y :: r, hs =>
          simp only at hs
          split at hs <;> simp only [Option.some.injEq] at hs <;> subst hs <;> right <;> rfl
      rcases this with h3 | h3
      · exact absurd h3 hi
      · simp only [mainV, h3] at h2
        simp only [hm, mainV, slow] at h1
        simp at h1 h2 hw
        omega
    | inline j =>
      left
      have : slow d'.main = false := by
        simp only [DynSt.step, hm] at hs
        split at hs
        · simp at hs
        · simp only [Option.some.injEq] at hs; subst hs; rfl
        · simp only [Option.some.injEq] at hs; subst hs; rfl
      simp only [mainV, this] at h2
      simp only [hm, mainV, slow] at h1
      simp at h1 h2 hw
      omega
    | poll n =>
      left
      have : d'.main = .idle ∨ slow d'.main = false ∨ d'.main = .lock := by
        simp only [DynSt.step, hm] at hs
        cases n with
        | zero => simp only [Option.some.injEq] at hs; subst hs; right; right; rfl
        | succ n =>
          simp only at hs
          split at hs <;> simp only [Option.some.injEq] at hs <;> subst hs
          · left; rfl
          · right; left; rfl
      simp only [hm, mainV, slow] at h1
      simp at h1 hw
      rcases this with h3 | h3 | h3
      · exact absurd h3 hi
      · simp only [mainV, h3] at h2
        simp at h2
        omega
      · simp only [h3, mainV, slow, DynSt.mainW] at h2
        simp at h2
        omega
    | lock =>
      right
      simp only [DynSt.step, hm, Option.some.injEq] at hs
      subst hs
      exact ⟨by simp [V, DynSt.allJobs, hm, mainV, slow], ⟨by rw [hm]; rfl, rfl, rfl, .inr (by rw [hm]; simp [rank])⟩, .inr ⟨st, rfl⟩⟩
    | check =>
      right
      simp only [DynSt.step, hm] at hs
      split at hs
      · simp only [Option.some.injEq] at hs; subst hs; exact absurd rfl hi
      · simp only [Option.some.injEq] at hs
        subst hs
        exact ⟨by simp [V, DynSt.allJobs, hm, mainV, slow], ⟨by rw [hm]; rfl, rfl, rfl, .inr (by rw [hm]; simp [rank])⟩, .inr ⟨st, rfl⟩⟩
    | preSleep =>
      right
      simp only [DynSt.step, hm, Option.some.injEq] at hs
      subst hs
      exact ⟨by simp [V, DynSt.allJobs, hm, mainV, slow], ⟨by rw [hm]; rfl, rfl, rfl, .inr (by rw [hm]; simp [rank])⟩, .inr ⟨st, rfl⟩⟩
    | asleep => simp [DynSt.step, hm] at hs
    | waking =>
      right
      simp only [DynSt.step, hm, Option.some.injEq] at hs
      subst hs
      exact ⟨by simp [V, DynSt.allJobs, hm, mainV, slow], ⟨by rw [hm]; rfl, rfl, rfl, .inr (by rw [hm]; simp [rank])⟩, .inr ⟨st, rfl⟩⟩

theorem settles (f : Nat → Nat) (n : Nat) (h : ∀ m, n ≤ m → f (m + 1) ≤ f m) :
    ∃ N, n ≤ N ∧ ∀ m, N ≤ m → f m = f N := by
  generalize hk : f n = k
  induction k using Nat.strong_induction_on generalizing n with
  | _ k ih =>
    by_cases hc : ∀ m, n ≤ m → f m = f n
    · exact ⟨n, Nat.le_refl _, hc⟩
    · obtain ⟨m, hm⟩ := Classical.not_forall.1 hc
      have hm1 : n ≤ m := Classical.byContradiction fun h1 => hm fun h2 => absurd h2 h1
      have hm2 : f m ≠ f n := fun h1 => hm fun _ => h1
      have hle : ∀ i, f (n + i) ≤ f n := by
        intro i
        induction i with
        | zero => exact Nat.le_refl _
        | succ i ih => exact Nat.le_trans (h (n + i) (by omega)) ih
      have h3 := hle (m - n)
      rw [show n + (m - n) = m by omega] at h3
      obtain ⟨N, h4, h5⟩ := ih (f m) (by omega) m (fun i hi => h i (by omega)) rfl
      exact ⟨N, by omega, h5⟩

/-! ### from some moment on only the pool and the waiting caller move -/

section
variable {c : EpCfg} (ok : Ok c) (w : c.g.WF) (ha : AcyclicOn c.g.Edge c.g.elems) {σ : Nat → EpAct} (hc : Calm c σ)
include w ha hc

/-- From `N` on the run does not return and the measure stays. -/
def Still (N : Nat) : Prop :=
  (∀ m, N ≤ m → (trace c σ m).eng.main ≠ .idle) ∧ ∀ m, N ≤ m → V c.dyn (seq ok σ m).1 = V c.dyn (seq ok σ N).1

omit w ha hc in
theorem no_begin {d : DynSt} {a : EpAct} {s s' : EpSt} {d' : DynSt} (hm : Move c s s' d d' a) (hi : d.main ≠ .idle) :
    a ≠ .begin := by
  rintro rfl
  cases hm with
  | begin h => simp [DynSt.step, hi] at h

theorem exists_still {n : Nat} (hne : ∀ m, n ≤ m → (trace c σ m).eng.main ≠ .idle) :
    ∃ N, n ≤ N ∧ Still (σ := σ) ok N := by
  obtain ⟨N, h1, h2⟩ := settles (fun m => V c.dyn (seq ok σ m).1) n (by
    intro m hm
    have hi := hne m hm
    have hi' := hne (m + 1) (by omega)
    rw [← (seq_main ok σ m).1] at hi
    rw [← (seq_main ok σ (m + 1)).1] at hi'
    have hS := DynSt.sinv_reach w ha (seq_reach ok hc m)
    rcases seq_next ok σ m with ⟨_, _, h⟩ | ⟨_, hmv⟩
    · simp only [h]; exact Nat.le_refl _
    · have key : ∀ a, a ≠ .begin → DynSt.step c.dyn (seq ok σ m).1 a = some (seq ok σ (m + 1)).1 →
          V c.dyn (seq ok σ (m + 1)).1 ≤ V c.dyn (seq ok σ m).1 := by
        intro a h3 h4
        rcases step_V w hS h4 h3 hi' with h5 | ⟨h5, _⟩ <;> omega
      generalize σ m = a at hmv
      cases hmv with
      | begin h => simp [DynSt.step, hi] at h
      | main _ _ _ h => exact key _ (by simp) h
      | spurious h => exact key _ (by simp) h
      | job _ _ _ _ _ _ _ _ h => exact key _ (by simp) h
      | take _ _ _ _ _ _ _ h => exact key _ (by simp) h
      | pool _ _ _ _ _ _ hd _ _ _ => rw [hd])
  exact ⟨N, h1, fun m hm => hne m (by omega), h2⟩

/-- What a step can still do. -/
inductive Quiet (s s' : EpSt) : EpAct → Prop
  | none (a : EpAct) (h : s' = s) (hn : s.step c a = none) : Quiet s s' a
  | pool (w : Thr) (pre st run addr) (hj : s.job w = .none) (he : s'.eng = s.eng) (hk : s'.job = s.job)
      (hp : s.pool.step c.pool (w.act pre) = some s'.pool) : Quiet s s' (.work w pre st run addr)
  | main (st run addr) (hsl : slow s.eng.main = true) (hr : rank s'.eng.main < rank s.eng.main)
      (hsl' : slow s'.eng.main = true) (he : DynSt.step c.dyn s.eng (.main st) = some s'.eng) (hp : s'.pool = s.pool)
      (hk : s'.job = s.job) : Quiet s s' (.main st run addr)
  | spurious (ham : s.eng.main = .asleep) (he : s'.eng = { s.eng with main := .waking }) (hp : s'.pool = s.pool)
      (hk : s'.job = s.job) : Quiet s s' .spurious

theorem still_step {N : Nat} (hs : Still (σ := σ) ok N) {m : Nat} (hm : N ≤ m) :
    Quiet (c := c) (trace c σ m) (trace c σ (m + 1)) (σ m) := by
  have hi := hs.1 m hm
  have hi' := hs.1 (m + 1) (by omega)
  have hV : V c.dyn (seq ok σ (m + 1)).1 = V c.dyn (seq ok σ m).1 := by
    rw [hs.2 m hm, hs.2 (m + 1) (by omega)]
  have e1 := (seq_main ok σ m).1
  have e2 := (seq_main ok σ (m + 1)).1
  rw [← e1] at hi
  rw [← e2] at hi'
  have hS := DynSt.sinv_reach w ha (seq_reach ok hc m)
  obtain ⟨L, q, hr⟩ := (seq ok σ m).2
  rcases seq_next ok σ m with ⟨h1, h2, _⟩ | ⟨hst, hmv⟩
  · exact .none _ h2 h1
  · have key : ∀ a, a ≠ .begin → DynSt.step c.dyn (seq ok σ m).1 a = some (seq ok σ (m + 1)).1 →
        Idle a (seq ok σ m).1 (seq ok σ (m + 1)).1 ∧ (a = .spurious ∨ ∃ st, a = .main st) := by
      intro a h3 h4
      rcases step_V w hS h4 h3 hi' with h5 | ⟨_, h5⟩
      · omega
      · exact h5
    generalize hact : σ m = a at hmv hst
    cases hmv with
    | begin h => simp [DynSt.step, hi] at h
    | main st run addr h =>
      obtain ⟨k1, _⟩ := key _ (by simp) h
      have hsl := k1.sl
      rw [e1] at hsl
      have hrk : rank (trace c σ (m + 1)).eng.main < rank (trace c σ m).eng.main := by
        rcases k1.rk with ⟨h3, _⟩ | h3
        · simp at h3
        · rw [e1, e2] at h3; exact h3
      have hq : ∀ e, DynSt.step c.dyn (trace c σ m).eng (.main st) = some e → e.queue = [] := by
        intro e he
        have hemp := hr.emp
        generalize trace c σ m = s at he hsl hemp
        cases hm : s.eng.main <;> simp only [hm, slow] at hsl <;> try (simp at hsl)
        all_goals simp only [DynSt.step, hm] at he
        · simp only [Option.some.injEq] at he; subst he; exact hemp
        · split at he <;> simp only [Option.some.injEq] at he <;> subst he <;> exact hemp
        · simp only [Option.some.injEq] at he; subst he; exact hemp
        · simp at he
        · simp only [Option.some.injEq] at he; subst he; exact hemp
      simp only [step] at hst
      cases he : DynSt.step c.dyn (trace c σ m).eng (.main st) with
      | none => simp [he] at hst
      | some e =>
        simp only [he, flush, hq e he, submit, Option.some.injEq] at hst
        refine .main st run addr hsl hrk ?_ ?_ ?_ ?_
        · rw [← e2]; exact k1.sl'
        · rw [he, ← hst]
          have h6 := hq e he
          simp only [Option.some.injEq]
          rw [← h6]
        · rw [← hst]
        · rw [← hst]
    | spurious h =>
      obtain ⟨k1, _⟩ := key _ (by simp) h
      simp only [step, Option.map_eq_some_iff] at hst
      obtain ⟨e, h3, h4⟩ := hst
      simp only [DynSt.step] at h3
      split at h3
      · rename_i h5
        simp only [Option.some.injEq] at h3
        refine .spurious h5 ?_ ?_ ?_
        · rw [← h4, h3]
        · rw [← h4]
        · rw [← h4]
      · simp at h3
    | job _ _ _ _ _ _ _ _ h =>
      obtain ⟨_, k2⟩ := key _ (by simp) h
      simp at k2
    | take _ _ _ _ _ _ _ h =>
      obtain ⟨_, k2⟩ := key _ (by simp) h
      simp at k2
    | pool w pre st run addr hj hd he hk hp => exact .pool w pre st run addr hj he hk hp

theorem still_job {N : Nat} (hs : Still (σ := σ) ok N) {m : Nat} (hm : N ≤ m) :
    (trace c σ m).job = (trace c σ N).job := by
  obtain ⟨i, rfl⟩ := Nat.exists_eq_add_of_le hm
  clear hm
  induction i with
  | zero => rfl
  | succ i ih =>
    rw [← ih]
    have := still_step ok w ha hc hs (m := N + i) (by omega)
    rw [Nat.add_assoc] at this
    generalize trace c σ (N + i) = s at this
    generalize trace c σ (N + (i + 1)) = s' at this
    generalize σ (N + i) = a at this
    cases this with
    | none _ h _ => rw [h]
    | pool _ _ _ _ _ _ _ hk _ => exact hk
    | main _ _ _ _ _ _ _ _ hk => exact hk
    | spurious _ _ _ hk => exact hk

/-- A caller that is not yet waiting would move. -/
theorem still_slow (hf : Fair c σ) {N : Nat} (hs : Still (σ := σ) ok N) {m : Nat} (hm : N ≤ m) :
    slow (trace c σ m).eng.main = true := by
  refine Classical.byContradiction fun hn => ?_
  have hsame : ∀ i, (trace c σ (m + i)).eng = (trace c σ m).eng := by
    intro i
    induction i with
    | zero => rfl
    | succ i ih =>
      have := still_step ok w ha hc hs (m := m + i) (by omega)
      rw [Nat.add_assoc] at this
      rw [← ih]
      rw [← ih] at hn
      generalize trace c σ (m + i) = s at this hn
      generalize trace c σ (m + (i + 1)) = s' at this
      generalize σ (m + i) = a at this
      cases this with
      | none _ h _ => rw [h]
      | pool _ _ _ _ _ _ he _ _ => exact he
      | main _ _ _ hsl _ _ _ _ _ => exact absurd hsl hn
      | spurious ham _ _ _ => rw [ham] at hn; simp [slow] at hn
  obtain ⟨m', h1, st, run, addr, h2⟩ := hf.caller m
  obtain ⟨i, rfl⟩ := Nat.exists_eq_add_of_le h1
  have hi := hs.1 (m + i) (by omega)
  have hq := still_step ok w ha hc hs (m := m + i) (by omega)
  rw [← hsame i] at hn
  rw [h2] at hq
  obtain ⟨L, q, hr⟩ := (seq ok σ (m + i)).2
  have hemp := hr.emp
  cases hq with
  | none _ h hnn =>
    simp only [step] at hnn
    cases he : DynSt.step c.dyn (trace c σ (m + i)).eng (.main st) with
    | none =>
      have hje : ∀ j, (trace c σ (m + i)).eng.main = .inline j →
          DynSt.jobStep c.dyn (trace c σ (m + i)).eng st j ≠ none := by
        intro j hj; apply DynSt.jobStep_enabled <;> simp [hj]
      clear hr hs hf hc hsame
      generalize (trace c σ (m + i)).eng = e at *
      unfold DynSt.step at he
      cases hm : e.main <;> simp [hm, slow] at hn hi <;> simp only [hm] at he <;> grind
    | some e =>
      simp only [he, flush] at hnn
      have hr' : Rel c { trace c σ (m + i) with eng := { e with queue := [] } }
          (ext e (q.map (trace c σ (m + i)).elt) (L.map Prod.snd)) L q :=
        ⟨rfl, rfl, hr.nd, hr.mem, hr.cnt, hr.lt, hr.here, hr.pool⟩
      obtain ⟨s2, q2, h3, _⟩ := submit_rel ok run addr e.queue hr'
      rw [h3] at hnn
      simp at hnn
  | main _ _ _ hsl _ _ _ _ _ => exact absurd hsl hn

/-- A thread inside the engine would move. -/
theorem still_nojob (hf : Fair c σ) {N : Nat} (hs : Still (σ := σ) ok N) {m : Nat} (hm : N ≤ m) (k : Thr) :
    (trace c σ m).job k = none := by
  cases hj : (trace c σ m).job k with
  | none => rfl
  | some j =>
    exfalso
    obtain ⟨L, q, hr⟩ := (seq ok σ m).2
    obtain ⟨m', h1, ⟨pre, st, run, addr, h2⟩, h3, h4⟩ := hf.often k m (hr.here k j hj)
    have hj' : (trace c σ m').job k = some j := by
      rw [still_job ok w ha hc hs (by omega : N ≤ m'), ← still_job ok w ha hc hs hm]; exact hj
    have hq := still_step ok w ha hc hs (m := m') (by omega)
    rw [h2] at hq
    obtain ⟨L', q', hr'⟩ := (seq ok σ m').2
    cases hq with
    | none _ h hnn =>
      simp only [step, workStep, hj'] at hnn
      cases he : DynSt.jobStep c.dyn (trace c σ m').eng st j with
      | none => exact DynSt.jobStep_enabled h3 h4 he
      | some r =>
        obtain ⟨e, o⟩ := r
        simp only [he, flush] at hnn
        have hr2 : Rel c { trace c σ m' with eng := { e with queue := [] } }
            (ext e (q'.map (trace c σ m').elt) (L'.map Prod.snd)) L' q' :=
          ⟨rfl, rfl, hr'.nd, hr'.mem, hr'.cnt, hr'.lt, hr'.here, hr'.pool⟩
        obtain ⟨s2, q2, h5, _⟩ := submit_rel ok run addr e.queue hr2
        have : ∀ (xs : List Eid) (s1 s3 : EpSt), s1.pool = s3.pool → s1.next = s3.next →
            submit c run addr xs s1 = none → submit c run addr xs s3 = none := by
          intro xs
          induction xs with
          | nil => intro s1 s3 _ _ h; simp [submit] at h
          | cons x xs ih =>
            intro s1 s3 e1 e2 h
            simp only [submit, e1, e2] at h ⊢
            cases h6 : PoolSt.step c.pool s3.pool (.submit s3.next (c.bind x) run addr) with
            | none => rfl
            | some p =>
              simp only [h6] at h
              exact ih _ _ (by rfl) (by rfl) h
        rw [this _ _ _ (by rfl) (by rfl) hnn] at h5
        simp at h5
    | pool _ _ _ _ _ hn _ _ _ => rw [hj'] at hn; simp at hn

/-! ### the pool executes what is left -/

omit w ha hc in
/-- The step of the pool that belongs to a step; the caller's steps become a step of a thread that does not exist. -/
def proj (c : EpCfg) : EpAct → PAct
  | .work w pre _ _ _ => w.act pre
  | _ => .sec c.secs false

omit w ha hc in
theorem proj_worker (a : EpAct) : (proj c a).isWorker = true := by
  cases a with
  | work w _ _ _ _ => cases w <;> rfl
  | _ => rfl

omit w ha hc in
include ok in
theorem seq_pool (m : Nat) : PInv c (trace c σ m).pool := by
  obtain ⟨_, _, h⟩ := (seq ok σ m).2
  exact h.pool

theorem still_pool (hf : Fair c σ) {N : Nat} (hs : Still (σ := σ) ok N) (i : Nat) :
    (trace c σ (N + i)).pool = PoolLive.trace c.pool (trace c σ N).pool (fun k => proj c (σ (N + k))) i := by
  induction i with
  | zero => rfl
  | succ i ih =>
    simp only [PoolLive.trace, ← ih]
    have hq := still_step ok w ha hc hs (m := N + i) (by omega)
    have hj := fun k => still_nojob ok w ha hc hf hs (m := N + i) (by omega) k
    have hns := (seq_pool ok (σ := σ) (N + i)).nsec
    have hno : PoolSt.step c.pool (trace c σ (N + i)).pool (.sec c.secs false) = none := by
      simp [PoolSt.step, hns]
    rw [show N + (i + 1) = N + i + 1 from rfl]
    generalize trace c σ (N + i) = s at *
    generalize trace c σ (N + i + 1) = s' at *
    generalize σ (N + i) = a at *
    cases hq with
    | none a h hn =>
      rw [h]
      cases a with
      | work k pre st run addr =>
        simp only [step, workStep, hj k] at hn
        simp only [proj]
        cases h6 : PoolSt.step c.pool s.pool (k.act pre) with
        | none => rfl
        | some p => simp [h6] at hn
      | _ => simp only [proj, hno, Option.getD_none]
    | pool k pre _ _ _ _ _ _ hp => simp only [proj, hp, Option.getD_some]
    | main _ _ _ _ _ _ _ hp _ => simp only [proj, hno, Option.getD_none, hp]
    | spurious _ _ hp _ => simp only [proj, hno, Option.getD_none, hp]

omit w ha hc in
/-- The thread in the words of C99. -/
def Thr.wk : Thr → PoolLive.Wk
  | .p i => .p i
  | .s j => .s j

omit w ha hc in
theorem wk_cases (k : PoolLive.Wk) : ∃ v : Thr, k = v.wk ∧ (∀ b, k.act b = v.act b) ∧ ∀ p, k.pc p = v.pc p := by
  cases k with
  | p i => exact ⟨.p i, rfl, fun _ => rfl, fun _ => rfl⟩
  | s j => exact ⟨.s j, rfl, fun _ => rfl, fun _ => rfl⟩

theorem still_fair (hf : Fair c σ) {N : Nat} (hs : Still (σ := σ) ok N) :
    PoolLive.Fair c.pool (trace c σ N).pool (fun k => proj c (σ (N + k))) where
  often := by
    intro k n hk
    obtain ⟨v, rfl, h1, _⟩ := wk_cases k
    have hv : v.here c := by
      rw [← still_pool ok w ha hc hf hs] at hk
      cases v with
      | p i => exact hk
      | s j =>
        show j < c.secs
        rw [← (seq_pool ok (σ := σ) (N + n)).nsec]; exact hk
    obtain ⟨m, h2, ⟨pre, st, run, addr, h3⟩, _⟩ := hf.often v (N + n) hv
    refine ⟨m - N, by omega, pre, ?_⟩
    rw [h1]
    show proj c (σ (N + (m - N))) = _
    rw [show N + (m - N) = m from by omega, h3]; rfl
  lock := by
    intro k P hP hal n
    obtain ⟨v, rfl, h1, h2⟩ := wk_cases k
    have key : ∀ m b, v.pc (trace c σ (N + m)).pool = P → proj c (σ (N + m)) = v.act b →
        ∃ st run addr, σ (N + m) = .work v b st run addr := by
      intro m b h3 h4
      have hfr := (seq_pool ok (σ := σ) (N + m)).inv.fresh c.secs
        (by rw [(seq_pool ok (σ := σ) (N + m)).nsec])
      cases ha : σ (N + m) with
      | work v' b' st run addr =>
        rw [ha] at h4
        simp only [proj] at h4
        have : v' = v ∧ b' = b := by cases v <;> cases v' <;> simp_all [Thr.act]
        exact ⟨st, run, addr, by rw [this.1, this.2]⟩
      | _ =>
        exfalso
        rw [ha] at h4
        simp only [proj] at h4
        cases v with
        | p i => simp [Thr.act] at h4
        | s j =>
          simp only [Thr.act, PAct.sec.injEq] at h4
          have h5 : (trace c σ (N + m)).pool.sec j = P := h3
          rw [← h4.1, hfr] at h5
          rcases hP with h | h | h <;> rw [h] at h5 <;> simp at h5
    obtain ⟨m, h3, h4, st, run, addr, h5⟩ := hf.lock v P hP (by
      intro n'
      obtain ⟨m, h3, h4, b, h5⟩ := hal n'
      rw [← still_pool ok w ha hc hf hs, h2] at h4
      obtain ⟨st, run, addr, h6⟩ := key m b h4 (by rw [← h1]; exact h5)
      exact ⟨N + m, by omega, h4, b, st, run, addr, h6⟩) (N + n)
    have hm : N + (m - N) = m := by omega
    refine ⟨m - N, by omega, ?_, ?_, ?_⟩
    · rw [← still_pool ok w ha hc hf hs, h2, hm]; exact h4
    · rw [h1]
      show proj c (σ (N + (m - N))) = _
      rw [hm, h5]; rfl
    · rw [← still_pool ok w ha hc hf hs]
      cases v with
      | p i => exact (seq_pool ok (σ := σ) (N + (m - N))).unl i
      | s j => trivial

theorem still_drained (hf : Fair c σ) {N : Nat} (hs : Still (σ := σ) ok N) :
    ∃ M, N ≤ M ∧ ∀ m, M ≤ m → (trace c σ m).pool.finished.Perm (trace c σ m).pool.submitted := by
  obtain ⟨l, hl⟩ := (seq_pool ok (σ := σ) N).reach
  have hA := (seq_pool ok (σ := σ) N).alive ok
  have hF := still_fair ok w ha hc hf hs
  have hP := still_pool ok w ha hc hf hs
  rw [hl] at hA hF hP
  obtain ⟨M, hM⟩ := PoolLive.C99_drained c.pool c.secs l _ hA (fun n => proj_worker _) hF
  refine ⟨N + M, by omega, fun m hm => ?_⟩
  obtain ⟨i, rfl⟩ : ∃ i, m = N + i := ⟨m - N, by omega⟩
  have h1 := hM i (by omega)
  have h2 := (PoolLive.trace_frame (c := c.pool) (s0 := PoolSt.run c.pool (PoolSt.init c.secs) l)
    (σ := fun k => proj c (σ (N + k))) (fun n => proj_worker _) i).submitted
  rw [← hP] at h1 h2
  rw [h2]; exact h1

omit w ha hc in
/-- What has been executed to its end has been called. -/
theorem drained_started {p : PoolSt} (h : PInv c p) (hp : p.finished.Perm p.submitted) :
    p.started.Perm p.submitted := by
  rw [List.perm_iff_count]
  intro t
  have h1 := h.inv.cons t
  have h2 := h.inv.fin t
  have h3 := hp.count_eq t
  omega

/-! ### the waiting caller -/

theorem next_main (hf : Fair c σ) {N : Nat} (hs : Still (σ := σ) ok N) {m : Nat} (hm : N ≤ m)
    (hna : (trace c σ m).eng.main ≠ .asleep) :
    ∃ m', m ≤ m' ∧ (trace c σ m').eng = (trace c σ m).eng ∧ ∃ st,
      DynSt.step c.dyn (trace c σ m).eng (.main st) = some (trace c σ (m' + 1)).eng ∧
      rank (trace c σ (m' + 1)).eng.main < rank (trace c σ m).eng.main := by
  have hex : ∃ i, ∃ st run addr, σ (m + i) = .main st run addr := by
    obtain ⟨m', h1, h2⟩ := hf.caller m
    exact ⟨m' - m, by rw [show m + (m' - m) = m' from by omega]; exact h2⟩
  obtain ⟨i, ⟨st, run, addr, hi⟩, hmin⟩ :
      ∃ i, (∃ st run addr, σ (m + i) = .main st run addr) ∧ ∀ k, k < i → ¬ ∃ st run addr, σ (m + k) = .main st run addr := by
    classical
    exact ⟨Nat.find hex, Nat.find_spec hex, fun k hk => Nat.find_min hex hk⟩
  have hsame : ∀ k, k ≤ i → (trace c σ (m + k)).eng = (trace c σ m).eng := by
    intro k hk
    induction k with
    | zero => rfl
    | succ k ih =>
      have ih := ih (by omega)
      have hq := still_step ok w ha hc hs (m := m + k) (by omega)
      have hno := hmin k (by omega)
      rw [← ih]
      rw [← ih] at hna
      rw [show m + (k + 1) = m + k + 1 from rfl]
      generalize trace c σ (m + k) = s at *
      generalize trace c σ (m + k + 1) = s' at *
      generalize σ (m + k) = a at *
      cases hq with
      | none _ h _ => rw [h]
      | pool _ _ _ _ _ _ he _ _ => exact he
      | main st run addr => exact absurd ⟨st, run, addr, rfl⟩ hno
      | spurious ham _ _ _ => exact absurd ham hna
  have he := hsame i (Nat.le_refl _)
  refine ⟨m + i, by omega, he, st, ?_⟩
  have hq := still_step ok w ha hc hs (m := m + i) (by omega)
  have hsl := still_slow ok w ha hc hf hs (m := m + i) (by omega)
  rw [hi] at hq
  rw [← he]
  rw [← he] at hna
  obtain ⟨L, q, hr⟩ := (seq ok σ (m + i)).2
  have hemp := hr.emp
  clear hr hmin hsame hex
  generalize trace c σ (m + i) = s at *
  generalize trace c σ (m + i + 1) = s' at *
  cases hq with
  | none _ h hn =>
    exfalso
    simp only [step, DynSt.step] at hn
    cases hm : s.eng.main <;> simp [hm, slow] at hsl hna <;> simp only [hm] at hn
    · simp [flush, hemp, submit] at hn
    · split at hn
      · rename_i h7; split at h7 <;> simp at h7
      · rename_i e h7
        split at h7 <;> simp only [Option.some.injEq] at h7 <;> subst h7 <;> simp [flush, hemp, submit, DynSt.ret] at hn
    · simp [flush, hemp, submit] at hn
    · simp [flush, hemp, submit] at hn
  | main _ _ _ _ hr _ he _ _ => exact ⟨he, hr⟩

theorem reaches_asleep (hf : Fair c σ) {N : Nat} (hs : Still (σ := σ) ok N) : ∀ (r : Nat) {m : Nat}, N ≤ m →
    rank (trace c σ m).eng.main ≤ r → ∃ m', m ≤ m' ∧ (trace c σ m').eng.main = .asleep := by
  intro r
  induction r with
  | zero =>
    intro m hm hr
    refine ⟨m, Nat.le_refl _, ?_⟩
    have := still_slow ok w ha hc hf hs hm
    cases h : (trace c σ m).eng.main <;> simp [h, slow, rank] at this hr ⊢
  | succ r ih =>
    intro m hm hr
    by_cases h : (trace c σ m).eng.main = .asleep
    · exact ⟨m, Nat.le_refl _, h⟩
    · obtain ⟨m', h1, _, st, _, h3⟩ := next_main ok w ha hc hf hs hm h
      obtain ⟨m2, h4, h5⟩ := ih (m := m' + 1) (by omega) (by omega)
      exact ⟨m2, by omega, h5⟩

/-- The run that does not return: the caller sleeps for ever, an element has failed, nobody is left. -/
theorem still_lost (hf : Fair c σ) {N : Nat} (hs : Still (σ := σ) ok N) :
    ∃ M, N ≤ M ∧ ∀ m, M ≤ m → (trace c σ m).eng.main = .asleep ∧ (trace c σ m).eng.status.isErr = true ∧
      (trace c σ m).eng = (trace c σ M).eng ∧
      (∀ k, (trace c σ m).job k = none) ∧ (trace c σ m).pool.finished.Perm (trace c σ m).pool.submitted := by
  obtain ⟨M0, h1, h2⟩ := still_drained ok w ha hc hf hs
  obtain ⟨M, h3, h4⟩ := reaches_asleep ok w ha hc hf hs _ h1 (Nat.le_refl _)
  have hst : (trace c σ M).eng.status.isErr = true := by
    have hS := DynSt.sinv_reach w ha (seq_reach ok hc M)
    obtain ⟨L, q, hr⟩ := (seq ok σ M).2
    have e1 := (seq_main ok σ M).1
    have hq : q = [] := by
      cases q with
      | nil => rfl
      | cons t q =>
        have h5 := hr.cnt t
        have h6 := (drained_started hr.pool (h2 M h3)).count_eq t
        simp only [List.count_cons_self] at h5
        omega
    have hL : L = [] := by
      cases L with
      | nil => rfl
      | cons x L =>
        have := (hr.mem x.1 x.2).1 (by simp)
        rw [still_nojob ok w ha hc hf hs (by omega)] at this
        simp at this
    rw [h4] at e1
    have hstuck : DynSt.Stuck c.dyn (seq ok σ M).1 := by
      have hqe : (seq ok σ M).1.queue = [] := by rw [hr.eq, hq]; rfl
      have hje : (seq ok σ M).1.jobs = [] := by rw [hr.eq, hL]; rfl
      intro a ha1 ha2
      cases a with
      | begin => exact absurd rfl ha1
      | spurious => exact absurd rfl ha2
      | main st => simp [DynSt.step, e1]
      | take i => simp [DynSt.step, hqe]
      | work i st => simp [DynSt.step, hje]
    have hw1 : 1 ≤ c.dyn.workers := by
      have := ok.one
      simp only [EpCfg.dyn]; omega
    have := DynSt.stuck_cases w ha hw1 hS (fun h0 => by
      have := hS.first h0; rw [this] at e1; simp [DynSt.init] at e1) (by rw [e1]; simp) hstuck
    rw [← (seq_main ok σ M).2.2.2.2]
    exact this.2.2.2
  have hfix : ∀ i, (trace c σ (M + i)).eng = (trace c σ M).eng := by
    intro i
    induction i with
    | zero => rfl
    | succ i ih =>
      have hq := still_step ok w ha hc hs (m := M + i) (by omega)
      have ha4 : (trace c σ (M + i)).eng.main = .asleep := by rw [ih]; exact h4
      have hst4 : (trace c σ (M + i)).eng.status.isErr = true := by rw [ih]; exact hst
      rw [← ih]
      show (trace c σ (M + i + 1)).eng = _
      generalize hact : σ (M + i) = a at hq
      cases hq with
      | none _ h _ => rw [h]
      | pool _ _ _ _ _ _ he _ _ => exact he
      | main _ _ _ _ hr => rw [ha4] at hr; simp [rank] at hr
      | spurious _ he _ _ =>
        exfalso
        have ew : (trace c σ (M + i + 1)).eng.main = .waking := by rw [he]
        have es : (trace c σ (M + i + 1)).eng.status.isErr = true := by rw [he]; exact hst4
        obtain ⟨m1, k1, _, st, k2, _⟩ := next_main ok w ha hc hf hs (m := M + i + 1) (by omega) (by rw [ew]; simp)
        simp only [DynSt.step, ew, Option.some.injEq] at k2
        have ec : (trace c σ (m1 + 1)).eng.main = .check := by rw [← k2]
        have es2 : (trace c σ (m1 + 1)).eng.status.isErr = true := by rw [← k2]; exact es
        obtain ⟨m2, k3, _, st, k4, _⟩ := next_main ok w ha hc hf hs (m := m1 + 1) (by omega) (by rw [ec]; simp)
        simp only [DynSt.step, ec, es2, or_true, if_true, Option.some.injEq] at k4
        exact hs.1 (m2 + 1) (by omega) (by rw [← k4]; rfl)
  refine ⟨M, by omega, fun m hm => ?_⟩
  obtain ⟨i, rfl⟩ := Nat.exists_eq_add_of_le hm
  exact ⟨by rw [hfix]; exact h4, by rw [hfix]; exact hst, hfix i,
    fun k => still_nojob ok w ha hc hf hs (by omega) k, h2 _ (by omega)⟩

include ok in
/-- Every run returns, or the wake-up of a failed run is lost. -/
theorem returns_or_lost (hf : Fair c σ) (n : Nat) : (∃ m, n ≤ m ∧ (trace c σ m).eng.main = .idle) ∨
    ∃ M, n ≤ M ∧ ∀ m, M ≤ m → (trace c σ m).eng.main = .asleep ∧ (trace c σ m).eng.status.isErr = true ∧
      (trace c σ m).eng = (trace c σ M).eng ∧
      (∀ k, (trace c σ m).job k = none) ∧ (trace c σ m).pool.finished.Perm (trace c σ m).pool.submitted := by
  by_cases h : ∃ m, n ≤ m ∧ (trace c σ m).eng.main = .idle
  · exact .inl h
  · right
    obtain ⟨N, h1, h2⟩ := exists_still ok w ha hc (n := n) (fun m hm hi => h ⟨m, hm, hi⟩)
    obtain ⟨M, h3, h4⟩ := still_lost ok w ha hc hf h2
    exact ⟨M, by omega, h4⟩

end

end CGraph.EngPool
