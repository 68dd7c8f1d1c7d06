import Verif.Lemmas.ParPool

/-! # Fair executions of the fully parallel path on the pool -/
namespace CGraph.ParPool
open PpSt
open EngPool (Thr EpCfg Ok settles)

set_option maxHeartbeats 1000000

/-- The operating system is fair: the caller is scheduled again and again; so is every thread of the pool, also at
moments when the caller does not hold the engine's mutex; and a thread that tries a queue again and again does not lose
the race for its mutex against other threads for ever. -/
structure Fair (c : EpCfg) (σ : Nat → PpAct) : Prop where
  caller : ∀ n, ∃ m, n ≤ m ∧ ∃ run addr, σ m = .main run addr
  often : ∀ (w : Thr) (n : Nat), w.here c → ∃ m, n ≤ m ∧ (∃ pre st, σ m = .work w pre st) ∧
    (trace c σ m).eng.main ≠ .check ∧ (trace c σ m).eng.main ≠ .preSleep
  lock : ∀ (w : Thr) (P : WPc), P = .pop ∨ P = .pool ∨ P = .prio →
    (∀ n, ∃ m, n ≤ m ∧ w.pc (trace c σ m).pool = P ∧ ∃ pre st, σ m = .work w pre st) →
    ∀ n, ∃ m, n ≤ m ∧ w.pc (trace c σ m).pool = P ∧ ∃ st, σ m = .work w true st

/-- Runs are begun only when no element of the last one failed, or when all that the last one handed over has been
executed. -/
def Calm (c : EpCfg) (σ : Nat → PpAct) : Prop :=
  ∀ n, σ n = .begin → (trace c σ n).eng.failed = [] ∨
    ((trace c σ n).pool.started.Perm (trace c σ n).pool.submitted ∧
      ∀ w j, (trace c σ n).job w = some j → j.harmless = true)

/-! ### the states of the engine alone -/

/-- What one step of the schedule does. -/
def Next (c : EpCfg) (σ : Nat → PpAct) (n : Nat) (d d' : ParSt) : Prop :=
  ((trace c σ n).step c (σ n) = none ∧ trace c σ (n + 1) = trace c σ n ∧ d' = d) ∨
  ((trace c σ n).step c (σ n) = some (trace c σ (n + 1)) ∧ Move c (trace c σ n) (trace c σ (n + 1)) d d' (σ n))

theorem nxt {c : EpCfg} (ok : Ok c) (nd : (tasks c).Nodup) {σ : Nat → PpAct} {n : Nat} {d : ParSt}
    (h : ∃ L q, Rel c (trace c σ n) d L q) :
    ∃ d', (∃ L q, Rel c (trace c σ (n + 1)) d' L q) ∧ Next c σ n d d' := by
  obtain ⟨L, q, h⟩ := h
  cases hs : (trace c σ n).step c (σ n) with
  | none =>
    have : trace c σ (n + 1) = trace c σ n := by simp [trace, hs]
    exact ⟨d, ⟨L, q, by rw [this]; exact h⟩, .inl ⟨hs, this, rfl⟩⟩
  | some s' =>
    have he : trace c σ (n + 1) = s' := by simp [trace, hs]
    obtain ⟨d', L', q', h1, h2⟩ := sim ok nd h hs
    refine ⟨d', ⟨L', q', by rw [he]; exact h1⟩, .inr ⟨by rw [hs, he], by rw [he]; exact h2⟩⟩

/-- The states of the engine alone along a schedule. -/
noncomputable def seq {c : EpCfg} (ok : Ok c) (nd : (tasks c).Nodup) (σ : Nat → PpAct) :
    (n : Nat) → { d : ParSt // ∃ L q, Rel c (trace c σ n) d L q }
  | 0 => ⟨ParSt.init, [], [], rel_init c⟩
  | n + 1 => ⟨Classical.choose (nxt ok nd (seq ok nd σ n).2), (Classical.choose_spec (nxt ok nd (seq ok nd σ n).2)).1⟩

theorem seq_next {c : EpCfg} (ok : Ok c) (nd : (tasks c).Nodup) (σ : Nat → PpAct) (n : Nat) :
    Next c σ n (seq ok nd σ n).1 (seq ok nd σ (n + 1)).1 := (Classical.choose_spec (nxt ok nd (seq ok nd σ n).2)).2

theorem seq_main {c : EpCfg} (ok : Ok c) (nd : (tasks c).Nodup) (σ : Nat → PpAct) (n : Nat) :
    (seq ok nd σ n).1.main = (trace c σ n).eng.main ∧ (seq ok nd σ n).1.failed = (trace c σ n).eng.failed ∧
    (seq ok nd σ n).1.trace = (trace c σ n).eng.trace ∧ (seq ok nd σ n).1.lastRet = (trace c σ n).eng.lastRet ∧
    (seq ok nd σ n).1.status = (trace c σ n).eng.status := by
  obtain ⟨L, q, h⟩ := (seq ok nd σ n).2
  rw [h.eq]
  exact ⟨rfl, rfl, rfl, rfl, rfl⟩

theorem seq_any {c : EpCfg} (ok : Ok c) (nd : (tasks c).Nodup) (σ : Nat → PpAct) (n : Nat) :
    ParSt.Any (tasks c) c.dyn.workers c.epoch (seq ok nd σ n).1 := by
  induction n with
  | zero => exact .init
  | succ n ih =>
    rcases seq_next ok nd σ n with ⟨_, _, h⟩ | ⟨_, hm⟩
    · rw [h]; exact ih
    · generalize (seq ok nd σ (n + 1)).1 = d' at hm
      generalize σ n = a at hm
      cases hm with
      | begin h => exact .step ih h
      | main _ _ h => exact .step ih h
      | spurious h => exact .step ih h
      | job _ _ _ _ _ _ h => exact .step ih h
      | take _ _ _ _ _ h => exact .step ih h
      | pool _ _ _ _ hd _ _ _ _ => rw [hd]; exact ih

theorem seq_reach {c : EpCfg} (ok : Ok c) (nd : (tasks c).Nodup) {σ : Nat → PpAct} (hc : Calm c σ) (n : Nat) :
    ParSt.Reach (tasks c) c.dyn.workers c.epoch (seq ok nd σ n).1 := by
  induction n with
  | zero => exact .init
  | succ n ih =>
    rcases seq_next ok nd σ n with ⟨_, _, h⟩ | ⟨_, hm⟩
    · rw [h]; exact ih
    · generalize hd' : (seq ok nd σ (n + 1)).1 = d' at hm
      generalize hact : σ n = a at hm
      cases hm with
      | begin h =>
        refine .step ih h fun _ => ?_
        rcases hc n hact with h1 | ⟨h1, h2⟩
        · left; rw [(seq_main ok nd σ n).2.1]; exact h1
        · right
          obtain ⟨L, q, hr⟩ := (seq ok nd σ n).2
          constructor
          · have : q = [] := by
              cases q with
              | nil => rfl
              | cons t q =>
                have h3 := hr.cnt t
                have h4 := h1.count_eq t
                simp only [List.count_cons_self] at h3
                omega
            rw [hr.eq, this]; rfl
          · intro j hj
            rw [hr.eq] at hj
            simp only [ext, List.mem_map] at hj
            obtain ⟨⟨w, j'⟩, h3, rfl⟩ := hj
            exact h2 w j' ((hr.mem w j').1 h3)
      | main _ _ h => exact .step ih h (fun h' => by simp at h')
      | spurious h => exact .step ih h (fun h' => by simp at h')
      | job _ _ _ _ _ _ h => exact .step ih h (fun h' => by simp at h')
      | take _ _ _ _ _ h => exact .step ih h (fun h' => by simp at h')
      | pool _ _ _ _ hd _ _ _ _ => rw [hd]; exact ih

/-! ### a measure that stays only while the caller waits -/

/-- The caller has finished the busy wait. -/
def slow : PMain → Bool
  | .lock => true
  | .check => true
  | .preSleep => true
  | .asleep => true
  | .waking => true
  | _ => false

/-- `ParSt.mainW` with the states of waiting made equal. -/
def mainV (ep : Nat) (m : PMain) : Nat := if slow m then 4 else ParSt.mainW ep m

/-- The measure. -/
def V (ep : Nat) (s : ParSt) : Nat := 10 * s.queue.length + mainV ep s.main + (s.jobs.map ParSt.jobW).sum

theorem V_work {ep : Nat} {s : ParSt} : V ep s + ParSt.mainW ep s.main = ParSt.work ep s + mainV ep s.main := by
  simp only [V, ParSt.work]; omega

/-- How the waiting caller moves. -/
def rank : PMain → Nat
  | .lock => 3
  | .waking => 3
  | .check => 2
  | .preSleep => 1
  | _ => 0

/-- Steps that keep the measure. -/
structure Idle (a : DynAct) (d d' : ParSt) : Prop where
  sl : slow d.main = true
  sl' : slow d'.main = true
  eq : d' = { d with main := d'.main }
  rk : (a = .spurious ∧ d.main = .asleep) ∨ rank d'.main < rank d.main

theorem step_V {T : List Eid} {w ep : Nat} {d d' : ParSt} {a} (hs : ParSt.step T T.length w ep d a = some d')
    (hb : a ≠ .begin) (hi : d'.main ≠ .idle) :
    V ep d' < V ep d ∨ (V ep d' = V ep d ∧ Idle a d d' ∧ (a = .spurious ∨ ∃ st, a = .main st)) := by
  have hw := ParSt.step_work hs hb
  have h1 := V_work (ep := ep) (s := d)
  have h2 := V_work (ep := ep) (s := d')
  have hjob : (d'.main = d.main ∨ (d.main = .asleep ∧ d'.main = .waking)) → a ≠ .spurious → V ep d' < V ep d := by
    rintro (h3 | ⟨h3, h4⟩) h5
    · rw [h3] at h2
      rw [if_neg h5] at hw
      omega
    · rw [h3] at h1
      rw [h4] at h2
      rw [if_neg h5] at hw
      simp only [mainV, slow, ParSt.mainW, if_true] at h1 h2
      omega
  cases a with
  | begin => exact absurd rfl hb
  | take i =>
    left
    refine hjob ?_ (by simp)
    simp only [ParSt.step] at hs
    grind
  | work i st =>
    left
    refine hjob ?_ (by simp)
    simp only [ParSt.step] at hs
    split at hs
    · simp at hs
    · split at hs
      · simp at hs
      · rename_i hj
        rcases (ParSt.jobStep_frame hj).2.2 with h3 | ⟨h3, h4, _⟩ <;>
          simp only [Option.some.injEq] at hs <;> subst hs
        · exact .inl h3
        · exact .inr ⟨h3, h4⟩
      · rename_i hj
        rcases (ParSt.jobStep_frame hj).2.2 with h3 | ⟨h3, h4, _⟩ <;>
          simp only [Option.some.injEq] at hs <;> subst hs
        · exact .inl h3
        · exact .inr ⟨h3, h4⟩
  | spurious =>
    right
    simp only [ParSt.step] at hs
    split at hs
    case isFalse => simp at hs
    rename_i hm
    simp only [Option.some.injEq] at hs
    subst hs
    exact ⟨by simp [V, hm, mainV, slow], ⟨by rw [hm]; rfl, rfl, rfl, .inl ⟨rfl, hm⟩⟩, .inl rfl⟩
  | main st =>
    cases hm : d.main with
    | idle => simp [ParSt.step, hm] at hs
    | push r =>
      left
      cases r with
      | nil =>
        simp only [ParSt.step, hm, Option.some.injEq] at hs
        subst hs
        simp [V, hm, mainV, slow, ParSt.mainW]
      | cons x r =>
        simp only [ParSt.step, hm, Option.some.injEq] at hs
        subst hs
        simp [V, hm, mainV, slow, ParSt.mainW]; omega
    | poll k =>
      left
      cases k with
      | zero =>
        simp only [ParSt.step, hm, Option.some.injEq] at hs
        subst hs
        simp [V, hm, mainV, slow, ParSt.mainW]
      | succ k =>
        simp only [ParSt.step, hm] at hs
        split at hs <;> simp only [Option.some.injEq] at hs <;> subst hs
        · exact absurd rfl hi
        · simp [V, hm, mainV, slow, ParSt.mainW]
    | lock =>
      right
      simp only [ParSt.step, hm, Option.some.injEq] at hs
      subst hs
      exact ⟨by simp [V, hm, mainV, slow], ⟨by rw [hm]; rfl, rfl, rfl, .inr (by rw [hm]; simp [rank])⟩, .inr ⟨st, rfl⟩⟩
    | check =>
      right
      simp only [ParSt.step, hm] at hs
      split at hs <;> simp only [Option.some.injEq] at hs <;> subst hs
      · exact absurd rfl hi
      · exact ⟨by simp [V, hm, mainV, slow], ⟨by rw [hm]; rfl, rfl, rfl, .inr (by rw [hm]; simp [rank])⟩, .inr ⟨st, rfl⟩⟩
    | preSleep =>
      right
      simp only [ParSt.step, hm, Option.some.injEq] at hs
      subst hs
      exact ⟨by simp [V, hm, mainV, slow], ⟨by rw [hm]; rfl, rfl, rfl, .inr (by rw [hm]; simp [rank])⟩, .inr ⟨st, rfl⟩⟩
    | asleep => simp [ParSt.step, hm] at hs
    | waking =>
      right
      simp only [ParSt.step, hm, Option.some.injEq] at hs
      subst hs
      exact ⟨by simp [V, hm, mainV, slow], ⟨by rw [hm]; rfl, rfl, rfl, .inr (by rw [hm]; simp [rank])⟩, .inr ⟨st, rfl⟩⟩

/-! ### from some moment on only the pool and the waiting caller move -/

section
variable {c : EpCfg} (ok : Ok c) (nd : (tasks c).Nodup) {σ : Nat → PpAct}

/-- From `N` on the run does not return and the measure stays. -/
def Still (N : Nat) : Prop :=
  (∀ m, N ≤ m → (trace c σ m).eng.main ≠ .idle) ∧ ∀ m, N ≤ m → V c.epoch (seq ok nd σ m).1 = V c.epoch (seq ok nd σ N).1

theorem exists_still {n : Nat} (hne : ∀ m, n ≤ m → (trace c σ m).eng.main ≠ .idle) :
    ∃ N, n ≤ N ∧ Still (σ := σ) ok nd N := by
  obtain ⟨N, h1, h2⟩ := settles (fun m => V c.epoch (seq ok nd σ m).1) n (by
    intro m hm
    have hi := hne m hm
    have hi' := hne (m + 1) (by omega)
    rw [← (seq_main ok nd σ m).1] at hi
    rw [← (seq_main ok nd σ (m + 1)).1] at hi'
    rcases seq_next ok nd σ m with ⟨_, _, h⟩ | ⟨_, hmv⟩
    · simp only [h]; exact Nat.le_refl _
    · have key : ∀ a, a ≠ .begin →
          ParSt.step (tasks c) (tasks c).length c.dyn.workers c.epoch (seq ok nd σ m).1 a = some (seq ok nd σ (m + 1)).1 →
          V c.epoch (seq ok nd σ (m + 1)).1 ≤ V c.epoch (seq ok nd σ m).1 := by
        intro a h3 h4
        rcases step_V h4 h3 hi' with h5 | ⟨h5, _⟩ <;> omega
      generalize σ m = a at hmv
      cases hmv with
      | begin h => simp [ParSt.step, hi] at h
      | main _ _ h => exact key _ (by simp) h
      | spurious h => exact key _ (by simp) h
      | job _ _ _ _ _ _ h => exact key _ (by simp) h
      | take _ _ _ _ _ h => exact key _ (by simp) h
      | pool _ _ _ _ hd _ _ _ _ => rw [hd])
  exact ⟨N, h1, fun m hm => hne m (by omega), h2⟩

/-- What a step can still do. -/
inductive Quiet (s s' : PpSt) : PpAct → Prop
  | none (a : PpAct) (h : s' = s) (hn : s.step c a = none) : Quiet s s' a
  | pool (w : Thr) (pre st) (hj : s.job w = .none) (he : s'.eng = s.eng) (hk : s'.job = s.job)
      (hp : s.pool.step c.pool (w.act pre) = some s'.pool) : Quiet s s' (.work w pre st)
  | main (run addr) (hsl : slow s.eng.main = true) (hr : rank s'.eng.main < rank s.eng.main)
      (hsl' : slow s'.eng.main = true) (hp : s'.pool = s.pool) (hk : s'.job = s.job) : Quiet s s' (.main run addr)
  | spurious (ham : s.eng.main = .asleep) (hsl' : slow s'.eng.main = true) (hp : s'.pool = s.pool)
      (hk : s'.job = s.job) : Quiet s s' .spurious

theorem still_step {N : Nat} (hs : Still (σ := σ) ok nd N) {m : Nat} (hm : N ≤ m) :
    Quiet (c := c) (trace c σ m) (trace c σ (m + 1)) (σ m) := by
  have hi := hs.1 m hm
  have hi' := hs.1 (m + 1) (by omega)
  have hV : V c.epoch (seq ok nd σ (m + 1)).1 = V c.epoch (seq ok nd σ m).1 := by
    rw [hs.2 m hm, hs.2 (m + 1) (by omega)]
  have e1 := (seq_main ok nd σ m).1
  have e2 := (seq_main ok nd σ (m + 1)).1
  rcases seq_next ok nd σ m with ⟨h1, h2, _⟩ | ⟨hst, hmv⟩
  · exact .none _ h2 h1
  · have key : ∀ a, a ≠ .begin →
        ParSt.step (tasks c) (tasks c).length c.dyn.workers c.epoch (seq ok nd σ m).1 a = some (seq ok nd σ (m + 1)).1 →
        Idle a (seq ok nd σ m).1 (seq ok nd σ (m + 1)).1 ∧ (a = .spurious ∨ ∃ st, a = .main st) := by
      intro a h3 h4
      rcases step_V h4 h3 (by rw [e2]; exact hi') with h5 | ⟨_, h5⟩
      · omega
      · exact h5
    obtain ⟨L, q, hrel⟩ := (seq ok nd σ m).2
    have hemp := hrel.emp
    clear hrel hs
    generalize hact : σ m = a at hmv hst
    generalize (seq ok nd σ (m + 1)).1 = d' at *
    generalize (seq ok nd σ m).1 = d at *
    generalize trace c σ (m + 1) = s' at *
    generalize trace c σ m = s at *
    cases hmv with
    | begin h => rw [ParSt.step, if_neg (by rw [e1]; exact hi)] at h; simp at h
    | main run addr h =>
      obtain ⟨k1, _⟩ := key _ (by simp) h
      have hsl : slow s.eng.main = true := by rw [← e1]; exact k1.sl
      have hsl' : slow s'.eng.main = true := by rw [← e2]; exact k1.sl'
      have hrk : rank s'.eng.main < rank s.eng.main := by
        rcases k1.rk with ⟨h3, _⟩ | h3
        · simp at h3
        · rw [← e1, ← e2]; exact h3
      have hfr : s'.pool = s.pool ∧ s'.job = s.job := by
        simp only [step] at hst
        cases he : ParSt.step (tasks c) (tasks c).length c.dyn.workers c.epoch s.eng (.main .ok) with
        | none => simp [he] at hst
        | some e =>
          obtain ⟨_, h4⟩ := main_ext hemp [] [] he
          rcases h4 with ⟨h4, _⟩ | ⟨x, h4, h5⟩
          · simp only [he, flush, h4, Option.some.injEq] at hst
            subst hst; exact ⟨rfl, rfl⟩
          · exfalso
            cases hp : s.eng.main <;> simp [hp, slow, ParSt.rest] at hsl h5
      exact .main run addr hsl hrk hsl' hfr.1 hfr.2
    | spurious h =>
      obtain ⟨k1, _⟩ := key _ (by simp) h
      have hsl' : slow s'.eng.main = true := by rw [← e2]; exact k1.sl'
      simp only [step, Option.map_eq_some_iff] at hst
      obtain ⟨e, he, rfl⟩ := hst
      refine .spurious ?_ hsl' rfl rfl
      simp only [ParSt.step] at he
      split at he
      · assumption
      · simp at he
    | job _ _ _ _ _ _ h =>
      obtain ⟨_, k2⟩ := key _ (by simp) h
      simp at k2
    | take _ _ _ _ _ h =>
      obtain ⟨_, k2⟩ := key _ (by simp) h
      simp at k2
    | pool w pre st hj hd he hk _ hp => exact .pool w pre st hj he hk hp

theorem still_job {N : Nat} (hs : Still (σ := σ) ok nd N) {m : Nat} (hm : N ≤ m) :
    (trace c σ m).job = (trace c σ N).job := by
  obtain ⟨i, rfl⟩ := Nat.exists_eq_add_of_le hm
  clear hm
  induction i with
  | zero => rfl
  | succ i ih =>
    rw [← ih]
    have := still_step ok nd hs (m := N + i) (by omega)
    rw [Nat.add_assoc] at this
    generalize trace c σ (N + i) = s at this
    generalize trace c σ (N + (i + 1)) = s' at this
    generalize σ (N + i) = a at this
    cases this with
    | none _ h _ => rw [h]
    | pool _ _ _ _ _ hk _ => exact hk
    | main _ _ _ _ _ _ hk => exact hk
    | spurious _ _ _ hk => exact hk

include ok in
/-- The caller can move unless it sleeps or has returned. -/
theorem main_moves {s : PpSt} {d L q} (h : Rel c s d L q) (h1 : s.eng.main ≠ .idle) (h2 : s.eng.main ≠ .asleep)
    (run : Bool) (addr : Nat) : s.step c (.main run addr) ≠ none := by
  intro hn
  simp only [step] at hn
  cases he : ParSt.step (tasks c) (tasks c).length c.dyn.workers c.epoch s.eng (.main .ok) with
  | none =>
    simp only [ParSt.step] at he
    grind
  | some e =>
    obtain ⟨_, h4⟩ := main_ext h.emp [] [] he
    simp only [he, flush] at hn
    rcases h4 with ⟨h4, _⟩ | ⟨x, h4, h5⟩
    · simp [h4] at hn
    · simp only [h4] at hn
      have hrest := h.rest
      rw [h5] at hrest
      cases hto : s.todo with
      | nil => rw [hto] at hrest; simp at hrest
      | cons u us =>
        obtain ⟨o, hb, hg⟩ := h.pool
        rw [hto] at hg
        obtain ⟨p', o', h6, _⟩ := put_step ok hb hg s.next run addr
        simp [hto, h6] at hn

include ok in
/-- A caller that is not yet waiting would move. -/
theorem still_slow (hf : Fair c σ) {N : Nat} (hs : Still (σ := σ) ok nd N) {m : Nat} (hm : N ≤ m) :
    slow (trace c σ m).eng.main = true := by
  refine Classical.byContradiction fun hn => ?_
  have hsame : ∀ i, (trace c σ (m + i)).eng = (trace c σ m).eng := by
    intro i
    induction i with
    | zero => rfl
    | succ i ih =>
      have := still_step ok nd hs (m := m + i) (by omega)
      rw [Nat.add_assoc] at this
      rw [← ih]
      rw [← ih] at hn
      generalize trace c σ (m + i) = s at this hn
      generalize trace c σ (m + (i + 1)) = s' at this
      generalize σ (m + i) = a at this
      cases this with
      | none _ h _ => rw [h]
      | pool _ _ _ _ he _ _ => exact he
      | main _ _ hsl _ _ _ _ => exact absurd hsl hn
      | spurious ham _ _ _ => rw [ham] at hn; simp [slow] at hn
  obtain ⟨m', h1, run, addr, h2⟩ := hf.caller m
  obtain ⟨i, rfl⟩ := Nat.exists_eq_add_of_le h1
  have hi := hs.1 (m + i) (by omega)
  have hq := still_step ok nd hs (m := m + i) (by omega)
  rw [← hsame i] at hn
  rw [h2] at hq
  obtain ⟨L, q, hr⟩ := (seq ok nd σ (m + i)).2
  cases hq with
  | none _ h hnn => exact main_moves ok hr hi (fun h3 => by rw [h3] at hn; simp [slow] at hn) run addr hnn
  | main _ _ hsl _ _ _ _ => exact absurd hsl hn

/-- A thread inside the engine would move. -/
theorem still_nojob (hf : Fair c σ) {N : Nat} (hs : Still (σ := σ) ok nd N) {m : Nat} (hm : N ≤ m) (k : Thr) :
    (trace c σ m).job k = none := by
  cases hj : (trace c σ m).job k with
  | none => rfl
  | some j =>
    exfalso
    obtain ⟨L, q, hr⟩ := (seq ok nd σ m).2
    obtain ⟨m', h1, ⟨pre, st, h2⟩, h3, h4⟩ := hf.often k m (hr.here k j hj)
    have hj' : (trace c σ m').job k = some j := by
      rw [still_job ok nd hs (by omega : N ≤ m'), ← still_job ok nd hs hm]; exact hj
    have hq := still_step ok nd hs (m := m') (by omega)
    rw [h2] at hq
    cases hq with
    | none _ h hnn =>
      simp only [step, workStep, hj'] at hnn
      cases he : ParSt.jobStep (tasks c).length (trace c σ m').eng st j with
      | none => exact ParSt.jobStep_enabled h3 h4 he
      | some r => simp [he] at hnn
    | pool _ _ _ hn _ _ _ => rw [hj'] at hn; simp at hn

/-! ### the pool executes what is left -/

/-- The step of the pool that belongs to a step; the caller's steps become a step of a thread that does not exist. -/
def proj (c : EpCfg) : PpAct → PAct
  | .work w pre _ => w.act pre
  | _ => .sec c.secs false

theorem proj_worker (a : PpAct) : (proj c a).isWorker = true := by
  cases a with
  | work w _ _ => cases w <;> rfl
  | _ => rfl

/-- While the caller waits it holds no mutex of a queue. -/
theorem still_pinv (hf : Fair c σ) {N : Nat} (hs : Still (σ := σ) ok nd N) {m : Nat} (hm : N ≤ m) :
    EngPool.PInv c (trace c σ m).pool := by
  obtain ⟨L, q, hr⟩ := (seq ok nd σ m).2
  have hsl := still_slow ok nd hf hs hm
  have hto : (trace c σ m).todo = [] := by
    have := hr.rest
    have h0 : ParSt.rest (trace c σ m).eng.main = [] := by
      cases hp : (trace c σ m).eng.main <;> simp [hp, slow, ParSt.rest] at hsl ⊢
    rw [h0] at this
    simpa using this.symm
  obtain ⟨o, hb, hg⟩ := hr.pool
  rw [hto] at hg
  cases o with
  | some j => simp [Good] at hg
  | none => exact hb.pinv

theorem still_pool (hf : Fair c σ) {N : Nat} (hs : Still (σ := σ) ok nd N) (i : Nat) :
    (trace c σ (N + i)).pool = PoolLive.trace c.pool (trace c σ N).pool (fun k => proj c (σ (N + k))) i := by
  induction i with
  | zero => rfl
  | succ i ih =>
    simp only [PoolLive.trace, ← ih]
    have hq := still_step ok nd hs (m := N + i) (by omega)
    have hj := fun k => still_nojob ok nd hf hs (m := N + i) (by omega) k
    have hns := (still_pinv ok nd hf hs (m := N + i) (by omega)).nsec
    have hno : PoolSt.step c.pool (trace c σ (N + i)).pool (.sec c.secs false) = none := by
      simp [PoolSt.step, hns]
    rw [show N + (i + 1) = N + i + 1 from rfl]
    generalize trace c σ (N + i) = s at *
    generalize trace c σ (N + i + 1) = s' at *
    generalize σ (N + i) = a at *
    cases hq with
    | none a h hn =>
      rw [h]
      cases a with
      | work k pre st =>
        simp only [step, workStep, hj k] at hn
        simp only [proj]
        cases h6 : PoolSt.step c.pool s.pool (k.act pre) with
        | none => rfl
        | some p => simp [h6] at hn
      | _ => simp only [proj, hno, Option.getD_none]
    | pool k pre _ _ _ _ hp => simp only [proj, hp, Option.getD_some]
    | main _ _ _ _ _ hp _ => simp only [proj, hno, Option.getD_none, hp]
    | spurious _ _ hp _ => simp only [proj, hno, Option.getD_none, hp]

theorem still_fair (hf : Fair c σ) {N : Nat} (hs : Still (σ := σ) ok nd N) :
    PoolLive.Fair c.pool (trace c σ N).pool (fun k => proj c (σ (N + k))) where
  often := by
    intro k n hk
    obtain ⟨v, rfl, h1, _⟩ := EngPool.wk_cases k
    have hv : v.here c := by
      rw [← still_pool ok nd hf hs] at hk
      cases v with
      | p i => exact hk
      | s j =>
        show j < c.secs
        rw [← (still_pinv ok nd hf hs (m := N + n) (by omega)).nsec]; exact hk
    obtain ⟨m, h2, ⟨pre, st, h3⟩, _⟩ := hf.often v (N + n) hv
    refine ⟨m - N, by omega, pre, ?_⟩
    rw [h1]
    show proj c (σ (N + (m - N))) = _
    rw [show N + (m - N) = m from by omega, h3]; rfl
  lock := by
    intro k P hP hal n
    obtain ⟨v, rfl, h1, h2⟩ := EngPool.wk_cases k
    have key : ∀ m b, v.pc (trace c σ (N + m)).pool = P → proj c (σ (N + m)) = v.act b →
        ∃ st, σ (N + m) = .work v b st := by
      intro m b h3 h4
      have hpi := still_pinv ok nd hf hs (m := N + m) (by omega)
      have hfr := hpi.inv.fresh c.secs (by rw [hpi.nsec])
      cases ha : σ (N + m) with
      | work v' b' st =>
        rw [ha] at h4
        simp only [proj] at h4
        have : v' = v ∧ b' = b := by cases v <;> cases v' <;> simp_all [Thr.act]
        exact ⟨st, by rw [this.1, this.2]⟩
      | _ =>
        exfalso
        rw [ha] at h4
        simp only [proj] at h4
        cases v with
        | p i => simp [Thr.act] at h4
        | s j =>
          simp only [Thr.act, PAct.sec.injEq] at h4
          have h5 : (trace c σ (N + m)).pool.sec j = P := h3
          rw [← h4.1, hfr] at h5
          rcases hP with h | h | h <;> rw [h] at h5 <;> simp at h5
    obtain ⟨m, h3, h4, st, h5⟩ := hf.lock v P hP (by
      intro n'
      obtain ⟨m, h3, h4, b, h5⟩ := hal n'
      rw [← still_pool ok nd hf hs, h2] at h4
      obtain ⟨st, h6⟩ := key m b h4 (by rw [← h1]; exact h5)
      exact ⟨N + m, by omega, h4, b, st, h6⟩) (N + n)
    have hm : N + (m - N) = m := by omega
    refine ⟨m - N, by omega, ?_, ?_, ?_⟩
    · rw [← still_pool ok nd hf hs, h2, hm]; exact h4
    · rw [h1]
      show proj c (σ (N + (m - N))) = _
      rw [hm, h5]; rfl
    · rw [← still_pool ok nd hf hs]
      cases v with
      | p i => exact (still_pinv ok nd hf hs (m := N + (m - N)) (by omega)).unl i
      | s j => trivial

theorem still_drained (hf : Fair c σ) {N : Nat} (hs : Still (σ := σ) ok nd N) :
    ∃ M, N ≤ M ∧ ∀ m, M ≤ m → (trace c σ m).pool.finished.Perm (trace c σ m).pool.submitted := by
  have hpi := still_pinv ok nd hf hs (Nat.le_refl N)
  obtain ⟨l, hl⟩ := hpi.reach
  have hA := hpi.alive ok
  have hF := still_fair ok nd hf hs
  have hP := still_pool ok nd hf hs
  rw [hl] at hA hF hP
  obtain ⟨M, hM⟩ := PoolLive.C99_drained c.pool c.secs l _ hA (fun n => proj_worker _) hF
  refine ⟨N + M, by omega, fun m hm => ?_⟩
  obtain ⟨i, rfl⟩ : ∃ i, m = N + i := ⟨m - N, by omega⟩
  have h1 := hM i (by omega)
  have h2 := (PoolLive.trace_frame (c := c.pool) (s0 := PoolSt.run c.pool (PoolSt.init c.secs) l)
    (σ := fun k => proj c (σ (N + k))) (fun n => proj_worker _) i).submitted
  rw [← hP] at h1 h2
  rw [h2]; exact h1

/-! ### the waiting caller -/

theorem next_main (hf : Fair c σ) {N : Nat} (hs : Still (σ := σ) ok nd N) {m : Nat} (hm : N ≤ m)
    (hna : (trace c σ m).eng.main ≠ .asleep) :
    ∃ m', m ≤ m' ∧ rank (trace c σ (m' + 1)).eng.main < rank (trace c σ m).eng.main := by
  have hex : ∃ i, ∃ run addr, σ (m + i) = .main run addr := by
    obtain ⟨m', h1, h2⟩ := hf.caller m
    exact ⟨m' - m, by rw [show m + (m' - m) = m' from by omega]; exact h2⟩
  obtain ⟨i, ⟨run, addr, hi⟩, hmin⟩ :
      ∃ i, (∃ run addr, σ (m + i) = .main run addr) ∧ ∀ k, k < i → ¬ ∃ run addr, σ (m + k) = .main run addr := by
    classical
    exact ⟨Nat.find hex, Nat.find_spec hex, fun k hk => Nat.find_min hex hk⟩
  have hsame : ∀ k, k ≤ i → (trace c σ (m + k)).eng = (trace c σ m).eng := by
    intro k hk
    induction k with
    | zero => rfl
    | succ k ih =>
      have ih := ih (by omega)
      have hq := still_step ok nd hs (m := m + k) (by omega)
      have hno := hmin k (by omega)
      rw [← ih]
      rw [← ih] at hna
      rw [show m + (k + 1) = m + k + 1 from rfl]
      generalize trace c σ (m + k) = s at *
      generalize trace c σ (m + k + 1) = s' at *
      generalize σ (m + k) = a at *
      cases hq with
      | none _ h _ => rw [h]
      | pool _ _ _ _ he _ _ => exact he
      | main run addr => exact absurd ⟨run, addr, rfl⟩ hno
      | spurious ham _ _ _ => exact absurd ham hna
  have he := hsame i (Nat.le_refl _)
  refine ⟨m + i, by omega, ?_⟩
  have hq := still_step ok nd hs (m := m + i) (by omega)
  have hid := hs.1 (m + i) (by omega)
  rw [hi] at hq
  rw [← he]
  rw [← he] at hna
  obtain ⟨L, q, hr⟩ := (seq ok nd σ (m + i)).2
  cases hq with
  | none _ h hn => exact absurd hn (main_moves ok hr hid hna run addr)
  | main _ _ _ hr _ _ _ => exact hr

theorem reaches_asleep (hf : Fair c σ) {N : Nat} (hs : Still (σ := σ) ok nd N) : ∀ (r : Nat) {m : Nat}, N ≤ m →
    rank (trace c σ m).eng.main ≤ r → ∃ m', m ≤ m' ∧ (trace c σ m').eng.main = .asleep := by
  intro r
  induction r with
  | zero =>
    intro m hm hr
    refine ⟨m, Nat.le_refl _, ?_⟩
    have := still_slow ok nd hf hs hm
    cases h : (trace c σ m).eng.main <;> simp [h, slow, rank] at this hr ⊢
  | succ r ih =>
    intro m hm hr
    by_cases h : (trace c σ m).eng.main = .asleep
    · exact ⟨m, Nat.le_refl _, h⟩
    · obtain ⟨m', h1, h3⟩ := next_main ok nd hf hs hm h
      obtain ⟨m2, h4, h5⟩ := ih (m := m' + 1) (by omega) (by omega)
      exact ⟨m2, by omega, h5⟩

/-- A caller that sleeps for ever: impossible. -/
theorem still_false (hf : Fair c σ) {N : Nat} (hs : Still (σ := σ) ok nd N) : False := by
  obtain ⟨M0, h1, h2⟩ := still_drained ok nd hf hs
  obtain ⟨M, h3, h4⟩ := reaches_asleep ok nd hf hs _ h1 (Nat.le_refl _)
  obtain ⟨L, q, hr⟩ := (seq ok nd σ M).2
  have e1 := (seq_main ok nd σ M).1
  have hpi := still_pinv ok nd hf hs (m := M) (by omega)
  have hq : q = [] := by
    cases q with
    | nil => rfl
    | cons t q =>
      have h5 := hr.cnt t
      have h6 := (EngPool.drained_started hpi (h2 M h3)).count_eq t
      simp only [List.count_cons_self] at h5
      omega
  have hL : L = [] := by
    cases L with
    | nil => rfl
    | cons x L =>
      have := (hr.mem x.1 x.2).1 (by simp)
      rw [still_nojob ok nd hf hs (by omega)] at this
      simp at this
  rw [h4] at e1
  have hqe : (seq ok nd σ M).1.queue = [] := by rw [hr.eq, hq]; rfl
  have hje : (seq ok nd σ M).1.jobs = [] := by rw [hr.eq, hL]; rfl
  have hw1 : 1 ≤ c.dyn.workers := by
    have := ok.one
    simp only [EpCfg.dyn]; omega
  obtain ⟨a, h5, h6, h7⟩ := ParSt.not_stuck_any (ep := c.epoch) hw1 (ParSt.linv_any (seq_any ok nd σ M)) (by rw [e1]; simp)
  cases a with
  | begin => exact h5 rfl
  | spurious => exact h6 rfl
  | main st => simp [ParSt.step, e1] at h7
  | take i => simp [ParSt.step, hqe] at h7
  | work i st => simp [ParSt.step, hje] at h7

include ok nd in
/-- Every run returns. -/
theorem returns (hf : Fair c σ) (n : Nat) : ∃ m, n ≤ m ∧ (trace c σ m).eng.main = .idle := by
  by_contra h
  obtain ⟨N, _, h2⟩ := exists_still ok nd (n := n) (fun m hm hi => h ⟨m, hm, hi⟩)
  exact still_false ok nd hf h2

end

end CGraph.ParPool
