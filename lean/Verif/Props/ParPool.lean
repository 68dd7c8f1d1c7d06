import Verif.Lemmas.ParPoolLive
import Verif.Props.ParLeft
import Verif.Props.DagType
import Verif.Props.EngPool

/-! # C110: the fully parallel path of the dynamic engine on the threads and queues of the pool -/
namespace CGraph.ParPool
open PpSt Spec
open EngPool (Thr EpCfg Ok)

set_option maxHeartbeats 1000000

/-! ### what is handed over -/

theorem tasks_eq {c : EpCfg} (ok : Ok c) (hd : c.dyn.dagType = .parallel) : tasks c = c.g.elems := by
  have h0 := ok.one
  obtain ⟨m, h1, h2, _⟩ := (C31_chunks c.dyn hd c.dyn.workers).2 (by simp only [EpCfg.dyn]; omega)
  simp only [tasks, mat, h1, Option.getD_some, h2]; rfl

theorem tasks_nodup {c : EpCfg} (ok : Ok c) (hd : c.dyn.dagType = .parallel) (nd : c.g.elems.Nodup) :
    (tasks c).Nodup := by rw [tasks_eq ok hd]; exact nd

/-! ### which run is under way -/

theorem jobStep_nrun {n : Nat} {s s' : ParSt} {st j o} (h : ParSt.jobStep n s st j = some (s', o)) :
    s'.nrun = s.nrun ∧ s'.lastRet = s.lastRet ∧ (s'.main = .idle ↔ s.main = .idle) := by
  have hn : s.notify.nrun = s.nrun ∧ s.notify.lastRet = s.lastRet ∧ (s.notify.main = .idle ↔ s.main = .idle) := by
    unfold ParSt.notify; split
    · rename_i h; simp [h]
    · simp
  unfold ParSt.jobStep at h
  grind

/-- A run that is under way has begun; a run that is over has returned something. -/
structure Told (s : ParSt) : Prop where
  first : s.nrun = 0 → s.main = .idle
  idle : s.main = .idle → s.nrun ≠ 0 → s.lastRet ≠ none

theorem told_any {T : List Eid} {w ep : Nat} {s : ParSt} (h : ParSt.Any T w ep s) : Told s := by
  induction h with
  | init => exact ⟨fun _ => rfl, fun _ h => absurd rfl h⟩
  | @step s s' a _ hs ih =>
    obtain ⟨h1, h2⟩ := ih
    have hj := fun st j s' o (h : ParSt.jobStep T.length s st j = some (s', o)) => jobStep_nrun h
    have hr : s.ret.nrun = s.nrun ∧ s.ret.main = .idle ∧ s.ret.lastRet ≠ none := by simp [ParSt.ret]
    unfold ParSt.step at hs
    constructor <;> grind

theorem par_nrun {T : List Eid} {w ep : Nat} {s s' : ParSt} {a} (hs : ParSt.step T T.length w ep s a = some s')
    (ha : a ≠ .begin) : s'.nrun = s.nrun := by
  have hj := fun st j s' o (h : ParSt.jobStep T.length s st j = some (s', o)) => (jobStep_nrun h).1
  have hr : s.ret.nrun = s.nrun := rfl
  unfold ParSt.step at hs
  grind

theorem seq_nrun {c : EpCfg} (ok : Ok c) (nd : (tasks c).Nodup) (σ : Nat → PpAct) (n : Nat) :
    (seq ok nd σ n).1.nrun = (trace c σ n).eng.nrun := by
  obtain ⟨L, q, h⟩ := (seq ok nd σ n).2
  rw [h.eq]; rfl

theorem same_run {c : EpCfg} (ok : Ok c) (nd : (tasks c).Nodup) {σ : Nat → PpAct} {n : Nat} (i : Nat)
    (h : ∀ k, k < i → (trace c σ (n + k)).eng.main ≠ .idle) :
    (trace c σ (n + i)).eng.nrun = (trace c σ n).eng.nrun := by
  induction i with
  | zero => rfl
  | succ i ih =>
    have ih := ih fun k hk => h k (by omega)
    have hi := h i (by omega)
    rw [← (seq_main ok nd σ (n + i)).1] at hi
    rw [← ih, ← seq_nrun ok nd, ← seq_nrun ok nd]
    rw [show n + (i + 1) = n + i + 1 from rfl]
    rcases seq_next ok nd σ (n + i) with ⟨_, _, h'⟩ | ⟨_, hm⟩
    · rw [h']
    · generalize (seq ok nd σ (n + i + 1)).1 = d' at hm
      generalize σ (n + i) = a at hm
      cases hm with
      | begin h => simp [ParSt.step, hi] at h
      | main _ _ h => exact par_nrun h (by simp)
      | spurious h => exact par_nrun h (by simp)
      | job _ _ _ _ _ _ h => exact par_nrun h (by simp)
      | take _ _ _ _ _ h => exact par_nrun h (by simp)
      | pool _ _ _ _ hd _ _ _ _ => rw [hd]

/-! ## C110 -/

/-- **C110** (return): under a fair scheduler every call of `run` returns, whatever the elements return and whatever
earlier runs left behind in the pool. -/
theorem C110_returns (c : EpCfg) (ok : Ok c) (hd : c.dyn.dagType = .parallel) (nd : c.g.elems.Nodup) (σ : Nat → PpAct)
    (hf : Fair c σ) (n : Nat) (hm : (trace c σ n).eng.main ≠ .idle) :
    ∃ m, n ≤ m ∧ (trace c σ m).eng.nrun = (trace c σ n).eng.nrun ∧ (trace c σ m).eng.main = .idle ∧
      (trace c σ m).eng.lastRet ≠ none := by
  have nd := tasks_nodup ok hd nd
  have hex : ∃ i, (trace c σ (n + i)).eng.main = .idle := by
    obtain ⟨m, h1, h2⟩ := returns ok nd hf n
    exact ⟨m - n, by rw [show n + (m - n) = m from by omega]; exact h2⟩
  obtain ⟨i, hi, hmin⟩ : ∃ i, (trace c σ (n + i)).eng.main = .idle ∧
      ∀ k, k < i → (trace c σ (n + k)).eng.main ≠ .idle := by
    classical
    exact ⟨Nat.find hex, Nat.find_spec hex, fun k hk => Nat.find_min hex hk⟩
  have hnr := same_run ok nd i hmin
  refine ⟨n + i, by omega, hnr, hi, ?_⟩
  rw [← (seq_main ok nd σ (n + i)).2.2.2.1]
  refine (told_any (seq_any ok nd σ (n + i))).idle (by rw [(seq_main ok nd σ (n + i)).1]; exact hi) ?_
  rw [seq_nrun, hnr, ← seq_nrun ok nd]
  intro h0
  exact hm (by rw [← (seq_main ok nd σ n).1]; exact (told_any (seq_any ok nd σ n)).first h0)

/-- **C110** (once): whoever pops or steals, at every moment of a run every element has been started at most once, and
nothing else has been started. -/
theorem C110_once (c : EpCfg) (ok : Ok c) (hd : c.dyn.dagType = .parallel) (nd : c.g.elems.Nodup) (σ : Nat → PpAct)
    (hc : Calm c σ) (n : Nat) (v : Eid) :
    (trace c σ n).eng.trace.count (.start v) ≤ 1 ∧ (Ev.start v ∈ (trace c σ n).eng.trace → v ∈ c.g.elems) := by
  have h := C31_parallel_at_most_once _ _ _ _ (seq_reach ok (tasks_nodup ok hd nd) hc n) v
  rw [(seq_main ok (tasks_nodup ok hd nd) σ n).2.2.1, tasks_eq ok hd] at h
  refine ⟨h.trans (List.nodup_iff_count_le_one.1 nd v), fun hm => ?_⟩
  have := List.count_pos_iff.2 hm
  exact List.count_pos_iff.1 (by omega)

/-- **C110** (result): when `run` has returned OK, no element failed and every element has been started once and has
finished; when it has returned an error, an element that finished has returned this error. -/
theorem C110_result (c : EpCfg) (ok : Ok c) (hd : c.dyn.dagType = .parallel) (nd : c.g.elems.Nodup) (σ : Nat → PpAct)
    (hc : Calm c σ) (n : Nat) (r : CStatus) (hr : (trace c σ n).eng.lastRet = some r) :
    (r.isErr = false → (trace c σ n).eng.failed = [] ∧ ∀ v ∈ c.g.elems,
      (trace c σ n).eng.trace.count (.start v) = 1 ∧ (trace c σ n).eng.trace.count (.finish v) = 1) ∧
    (r.isErr = true → ∃ e, (e, r) ∈ (trace c σ n).eng.failed ∧ Ev.finish e ∈ (trace c σ n).eng.trace) := by
  have ht := tasks_nodup ok hd nd
  have h := C31_parallel_result _ _ _ _ (seq_reach ok ht hc n) r (by rw [(seq_main ok ht σ n).2.2.2.1]; exact hr)
  rw [(seq_main ok ht σ n).2.1, (seq_main ok ht σ n).2.2.1, tasks_eq ok hd] at h
  refine ⟨fun h1 => ⟨(h.1 h1).1, fun v hv => ?_⟩, h.2⟩
  rw [← List.count_eq_one_of_mem nd hv]
  exact (h.1 h1).2 v

/-- **C110** (handing over): the caller is never stuck while it hands tasks over, however the mutexes of the queues are
held from one task to the next; and when it waits or has returned it holds none of them, so threads can pop and steal. -/
theorem C110_handover (c : EpCfg) (ok : Ok c) (hd : c.dyn.dagType = .parallel) (nd : c.g.elems.Nodup) (σ : Nat → PpAct)
    (n : Nat) :
    (∀ l run addr, (trace c σ n).eng.main = .push l → (trace c σ n).step c (.main run addr) ≠ none) ∧
    (∀ i k, (trace c σ n).pool.locked i = true → (trace c σ n).pool.locked k = true → i = k) ∧
    ((∀ x l, (trace c σ n).eng.main ≠ .push (x :: l)) → ∀ i, (trace c σ n).pool.locked i = false) := by
  obtain ⟨L, q, hr⟩ := (seq ok (tasks_nodup ok hd nd) σ n).2
  obtain ⟨o, hb, hg⟩ := hr.pool
  refine ⟨fun l run addr h => main_moves ok hr (by rw [h]; simp) (by rw [h]; simp) run addr, ?_, ?_⟩
  · intro i k hi hk
    have h1 := ((hb.lock i).1 hi).1
    have h2 := ((hb.lock k).1 hk).1
    rw [h1] at h2
    exact Option.some.inj h2
  · intro h i
    have hto : (trace c σ n).todo = [] := by
      have h1 := hr.rest
      have h0 : ParSt.rest (trace c σ n).eng.main = [] := by
        cases hp : (trace c σ n).eng.main with
        | push l =>
          cases l with
          | nil => rfl
          | cons x l => exact absurd hp (h x l)
        | _ => rfl
      rw [h0] at h1
      simpa using h1.symm
    rw [hto] at hg
    cases o with
    | some j => simp [Good] at hg
    | none => exact hb.unl i

/-! ### binding -/

theorem rowPuts_one {i : Nat} {row : List Eid} (h : row.length ≤ 1) : ∀ u ∈ rowPuts i row, ∃ e, u = .plain e := by
  intro u hu
  simp only [rowPuts, Nat.not_lt.2 h, if_false, gt_iff_lt] at hu
  obtain ⟨e, _, rfl⟩ := List.mem_map.1 hu
  exact ⟨e, rfl⟩

theorem matPuts_one {m : List (List Eid)} : ∀ {i : Nat}, (∀ row ∈ m, row.length ≤ 1) →
    ∀ u ∈ matPuts i m, ∃ e, u = .plain e := by
  induction m with
  | nil => intro i _ u hu; simp [matPuts] at hu
  | cons row m ih =>
    intro i h u hu
    simp only [matPuts, List.mem_append] at hu
    rcases hu with hu | hu
    · exact rowPuts_one (h row (by simp)) u hu
    · exact ih (fun r hr => h r (by simp [hr])) u hu

theorem todo_sub (c : EpCfg) (σ : Nat → PpAct) (n : Nat) : ∀ u ∈ (trace c σ n).todo, u ∈ matPuts 0 (mat c) := by
  induction n with
  | zero => intro u hu; simp [trace, init] at hu
  | succ n ih =>
    intro u hu
    simp only [trace] at hu
    cases hs : (trace c σ n).step c (σ n) with
    | none => rw [hs] at hu; exact ih u hu
    | some s' =>
      rw [hs] at hu
      simp only [Option.getD_some] at hu
      generalize trace c σ n = s at *
      generalize σ n = a at *
      cases a with
      | begin =>
        simp only [step, Option.map_eq_some_iff] at hs
        obtain ⟨e, _, rfl⟩ := hs
        exact hu
      | spurious =>
        simp only [step, Option.map_eq_some_iff] at hs
        obtain ⟨e, _, rfl⟩ := hs
        exact ih u hu
      | work w pre st =>
        have : s'.todo = s.todo := by
          simp only [step, workStep] at hs
          grind [setJob]
        rw [this] at hu; exact ih u hu
      | main run addr =>
        have : ∀ u ∈ s'.todo, u ∈ s.todo := by
          simp only [step, flush] at hs
          grind
        exact ih u (this u hu)

/-- **C110** (binding, partial): with no more elements than threads, an element that is bound to a primary thread is put
into the queue of this thread.  Missing: more elements than threads, see `C110_bound_violated`. -/
theorem C110_bound_partial (c : EpCfg) (ok : Ok c) (hd : c.dyn.dagType = .parallel) (nd : c.g.elems.Nodup)
    (hn : c.g.elems.length ≤ c.dyn.workers) (σ : Nat → PpAct) (n : Nat)
    (hx : (trace c σ (n + 1)).next = (trace c σ n).next + 1)
    (h0 : 0 ≤ c.bind ((trace c σ (n + 1)).elt (trace c σ n).next))
    (h1 : c.bind ((trace c σ (n + 1)).elt (trace c σ n).next) < c.pool.defaultSize) :
    (trace c σ (n + 1)).pool.submitted = (trace c σ n).pool.submitted ++ [(trace c σ n).next] ∧
    (trace c σ n).next ∈ (trace c σ (n + 1)).pool.wsq (c.bind ((trace c σ (n + 1)).elt (trace c σ n).next)) := by
  have hone := ok.one
  have hw : 0 < c.dyn.workers := by simp only [EpCfg.dyn]; omega
  obtain ⟨m, k1, k2, _, k4⟩ := (C31_chunks c.dyn hd c.dyn.workers).2 hw
  have hrow : ∀ row ∈ mat c, row.length ≤ 1 := by
    intro row hr
    simp only [mat, k1, Option.getD_some] at hr
    refine (k4 row hr).2.trans ?_
    have hne : c.dyn.g.elems.length ≤ c.dyn.workers := hn
    calc (c.dyn.g.elems.length + c.dyn.workers - 1) / c.dyn.workers
        ≤ (c.dyn.workers + (c.dyn.workers - 1)) / c.dyn.workers := Nat.div_le_div_right (by omega)
      _ = 1 := by
        rw [Nat.add_comm, Nat.add_div_right _ hw, Nat.div_eq_of_lt (by omega)]
  have hplain := fun u hu => matPuts_one (i := 0) hrow u (todo_sub c σ n u hu)
  have hst : (trace c σ n).step c (σ n) = some (trace c σ (n + 1)) := by
    rcases seq_next ok (tasks_nodup ok hd nd) σ n with ⟨_, h, _⟩ | ⟨h, _⟩
    · rw [h] at hx; omega
    · exact h
  generalize trace c σ (n + 1) = s' at *
  generalize trace c σ n = s at *
  generalize σ n = a at *
  cases a with
  | begin =>
    simp only [step, Option.map_eq_some_iff] at hst
    obtain ⟨e, _, rfl⟩ := hst
    simp at hx
  | spurious =>
    simp only [step, Option.map_eq_some_iff] at hst
    obtain ⟨e, _, rfl⟩ := hst
    simp at hx
  | work w pre st =>
    exfalso
    simp only [step, workStep] at hst
    have : s'.next = s.next := by grind [setJob]
    omega
  | main run addr =>
    simp only [step] at hst
    cases he : ParSt.step (tasks c) (tasks c).length c.dyn.workers c.epoch s.eng (.main .ok) with
    | none => simp [he] at hst
    | some e =>
      simp only [he, flush] at hst
      cases hq : e.queue with
      | nil => simp only [hq, Option.some.injEq] at hst; subst hst; simp at hx
      | cons x xs =>
        simp only [hq] at hst
        cases hto : s.todo with
        | nil => simp [hto] at hst
        | cons u us =>
          obtain ⟨y, rfl⟩ := hplain u (by rw [hto]; simp)
          simp only [hto] at hst
          cases hp : s.pool.step c.pool (putAct c run addr s.next (.plain y)) with
          | none => simp [hp] at hst
          | some p =>
            simp only [hp, Option.some.injEq] at hst
            subst hst
            simp only [if_true, Put.elt] at h0 h1 ⊢
            have hne : c.bind y ≠ defaultStrategy := by simp only [defaultStrategy]; omega
            simp only [putAct, PoolSt.step, PoolCfg.execute, PoolCfg.dispatch, hne, if_false, Option.map_some,
              PoolCfg.place, h0, h1, and_self, if_true, PoolSt.deliver] at hp
            split at hp
            · simp at hp
            · simp only [Option.some.injEq] at hp
              subst hp
              simp [PoolSt.setWsq, WsQueue.push]

/-! ### a fair schedule, and what it shows -/

/-- `exIso` (five elements, no dependencies) on two primary threads, element 0 bound to thread 1. -/
def exPar : EpCfg := ⟨exIso.g, fun e => if e = 0 then 1 else -1, 1, exPool, 0⟩

theorem exPar_ok : Ok exPar :=
  ⟨by decide, by decide, by decide, .inr ⟨fun e => by simp [exPar, longTimeStrategy]; split <;> simp, by decide⟩⟩

/-- A step of the caller. -/
def exM : PpAct := .main false 0
/-- A step of primary thread `i`, an element that ends returns `st`. -/
def exW (i : Int) (st : CStatus := .ok) : PpAct := .work (.p i) true st

/-- First the steps `l`, then the caller and the two threads in turn. -/
def sched (l : List PpAct) (n : Nat) : PpAct :=
  if h : n < l.length then l[n] else
    if n % 3 = 0 then exM else if n % 3 = 1 then exW 0 else exW 1

/-- The state after the steps `l`. -/
def after (c : EpCfg) (s : PpSt) : List PpAct → PpSt
  | [] => s
  | a :: as => after c ((s.step c a).getD s) as

theorem after_snoc (c : EpCfg) (l : List PpAct) (a : PpAct) : ∀ s : PpSt,
    after c s (l ++ [a]) = ((after c s l).step c a).getD (after c s l) := by
  induction l with
  | nil => intro s; rfl
  | cons b l ih => intro s; exact ih _

theorem sched_trace (c : EpCfg) (l : List PpAct) (n : Nat) (hn : n ≤ l.length) :
    trace c (sched l) n = after c (init c) (l.take n) := by
  induction n with
  | zero => rfl
  | succ n ih =>
    have hlt : n < l.length := by omega
    rw [List.take_succ_eq_append_getElem hlt, after_snoc, ← ih (by omega)]
    simp only [trace, sched, hlt, dif_pos]

/-- A state in which only the pool turns over empty queues. -/
theorem rest_stays {c : EpCfg} (ok : Ok c) (nd : (tasks c).Nodup) {σ : Nat → PpAct} {n : Nat}
    (hm : (trace c σ n).eng.main = .idle) (hj : ∀ k, (trace c σ n).job k = none)
    (hp : (trace c σ n).pool.started.Perm (trace c σ n).pool.submitted)
    (hσ : ∀ m, n ≤ m → σ m ≠ .begin ∧ σ m ≠ .spurious) (i : Nat) :
    (trace c σ (n + i)).eng = (trace c σ n).eng ∧ (∀ k, (trace c σ (n + i)).job k = none) ∧
      (seq ok nd σ (n + i)).1.queue = [] := by
  induction i with
  | zero =>
    refine ⟨rfl, hj, ?_⟩
    obtain ⟨L, q, hr⟩ := (seq ok nd σ n).2
    show (seq ok nd σ n).1.queue = []
    rw [hr.eq]
    cases q with
    | nil => rfl
    | cons t q =>
      exfalso
      have h5 := hr.cnt t
      have h6 := hp.count_eq t
      simp only [List.count_cons_self] at h5
      omega
  | succ i ih =>
    obtain ⟨h1, h2, h3⟩ := ih
    have h4 := hσ (n + i) (by omega)
    have hm' := hm
    rw [← h1] at hm'
    rw [← (seq_main ok nd σ (n + i)).1] at hm'
    rw [← h1]
    rw [show n + (i + 1) = n + i + 1 from rfl]
    rcases seq_next ok nd σ (n + i) with ⟨_, k1, k2⟩ | ⟨_, hmv⟩
    · exact ⟨by rw [k1], fun k => by rw [k1]; exact h2 k, by rw [k2]; exact h3⟩
    · generalize (seq ok nd σ (n + i + 1)).1 = d' at hmv ⊢
      generalize σ (n + i) = a at hmv h4
      cases hmv with
      | begin h => exact absurd rfl h4.1
      | main _ _ h => exfalso; simp [ParSt.step, hm'] at h
      | spurious h => exact absurd rfl h4.2
      | job k _ _ _ _ hj _ => rw [h2 k] at hj; simp at hj
      | take _ _ _ _ _ h => simp [ParSt.step, h3] at h
      | pool _ _ _ _ hd he hk _ _ =>
        subst hd
        exact ⟨he, fun k => by rw [hk]; exact h2 k, h3⟩

theorem sched_tail (l : List PpAct) {m : Nat} (hm : l.length ≤ m) : sched l m ≠ .begin ∧ sched l m ≠ .spurious := by
  have : ¬ m < l.length := by omega
  simp only [sched, this, dif_neg, not_false_eq_true]
  constructor <;> split <;> (try split) <;> simp [exM, exW]

/-- If the steps `l` end with the caller at rest and nothing left, `sched l` is fair. -/
theorem sched_fair (l : List PpAct) (hb : ∀ a ∈ l, ∀ w pre st, a = .work w pre st → pre = true)
    (hm : (after exPar (init exPar) l).eng.main = .idle)
    (hj : (after exPar (init exPar) l).job (.p 0) = none ∧ (after exPar (init exPar) l).job (.p 1) = none)
    (hp : (after exPar (init exPar) l).pool.started.Perm (after exPar (init exPar) l).pool.submitted) :
    Fair exPar (sched l) := by
  have nd : (tasks exPar).Nodup := tasks_nodup exPar_ok (by decide) (by decide)
  have ht := sched_trace exPar l l.length (Nat.le_refl _)
  rw [List.take_length] at ht
  rw [← ht] at hm hj hp
  have hj : ∀ k, (trace exPar (sched l) l.length).job k = none := by
    intro k
    cases hk : (trace exPar (sched l) l.length).job k with
    | none => rfl
    | some j =>
      obtain ⟨_, _, hr⟩ := (seq exPar_ok nd (sched l) l.length).2
      have h1 := hr.here k j hk
      cases k with
      | s j => simp [Thr.here, exPar] at h1
      | p i =>
        have h2 : 0 ≤ i ∧ i < 2 := h1
        have h3 : i = 0 ∨ i = 1 := by omega
        rcases h3 with rfl | rfl
        · rw [hj.1] at hk; simp at hk
        · rw [hj.2] at hk; simp at hk
  have hrest := rest_stays exPar_ok nd hm hj hp (fun m hm => sched_tail l hm)
  have hrest' : ∀ m, l.length ≤ m → (trace exPar (sched l) m).eng = (trace exPar (sched l) l.length).eng := by
    intro m h
    have := (hrest (m - l.length)).1
    rwa [show l.length + (m - l.length) = m from by omega] at this
  have hs : ∀ n r, r < 3 → ∃ m, n ≤ m ∧ l.length ≤ m ∧ m % 3 = r ∧ ¬ m < l.length := by
    intro n r hr
    exact ⟨3 * (n + l.length) + r, by omega, by omega, by omega, by omega⟩
  have hpre : ∀ m w pre st, sched l m = .work w pre st → pre = true := by
    intro m w pre st h
    unfold sched at h
    split at h
    · exact hb _ (List.getElem_mem _) _ _ _ h
    · split at h
      · simp [exM] at h
      · split at h <;> simp [exW] at h <;> exact h.2.1
  refine ⟨?_, ?_, ?_⟩
  · intro n
    obtain ⟨m, h1, _, h3, h4⟩ := hs n 0 (by omega)
    exact ⟨m, h1, false, 0, by simp [sched, h4, h3, exM]⟩
  · intro w n hw
    have hmm : ∀ m, l.length ≤ m → (trace exPar (sched l) m).eng.main ≠ .check ∧
        (trace exPar (sched l) m).eng.main ≠ .preSleep := by
      intro m h
      rw [hrest' m h, hm]; simp
    cases w with
    | s j => simp [Thr.here, exPar] at hw
    | p i =>
      have hi : i = 0 ∨ i = 1 := by
        have : 0 ≤ i ∧ i < 2 := hw
        omega
      rcases hi with rfl | rfl
      · obtain ⟨m, h1, h2, h3, h4⟩ := hs n 1 (by omega)
        exact ⟨m, h1, ⟨true, .ok, by simp [sched, h4, h3, exW]⟩, hmm m h2⟩
      · obtain ⟨m, h1, h2, h3, h4⟩ := hs n 2 (by omega)
        exact ⟨m, h1, ⟨true, .ok, by simp [sched, h4, h3, exW]⟩, hmm m h2⟩
  · intro w P _ hal n
    obtain ⟨m, h1, h2, pre, st, h3⟩ := hal n
    have := hpre m w pre st h3
    subst this
    exact ⟨m, h1, h2, st, h3⟩

/-- Two runs, the caller and the threads moving in turn. -/
def exTwo : List PpAct :=
  let l := PpAct.begin :: (List.replicate 40 [exM, exW 0, exW 1]).flatten
  l ++ l

theorem exTwo_begin : ∀ k : Fin exTwo.length, exTwo[k] = .begin → k.1 = 0 ∨ k.1 = 121 := by decide +kernel

/-- The hypotheses of the theorems are met by a schedule in which two runs take place. -/
example : Ok exPar ∧ exPar.dyn.dagType = .parallel ∧ exPar.g.elems.Nodup ∧ Fair exPar (sched exTwo) ∧
    Calm exPar (sched exTwo) ∧ (trace exPar (sched exTwo) 1).eng.main ≠ .idle ∧
    (trace exPar (sched exTwo) 122).eng.nrun = 2 ∧ (trace exPar (sched exTwo) 122).eng.main ≠ .idle ∧
    (trace exPar (sched exTwo) 242).eng.lastRet = some CStatus.ok := by
  have hl : ∀ a ∈ exTwo, a = .begin ∨ a = exM ∨ a = exW 0 ∨ a = exW 1 := by decide +kernel
  refine ⟨exPar_ok, by decide, by decide, sched_fair exTwo ?_ ?_ ?_ ?_, ?_, ?_, ?_, ?_, ?_⟩
  · intro a ha w pre st h
    rcases hl a ha with h1 | h1 | h1 | h1 <;> rw [h1] at h <;> simp [exM, exW] at h <;> exact h.2.1
  · decide +kernel
  · decide +kernel
  · decide +kernel
  · intro n hn
    have hlt : n < exTwo.length := by
      by_contra h
      exact (sched_tail exTwo (by omega)).1 hn
    have hb : ∀ k : Fin exTwo.length, exTwo[k] = .begin → k.1 = 0 ∨ k.1 = 121 := exTwo_begin
    have hn' : exTwo[n] = .begin := by simpa only [sched, hlt, dif_pos] using hn
    left
    rcases hb ⟨n, hlt⟩ hn' with h | h <;> simp only at h <;> subst h
    · rfl
    · rw [sched_trace _ _ _ (by decide +kernel)]; decide +kernel
  · rw [sched_trace _ _ _ (by decide +kernel)]; decide +kernel
  · rw [sched_trace _ _ _ (by decide +kernel)]; decide +kernel
  · rw [sched_trace _ _ _ (by decide +kernel)]; decide +kernel
  · rw [sched_trace _ _ _ (by decide +kernel)]; decide +kernel

/-- While the caller hands a row over it holds the mutex of the queue: both threads fail to take the tasks. -/
example : let s := after exPar (init exPar) [.begin, exM, exM, exW 0, exW 0, exW 1, exW 1, exW 1]
    s.pool.locked 0 = true ∧ s.pool.wsq 0 = [0, 1] ∧ s.pool.started = [] := by decide +kernel

/-- **C110**, binding, does not hold: with more elements than threads an element that is bound to thread 1 is put into
the queue of thread 0, and thread 0 executes it although it does not steal. -/
theorem C110_bound_violated :
    let s := after exPar (init exPar) (.begin :: List.replicate 5 exM)
    let s' := after exPar s [exW 0, exW 0, exW 0, exW 0, exW 0]
    exPar.bind 0 = 1 ∧ (∃ t ∈ s.pool.wsq 0, s.elt t = 0) ∧ (∀ t ∈ s.pool.wsq 1, s.elt t ≠ 0) ∧
    s'.job (.p 0) ≠ none ∧ s'.pool.wsq 1 = s.pool.wsq 1 := by decide +kernel

/-- Three of these elements on four threads: every row has one element. -/
def exFew : EpCfg := ⟨⟨[0, 1, 2], fun _ => [], fun _ => []⟩, fun e => if e = 0 then 1 else -1, 1,
  { exPool with defaultSize := 4, maxSize := 4 }, 0⟩

/-- The hypotheses of `C110_bound_partial` are met. -/
example : Ok exFew ∧ exFew.dyn.dagType = .parallel ∧ exFew.g.elems.Nodup ∧ exFew.g.elems.length ≤ exFew.dyn.workers ∧
    (trace exFew (sched [.begin, exM]) 2).next = (trace exFew (sched [.begin, exM]) 1).next + 1 ∧
    exFew.bind ((trace exFew (sched [.begin, exM]) 2).elt (trace exFew (sched [.begin, exM]) 1).next) = 1 :=
  ⟨⟨by decide, by decide, by decide, .inr ⟨fun e => by simp [exFew, longTimeStrategy]; split <;> simp, by decide⟩⟩,
    by decide, by decide, by decide, by decide +kernel, by decide +kernel⟩

end CGraph.ParPool
