import Verif.Lemmas.EngPoolLive

/-! # C104: the dynamic engine on the threads and queues of the pool -/
namespace CGraph.EngPool
open EpSt Spec

set_option maxHeartbeats 1000000

/-- No element fails. -/
def NoFail (σ : Nat → EpAct) : Prop :=
  ∀ n st, ((∃ run addr, σ n = .main st run addr) ∨ ∃ w pre run addr, σ n = .work w pre st run addr) → st.isErr = false

/-! ### what the engine alone says about the schedule -/

theorem seq_failed {c : EpCfg} (ok : Ok c) {σ : Nat → EpAct} (hn : NoFail σ) (n : Nat) :
    (seq ok σ n).1.failed = [] := by
  induction n with
  | zero => rfl
  | succ n ih =>
    rcases seq_next ok σ n with ⟨_, _, h⟩ | ⟨_, hm⟩
    · rw [h]; exact ih
    · generalize (seq ok σ (n + 1)).1 = d' at hm
      generalize hact : σ n = a at hm
      cases hm with
      | begin h => exact step_failed h ih (by intro st h; simp at h)
      | main st run addr h =>
        refine step_failed h ih fun st' h' => ?_
        simp only [DynAct.main.injEq, reduceCtorEq, exists_false, or_false] at h'
        subst h'
        exact hn n st (.inl ⟨run, addr, hact⟩)
      | spurious h => exact step_failed h ih (by intro st h; simp at h)
      | job w pre st run addr _ _ _ h =>
        refine step_failed h ih fun st' h' => ?_
        simp only [reduceCtorEq, DynAct.work.injEq, exists_and_right, exists_eq', true_and, false_or] at h'
        subst h'
        exact hn n st (.inr ⟨w, pre, run, addr, hact⟩)
      | take _ _ _ _ _ _ _ h => exact step_failed h ih (by intro st h; simp at h)
      | pool _ _ _ _ _ _ hd _ _ _ => rw [hd]; exact ih

theorem calm_of_noFail {c : EpCfg} (ok : Ok c) {σ : Nat → EpAct} (hn : NoFail σ) : Calm c σ := by
  intro n _
  left
  rw [← (seq_main ok σ n).2.1]
  exact seq_failed ok hn n

theorem seq_nrun {c : EpCfg} (ok : Ok c) (σ : Nat → EpAct) (n : Nat) :
    (seq ok σ n).1.nrun = (trace c σ n).eng.nrun := by
  obtain ⟨L, q, h⟩ := (seq ok σ n).2
  rw [h.eq]; rfl

theorem step_nrun {c : DynCfg} {s s' : DynSt} {a} (hs : DynSt.step c s a = some s') (ha : a ≠ .begin) :
    s'.nrun = s.nrun := by
  have hj := fun st j s' o (h : DynSt.jobStep c s st j = some (s', o)) => (DynSt.jobStep_frame h).2.1
  have ht : ∀ s : DynSt, (s.toWait c).nrun = s.nrun := fun s => rfl
  have hr : s.ret.nrun = s.nrun := rfl
  have hp : ∀ x, (s.push x).nrun = s.nrun := fun x => rfl
  unfold DynSt.step at hs
  grind

/-- While a run has not returned, it stays the same run. -/
theorem same_run {c : EpCfg} (ok : Ok c) {σ : Nat → EpAct} {n : Nat} (i : Nat)
    (h : ∀ k, k < i → (trace c σ (n + k)).eng.main ≠ .idle) :
    (trace c σ (n + i)).eng.nrun = (trace c σ n).eng.nrun := by
  induction i with
  | zero => rfl
  | succ i ih =>
    have ih := ih fun k hk => h k (by omega)
    have hi := h i (by omega)
    rw [← (seq_main ok σ (n + i)).1] at hi
    rw [← ih, ← seq_nrun ok, ← seq_nrun ok]
    rw [show n + (i + 1) = n + i + 1 from rfl]
    rcases seq_next ok σ (n + i) with ⟨_, _, h'⟩ | ⟨_, hm⟩
    · rw [h']
    · generalize (seq ok σ (n + i + 1)).1 = d' at hm
      generalize σ (n + i) = a at hm
      cases hm with
      | begin h => simp [DynSt.step, hi] at h
      | main _ _ _ h => exact step_nrun h (by simp)
      | spurious h => exact step_nrun h (by simp)
      | job _ _ _ _ _ _ _ _ h => exact step_nrun h (by simp)
      | take _ _ _ _ _ _ _ h => exact step_nrun h (by simp)
      | pool _ _ _ _ _ _ hd _ _ _ => rw [hd]

/-- The first moment at which a running run has returned. -/
theorem first_return {c : EpCfg} (ok : Ok c) (w : c.g.WF) (ha : AcyclicOn c.g.Edge c.g.elems) {σ : Nat → EpAct}
    (hc : Calm c σ) {n : Nat} (hm : (trace c σ n).eng.main ≠ .idle)
    (hr : ∃ m, n ≤ m ∧ (trace c σ m).eng.main = .idle) :
    ∃ m, n ≤ m ∧ (trace c σ m).eng.nrun = (trace c σ n).eng.nrun ∧ (seq ok σ m).1.lastRet ≠ none := by
  have hex : ∃ i, (trace c σ (n + i)).eng.main = .idle := by
    obtain ⟨m, h1, h2⟩ := hr
    exact ⟨m - n, by rw [show n + (m - n) = m from by omega]; exact h2⟩
  obtain ⟨i, hi, hmin⟩ : ∃ i, (trace c σ (n + i)).eng.main = .idle ∧
      ∀ k, k < i → (trace c σ (n + k)).eng.main ≠ .idle := by
    classical
    exact ⟨Nat.find hex, Nat.find_spec hex, fun k hk => Nat.find_min hex hk⟩
  have hnr := same_run ok i hmin
  refine ⟨n + i, by omega, hnr, ?_⟩
  have hS := DynSt.sinv_reach w ha (seq_reach ok hc (n + i))
  refine hS.idle ?_ (by rw [(seq_main ok σ (n + i)).1]; exact hi)
  rw [seq_nrun, hnr, ← seq_nrun ok]
  intro h0
  have := (DynSt.sinv_reach w ha (seq_reach ok hc n)).first h0
  rw [← (seq_main ok σ n).1, this] at hm
  exact hm rfl

/-! ## C104 -/

/-- **C104** (order): on the threads and queues of the pool, whoever pops or steals, in every execution and also if
elements fail, each element has started at most once in the current run, and only after all its dependencies had
finished. -/
theorem C104_order (c : EpCfg) (ok : Ok c) (w : c.g.WF) (ha : AcyclicOn c.g.Edge c.g.elems) (σ : Nat → EpAct)
    (hc : Calm c σ) (n : Nat) (pre post : List Ev) (e : Eid) (ht : (trace c σ n).eng.trace = pre ++ .start e :: post) :
    e ∈ c.g.elems ∧ Ev.start e ∉ pre ∧ Ev.start e ∉ post ∧ ∀ d ∈ c.g.deps e, Ev.finish d ∈ pre :=
  C26_order c.dyn w ha _ (seq_reach ok hc n) pre post e (by rw [(seq_main ok σ n).2.2.1]; exact ht)

/-- **C104** (return): if no element fails, then under a fair scheduler every call of `run` returns OK, after every
element has been started and finished exactly once. -/
theorem C104_returns (c : EpCfg) (ok : Ok c) (w : c.g.WF) (ha : AcyclicOn c.g.Edge c.g.elems) (σ : Nat → EpAct)
    (hf : Fair c σ) (hn : NoFail σ) (n : Nat) (hm : (trace c σ n).eng.main ≠ .idle) :
    ∃ m, n ≤ m ∧ (trace c σ m).eng.nrun = (trace c σ n).eng.nrun ∧ (trace c σ m).eng.lastRet = some CStatus.ok ∧
      ∀ v ∈ c.g.elems, (trace c σ m).eng.trace.count (.start v) = 1 ∧
        (trace c σ m).eng.trace.count (.finish v) = 1 := by
  have hc := calm_of_noFail ok hn
  have hret : ∃ m, n ≤ m ∧ (trace c σ m).eng.main = .idle := by
    rcases returns_or_lost ok w ha hc hf n with h | ⟨M, _, h⟩
    · exact h
    · exfalso
      obtain ⟨h1, h2, _⟩ := h M (Nat.le_refl _)
      have hS := DynSt.sinv_reach w ha (seq_reach ok hc M)
      have e1 := (seq_main ok σ M).1
      rw [← (seq_main ok σ M).2.2.2.2] at h2
      obtain ⟨p, hp, _⟩ := (hS.inv (fun h0 => by
        have := hS.first h0; rw [this, h1] at e1; simp [DynSt.init] at e1)).stErr h2
      rw [seq_failed ok hn] at hp
      simp at hp
  obtain ⟨m, h1, h2, h3⟩ := first_return ok w ha hc hm hret
  refine ⟨m, h1, h2, ?_⟩
  have hR := seq_reach ok hc m
  have hS := DynSt.sinv_reach w ha hR
  have hF := seq_failed ok hn m
  obtain ⟨r, hr⟩ := Option.ne_none_iff_exists'.1 h3
  rw [← (seq_main ok σ m).2.2.1, ← (seq_main ok σ m).2.2.2.1]
  generalize (seq ok σ m).1 = s at *
  have h0 : s.nrun ≠ 0 := by
    intro h0; have := hS.first h0; subst this; simp [DynSt.init] at hr
  have hi := hS.inv h0
  obtain ⟨r1, r2, r3⟩ := hS.ret r hr
  have hfin : c.dyn.totalEnd ≤ s.fin := by
    rcases r3 with r3 | r3
    · obtain ⟨p, hp, -⟩ := hi.stErr r3; simp [hF] at hp
    · exact r3
  have hq := hi.quiet w ha hfin
  refine ⟨by rw [hr, r2]; exact congrArg some hq.2.2.2.2.2, fun v hv => ?_⟩
  have h3 := hi.complete w ha hfin v hv
  have := hi.body v; have := hi.tok v
  exact ⟨by omega, h3⟩

/-- **C104** (return, elements may fail): under a fair scheduler a call of `run` returns, with an error exactly if an
element failed, or an element has failed and the caller sleeps for ever while no thread is in the engine and everything
handed to the pool has been executed.  Missing: the second case, see `C104_failing_returns_violated`. -/
theorem C104_failing_partial (c : EpCfg) (ok : Ok c) (w : c.g.WF) (ha : AcyclicOn c.g.Edge c.g.elems) (σ : Nat → EpAct)
    (hf : Fair c σ) (hc : Calm c σ) (n : Nat) (hm : (trace c σ n).eng.main ≠ .idle) :
    (∃ m, n ≤ m ∧ (trace c σ m).eng.nrun = (trace c σ n).eng.nrun ∧ ∃ r, (trace c σ m).eng.lastRet = some r ∧
      ((trace c σ m).eng.failed ≠ [] ↔ r.isErr = true)) ∨
    ∃ M, n ≤ M ∧ ∀ m, M ≤ m → (trace c σ m).eng.main = .asleep ∧ (trace c σ m).eng.failed ≠ [] ∧
      (∀ k, (trace c σ m).job k = none) ∧ (trace c σ m).pool.finished.Perm (trace c σ m).pool.submitted := by
  rcases returns_or_lost ok w ha hc hf n with h | ⟨M, h1, h2⟩
  · left
    obtain ⟨m, h1, h2, h3⟩ := first_return ok w ha hc hm h
    obtain ⟨r, hr⟩ := Option.ne_none_iff_exists'.1 h3
    refine ⟨m, h1, h2, r, by rw [← (seq_main ok σ m).2.2.2.1]; exact hr, ?_⟩
    rw [← (seq_main ok σ m).2.1]
    exact (C28_result c.dyn w ha _ (seq_reach ok hc m) r hr).1
  · right
    refine ⟨M, h1, fun m hm' => ?_⟩
    obtain ⟨k1, k2, _, k3, k4⟩ := h2 m hm'
    refine ⟨k1, ?_, k3, k4⟩
    have hS := DynSt.sinv_reach w ha (seq_reach ok hc m)
    have e1 := (seq_main ok σ m).1
    rw [← (seq_main ok σ m).2.2.2.2] at k2
    obtain ⟨p, hp, _⟩ := (hS.inv (fun h0 => by
      have := hS.first h0; rw [this, k1] at e1; simp [DynSt.init] at e1)).stErr k2
    rw [← (seq_main ok σ m).2.1]
    exact fun h => by simp [h] at hp

/-! ### fair schedules exist -/

/-- `exJoin` on two primary threads. -/
def exEp : EpCfg := ⟨exJoin, fun _ => -1, 1, exPool, 0⟩

theorem exEp_ok : Ok exEp := ⟨by decide, by decide, by decide, .inr ⟨fun _ => by simp [exEp, longTimeStrategy], by decide⟩⟩

/-- A step of the caller. -/
def exM : EpAct := .main .ok false 0
/-- A step of primary thread `i`, an element that ends returns `st`. -/
def exW (i : Int) (st : CStatus := .ok) : EpAct := .work (.p i) true st false 0

/-- First the steps `l`, then the caller and the two threads in turn. -/
def sched (l : List EpAct) (n : Nat) : EpAct :=
  if h : n < l.length then l[n] else
    if n % 3 = 0 then exM else if n % 3 = 1 then exW 0 else exW 1

/-- The state after the steps `l`. -/
def after (c : EpCfg) (s : EpSt) : List EpAct → EpSt
  | [] => s
  | a :: as => after c ((s.step c a).getD s) as

theorem after_snoc (c : EpCfg) (l : List EpAct) (a : EpAct) : ∀ s : EpSt,
    after c s (l ++ [a]) = ((after c s l).step c a).getD (after c s l) := by
  induction l with
  | nil => intro s; rfl
  | cons b l ih => intro s; exact ih _

theorem sched_trace (c : EpCfg) (l : List EpAct) (n : Nat) (hn : n ≤ l.length) :
    trace c (sched l) n = after c (init c) (l.take n) := by
  induction n with
  | zero => rfl
  | succ n ih =>
    have hlt : n < l.length := by omega
    rw [List.take_succ_eq_append_getElem hlt, after_snoc, ← ih (by omega)]
    simp only [trace, sched, hlt, dif_pos]

/-- A state in which only the pool turns over empty queues. -/
theorem rest_stays {c : EpCfg} (ok : Ok c) {σ : Nat → EpAct} {n : Nat}
    (hm : (trace c σ n).eng.main = .idle ∨ (trace c σ n).eng.main = .asleep) (hj : ∀ k, (trace c σ n).job k = none)
    (hp : (trace c σ n).pool.started.Perm (trace c σ n).pool.submitted)
    (hσ : ∀ m, n ≤ m → σ m ≠ .begin ∧ σ m ≠ .spurious) (i : Nat) :
    (trace c σ (n + i)).eng = (trace c σ n).eng ∧ (∀ k, (trace c σ (n + i)).job k = none) ∧
      (seq ok σ (n + i)).1.queue = [] := by
  induction i with
  | zero =>
    refine ⟨rfl, hj, ?_⟩
    obtain ⟨L, q, hr⟩ := (seq ok σ n).2
    show (seq ok σ n).1.queue = []
    rw [hr.eq]
    cases q with
    | nil => rfl
    | cons t q =>
      exfalso
      have h5 := hr.cnt t
      have h6 := hp.count_eq t
      simp only [List.count_cons_self] at h5
      omega
  | succ i ih =>
    obtain ⟨h1, h2, h3⟩ := ih
    have h4 := hσ (n + i) (by omega)
    have hm' := hm
    rw [← h1] at hm'
    rw [← (seq_main ok σ (n + i)).1] at hm'
    rw [← h1]
    rw [show n + (i + 1) = n + i + 1 from rfl]
    rcases seq_next ok σ (n + i) with ⟨_, k1, k2⟩ | ⟨_, hmv⟩
    · exact ⟨by rw [k1], fun k => by rw [k1]; exact h2 k, by rw [k2]; exact h3⟩
    · generalize (seq ok σ (n + i + 1)).1 = d' at hmv ⊢
      generalize σ (n + i) = a at hmv h4
      cases hmv with
      | begin h => exact absurd rfl h4.1
      | main _ _ _ h => exfalso; rcases hm' with hm' | hm' <;> simp [DynSt.step, hm'] at h
      | spurious h => exact absurd rfl h4.2
      | job k _ _ _ _ _ _ hj _ => rw [h2 k] at hj; simp at hj
      | take _ _ _ _ _ _ _ h => simp [DynSt.step, h3] at h
      | pool _ _ _ _ _ _ hd he hk _ =>
        subst hd
        exact ⟨he, fun k => by rw [hk]; exact h2 k, h3⟩

theorem sched_tail (l : List EpAct) {m : Nat} (hm : l.length ≤ m) : sched l m ≠ .begin ∧ sched l m ≠ .spurious := by
  have : ¬ m < l.length := by omega
  simp only [sched, this, dif_neg, not_false_eq_true]
  constructor <;> split <;> (try split) <;> simp [exM, exW]

/-- If the steps `l` end with the caller at rest and nothing left, `sched l` is fair. -/
theorem sched_fair (l : List EpAct) (hb : ∀ a ∈ l, ∀ w pre st run addr, a = .work w pre st run addr → pre = true)
    (hm : (after exEp (init exEp) l).eng.main = .idle ∨ (after exEp (init exEp) l).eng.main = .asleep)
    (hj : (after exEp (init exEp) l).job (.p 0) = none ∧ (after exEp (init exEp) l).job (.p 1) = none)
    (hp : (after exEp (init exEp) l).pool.started = (after exEp (init exEp) l).pool.submitted) :
    Fair exEp (sched l) ∧ ∀ m, l.length ≤ m → (trace exEp (sched l) m).eng = (after exEp (init exEp) l).eng := by
  have ht := sched_trace exEp l l.length (Nat.le_refl _)
  rw [List.take_length] at ht
  rw [← ht] at hm hj hp ⊢
  have hj : ∀ k, (trace exEp (sched l) l.length).job k = none := by
    intro k
    cases hk : (trace exEp (sched l) l.length).job k with
    | none => rfl
    | some j =>
      obtain ⟨_, _, hr⟩ := (seq exEp_ok (sched l) l.length).2
      have h1 := hr.here k j hk
      cases k with
      | s j => simp [Thr.here, exEp] at h1
      | p i =>
        have h2 : 0 ≤ i ∧ i < 2 := h1
        have h3 : i = 0 ∨ i = 1 := by omega
        rcases h3 with rfl | rfl
        · rw [hj.1] at hk; simp at hk
        · rw [hj.2] at hk; simp at hk
  have hrest := rest_stays exEp_ok hm hj (by rw [hp]) (fun m hm => sched_tail l hm)
  have hrest' : ∀ m, l.length ≤ m → (trace exEp (sched l) m).eng = (trace exEp (sched l) l.length).eng := by
    intro m h
    have := (hrest (m - l.length)).1
    rwa [show l.length + (m - l.length) = m from by omega] at this
  have hs : ∀ n r, r < 3 → ∃ m, n ≤ m ∧ l.length ≤ m ∧ m % 3 = r ∧ ¬ m < l.length := by
    intro n r hr
    exact ⟨3 * (n + l.length) + r, by omega, by omega, by omega, by omega⟩
  have hpre : ∀ m w pre st run addr, sched l m = .work w pre st run addr → pre = true := by
    intro m w pre st run addr h
    unfold sched at h
    split at h
    · exact hb _ (List.getElem_mem _) _ _ _ _ _ h
    · split at h
      · simp [exM] at h
      · split at h <;> simp [exW] at h <;> exact h.2.1
  refine ⟨⟨?_, ?_, ?_⟩, hrest'⟩
  · intro n
    obtain ⟨m, h1, _, h3, h4⟩ := hs n 0 (by omega)
    exact ⟨m, h1, .ok, false, 0, by simp [sched, h4, h3, exM]⟩
  · intro w n hw
    have hmm : ∀ m, l.length ≤ m → (trace exEp (sched l) m).eng.main ≠ .check ∧
        (trace exEp (sched l) m).eng.main ≠ .preSleep := by
      intro m h
      rw [hrest' m h]
      rcases hm with hm | hm <;> rw [hm] <;> simp
    cases w with
    | s j => simp [Thr.here, exEp] at hw
    | p i =>
      have hi : i = 0 ∨ i = 1 := by
        have : 0 ≤ i ∧ i < 2 := hw
        omega
      rcases hi with rfl | rfl
      · obtain ⟨m, h1, h2, h3, h4⟩ := hs n 1 (by omega)
        exact ⟨m, h1, ⟨true, .ok, false, 0, by simp [sched, h4, h3, exW]⟩, hmm m h2⟩
      · obtain ⟨m, h1, h2, h3, h4⟩ := hs n 2 (by omega)
        exact ⟨m, h1, ⟨true, .ok, false, 0, by simp [sched, h4, h3, exW]⟩, hmm m h2⟩
  · intro w P _ hal n
    obtain ⟨m, h1, h2, pre, st, run, addr, h3⟩ := hal n
    have := hpre m w pre st run addr h3
    subst this
    exact ⟨m, h1, h2, st, run, addr, h3⟩

/-- Two runs, the caller and the threads moving in turn. -/
def exTwo : List EpAct :=
  let l := EpAct.begin :: (List.replicate 17 [exM, exW 0, exW 1]).flatten
  l ++ l

/-- The hypotheses of `C104_returns` are met by a schedule in which two runs take place. -/
example : Ok exEp ∧ exEp.g.WF ∧ AcyclicOn exEp.g.Edge exEp.g.elems ∧ Fair exEp (sched exTwo) ∧ NoFail (sched exTwo) ∧
    (trace exEp (sched exTwo) 1).eng.main ≠ .idle ∧ (trace exEp (sched exTwo) 53).eng.nrun = 2 ∧
    (trace exEp (sched exTwo) 53).eng.main ≠ .idle := by
  have hl : ∀ a ∈ exTwo, a = .begin ∨ a = exM ∨ a = exW 0 ∨ a = exW 1 := by decide +kernel
  refine ⟨exEp_ok, exJoin_wf, exJoin_acyclic, (sched_fair exTwo ?_ ?_ ?_ ?_).1, ?_, ?_, ?_, ?_⟩
  · intro a ha w pre st run addr h
    rcases hl a ha with h1 | h1 | h1 | h1 <;> rw [h1] at h <;> simp [exM, exW] at h <;> exact h.2.1
  · left; decide +kernel
  · decide +kernel
  · decide +kernel
  · have hs : ∀ n, sched exTwo n = .begin ∨ sched exTwo n = exM ∨ sched exTwo n = exW 0 ∨ sched exTwo n = exW 1 := by
      intro n
      unfold sched
      split
      · exact hl _ (List.getElem_mem _)
      · split
        · simp
        · split <;> simp
    rintro n st (⟨run, addr, h⟩ | ⟨w, pre, run, addr, h⟩) <;> rcases hs n with h1 | h1 | h1 | h1 <;> rw [h1] at h <;>
      simp [exM, exW] at h
    · rw [← h.1]; rfl
    · rw [← h.2.2.1]; rfl
    · rw [← h.2.2.1]; rfl
  · rw [sched_trace _ _ _ (by decide +kernel)]; decide +kernel
  · rw [sched_trace _ _ _ (by decide +kernel)]; decide +kernel
  · rw [sched_trace _ _ _ (by decide +kernel)]; decide +kernel

/-- The caller is about to sleep while thread 0 executes element 0, which fails. -/
def exLost : List EpAct :=
  EpAct.begin :: List.replicate 11 exM ++ [exW 0, exW 0, exW 0, exW 0, exW 0 (.err "bad"), exW 0, exW 0, exM, exW 0]

/-- **C104**, elements may fail, does not hold: an element fails while the caller is between testing the condition and
sleeping; in a fair execution `run` never returns. -/
theorem C104_failing_returns_violated : Fair exEp (sched exLost) ∧ Calm exEp (sched exLost) ∧
    (trace exEp (sched exLost) 1).eng.main ≠ .idle ∧
    ∀ m, exLost.length ≤ m → (trace exEp (sched exLost) m).eng.main = .asleep ∧
      (trace exEp (sched exLost) m).eng.failed = [(0, .err "bad")] ∧ (trace exEp (sched exLost) m).eng.lastRet = none := by
  obtain ⟨h1, h2⟩ := sched_fair exLost (by
    intro a ha w pre st run addr h
    subst h
    simp [exLost, exM, exW] at ha
    grind) (by right; decide +kernel) (by decide +kernel) (by decide +kernel)
  refine ⟨h1, ?_, ?_, fun m hm => ?_⟩
  · intro n hn
    have : n = 0 := by
      refine Classical.byContradiction fun h0 => ?_
      have hl : ∀ a ∈ exLost.tail, a ≠ .begin := by decide +kernel
      by_cases hlt : n < exLost.length
      · simp only [sched, hlt, dif_pos] at hn
        obtain ⟨k, rfl⟩ : ∃ k, n = k + 1 := ⟨n - 1, by omega⟩
        exact hl _ (List.getElem_mem (l := exLost.tail) (n := k) (by simp; omega)) (by simpa using hn)
      · exact (sched_tail exLost (by omega)).1 hn
    subst this
    left; rfl
  · rw [sched_trace _ _ _ (by decide +kernel)]; decide +kernel
  · rw [h2 m hm]
    decide +kernel

end CGraph.EngPool
