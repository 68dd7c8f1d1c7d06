import Verif.Model.StatPool
import Verif.Lemmas.EngPoolLive
import Verif.Lemmas.StaticRun
import Verif.Props.Graph

/-! # The static engine on the pool simulates the static engine alone; fair executions -/
namespace CGraph.StatPool
open SpSt
open EngPool (Thr Ok PInv)

set_option maxHeartbeats 1000000

/-! ### steps of the caller -/

/-- The engine with `Q` waiting. -/
def ext (e : StaticSt) (Q : List Eid) : StaticSt := { e with queued := Q }

/-- A step of the caller: it commits at most one element. -/
theorem main_ext {direct : Eid → Bool} {fp : Eid → CStatus} {e e' : StaticSt} (he : e.queued = []) (Q : List Eid)
    (hs : e.step direct fp .main = some e') : (ext e Q).step direct fp .main = some (ext e' (Q ++ e'.queued)) ∧
      (e'.queued = [] ∨ ∃ x, e'.queued = [x]) ∧ e'.running = e.running ∧ e'.finished = e.finished := by
  simp only [StaticSt.step] at hs ⊢
  by_cases hr : e.ret.isSome
  · simp [hr] at hs
  rw [if_neg hr] at hs
  rw [if_neg (show ¬ (ext e Q).ret.isSome from hr)]
  have h1 : (ext e Q).macroRunning = e.macroRunning := rfl
  have h2 : (ext e Q).toCommit = e.toCommit := rfl
  have h3 : (ext e Q).macros = e.macros := rfl
  have h4 : (ext e Q).futures = e.futures := rfl
  have h5 : (ext e Q).status = e.status := rfl
  have h6 : (ext e Q).layers = e.layers := rfl
  have h7 : (ext e Q).finished = e.finished := rfl
  rw [h1, h2, h3, h4, h5, h6, h7]
  cases hm : e.macroRunning with
  | some x =>
    simp only [hm, Option.some.injEq] at hs ⊢
    subst hs
    exact ⟨by simp [ext, he], .inl he, rfl, rfl⟩
  | none =>
    simp only [hm] at hs ⊢
    cases ht : e.toCommit with
    | cons x xs =>
      simp only [ht] at hs ⊢
      by_cases hd : direct x
      · simp only [hd, if_true, Option.some.injEq] at hs ⊢
        subst hs
        exact ⟨by simp [ext, he], .inl he, rfl, rfl⟩
      · simp only [hd, Option.some.injEq, if_neg, Bool.false_eq_true, not_false_eq_true] at hs ⊢
        subst hs
        exact ⟨by simp [ext, he], .inr ⟨x, by simp [he]⟩, rfl, rfl⟩
    | nil =>
      simp only [ht] at hs ⊢
      cases hmm : e.macros with
      | cons x xs =>
        simp only [hmm, Option.some.injEq] at hs ⊢
        subst hs
        exact ⟨by simp [ext, he], .inl he, rfl, rfl⟩
      | nil =>
        simp only [hmm] at hs ⊢
        cases hf : e.futures with
        | cons x xs =>
          simp only [hf] at hs ⊢
          by_cases hx : x ∈ e.finished
          · simp only [hx, if_true, Option.some.injEq] at hs ⊢
            subst hs
            exact ⟨by simp [ext, he], .inl he, rfl, rfl⟩
          · simp [hx] at hs
        | nil =>
          simp only [hf] at hs ⊢
          cases hc : checkStatus e.status with
          | some r =>
            simp only [hc, Option.some.injEq] at hs ⊢
            subst hs
            exact ⟨by simp [ext, he], .inl he, rfl, rfl⟩
          | none =>
            simp only [hc] at hs ⊢
            cases hl : e.layers with
            | nil =>
              simp only [hl, Option.some.injEq] at hs ⊢
              subst hs
              exact ⟨by simp [ext, he], .inl he, rfl, rfl⟩
            | cons l ls =>
              simp only [hl, Option.some.injEq] at hs ⊢
              subst hs
              exact ⟨by simp [ext, he], .inl he, rfl, rfl⟩

/-- How much the caller still has to do. -/
def todo (e : StaticSt) : Nat :=
  (e.layers.map fun l => 4 * (l.length + 1)).sum + 4 * e.toCommit.length + 3 * e.macros.length +
    (if e.macroRunning.isSome then 1 else 0) + e.futures.length + (if e.ret.isSome then 0 else 1)

theorem main_todo {direct : Eid → Bool} {fp : Eid → CStatus} {e e' : StaticSt}
    (hs : e.step direct fp .main = some e') : todo e' < todo e := by
  simp only [StaticSt.step] at hs
  by_cases hr : e.ret.isSome
  · simp [hr] at hs
  rw [if_neg hr] at hs
  simp only [todo]
  cases hm : e.macroRunning with
  | some x =>
    simp only [hm, Option.some.injEq] at hs
    subst hs
    simp
  | none =>
    simp only [hm] at hs
    cases ht : e.toCommit with
    | cons x xs =>
      simp only [ht] at hs
      by_cases hd : direct x
      · simp only [hd, if_true, Option.some.injEq] at hs
        subst hs
        simp [hm]; omega
      · simp only [hd, Option.some.injEq, if_neg, Bool.false_eq_true, not_false_eq_true] at hs
        subst hs
        simp [hm]; omega
    | nil =>
      simp only [ht] at hs
      cases hmm : e.macros with
      | cons x xs =>
        simp only [hmm, Option.some.injEq] at hs
        subst hs
        simp [ht]; omega
      | nil =>
        simp only [hmm] at hs
        cases hf : e.futures with
        | cons x xs =>
          simp only [hf] at hs
          by_cases hx : x ∈ e.finished
          · simp only [hx, if_true, Option.some.injEq] at hs
            subst hs
            simp [ht, hmm, hm]
          · simp [hx] at hs
        | nil =>
          simp only [hf] at hs
          cases hc : checkStatus e.status with
          | some r =>
            simp only [hc, Option.some.injEq] at hs
            subst hs
            simp [ht, hmm, hm, hf, hr]
          | none =>
            simp only [hc] at hs
            cases hl : e.layers with
            | nil =>
              simp only [hl, Option.some.injEq] at hs
              subst hs
              simp [ht, hmm, hm, hf, hr, hl]
            | cons l ls =>
              simp only [hl, Option.some.injEq] at hs
              subst hs
              simp [hmm, hm, hf, hr]; omega

/-- The caller cannot move only when it waits for a future that is not ready. -/
theorem main_stuck {direct : Eid → Bool} {fp : Eid → CStatus} {e : StaticSt} (hr : e.ret = none)
    (hs : e.step direct fp .main = none) : ∃ x, x ∈ e.futures ∧ x ∉ e.finished := by
  simp only [StaticSt.step, hr] at hs
  simp only [Option.isSome_none, Bool.false_eq_true, if_false] at hs
  cases hm : e.macroRunning with
  | some x => simp [hm] at hs
  | none =>
    simp only [hm] at hs
    cases ht : e.toCommit with
    | cons x xs => simp only [ht] at hs; split at hs <;> simp at hs
    | nil =>
      simp only [ht] at hs
      cases hmm : e.macros with
      | cons x xs => simp [hmm] at hs
      | nil =>
        simp only [hmm] at hs
        cases hf : e.futures with
        | cons x xs =>
          simp only [hf] at hs
          by_cases hx : x ∈ e.finished
          · simp [hx] at hs
          · exact ⟨x, by simp, hx⟩
        | nil =>
          simp only [hf] at hs
          cases hc : checkStatus e.status with
          | some r => simp [hc] at hs
          | none =>
            simp only [hc] at hs
            cases hl : e.layers <;> simp [hl] at hs

/-! ### steps of the threads -/

/-- The worker step that ends a task. -/
theorem worker_finished {c : PoolCfg} {p p' : PoolSt} {w : Thr} {pre : Bool} (hs : p.step c (w.act pre) = some p') :
    (∃ t ts, w.pc p = .busy t ts ∧ p'.finished = p.finished ++ [t]) ∨
    ((∀ t ts, w.pc p ≠ .busy t ts) ∧ p'.finished = p.finished) := by
  cases w with
  | p i =>
    simp only [Thr.act, PoolSt.step] at hs
    split at hs
    · unfold PoolSt.primStep at hs
      simp only [Thr.pc]
      split at hs <;> simp only [Option.some.injEq, reduceCtorEq] at hs <;> subst hs <;> rename_i hp
      all_goals first
        | (left; exact ⟨_, _, hp, rfl⟩)
        | (right; refine ⟨?_, rfl⟩; intro t ts; rw [hp]; simp)
    · simp at hs
  | s j =>
    simp only [Thr.act, PoolSt.step] at hs
    split at hs
    · unfold PoolSt.secStep at hs
      simp only [Thr.pc]
      split at hs <;> simp only [Option.some.injEq, reduceCtorEq] at hs <;> subst hs <;> rename_i hp
      all_goals first
        | (left; exact ⟨_, _, hp, rfl⟩)
        | (right; refine ⟨?_, rfl⟩; intro t ts; rw [hp]; simp)
    · simp at hs

/-- A task a thread is executing has not ended. -/
theorem busy_open {c : EngPool.EpCfg} {p : PoolSt} (h : PInv c p) {w : Thr} (hw : w.here c) {t ts}
    (hp : w.pc p = .busy t ts) : p.finished.count t < p.started.count t := by
  have h1 := h.inv.fin t
  have h2 : 0 < PoolSt.exec c.pool p t := by
    simp only [PoolSt.exec]
    cases w with
    | p i =>
      have := le_sumI (n := c.pool.defaultSize.toNat) (f := fun i => (p.prim i).exec.count t) hw.1 (by have := hw.2; omega)
      simp only [Thr.pc] at hp
      have h3 : 0 < (p.prim i).exec.count t := by rw [hp]; simp [WPc.exec]
      omega
    | s j =>
      have := le_sumN (n := p.nsec) (f := fun j => (p.sec j).exec.count t) (by rw [h.nsec]; exact hw)
      simp only [Thr.pc] at hp
      have h3 : 0 < (p.sec j).exec.count t := by rw [hp]; simp [WPc.exec]
      omega
  omega

/-! ### the relation to the engine alone -/

/-- The state `d` of the engine alone that belongs to `s`: its queue are the elements of the tasks `q` that were committed
and not called, in whichever queue or hand they are; `b` are the tasks being executed. -/
structure Rel (c : SpCfg) (s : SpSt) (d : StaticSt) (Q : List Eid) (q b : List Task) : Prop where
  eq : d = ext s.eng Q
  emp : s.eng.queued = []
  wait : Q.Perm (q.map s.elt)
  exec : s.eng.running.Perm (b.map s.elt)
  cntq : ∀ t, q.count t + s.pool.started.count t = s.pool.submitted.count t
  cntb : ∀ t, b.count t + s.pool.finished.count t = s.pool.started.count t
  lt : ∀ t ∈ s.pool.submitted, t < s.next
  pool : PInv c.ep s.pool

theorem rel_init (c : SpCfg) : Rel c (init c) (StaticSt.init c.mat) [] [] [] where
  eq := rfl
  emp := rfl
  wait := by simp
  exec := by simp [init, StaticSt.init]
  cntq := by simp [init, PoolSt.init]
  cntb := by simp [init, PoolSt.init]
  lt := by simp [init, PoolSt.init]
  pool := EngPool.pinv_init c.ep

/-- Which step of the engine alone a step amounts to. -/
inductive Move (c : SpCfg) (s s' : SpSt) (d d' : StaticSt) : SpAct → Prop
  | begin (h : d.ret.isSome = true) (hd : d' = StaticSt.init c.mat) (hr : s'.runs = s.runs + 1) : Move c s s' d d' .begin
  | main (run addr) (h : d.step c.direct (c.fp s.runs) .main = some d') (hr : s'.runs = s.runs) :
      Move c s s' d d' (.main run addr)
  | take (w pre x) (h : d.step c.direct (c.fp s.runs) (.take x) = some d') (hr : s'.runs = s.runs)
      (hp : s.pool.step c.pool (w.act pre) = some s'.pool) : Move c s s' d d' (.work w pre)
  | done (w pre x) (h : d.step c.direct (c.fp s.runs) (.done x) = some d') (hr : s'.runs = s.runs)
      (hp : s.pool.step c.pool (w.act pre) = some s'.pool) : Move c s s' d d' (.work w pre)
  | pool (w pre) (hd : d' = d) (hr : s'.runs = s.runs)
      (hp : s.pool.step c.pool (w.act pre) = some s'.pool) : Move c s s' d d' (.work w pre)

theorem erase_count {l : List Task} {t : Task} (ht : t ∈ l) (u : Task) :
    (l.erase t).count u + (if u = t then 1 else 0) = l.count u := by
  have h := (List.perm_cons_erase ht).count_eq u
  rw [List.count_cons] at h
  by_cases hu : u = t
  · subst hu; simp only [BEq.rfl, if_true] at h ⊢; omega
  · have : (t == u) = false := by simp; exact fun h => hu h.symm
    simp only [hu, this, if_false, Bool.false_eq_true] at h ⊢; omega

theorem snoc_count (l : List Task) (t u : Task) : (l ++ [t]).count u = l.count u + (if u = t then 1 else 0) := by
  rw [List.count_append, List.count_singleton]
  by_cases hu : u = t
  · subst hu; simp
  · have : (t == u) = false := by simp; exact fun h => hu h.symm
    simp [hu, this]

theorem map_congr_lt {q : List Task} {f : Task → Eid} {n : Nat} {x : Eid} (h : ∀ t ∈ q, t < n) :
    q.map (fun t => if t = n then x else f t) = q.map f := by
  apply List.map_congr_left
  intro t ht
  rw [if_neg (Nat.ne_of_lt (h t ht))]

/-- Every step of engine and pool is a step of the engine alone, or of the pool alone. -/
theorem sim {c : SpCfg} (ok : Ok c.ep) {s s' : SpSt} {d Q q b} (h : Rel c s d Q q b)
    (hret : d.ret.isSome = true → Q = [] ∧ d.running = []) {a : SpAct} (hs : s.step c a = some s') :
    ∃ d' Q' q' b', Rel c s' d' Q' q' b' ∧ Move c s s' d d' a := by
  have hqlt : ∀ t ∈ q, t < s.next := by
    intro t ht
    have := h.cntq t
    have h4 := List.count_pos_iff.2 ht
    exact h.lt t (List.count_pos_iff.1 (by omega))
  have hblt : ∀ t ∈ b, t < s.next := by
    intro t ht
    have := h.cntq t
    have := h.cntb t
    have h4 := List.count_pos_iff.2 ht
    exact h.lt t (List.count_pos_iff.1 (by omega))
  have hd := h.eq
  cases a with
  | begin =>
    simp only [step] at hs
    split at hs
    · rename_i hr
      simp only [Option.some.injEq] at hs
      subst hs
      have hr' : d.ret.isSome = true := by rw [hd]; exact hr
      obtain ⟨hQ, hR⟩ := hret hr'
      have hq : q = [] := by
        have := h.wait
        rw [hQ] at this
        simpa using this.symm
      have hb : b = [] := by
        have := h.exec
        rw [hd] at hR
        have hR : s.eng.running = [] := hR
        rw [hR] at this
        simpa using this.symm
      refine ⟨StaticSt.init c.mat, [], [], [], ⟨rfl, rfl, by simp, by simp [StaticSt.init], ?_, ?_, h.lt, h.pool⟩,
        .begin hr' rfl rfl⟩
      · have := h.cntq; rw [hq] at this; exact this
      · have := h.cntb; rw [hb] at this; exact this
    · simp at hs
  | main run addr =>
    simp only [step] at hs
    cases he : s.eng.step c.direct (c.fp s.runs) .main with
    | none => simp [he] at hs
    | some e =>
      simp only [he, commit] at hs
      obtain ⟨h1, h2, h3, h4⟩ := main_ext h.emp Q he
      rcases h2 with h2 | ⟨x, h2⟩
      · simp only [h2, Option.some.injEq] at hs
        subst hs
        refine ⟨ext e Q, Q, q, b, ⟨rfl, h2, h.wait, ?_, h.cntq, h.cntb, h.lt, h.pool⟩, .main run addr ?_ rfl⟩
        · show e.running.Perm _
          rw [h3]; exact h.exec
        · rw [hd, h1, h2]; simp
      · simp only [h2] at hs
        obtain ⟨p', h5, h6, h7⟩ := EngPool.sub_step ok h.pool s.next x run addr
        have h5' : s.pool.step c.pool (.submit s.next (c.bind x) run addr) = some p' := h5
        simp only [h5', Option.some.injEq] at hs
        subst hs
        refine ⟨ext e (Q ++ [x]), Q ++ [x], q ++ [s.next], b, ⟨rfl, rfl, ?_, ?_, ?_, ?_, ?_, h6⟩,
          .main run addr (by rw [hd, h1, h2]) rfl⟩
        · simp only [List.map_append, List.map_cons, List.map_nil, if_true]
          rw [map_congr_lt hqlt]
          exact h.wait.append_right _
        · show e.running.Perm (b.map fun t => if t = s.next then x else s.elt t)
          rw [h3, map_congr_lt hblt]; exact h.exec
        · intro t
          have := h.cntq t
          simp only [h7.submitted, h7.started, List.count_append]
          omega
        · intro t
          show b.count t + p'.finished.count t = p'.started.count t
          rw [h7.finished, h7.started]; exact h.cntb t
        · intro t ht
          simp only [h7.submitted, List.mem_append, List.mem_singleton] at ht
          show t < s.next + 1
          rcases ht with ht | rfl
          · exact Nat.lt_succ_of_lt (h.lt t ht)
          · exact Nat.lt_succ_self _
  | work w pre =>
    simp only [step, Option.map_eq_some_iff] at hs
    obtain ⟨p, hp, hs⟩ := hs
    have hw : (w.act pre).isWorker = true := by cases w <;> rfl
    have hsub := (PoolSt.frame_step hw hp).submitted
    have hpi : PInv c.ep p := EngPool.pinv_worker h.pool hw hp
    have hhere := EngPool.worker_here (c := c.ep) h.pool hp
    have h1 := EngPool.worker_started hp
    have h2 := worker_finished hp
    by_cases hH : ∃ t ts, w.pc s.pool = .hand (t :: ts)
    · obtain ⟨t, ts, hpc⟩ := hH
      have hst : p.started = s.pool.started ++ [t] := by
        rcases h1 with ⟨t', ts', h3, h4⟩ | ⟨h3, _⟩
        · rw [hpc] at h3; simp at h3; rw [h3.1]; exact h4
        · exact absurd hpc (h3 t ts)
      have hfi : p.finished = s.pool.finished := by
        rcases h2 with ⟨t', ts', h3, h4⟩ | ⟨_, h4⟩
        · rw [hpc] at h3; simp at h3
        · exact h4
      have htq : t ∈ q := by
        have h3 := EngPool.hand_pending (c := c.ep) h.pool hhere hpc
        have h4 := h.cntq t
        exact List.count_pos_iff.1 (by omega)
      have hxQ : s.elt t ∈ Q := h.wait.mem_iff.2 (List.mem_map_of_mem htq)
      subst hs
      refine ⟨ext (s.effect (.hand (t :: ts))) (Q.erase (s.elt t)), Q.erase (s.elt t), q.erase t, t :: b,
        ⟨by simp [hpc], ?_, ?_, ?_, ?_, ?_, ?_, hpi⟩, .take w pre (s.elt t) ?_ rfl hp⟩
      · simp only [hpc, effect]; exact h.emp
      · exact ((List.perm_cons_erase hxQ).symm.trans
          (h.wait.trans ((List.perm_cons_erase htq).map s.elt))).cons_inv
      · simp only [hpc, effect, List.map_cons]
        exact h.exec.cons _
      · intro u
        have h3 := erase_count htq u
        have h4 := h.cntq u
        show (q.erase t).count u + p.started.count u = p.submitted.count u
        rw [hst, hsub, snoc_count]; omega
      · intro u
        have h4 := h.cntb u
        show (t :: b).count u + p.finished.count u = p.started.count u
        rw [hst, hfi, snoc_count, List.count_cons]
        by_cases hu : u = t
        · subst hu; simp; omega
        · have : (t == u) = false := by simp; exact fun h => hu h.symm
          simp [hu, this]; exact h4
      · intro u hu
        exact h.lt u (by rw [← hsub]; exact hu)
      · rw [hd]
        simp [StaticSt.step, ext, hxQ, effect]
    · have hst : p.started = s.pool.started := by
        rcases h1 with ⟨t', ts', h3, _⟩ | ⟨_, h4⟩
        · exact absurd ⟨t', ts', h3⟩ hH
        · exact h4
      by_cases hB : ∃ t ts, w.pc s.pool = .busy t ts
      · obtain ⟨t, ts, hpc⟩ := hB
        have hfi : p.finished = s.pool.finished ++ [t] := by
          rcases h2 with ⟨t', ts', h3, h4⟩ | ⟨h3, _⟩
          · rw [hpc] at h3; simp at h3; rw [h3.1]; exact h4
          · exact absurd hpc (h3 t ts)
        have htb : t ∈ b := by
          have h3 := busy_open (c := c.ep) h.pool hhere hpc
          have h4 := h.cntb t
          exact List.count_pos_iff.1 (by omega)
        have hxR : s.elt t ∈ s.eng.running := h.exec.mem_iff.2 (List.mem_map_of_mem htb)
        subst hs
        refine ⟨ext (s.effect (.busy t ts)) Q, Q, q, b.erase t,
          ⟨by simp [hpc], ?_, h.wait, ?_, ?_, ?_, ?_, hpi⟩, .done w pre (s.elt t) ?_ rfl hp⟩
        · simp only [hpc, effect]; exact h.emp
        · simp only [hpc, effect]
          exact ((List.perm_cons_erase hxR).symm.trans
            (h.exec.trans ((List.perm_cons_erase htb).map s.elt))).cons_inv
        · intro u
          have h4 := h.cntq u
          show q.count u + p.started.count u = p.submitted.count u
          rw [hst, hsub]; exact h4
        · intro u
          have h3 := erase_count htb u
          have h4 := h.cntb u
          show (b.erase t).count u + p.finished.count u = p.started.count u
          rw [hst, hfi, snoc_count]; omega
        · intro u hu
          exact h.lt u (by rw [← hsub]; exact hu)
        · rw [hd]
          simp [StaticSt.step, ext, hxR, effect]
      · have hfi : p.finished = s.pool.finished := by
          rcases h2 with ⟨t', ts', h3, _⟩ | ⟨_, h4⟩
          · exact absurd ⟨t', ts', h3⟩ hB
          · exact h4
        have heff : s.effect (w.pc s.pool) = s.eng := by
          cases hpc : w.pc s.pool with
          | hand ts =>
            cases ts with
            | nil => rfl
            | cons t ts => exact absurd ⟨t, ts, hpc⟩ hH
          | busy t ts => exact absurd ⟨t, ts, hpc⟩ hB
          | _ => rfl
        rw [heff] at hs
        subst hs
        refine ⟨d, Q, q, b, ⟨hd, h.emp, h.wait, h.exec, ?_, ?_, ?_, hpi⟩, .pool w pre rfl rfl hp⟩
        · intro u
          show q.count u + p.started.count u = p.submitted.count u
          rw [hst, hsub]; exact h.cntq u
        · intro u
          show b.count u + p.finished.count u = p.started.count u
          rw [hst, hfi]; exact h.cntb u
        · intro u hu
          exact h.lt u (by rw [← hsub]; exact hu)

/-! ### along a schedule -/

/-- What belongs to the state after some steps: the engine alone, in the current run. -/
structure Here (c : SpCfg) (s : SpSt) (d : StaticSt) (Q : List Eid) (q b : List Task) : Prop extends Rel c s d Q q b where
  reach : ∃ sch, d = StaticSt.run c.direct (c.fp s.runs) (StaticSt.init c.mat) sch

theorem static_snoc {direct : Eid → Bool} {fp : Eid → CStatus} (l : List StaticAct) (a : StaticAct) : ∀ s : StaticSt,
    StaticSt.run direct fp s (l ++ [a]) =
      ((StaticSt.run direct fp s l).step direct fp a).getD (StaticSt.run direct fp s l) := by
  induction l with
  | nil => intro s; rfl
  | cons b l ih => intro s; exact ih _

theorem Here.inv {c : SpCfg} (w : c.g.WF) {s : SpSt} {d Q q b} (h : Here c s d Q q b) :
    ∃ past cur, StaticSt.Inv c.mat (c.fp s.runs) past cur d := by
  obtain ⟨sch, rfl⟩ := h.reach
  exact StaticSt.inv_run (C25_layers c.g w c.left0).2.1 c.direct (c.fp s.runs) sch

theorem Here.returned {c : SpCfg} (w : c.g.WF) {s : SpSt} {d Q q b} (h : Here c s d Q q b) (hr : d.ret.isSome = true) :
    Q = [] ∧ d.running = [] := by
  obtain ⟨past, cur, hi⟩ := h.inv w
  have hf := (hi.retQ hr).2.2.2
  have hQ : d.queued = Q := by rw [h.eq]; rfl
  constructor
  · rw [← hQ, List.eq_nil_iff_forall_not_mem]
    intro x hx
    have := (hi.subQ x hx).2
    rw [hf] at this; simp at this
  · rw [List.eq_nil_iff_forall_not_mem]
    intro x hx
    have := (hi.subP x hx).2
    rw [hf] at this; simp at this

theorem here_step {c : SpCfg} (ok : Ok c.ep) (w : c.g.WF) {s s' : SpSt} {d Q q b} (h : Here c s d Q q b) {a : SpAct}
    (hs : s.step c a = some s') : ∃ d' Q' q' b', Here c s' d' Q' q' b' ∧ Move c s s' d d' a := by
  obtain ⟨d', Q', q', b', h1, h2⟩ := sim ok h.toRel (h.returned w) hs
  refine ⟨d', Q', q', b', ⟨h1, ?_⟩, h2⟩
  obtain ⟨sch, hd⟩ := h.reach
  cases h2 with
  | begin _ hd' _ => exact ⟨[], hd'⟩
  | main _ _ h3 hr => exact ⟨sch ++ [.main], by rw [hr, static_snoc, ← hd, h3]; rfl⟩
  | take _ _ x h3 hr _ => exact ⟨sch ++ [.take x], by rw [hr, static_snoc, ← hd, h3]; rfl⟩
  | done _ _ x h3 hr _ => exact ⟨sch ++ [.done x], by rw [hr, static_snoc, ← hd, h3]; rfl⟩
  | pool _ _ hd' hr _ => exact ⟨sch, by rw [hr, hd', hd]⟩

theorem here {c : SpCfg} (ok : Ok c.ep) (w : c.g.WF) (σ : Nat → SpAct) (n : Nat) :
    ∃ d Q q b, Here c (trace c σ n) d Q q b := by
  induction n with
  | zero => exact ⟨_, _, _, _, rel_init c, [], rfl⟩
  | succ n ih =>
    obtain ⟨d, Q, q, b, ih⟩ := ih
    cases hs : (trace c σ n).step c (σ n) with
    | none => simp only [trace, hs, Option.getD_none]; exact ⟨d, Q, q, b, ih⟩
    | some s' =>
      simp only [trace, hs, Option.getD_some]
      obtain ⟨d', Q', q', b', h, _⟩ := here_step ok w ih hs
      exact ⟨d', Q', q', b', h⟩

/-! ### fairness -/

/-- The operating system is fair: the caller and every thread of the pool are scheduled again and again; and a thread
that tries a queue again and again does not lose the race for its mutex for ever. -/
structure Fair (c : SpCfg) (σ : Nat → SpAct) : Prop where
  caller : ∀ n, ∃ m, n ≤ m ∧ ∃ run addr, σ m = .main run addr
  often : ∀ (w : Thr) (n : Nat), w.here c.ep → ∃ m, n ≤ m ∧ ∃ pre, σ m = .work w pre
  lock : ∀ (w : Thr) (P : WPc), P = .pop ∨ P = .pool ∨ P = .prio →
    (∀ n, ∃ m, n ≤ m ∧ w.pc (trace c σ m).pool = P ∧ ∃ pre, σ m = .work w pre) →
    ∀ n, ∃ m, n ≤ m ∧ w.pc (trace c σ m).pool = P ∧ σ m = .work w true

/-- What a step does to the amount of work of a run that has not returned. -/
theorem step_todo {c : SpCfg} {s s' : SpSt} {a : SpAct} (hr : s.eng.ret = none) (hs : s.step c a = some s') :
    (todo s'.eng < todo s.eng ∧ ∃ run addr, a = .main run addr) ∨
    (todo s'.eng = todo s.eng ∧ ∃ w pre, a = .work w pre ∧ s.pool.step c.pool (w.act pre) = some s'.pool) := by
  cases a with
  | begin => simp [step, hr] at hs
  | main run addr =>
    left
    refine ⟨?_, run, addr, rfl⟩
    simp only [step] at hs
    cases he : s.eng.step c.direct (c.fp s.runs) .main with
    | none => simp [he] at hs
    | some e =>
      have h1 := main_todo he
      simp only [he, commit] at hs
      split at hs
      · simp only [Option.some.injEq] at hs
        subst hs; exact h1
      · split at hs
        · simp at hs
        · simp only [Option.some.injEq] at hs
          subst hs; exact h1
  | work w pre =>
    right
    simp only [step, Option.map_eq_some_iff] at hs
    obtain ⟨p, hp, hs⟩ := hs
    subst hs
    refine ⟨?_, w, pre, rfl, hp⟩
    show todo (s.effect (w.pc s.pool)) = todo s.eng
    unfold effect
    split <;> rfl

/-- The step of the pool that belongs to a step; the caller's steps become a step of a thread that does not exist. -/
def proj (c : SpCfg) : SpAct → PAct
  | .work w pre => w.act pre
  | _ => .sec c.secs false

theorem proj_worker {c : SpCfg} (a : SpAct) : (proj c a).isWorker = true := by
  cases a with
  | work w _ => cases w <;> rfl
  | _ => rfl

section
variable {c : SpCfg} (ok : Ok c.ep) (w : c.g.WF) {σ : Nat → SpAct} {N : Nat}
  (hr : ∀ m, N ≤ m → (trace c σ m).eng.ret = none)
  (ht : ∀ m, N ≤ m → todo (trace c σ m).eng = todo (trace c σ N).eng)
include ok w

theorem seq_pool (m : Nat) : PInv c.ep (trace c σ m).pool := by
  obtain ⟨_, _, _, _, h⟩ := here ok w σ m
  exact h.pool

include hr ht

theorem still_step {m : Nat} (hm : N ≤ m) :
    (trace c σ m).step c (σ m) = none ∧ trace c σ (m + 1) = trace c σ m ∨
    ∃ k pre, σ m = .work k pre ∧
      (trace c σ m).pool.step c.pool (k.act pre) = some (trace c σ (m + 1)).pool := by
  cases hs : (trace c σ m).step c (σ m) with
  | none => left; exact ⟨rfl, by simp [trace, hs]⟩
  | some s' =>
    right
    have he : trace c σ (m + 1) = s' := by simp [trace, hs]
    have h1 := ht m hm
    have h2 := ht (m + 1) (by omega)
    rw [he] at h2 ⊢
    rcases step_todo (hr m hm) hs with ⟨h, _⟩ | ⟨_, k, pre, h3, h4⟩
    · omega
    · exact ⟨k, pre, h3, h4⟩

theorem still_pool (i : Nat) :
    (trace c σ (N + i)).pool = PoolLive.trace c.pool (trace c σ N).pool (fun k => proj c (σ (N + k))) i := by
  induction i with
  | zero => rfl
  | succ i ih =>
    simp only [PoolLive.trace, ← ih]
    have hns : (trace c σ (N + i)).pool.nsec = c.secs := (seq_pool ok w (σ := σ) (N + i)).nsec
    rw [show N + (i + 1) = N + i + 1 from rfl]
    rcases still_step ok w hr ht (m := N + i) (by omega) with ⟨h1, h2⟩ | ⟨k, pre, h1, h2⟩
    · rw [h2]
      cases ha : σ (N + i) with
      | work k pre =>
        rw [ha] at h1
        simp only [step, Option.map_eq_none_iff] at h1
        simp only [proj, h1, Option.getD_none]
      | _ => simp [proj, PoolSt.step, hns]
    · rw [h1]
      simp only [proj, h2, Option.getD_some]

theorem still_fair (hf : Fair c σ) : PoolLive.Fair c.pool (trace c σ N).pool (fun k => proj c (σ (N + k))) where
  often := by
    intro k n hk
    obtain ⟨v, rfl, h1, _⟩ := EngPool.wk_cases k
    have hv : v.here c.ep := by
      rw [← still_pool ok w hr ht] at hk
      cases v with
      | p i => exact hk
      | s j =>
        show j < c.ep.secs
        rw [← (seq_pool ok w (σ := σ) (N + n)).nsec]; exact hk
    obtain ⟨m, h2, pre, h3⟩ := hf.often v (N + n) hv
    refine ⟨m - N, by omega, pre, ?_⟩
    rw [h1]
    show proj c (σ (N + (m - N))) = _
    rw [show N + (m - N) = m from by omega, h3]; rfl
  lock := by
    intro k P hP hal n
    obtain ⟨v, rfl, h1, h2⟩ := EngPool.wk_cases k
    have key : ∀ m b, v.pc (trace c σ (N + m)).pool = P → proj c (σ (N + m)) = v.act b → σ (N + m) = .work v b := by
      intro m b h3 h4
      have hfr := (seq_pool ok w (σ := σ) (N + m)).inv.fresh c.secs
        (by rw [(seq_pool ok w (σ := σ) (N + m)).nsec]; exact Nat.le_refl _)
      cases ha : σ (N + m) with
      | work v' b' =>
        rw [ha] at h4
        simp only [proj] at h4
        have : v' = v ∧ b' = b := by cases v <;> cases v' <;> simp_all [Thr.act]
        rw [this.1, this.2]
      | _ =>
        exfalso
        rw [ha] at h4
        simp only [proj] at h4
        cases v with
        | p i => simp [Thr.act] at h4
        | s j =>
          simp only [Thr.act, PAct.sec.injEq] at h4
          have h5 : (trace c σ (N + m)).pool.sec j = P := h3
          rw [← h4.1, hfr] at h5
          rcases hP with h | h | h <;> rw [h] at h5 <;> simp at h5
    obtain ⟨m, h3, h4, h5⟩ := hf.lock v P hP (by
      intro n'
      obtain ⟨m, h3, h4, b, h5⟩ := hal n'
      rw [← still_pool ok w hr ht, h2] at h4
      have h6 := key m b h4 (by rw [← h1]; exact h5)
      exact ⟨N + m, by omega, h4, b, h6⟩) (N + n)
    have hm : N + (m - N) = m := by omega
    refine ⟨m - N, by omega, ?_, ?_, ?_⟩
    · rw [← still_pool ok w hr ht, h2, hm]; exact h4
    · rw [h1]
      show proj c (σ (N + (m - N))) = _
      rw [hm, h5]; rfl
    · rw [← still_pool ok w hr ht]
      cases v with
      | p i => exact (seq_pool ok w (σ := σ) (N + (m - N))).unl i
      | s j => trivial

theorem still_drained (hf : Fair c σ) :
    ∃ M, N ≤ M ∧ ∀ m, M ≤ m → (trace c σ m).pool.finished.Perm (trace c σ m).pool.submitted := by
  obtain ⟨l, hl⟩ := (seq_pool ok w (σ := σ) N).reach
  replace hl : (trace c σ N).pool = PoolSt.run c.pool (PoolSt.init c.secs) l := hl
  have hA := (seq_pool ok w (σ := σ) N).alive ok
  have hF := still_fair ok w hr ht hf
  have hP := still_pool ok w hr ht
  rw [hl] at hA hF hP
  obtain ⟨M, hM⟩ := PoolLive.C99_drained c.pool c.secs l _ hA (fun n => proj_worker _) hF
  refine ⟨N + M, by omega, fun m hm => ?_⟩
  obtain ⟨i, rfl⟩ : ∃ i, m = N + i := ⟨m - N, by omega⟩
  have h1 := hM i (by omega)
  have h2 := (PoolLive.trace_frame (c := c.pool) (s0 := PoolSt.run c.pool (PoolSt.init c.secs) l)
    (σ := fun k => proj c (σ (N + k))) (fun n => proj_worker _) i).submitted
  rw [← hP] at h1 h2
  rw [h2]; exact h1

/-- A caller that does nothing for ever: impossible. -/
theorem still_false (hf : Fair c σ) : False := by
  obtain ⟨M, h1, h2⟩ := still_drained ok w hr ht hf
  obtain ⟨m, h3, run, addr, h4⟩ := hf.caller M
  obtain ⟨d, Q, q, b, h⟩ := here ok w σ m
  have hp := h2 m h3
  have hps := EngPool.drained_started h.pool hp
  have hq : q = [] := by
    rw [List.eq_nil_iff_forall_not_mem]
    intro t ht
    have h5 := h.cntq t
    have h6 := hps.count_eq t
    have h7 := List.count_pos_iff.2 ht
    omega
  have hb : b = [] := by
    rw [List.eq_nil_iff_forall_not_mem]
    intro t ht
    have h5 := h.cntb t
    have h6 := hps.count_eq t
    have h8 := hp.count_eq t
    have h7 := List.count_pos_iff.2 ht
    omega
  have hQ : Q = [] := by have := h.wait; rw [hq] at this; simpa using this
  have hR : (trace c σ m).eng.running = [] := by have := h.exec; rw [hb] at this; simpa using this
  have hnone : (trace c σ m).eng.step c.direct (c.fp (trace c σ m).runs) .main = none := by
    rcases still_step ok w hr ht (m := m) (by omega) with ⟨h5, _⟩ | ⟨k, pre, h5, _⟩
    · rw [h4] at h5
      simp only [step] at h5
      cases he : (trace c σ m).eng.step c.direct (c.fp (trace c σ m).runs) .main with
      | none => rfl
      | some e =>
        exfalso
        simp only [he, commit] at h5
        split at h5
        · simp at h5
        · rename_i x _ _
          obtain ⟨p', h6, _⟩ := EngPool.sub_step ok h.pool (trace c σ m).next x run addr
          have h6' : (trace c σ m).pool.step c.pool (.submit (trace c σ m).next (c.bind x) run addr) = some p' := h6
          simp [h6'] at h5
    · rw [h4] at h5; simp at h5
  obtain ⟨x, h5, h6⟩ := main_stuck (hr m (by omega)) hnone
  obtain ⟨past, cur, hi⟩ := h.inv w
  have hd := h.eq
  subst hd
  rcases (hi.fut x h5).2 with h7 | h7 | h7
  · have h7 : x ∈ Q := h7
    rw [hQ] at h7; simp at h7
  · have h7 : x ∈ (trace c σ m).eng.running := h7
    rw [hR] at h7; simp at h7
  · exact h6 h7

end

/-- Every run returns. -/
theorem returns {c : SpCfg} (ok : Ok c.ep) (w : c.g.WF) {σ : Nat → SpAct} (hf : Fair c σ) (n : Nat) :
    ∃ m, n ≤ m ∧ (trace c σ m).eng.ret.isSome = true := by
  by_contra hno
  have hr : ∀ m, n ≤ m → (trace c σ m).eng.ret = none := by
    intro m hm
    cases h : (trace c σ m).eng.ret with
    | none => rfl
    | some r => exact absurd ⟨m, hm, by rw [h]; rfl⟩ hno
  obtain ⟨N, h1, h2⟩ := EngPool.settles (fun m => todo (trace c σ m).eng) n (by
    intro m hm
    cases hs : (trace c σ m).step c (σ m) with
    | none => simp [trace, hs]
    | some s' =>
      have he : trace c σ (m + 1) = s' := by simp [trace, hs]
      simp only [he]
      rcases step_todo (hr m hm) hs with ⟨h, _⟩ | ⟨h, _⟩ <;> omega)
  exact still_false ok w (fun m hm => hr m (by omega)) h2 hf

end CGraph.StatPool
