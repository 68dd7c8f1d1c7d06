import Verif.Model.ParPool
import Verif.Lemmas.EngPoolLive
import Verif.Lemmas.ParLeft
import Verif.Props.DagType

/-! # The fully parallel path on the pool simulates the path alone; fair executions -/
namespace CGraph.ParPool
open PpSt
open EngPool (Thr EpCfg Ok reach_snoc Sub place_prio worker_started mem_thrs length_le_thr thrs settles)

set_option maxHeartbeats 1000000

/-! ### what the caller hands over -/

/-- A list of tasks that takes and gives back the mutexes in turn; `o` is the row whose mutex is held. -/
def Good : Option Int → List Put → Prop
  | none, [] => True
  | some _, [] => False
  | none, .plain _ :: r => Good none r
  | some _, .plain _ :: _ => False
  | none, .tid _ i en lk :: r => en = true ∧ lk = true ∧ Good (some i) r
  | some j, .tid _ i en lk :: r => i = j ∧ lk = false ∧ Good (if en then none else some j) r

theorem good_tail (i : Int) (f l : Eid) (r : List Put) (hr : Good none r) : ∀ row : List Eid, f ∉ row → row.Nodup →
    row.getLast? = some l →
    Good (some i) (row.map (fun e => .tid e i (some f == some e || some l == some e) (some f == some e)) ++ r) := by
  intro row
  induction row with
  | nil => intro _ _ h; simp at h
  | cons x row ih =>
    intro h1 h2 h3
    have hx : f ≠ x := fun h => h1 (by simp [h])
    have hfx : (some f == some x) = false := by simpa using hx
    simp only [List.map_cons, List.cons_append, Good, hfx, Bool.false_or, true_and]
    cases row with
    | nil =>
      simp at h3
      subst h3
      simp [hr]
    | cons y row =>
      have hl : l ∈ y :: row := by
        rw [List.getLast?_cons_cons] at h3
        exact List.mem_of_mem_getLast? h3
      have hxl : l ≠ x := by
        rintro rfl
        exact (List.nodup_cons.1 h2).1 hl
      have hlx : (some l == some x) = false := by simpa using hxl
      rw [hlx]
      simp only [Bool.false_eq_true, if_false]
      exact ih (fun h => h1 (by simp [h])) (List.nodup_cons.1 h2).2 (by rw [List.getLast?_cons_cons] at h3; exact h3)

theorem good_row (i : Nat) (row : List Eid) (nd : row.Nodup) (r : List Put) (hr : Good none r) :
    Good none (rowPuts i row ++ r) := by
  unfold rowPuts
  split
  · rename_i h
    match row, h with
    | x :: y :: row, _ =>
      obtain ⟨l, hl⟩ : ∃ l, (x :: y :: row).getLast? = some l := by
        rw [← Option.isSome_iff_exists]; simp
      simp only [hl, List.head?_cons]
      rw [List.map_cons, List.cons_append]
      simp only [Good, BEq.rfl, Bool.true_or, true_and]
      refine good_tail i x l r hr (y :: row) (List.nodup_cons.1 nd).1 (List.nodup_cons.1 nd).2 ?_
      rw [List.getLast?_cons_cons] at hl
      exact hl
  · rename_i h
    match row, h with
    | [], _ => exact hr
    | [x], _ => exact hr
    | x :: y :: row, h => simp at h

theorem good_mat (m : List (List Eid)) : ∀ i, m.flatten.Nodup → Good none (matPuts i m) := by
  induction m with
  | nil => intro i _; trivial
  | cons row m ih =>
    intro i h
    rw [List.flatten_cons, List.nodup_append] at h
    exact good_row i row h.1 _ (ih (i + 1) h.2.1)

theorem elts_row (i : Nat) (row : List Eid) : (rowPuts i row).map Put.elt = row := by
  unfold rowPuts
  split
  · simp [Function.comp_def, Put.elt]
  · rename_i h
    match row, h with
    | [], _ => rfl
    | [x], _ => rfl
    | x :: y :: row, h => simp at h

theorem elts_mat (m : List (List Eid)) : ∀ i, (matPuts i m).map Put.elt = m.flatten := by
  induction m with
  | nil => intro i; rfl
  | cons row m ih => intro i; simp [matPuts, elts_row, ih]

/-! ### the engine -/

/-- An engine state with tasks `Q` waiting and threads at `J`. -/
def ext (e : ParSt) (Q : List Eid) (J : List PJob) : ParSt := { e with queue := Q, jobs := J }

theorem jobStep_ext {n : Nat} {e : ParSt} (Q : List Eid) (J : List PJob) (st : CStatus) (j : PJob) :
    ParSt.jobStep n (ext e Q J) st j = (ParSt.jobStep n e st j).map (fun r => (ext r.1 Q J, r.2)) := by
  cases j with
  | start v => by_cases h : e.status.isErr <;> simp [ParSt.jobStep, ext, h]
  | body v => by_cases h : st.isErr <;> simp [ParSt.jobStep, ext, h]
  | errSet v s' => simp [ParSt.jobStep, ext]
  | inc v => simp [ParSt.jobStep, ext]
  | chk => by_cases h : e.status.isErr <;> simp [ParSt.jobStep, ext, h]
  | notify =>
    by_cases h : e.main = .check ∨ e.main = .preSleep
    · simp [ParSt.jobStep, ext, h]
    · by_cases h2 : e.main = .asleep <;> simp [ParSt.jobStep, ext, h, h2, ParSt.notify]

theorem jobStep_queue {n : Nat} {e e' : ParSt} {st j o} (h : ParSt.jobStep n e st j = some (e', o)) :
    e'.queue = e.queue ∧ ParSt.rest e'.main = ParSt.rest e.main := by
  have hn : e.notify.queue = e.queue ∧ ParSt.rest e.notify.main = ParSt.rest e.main := by
    unfold ParSt.notify
    split
    · rename_i h1; simp [h1, ParSt.rest]
    · exact ⟨rfl, rfl⟩
  cases j <;> simp only [ParSt.jobStep] at h <;> (try split at h) <;>
    (try simp only [Option.some.injEq, Prod.mk.injEq, reduceCtorEq] at h) <;>
    (try (obtain ⟨h1, -⟩ := h; subst h1)) <;> first | exact ⟨rfl, rfl⟩ | exact hn

variable {T : List Eid} {n w ep : Nat}

/-- A step of the caller: it hands over at most one element, the next one. -/
theorem main_ext {e e' : ParSt} (he : e.queue = []) (Q : List Eid) (J : List PJob)
    (hs : ParSt.step T n w ep e (.main .ok) = some e') :
    ParSt.step T n w ep (ext e Q J) (.main .ok) = some (ext e' (Q ++ e'.queue) J) ∧
      ((e'.queue = [] ∧ ParSt.rest e'.main = ParSt.rest e.main) ∨
        ∃ x, e'.queue = [x] ∧ ParSt.rest e.main = x :: ParSt.rest e'.main) := by
  have hm : (ext e Q J).main = e.main := rfl
  simp only [ParSt.step, hm] at hs ⊢
  cases hp : e.main with
  | idle => simp [hp] at hs
  | push r =>
    cases r with
    | nil => simp [hp] at hs; subst hs; exact ⟨by simp [ext, he], .inl ⟨he, rfl⟩⟩
    | cons x r => simp [hp] at hs; subst hs; exact ⟨by simp [ext, he], .inr ⟨x, by simp [he], rfl⟩⟩
  | poll k =>
    cases k with
    | zero => simp [hp] at hs; subst hs; exact ⟨by simp [ext, he], .inl ⟨he, rfl⟩⟩
    | succ k =>
      simp only [hp] at hs
      by_cases h : e.num ≥ n
      · simp only [h, if_true, Option.some.injEq] at hs; subst hs
        have h' : (ext e Q J).num ≥ n := h
        exact ⟨by simp only [h', if_true]; simp [ext, he, ParSt.ret], .inl ⟨he, rfl⟩⟩
      · simp only [h, if_false, Option.some.injEq] at hs; subst hs
        have h' : ¬ (ext e Q J).num ≥ n := h
        exact ⟨by simp only [h', if_false]; simp [ext, he], .inl ⟨he, rfl⟩⟩
  | lock => simp [hp] at hs; subst hs; exact ⟨by simp [ext, he], .inl ⟨he, rfl⟩⟩
  | check =>
    simp only [hp] at hs
    by_cases h : e.num ≥ n ∨ e.status.isErr
    · simp only [h, if_true, Option.some.injEq] at hs; subst hs
      have h' : (ext e Q J).num ≥ n ∨ (ext e Q J).status.isErr := h
      exact ⟨by simp only [h', if_true]; simp [ext, he, ParSt.ret], .inl ⟨he, rfl⟩⟩
    · simp only [h, if_false, Option.some.injEq] at hs; subst hs
      have h' : ¬ ((ext e Q J).num ≥ n ∨ (ext e Q J).status.isErr) := h
      exact ⟨by simp only [h', if_false]; simp [ext, he], .inl ⟨he, rfl⟩⟩
  | preSleep => simp [hp] at hs; subst hs; exact ⟨by simp [ext, he], .inl ⟨he, rfl⟩⟩
  | asleep => simp [hp] at hs
  | waking => simp [hp] at hs; subst hs; exact ⟨by simp [ext, he], .inl ⟨he, rfl⟩⟩

/-! ### the pool -/

/-- What holds of the pool all the time; `o` is the row whose mutex the caller holds. -/
structure PB (c : EpCfg) (p : PoolSt) (o : Option Int) : Prop where
  reach : ∃ l, p = PoolSt.run c.pool (PoolSt.init c.secs) l
  lock : ∀ i, p.locked i = true ↔ o = some i ∧ 0 ≤ i ∧ i < c.pool.defaultSize
  pgo : ∀ i, p.pgo i = true
  sgo : ∀ j, p.sgo j = true
  nsec : p.nsec = c.secs
  prio : p.prioq = [] ∨ 0 < c.secs

theorem PB.unl {c : EpCfg} {p : PoolSt} (h : PB c p none) (i : Int) : p.locked i = false := by
  have := (h.lock i).1
  cases hl : p.locked i with
  | false => rfl
  | true => have := (this hl).1; simp at this

theorem PB.pinv {c : EpCfg} {p : PoolSt} (h : PB c p none) : EngPool.PInv c p :=
  ⟨h.reach, h.unl, h.pgo, h.sgo, h.nsec, h.prio⟩

theorem PB.inv {c : EpCfg} {p : PoolSt} {o} (h : PB c p o) : PoolSt.Inv c.pool p := by
  obtain ⟨l, rfl⟩ := h.reach
  exact PoolSt.inv_run _ l

theorem pb_init (c : EpCfg) : PB c (PoolSt.init c.secs) none :=
  ⟨⟨[], rfl⟩, fun i => by simp [PoolSt.init], fun _ => rfl, fun _ => rfl, rfl, .inl rfl⟩

theorem pb_worker {c : EpCfg} {p p' : PoolSt} {o} (h : PB c p o) {a : PAct} (ha : a.isWorker = true)
    (hs : p.step c.pool a = some p') : PB c p' o := by
  have f := PoolSt.frame_step ha hs
  refine ⟨reach_snoc h.reach hs, ?_, ?_, ?_, ?_, ?_⟩
  · rw [f.locked]; exact h.lock
  · rw [f.pgo]; exact h.pgo
  · rw [f.sgo]; exact h.sgo
  · rw [f.nsec]; exact h.nsec
  · rcases h.prio with h' | h'
    · exact .inl (f.prio h')
    · exact .inr h'

theorem worker_here {c : EpCfg} {p p' : PoolSt} {o} (h : PB c p o) {w : Thr} {pre : Bool}
    (hs : p.step c.pool (w.act pre) = some p') : w.here c := by
  cases w with
  | p i =>
    simp only [Thr.act, PoolSt.step] at hs
    split at hs
    · assumption
    · simp at hs
  | s j =>
    simp only [Thr.act, PoolSt.step] at hs
    split at hs
    · rename_i hj; rw [h.nsec] at hj; exact hj
    · simp at hs

/-- A task in the hand of a thread has not been called. -/
theorem hand_pending {c : EpCfg} {p : PoolSt} {o} (h : PB c p o) {w : Thr} (hw : w.here c) {t ts}
    (hp : w.pc p = .hand (t :: ts)) : p.started.count t < p.submitted.count t := by
  have h1 := h.inv.cons t
  have h2 : 0 < PoolSt.held c.pool p t := by
    simp only [PoolSt.held]
    cases w with
    | p i =>
      have := le_sumI (n := c.pool.defaultSize.toNat) (f := fun i => (p.prim i).held.count t) hw.1 (by have := hw.2; omega)
      simp only [Thr.pc] at hp
      have h3 : 0 < (p.prim i).held.count t := by rw [hp]; simp [WPc.held]
      omega
    | s j =>
      have := le_sumN (n := p.nsec) (f := fun j => (p.sec j).held.count t) (by rw [h.nsec]; exact hw)
      simp only [Thr.pc] at hp
      have h3 : 0 < (p.sec j).held.count t := by rw [hp]; simp [WPc.held]
      omega
  omega

/-- The next task can always be handed over. -/
theorem put_step {c : EpCfg} (ok : Ok c) {p : PoolSt} {o} (h : PB c p o) {u : Put} {us : List Put} (hg : Good o (u :: us))
    (t : Task) (run : Bool) (addr : Nat) :
    ∃ p' o', p.step c.pool (putAct c run addr t u) = some p' ∧ PB c p' o' ∧ Good o' us ∧ Sub t p p' := by
  cases u with
  | plain x =>
    cases o with
    | some j => simp [Good] at hg
    | none =>
      obtain ⟨p', h1, h2, h3⟩ := EngPool.sub_step ok h.pinv t x run addr
      exact ⟨p', none, h1, ⟨h2.reach, fun i => by simp [h2.unl i], h2.pgo, h2.sgo, h2.nsec, h2.prio⟩, hg, h3⟩
  | tid x i en lk =>
    by_cases hi : 0 ≤ i ∧ i < c.pool.defaultSize
    · have hpl : c.pool.placeTid i = .primary i := by simp [PoolCfg.placeTid, hi]
      cases o with
      | none =>
        obtain ⟨rfl, rfl, hg⟩ := hg
        have hst : p.step c.pool (.pushTid t i true true) = some { p.setWsq i (WsQueue.push (p.wsq i) t) with
            submitted := p.submitted ++ [t], locked := fun k => if k = i then true else p.locked k } := by
          simp [PoolSt.step, hpl, h.unl i]
        refine ⟨_, some i, hst, ⟨reach_snoc h.reach hst, ?_, h.pgo, h.sgo, h.nsec, h.prio⟩, hg, ⟨rfl, rfl, rfl, rfl, rfl⟩⟩
        intro k
        show (if k = i then true else p.locked k) = true ↔ _
        by_cases hk : k = i
        · subst hk; simp [hi]
        · simp [hk, h.unl k]; intro h3; exact absurd h3.symm hk
      | some j =>
        obtain ⟨rfl, rfl, hg⟩ := hg
        have hl : p.locked i = true := (h.lock i).2 ⟨rfl, hi⟩
        have hst : p.step c.pool (.pushTid t i en false) = some { p.setWsq i (WsQueue.push (p.wsq i) t) with
            submitted := p.submitted ++ [t], locked := fun k => if k = i then !en else p.locked k } := by
          simp [PoolSt.step, hpl, hl]
        refine ⟨_, _, hst, ⟨reach_snoc h.reach hst, ?_, h.pgo, h.sgo, h.nsec, h.prio⟩, hg, ⟨rfl, rfl, rfl, rfl, rfl⟩⟩
        intro k
        show (if k = i then !en else p.locked k) = true ↔ _
        by_cases hk : k = i
        · subst hk; cases en <;> simp [hi]
        · have : p.locked k = false := by
            cases hlk : p.locked k with
            | false => rfl
            | true => have := ((h.lock k).1 hlk).1; simp at this; exact absurd this.symm hk
          simp only [hk, if_false, this]
          cases en <;> simp
          intro h3; exact absurd h3.symm hk
    · have hpl : c.pool.placeTid i = .shared false := by simp [PoolCfg.placeTid, hi]
      have hst : p.step c.pool (.pushTid t i en lk) = some { p with shared := p.shared.push t, submitted := p.submitted ++ [t] } := by
        simp [PoolSt.step, hpl]
      have hno : ∀ k, p.locked k = true → o ≠ some i := by
        rintro k hk rfl
        have := (h.lock k).1 hk
        simp at this
        rw [this.1] at hi
        exact hi this.2
      cases o with
      | none =>
        obtain ⟨rfl, rfl, hg⟩ := hg
        refine ⟨_, some i, hst, ⟨reach_snoc h.reach hst, ?_, h.pgo, h.sgo, h.nsec, h.prio⟩, hg, ⟨rfl, rfl, rfl, rfl, rfl⟩⟩
        intro k
        show p.locked k = true ↔ _
        simp only [h.unl k, Bool.false_eq_true, Option.some.injEq, false_iff, not_and]
        rintro rfl h3 h4; exact hi ⟨h3, h4⟩
      | some j =>
        obtain ⟨rfl, rfl, hg⟩ := hg
        refine ⟨_, _, hst, ⟨reach_snoc h.reach hst, ?_, h.pgo, h.sgo, h.nsec, h.prio⟩, hg, ⟨rfl, rfl, rfl, rfl, rfl⟩⟩
        intro k
        show p.locked k = true ↔ _
        have hk : p.locked k = false := by
          cases hlk : p.locked k with
          | false => rfl
          | true => exact absurd rfl (hno k hlk)
        rw [hk]
        cases en <;> simp
        rintro rfl h3; by_contra h4; exact hi ⟨h3, by omega⟩

/-! ### the relation to the engine alone -/

/-- The state `d` of the engine alone that belongs to `s`: its queue are the tasks `q` that were handed over and not
called, in whichever queue or hand they are, its jobs those of the threads. -/
structure Rel (c : EpCfg) (s : PpSt) (d : ParSt) (L : List (Thr × PJob)) (q : List Task) : Prop where
  eq : d = ext s.eng (q.map s.elt) (L.map Prod.snd)
  emp : s.eng.queue = []
  nd : (L.map Prod.fst).Nodup
  mem : ∀ w j, (w, j) ∈ L ↔ s.job w = some j
  cnt : ∀ t, q.count t + s.pool.started.count t = s.pool.submitted.count t
  lt : ∀ t ∈ s.pool.submitted, t < s.next
  here : ∀ w j, s.job w = some j → w.here c
  rest : ParSt.rest s.eng.main = s.todo.map Put.elt
  pool : ∃ o, PB c s.pool o ∧ Good o s.todo

theorem rel_init (c : EpCfg) : Rel c (init c) ParSt.init [] [] where
  eq := rfl
  emp := rfl
  nd := List.nodup_nil
  mem := by simp [init]
  cnt := by simp [init, PoolSt.init]
  lt := by simp [init, PoolSt.init]
  here := by simp [init]
  rest := rfl
  pool := ⟨none, pb_init c, trivial⟩

/-- Which step of the engine alone a step amounts to. -/
inductive Move (c : EpCfg) (s s' : PpSt) (d d' : ParSt) : PpAct → Prop
  | begin (h : ParSt.step (tasks c) (tasks c).length c.dyn.workers c.epoch d .begin = some d') : Move c s s' d d' .begin
  | main (run addr) (h : ParSt.step (tasks c) (tasks c).length c.dyn.workers c.epoch d (.main .ok) = some d') :
      Move c s s' d d' (.main run addr)
  | spurious (h : ParSt.step (tasks c) (tasks c).length c.dyn.workers c.epoch d .spurious = some d') :
      Move c s s' d d' .spurious
  | job (w : Thr) (pre st) (i : Nat) (j : PJob) (hj : s.job w = some j)
      (h : ParSt.step (tasks c) (tasks c).length c.dyn.workers c.epoch d (.work i st) = some d') :
      Move c s s' d d' (.work w pre st)
  | take (w : Thr) (pre st) (i : Nat) (hj : s.job w = none)
      (h : ParSt.step (tasks c) (tasks c).length c.dyn.workers c.epoch d (.take i) = some d') :
      Move c s s' d d' (.work w pre st)
  | pool (w : Thr) (pre st) (hj : s.job w = none) (hd : d' = d) (he : s'.eng = s.eng) (hk : s'.job = s.job)
      (ht : s'.todo = s.todo) (hp : s.pool.step c.pool (w.act pre) = some s'.pool) : Move c s s' d d' (.work w pre st)

theorem Rel.room {c : EpCfg} {s : PpSt} {d L q} (h : Rel c s d L q) {w : Thr} (hw : w.here c) (hj : s.job w = none) :
    L.length < c.dyn.workers := by
  have hn : (w :: L.map Prod.fst).Nodup := by
    refine List.nodup_cons.2 ⟨?_, h.nd⟩
    intro hm
    obtain ⟨⟨w', j⟩, h1, h2⟩ := List.mem_map.1 hm
    simp only at h2
    subst h2
    rw [(h.mem w' j).1 h1] at hj
    simp at hj
  have hl := length_le_thr hn (by
    intro x hx
    rcases List.mem_cons.1 hx with rfl | hx
    · exact mem_thrs hw
    · obtain ⟨⟨w', j⟩, h1, h2⟩ := List.mem_map.1 hx
      simp only at h2
      subst h2
      exact mem_thrs (h.here w' j ((h.mem w' j).1 h1)))
  simp only [List.length_cons, List.length_map, thrs, List.length_append, List.length_range] at hl
  simp only [EpCfg.dyn]
  omega

/-- Replacing or removing the job of a thread. -/
theorem jobs_set {L : List (Thr × PJob)} {f : Thr → Option PJob} (nd : (L.map Prod.fst).Nodup)
    (mem : ∀ w j, (w, j) ∈ L ↔ f w = some j) {i : Nat} {w : Thr} {j : PJob} (hi : L[i]? = some (w, j)) (o : Option PJob) :
    let L' := match o with | some j' => L.set i (w, j') | none => L.eraseIdx i
    (L'.map Prod.fst).Nodup ∧ ∀ w' j', (w', j') ∈ L' ↔ (if w' = w then o else f w') = some j' := by
  obtain ⟨hlt, he⟩ := List.getElem?_eq_some_iff.1 hi
  have hp : ((w, j) :: L.eraseIdx i).Perm L := by
    have := List.getElem_cons_eraseIdx_perm hlt
    rwa [he] at this
  have hnd : (w :: (L.eraseIdx i).map Prod.fst).Nodup := ((hp.map Prod.fst).nodup_iff).2 nd
  obtain ⟨hn1, hn2⟩ := List.nodup_cons.1 hnd
  have hR : ∀ w' j', (w', j') ∈ L.eraseIdx i ↔ w' ≠ w ∧ f w' = some j' := by
    intro w' j'
    constructor
    · intro h1
      refine ⟨?_, (mem w' j').1 (hp.mem_iff.1 (List.mem_cons_of_mem _ h1))⟩
      rintro rfl
      exact hn1 (List.mem_map.2 ⟨_, h1, rfl⟩)
    · rintro ⟨h1, h2⟩
      rcases List.mem_cons.1 (hp.mem_iff.2 ((mem w' j').2 h2)) with h3 | h3
      · simp only [Prod.mk.injEq] at h3; exact absurd h3.1 h1
      · exact h3
  cases o with
  | none =>
    refine ⟨hn2, fun w' j' => ?_⟩
    rw [hR]
    by_cases h : w' = w <;> simp [h]
  | some j1 =>
    have hp' : (L.set i (w, j1)).Perm ((w, j1) :: L.eraseIdx i) := List.set_perm_cons_eraseIdx hlt _
    refine ⟨((hp'.map Prod.fst).nodup_iff).2 hnd, fun w' j' => ?_⟩
    rw [hp'.mem_iff, List.mem_cons, hR]
    by_cases h : w' = w
    · subst h; simp [eq_comm]
    · simp [h]

theorem sim {c : EpCfg} (ok : Ok c) (nd : (tasks c).Nodup) {s s' : PpSt} {d L q} (h : Rel c s d L q) {a : PpAct}
    (hs : s.step c a = some s') : ∃ d' L' q', Rel c s' d' L' q' ∧ Move c s s' d d' a := by
  cases a with
  | begin =>
    simp only [step, Option.map_eq_some_iff] at hs
    obtain ⟨e, he, rfl⟩ := hs
    simp only [ParSt.step] at he
    split at he
    case isFalse => simp at he
    rename_i hid
    simp only [Option.some.injEq] at he
    have hto : s.todo = [] := by
      have := h.rest
      rw [hid] at this
      simpa [ParSt.rest] using this.symm
    obtain ⟨o, h1, h2⟩ := h.pool
    rw [hto] at h2
    have ho : o = none := by
      cases o with
      | none => rfl
      | some j => simp [Good] at h2
    subst ho
    refine ⟨ext e (q.map s.elt) (L.map Prod.snd), L, q, ⟨rfl, ?_, h.nd, h.mem, h.cnt, h.lt, h.here, ?_, none, h1,
      good_mat _ 0 nd⟩, .begin ?_⟩
    · rw [← he]; exact h.emp
    · rw [← he]; exact (elts_mat _ 0).symm
    · rw [h.eq]
      have hid' : (ext s.eng (q.map s.elt) (L.map Prod.snd)).main = .idle := hid
      simp only [ParSt.step, hid', if_true]
      rw [← he]; rfl
  | spurious =>
    simp only [step, Option.map_eq_some_iff] at hs
    obtain ⟨e, he, rfl⟩ := hs
    simp only [ParSt.step] at he
    split at he
    case isFalse => simp at he
    rename_i hid
    simp only [Option.some.injEq] at he
    refine ⟨ext e (q.map s.elt) (L.map Prod.snd), L, q, ⟨rfl, ?_, h.nd, h.mem, h.cnt, h.lt, h.here, ?_, h.pool⟩,
      .spurious ?_⟩
    · rw [← he]; exact h.emp
    · have := h.rest
      rw [hid] at this
      rw [← he]; exact this
    · rw [h.eq]
      have hid' : (ext s.eng (q.map s.elt) (L.map Prod.snd)).main = .asleep := hid
      simp only [ParSt.step, hid', if_true]
      rw [← he]; rfl
  | main run addr =>
    simp only [step] at hs
    cases he : ParSt.step (tasks c) (tasks c).length c.dyn.workers c.epoch s.eng (.main .ok) with
    | none => simp [he] at hs
    | some e =>
      obtain ⟨h1, h2⟩ := main_ext h.emp (q.map s.elt) (L.map Prod.snd) he
      simp only [he, flush] at hs
      rcases h2 with ⟨h2, h3⟩ | ⟨x, h2, h3⟩
      · simp only [h2, Option.some.injEq] at hs
        subst hs
        refine ⟨ext e (q.map s.elt) (L.map Prod.snd), L, q, ⟨rfl, h2, h.nd, h.mem, h.cnt, h.lt, h.here, ?_, h.pool⟩,
          .main run addr ?_⟩
        · rw [h3]; exact h.rest
        · rw [h.eq, h1, h2, List.append_nil]
      · simp only [h2] at hs
        have hrest := h.rest
        rw [h3] at hrest
        cases hto : s.todo with
        | nil => rw [hto] at hrest; simp at hrest
        | cons u us =>
          rw [hto] at hrest
          simp only [List.map_cons, List.cons.injEq] at hrest
          obtain ⟨o, hb, hg⟩ := h.pool
          rw [hto] at hg
          obtain ⟨p', o', h4, h5, h6, h7⟩ := put_step ok hb hg s.next run addr
          simp only [hto, h4, Option.some.injEq] at hs
          subst hs
          have hqlt : ∀ t ∈ q, t < s.next := by
            intro t ht
            have := h.cnt t
            have h4 := List.count_pos_iff.2 ht
            exact h.lt t (List.count_pos_iff.1 (by omega))
          refine ⟨_, L, q ++ [s.next], ⟨rfl, rfl, h.nd, h.mem, ?_, ?_, h.here, hrest.2, o', h5, h6⟩, .main run addr ?_⟩
          · intro t
            have := h.cnt t
            simp only [h7.submitted, h7.started, List.count_append]
            omega
          · intro t ht
            simp only [h7.submitted, List.mem_append, List.mem_singleton] at ht
            show t < s.next + 1
            rcases ht with ht | rfl
            · exact Nat.lt_succ_of_lt (h.lt t ht)
            · exact Nat.lt_succ_self _
          · rw [h.eq, h1, h2]
            simp only [ext, List.map_append, List.map_cons, List.map_nil, if_true, hrest.1]
            congr 3
            apply List.map_congr_left
            intro t ht
            rw [if_neg (Nat.ne_of_lt (hqlt t ht))]
  | work w pre st =>
    simp only [step, workStep] at hs
    cases hj : s.job w with
    | some j =>
      simp only [hj] at hs
      cases he : ParSt.jobStep (tasks c).length s.eng st j with
      | none => simp [he] at hs
      | some r =>
        obtain ⟨e, o⟩ := r
        simp only [he, Option.some.injEq] at hs
        subst hs
        obtain ⟨hjq, hjr⟩ := jobStep_queue he
        obtain ⟨i, hi⟩ := List.mem_iff_getElem?.1 ((h.mem w j).2 hj)
        obtain ⟨hn, hm⟩ := jobs_set h.nd h.mem hi o
        generalize hL' : (match o with | some j' => L.set i (w, j') | none => L.eraseIdx i) = L' at hn hm
        refine ⟨ext e (q.map s.elt) (L'.map Prod.snd), L', q, ⟨rfl, ?_, hn, ?_, h.cnt, h.lt, ?_, ?_, h.pool⟩,
          .job w _ _ i j hj ?_⟩
        · exact hjq.trans h.emp
        · intro w' j'
          rw [hm]
          rfl
        · intro w' j' hw'
          simp only [setJob] at hw'
          split at hw'
          · rename_i hww; rw [hww]; exact h.here w j hj
          · exact h.here w' j' hw'
        · exact hjr.trans h.rest
        · have hd : d.jobs[i]? = some j := by rw [h.eq]; simp [ext, hi]
          simp only [ParSt.step, hd]
          rw [h.eq, jobStep_ext, he]
          subst hL'
          cases o <;> simp [ext, List.map_set, List.eraseIdx_map]
    | none =>
      simp only [hj] at hs
      cases he : s.pool.step c.pool (w.act pre) with
      | none => simp [he] at hs
      | some p =>
        simp only [he, Option.some.injEq] at hs
        obtain ⟨o, hb, hg⟩ := h.pool
        have hw := worker_here hb he
        have hworker : (w.act pre).isWorker = true := by cases w <;> rfl
        have f := PoolSt.frame_step hworker he
        have hP := pb_worker hb hworker he
        rcases worker_started he with ⟨t, ts, h1, h2⟩ | ⟨h1, h2⟩
        · rw [h1] at hs
          subst hs
          have hlt := hand_pending hb hw h1
          have hc := h.cnt t
          have ht : t ∈ q := List.count_pos_iff.1 (by omega)
          obtain ⟨i, hi⟩ := List.mem_iff_getElem?.1 ht
          obtain ⟨hil, hie⟩ := List.getElem?_eq_some_iff.1 hi
          have hp : (t :: q.eraseIdx i).Perm q := by
            have := List.getElem_cons_eraseIdx_perm hil
            rwa [hie] at this
          refine ⟨ext s.eng ((q.eraseIdx i).map s.elt) ((L ++ [(w, PJob.start (s.elt t))]).map Prod.snd),
            L ++ [(w, PJob.start (s.elt t))], q.eraseIdx i, ⟨rfl, h.emp, ?_, ?_, ?_, ?_, ?_, h.rest, o, hP, hg⟩, ?_⟩
          · simp only [List.map_append, List.map_cons, List.map_nil]
            rw [List.nodup_append]
            refine ⟨h.nd, by simp, ?_⟩
            intro x hx y hy
            simp only [List.mem_singleton] at hy
            rintro rfl
            obtain ⟨⟨w', j⟩, h3, h4⟩ := List.mem_map.1 hx
            simp only at h4
            rw [h4, hy] at h3
            rw [(h.mem w j).1 h3] at hj
            simp at hj
          · intro w' j'
            simp only [List.mem_append, List.mem_singleton, Prod.mk.injEq, setJob]
            by_cases hww : w' = w
            · subst hww
              simp only [if_true, true_and, Option.some.injEq]
              constructor
              · rintro (h3 | h3)
                · rw [(h.mem w' j').1 h3] at hj; simp at hj
                · exact h3.symm
              · intro h3; exact .inr h3.symm
            · simp only [hww, false_and, or_false, if_false]
              exact h.mem w' j'
          · intro u
            have h3 := h.cnt u
            have h4 := hp.count_eq u
            simp only [setJob, h2, f.submitted, List.count_append, List.count_cons, List.count_nil] at h4 ⊢
            omega
          · intro u hu
            simp only [setJob, f.submitted] at hu ⊢
            exact h.lt u hu
          · intro w' j' hw'
            simp only [setJob] at hw'
            split at hw'
            · rename_i hww; rw [hww]; exact hw
            · exact h.here w' j' hw'
          · refine .take w _ _ i hj ?_
            have hd : d.queue[i]? = some (s.elt t) := by rw [h.eq]; simp [ext, hi]
            have hl : d.jobs.length < c.dyn.workers := by rw [h.eq]; simpa [ext] using h.room hw hj
            simp only [ParSt.step, hd, hl, if_true]
            rw [h.eq]
            simp [ext, List.eraseIdx_map]
        · have hs' : s' = { s with pool := p } := by
            rw [← hs]
            simp only [setJob]
            congr 1
            funext k
            by_cases hk : k = w
            · rw [if_pos hk, hk, hj]
            · rw [if_neg hk]
          subst hs'
          refine ⟨d, L, q, ⟨h.eq, h.emp, h.nd, h.mem, ?_, ?_, h.here, h.rest, o, hP, hg⟩, .pool w _ _ hj rfl rfl rfl rfl he⟩
          · intro u; rw [h2, f.submitted]; exact h.cnt u
          · intro u hu; rw [f.submitted] at hu; exact h.lt u hu

end CGraph.ParPool
