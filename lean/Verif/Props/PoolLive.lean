import Verif.Lemmas.PoolLive

/-! # C99: every accepted task is executed eventually -/
namespace CGraph.PoolLive
open PoolSt

set_option maxHeartbeats 1000000

/-- **C99**, tasks given to a primary thread: whatever else is submitted, and whoever steals, a task in the queue of a
primary thread that is never told to stop is executed to its end after finitely many steps. -/
theorem C99_own (c : PoolCfg) (k : Nat) (l : List PAct) (σ : Nat → PAct) (hf : Fair c (run c (init k) l) σ)
    (hb : c.batch = true → c.localBatch ≠ 0) (i : Int) (hi : 0 ≤ i ∧ i < c.defaultSize)
    (hg : ∀ n, (trace c (run c (init k) l) σ n).pgo i = true) (n : Nat) (t : Task)
    (ht : t ∈ (trace c (run c (init k) l) σ n).wsq i) :
    ∃ m, n ≤ m ∧ (trace c (run c (init k) l) σ (m + 1)).finished =
      (trace c (run c (init k) l) σ m).finished ++ [t] := by
  obtain ⟨p, q, h⟩ := List.append_of_mem ht
  obtain ⟨m, h1, h2⟩ := own_held hf (inv_run k l) hb hi hg p.length h rfl
  exact (held_ends hf h2).mono h1

/-- **C99**, tasks in the shared queue, if there is a secondary thread that is never told to stop: it is executed to
its end after finitely many steps, whatever else is submitted.  Missing: without a secondary thread see
`C99_starve_violated`. -/
theorem C99_shared_partial (c : PoolCfg) (k : Nat) (l : List PAct) (σ : Nat → PAct)
    (hf : Fair c (run c (init k) l) σ) (hb : c.batch = true → 0 < c.poolBatch) (n j : Nat)
    (hj : j < (trace c (run c (init k) l) σ n).nsec)
    (hg : ∀ m, n ≤ m → (trace c (run c (init k) l) σ m).sgo j = true) (t : Task)
    (ht : t ∈ (trace c (run c (init k) l) σ n).shared.queue) :
    ∃ m, n ≤ m ∧ (trace c (run c (init k) l) σ (m + 1)).finished =
      (trace c (run c (init k) l) σ m).finished ++ [t] := by
  obtain ⟨p, q, h⟩ := List.append_of_mem ht
  have hat : ∀ k', ∃ m, At c (run c (init k) l) σ (.s j) .pool k' m := by
    intro k'
    have hm : n ≤ max n k' := Nat.le_max_left _ _
    obtain ⟨m, hm'⟩ := sec_to_pool hf (inv_run k l) (n := max n k') (here_le (w := .s j) hm hj)
      (fun m h => hg m (by omega))
    exact ⟨m, hm'.mono (Nat.le_max_right _ _)⟩
  obtain ⟨m, h1, h2⟩ := shared_held hf hb (w := .s j) p.length hj hat h rfl
  exact (held_ends hf h2).mono h1

/-! ### finitely many submissions -/

section
variable {c : PoolCfg} {s0 : PoolSt} {σ : Nat → PAct}

theorem trace_frame (hw : ∀ n, (σ n).isWorker = true) (n : Nat) : Frame s0 (trace c s0 σ n) := by
  induction n with
  | zero => exact Frame.refl _
  | succ n ih =>
    cases hs : (trace c s0 σ n).step c (σ n) with
    | none => rw [trace_none hs]; exact ih
    | some s' => rw [trace_some hs]; exact ih.trans (frame_step (hw n) hs)

theorem one_more (hf : Fair c s0 σ) (h0 : Inv c s0) (hw : ∀ n, (σ n).isWorker = true) (hA : Alive c s0) (n : Nat)
    (t : Task) (ht : (trace c s0 σ n).finished.count t < (trace c s0 σ n).submitted.count t) :
    ∃ u, Ends c s0 σ n u := by
  refine Classical.byContradiction fun hno => ?_
  have hno : ∀ u, ¬ Ends c s0 σ n u := fun u hu => hno ⟨u, hu⟩
  have nohold : ∀ m, n ≤ m → ∀ u, ¬ Held c (trace c s0 σ m) u := fun m hm u hu => hno u ((held_ends hf hu).mono hm)
  have hI := trace_inv h0 σ n
  have hgo : ∀ i m, (trace c s0 σ m).pgo i = true := by
    intro i m; rw [(trace_frame hw m).pgo]; exact hA.go i
  have hsub := (trace_frame (c := c) (s0 := s0) hw n).submitted
  have h1 := hI.cons t
  have h2 := hI.fin t
  -- nobody holds or executes
  have hheld : held c (trace c s0 σ n) t = 0 := by
    simp only [held]
    rw [sumI_zero, sumN_zero]
    · intro j hj
      rw [List.count_eq_zero]
      exact fun hm => nohold n (Nat.le_refl _) t ⟨.s j, hj, hm⟩
    · intro i hi
      rw [List.count_eq_zero]
      exact fun hm => nohold n (Nat.le_refl _) t ⟨.p i, ⟨by omega, by omega⟩, hm⟩
  have nobusy : ∀ (w : Wk), w.here c (trace c s0 σ n) → (w.pc (trace c s0 σ n)).exec.count t = 0 := by
    intro w hw'
    cases hp : w.pc (trace c s0 σ n) with
    | busy u ts => exact absurd (busy_ends hf hw' hp).1 (hno u)
    | _ => rfl
  have hexec : exec c (trace c s0 σ n) t = 0 := by
    simp only [exec]
    rw [sumI_zero, sumN_zero]
    · intro j hj; exact nobusy (.s j) hj
    · intro i hi; exact nobusy (.p i) ⟨by omega, by omega⟩
  have hq : 0 < inQ c (trace c s0 σ n) t := by omega
  simp only [inQ] at hq
  by_cases hq1 : 0 < sumI c.defaultSize.toNat (fun i => ((trace c s0 σ n).wsq i).count t)
  · obtain ⟨i, h3, h4, h5⟩ := sumI_pos hq1
    have hi : 0 ≤ i ∧ i < c.defaultSize := ⟨h3, by omega⟩
    obtain ⟨p, q, h⟩ := List.append_of_mem (List.count_pos_iff.1 h5)
    obtain ⟨m, h6, h7⟩ := own_held hf h0 (fun hb => (hA.batch hb).1) hi (hgo i) p.length h rfl
    exact nohold m h6 t h7
  · -- primary threads find nothing in their queues
    have nohand : ∀ m, n ≤ m → ∀ (w : Wk), w.here c (trace c s0 σ m) → ∀ x r,
        w.pc (trace c s0 σ m) ≠ .hand (x :: r) := by
      intro m hm w hw' x r hp
      exact nohold m hm x ⟨w, hw', by rw [hp]; simp [WPc.held]⟩
    by_cases hq2 : 0 < (trace c s0 σ n).shared.queue.count t
    · obtain ⟨p, q, h⟩ := List.append_of_mem (List.count_pos_iff.1 hq2)
      have hi0 : (0 : Int) ≤ 0 ∧ 0 < c.defaultSize := ⟨Int.le_refl _, hA.one⟩
      have hat : ∀ k, ∃ m, At c s0 σ (.p 0) .pool k m := by
        intro k
        obtain ⟨m, h3, h4, b, h5⟩ := prim_to_pop hf h0 hi0 (hgo 0) (max n k)
        rcases (prim_quiet hi0 h5).2.2.2.2.2 h4 with h6 | ⟨x, r, h6⟩
        · rcases prim_steal_end hf hi0 _ h6 with ⟨m2, h7⟩ | ⟨m2, x, r, h7, h8⟩
          · exact ⟨m2, h7.mono (by omega)⟩
          · exact absurd h8 (nohand m2 (by omega) (.p 0) hi0 x r)
        · exact absurd h6 (nohand (m + 1) (by omega) (.p 0) hi0 x r)
      obtain ⟨m, h6, h7⟩ := shared_held hf (fun hb => (hA.batch hb).2) (w := .p 0) p.length hi0 hat h rfl
      exact nohold m h6 t h7
    · have hq3 : t ∈ (trace c s0 σ n).prioq.map PqEntry.val := by
        rw [← List.count_pos_iff]; omega
      obtain ⟨e, he, rfl⟩ := List.mem_map.1 hq3
      rcases hA.prio with hp | ⟨j, hj, hg⟩
      · have := (trace_frame (c := c) (s0 := s0) hw n).prio hp
        rw [this] at he; simp at he
      · have hj' : ∀ m, (Wk.s j).here c (trace c s0 σ m) := by
          intro m; show j < _; rw [(trace_frame hw m).nsec]; exact hj
        have hg' : ∀ m, (trace c s0 σ m).sgo j = true := by
          intro m; rw [(trace_frame hw m).sgo]; exact hg
        have hat : ∀ k, ∃ m, At c s0 σ (.s j) .prio k m := by
          intro k
          obtain ⟨m, h3, h4, b, h5⟩ := sec_to_pool hf h0 (n := max n k) (hj' _) (fun m _ => hg' m)
          rcases (sec_quiet (hj' m) h5).2.2.2 h4 with h6 | ⟨x, r, h6⟩
          · obtain ⟨m2, h7⟩ := at_next hf (w := .s j) (n := m + 1) (hj' _) h6
            exact ⟨m2, h7.mono (by omega)⟩
          · exact absurd h6 (nohand (m + 1) (by omega) (.s j) (hj' _) x r)
        obtain ⟨m, h3, h4, h5, _⟩ := hf.lock (.s j) .prio (.inr (.inr rfl)) hat n
        rcases prio_walk h3 he with ⟨m2, h6, h7⟩ | h6
        · exact nohold m2 h6 _ h7
        · have h4' : (trace c s0 σ m).sec j = .prio := h4
          have htr := tr_sec (c := c) (s0 := s0) (hj' m) h5
          simp only [secStep, h4', Option.getD_some] at htr
          cases htop : PQueue.top (trace c s0 σ m).prioq with
          | none => rw [pq_top_none htop] at h6; simp at h6
          | some x =>
            have : (trace c s0 σ (m + 1)).sec j = .hand [x.val] := by
              rw [htr]; simp [setSec, PQueue.tryPop, htop]
            exact nohand (m + 1) (by omega) (.s j) (hj' _) x.val [] this

/-- **C99**, finitely many submissions: from any reachable state of a pool with a primary thread, no stop request, no
half-done batch (and a secondary thread if the priority queue is used), if nothing more is submitted, every fair
execution reaches a moment from which on everything submitted has been executed exactly once per submission. -/
theorem C99_drained (c : PoolCfg) (k : Nat) (l : List PAct) (σ : Nat → PAct) (hA : Alive c (run c (init k) l))
    (hw : ∀ n, (σ n).isWorker = true) (hf : Fair c (run c (init k) l) σ) :
    ∃ m, ∀ m', m ≤ m' → (trace c (run c (init k) l) σ m').finished.Perm (run c (init k) l).submitted := by
  have h0 := inv_run (c := c) k l
  have hsub : ∀ n, (trace c (run c (init k) l) σ n).submitted = (run c (init k) l).submitted :=
    fun n => (trace_frame hw n).submitted
  have key : ∀ (d n : Nat),
      (run c (init k) l).submitted.length - (trace c (run c (init k) l) σ n).finished.length = d →
      ∃ m, (trace c (run c (init k) l) σ m).finished.Perm (run c (init k) l).submitted := by
    intro d
    induction d using Nat.strong_induction_on with
    | _ d ih =>
      intro n hd
      have hsp := finished_subperm (trace_inv h0 σ n)
      rw [hsub] at hsp
      by_cases hall : ∀ t, (run c (init k) l).submitted.count t ≤ (trace c (run c (init k) l) σ n).finished.count t
      · refine ⟨n, List.perm_iff_count.2 fun t => Nat.le_antisymm (hsp.count_le t) (hall t)⟩
      · obtain ⟨t, ht⟩ := Classical.not_forall.1 hall
        obtain ⟨u, m, h1, h2⟩ := one_more hf h0 hw hA n t (by rw [hsub]; omega)
        obtain ⟨x, hx⟩ := fin_le (c := c) (s0 := run c (init k) l) (σ := σ) h1
        have hl1 : (trace c (run c (init k) l) σ (m + 1)).finished.length >
            (trace c (run c (init k) l) σ n).finished.length := by
          rw [h2, hx]; simp
        have hsp' := finished_subperm (trace_inv h0 σ (m + 1))
        rw [hsub] at hsp'
        have := hsp'.length_le
        exact ih _ (by omega) (m + 1) rfl
  obtain ⟨m, hm⟩ := key _ 0 rfl
  refine ⟨m, fun m' hm' => ?_⟩
  obtain ⟨x, hx⟩ := fin_le (c := c) (s0 := run c (init k) l) (σ := σ) hm'
  have hsp := finished_subperm (trace_inv h0 σ m')
  rw [hsub, hx] at hsp
  have h3 := hsp.length_le
  have h4 := hm.length_eq
  have : x = [] := by
    apply List.length_eq_zero_iff.1
    simp only [List.length_append] at h3; omega
  rw [hx, this, List.append_nil]; exact hm

end

/-! ### the conditions can be met -/

/-- If no `try_lock` fails and no batch is half done, only the scheduling of the threads matters. -/
theorem fair_of {c : PoolCfg} {s0 : PoolSt} {σ : Nat → PAct} (h1 : ∀ (w : Wk) n, σ n ≠ w.act false)
    (h2 : ∀ n i, (trace c s0 σ n).locked i = false)
    (h3 : ∀ (w : Wk) (n : Nat), w.here c (trace c s0 σ n) → ∃ m, n ≤ m ∧ ∃ b, σ m = w.act b) : Fair c s0 σ where
  often := h3
  lock w P _ h n := by
    obtain ⟨m, h4, h5, b, h6⟩ := h n
    refine ⟨m, h4, h5, ?_, ?_⟩
    · cases b with
      | true => exact h6
      | false => exact absurd h6 (h1 w m)
    · cases w with
      | p i => exact h2 m i
      | s j => trivial

/-- Two primary threads taking turns. -/
def turns (n : Nat) : PAct := .prim ((n % 2 : Nat) : Int) true

theorem turns_fair (l : List PAct) (hl : ∀ i, (run exPool (init 0) l).locked i = false)
    (hn : (run exPool (init 0) l).nsec = 0) : Fair exPool (run exPool (init 0) l) turns := by
  have hw : ∀ n, (turns n).isWorker = true := fun n => rfl
  refine fair_of ?_ ?_ ?_
  · intro w n h; cases w <;> simp [turns, Wk.act] at h
  · intro n i; rw [(trace_frame hw n).locked]; exact hl i
  · intro w n h
    cases w with
    | p i =>
      have h' : 0 ≤ i ∧ i < 2 := h
      rcases (show i = 0 ∨ i = 1 by omega) with rfl | rfl
      · exact ⟨2 * n, by omega, true, by simp [turns, Wk.act]⟩
      · exact ⟨2 * n + 1, by omega, true, by simp [turns, Wk.act]⟩
    | s j =>
      have h' : j < (trace exPool (run exPool (init 0) l) turns n).nsec := h
      rw [(trace_frame hw n).nsec, hn] at h'
      omega

example : ∃ m, ∀ m', m ≤ m' →
    (trace exPool (run exPool (init 0) [.submit 7 (-1) false 0, .submit 8 0 false 0, .submit 9 5 false 0,
      .prim 1 true]) turns m').finished.Perm [7, 8, 9] :=
  C99_drained exPool 0 _ turns
    ⟨by decide, fun _ => rfl, fun _ => rfl, by decide, .inl (by decide)⟩ (fun _ => rfl)
    (turns_fair _ (fun _ => rfl) rfl)

/-! ### starvation -/

/-- A state in which all threads but primary thread `i` and secondary thread 0 are at the head of their loops. -/
structure Stg (v : Task) (pr : PQueue Task) (ns : Nat) (s : PoolSt) (i : Int) (P : WPc) (Q sh : List Task)
    (R : WPc) : Prop where
  wsq : ∀ k, s.wsq k = if k = i then Q else []
  prim : ∀ k, s.prim k = if k = i then P else .loop
  sec : ∀ k, s.sec k = if k = 0 then R else .loop
  sh : s.shared.queue = sh
  pr : s.prioq = pr
  ns : s.nsec = ns
  lk : ∀ k, s.locked k = false
  pg : ∀ k, s.pgo k = true
  sg : ∀ k, s.sgo k = true
  st : v ∉ s.started

section
variable {c : PoolCfg} {v : Task} {pr : PQueue Task} {ns : Nat} {s : PoolSt} {i : Int} {sh Q : List Task} {P R : WPc}

theorem Stg.move (h : Stg v pr ns s i .loop [] sh R) (k : Int) : Stg v pr ns s k .loop [] sh R where
  wsq j := by rw [h.wsq]; split <;> split <;> rfl
  prim j := by rw [h.prim]; split <;> split <;> rfl
  sec := h.sec
  sh := h.sh
  pr := h.pr
  ns := h.ns
  lk := h.lk
  pg := h.pg
  sg := h.sg
  st := h.st

theorem Stg.submit (h : Stg v pr ns s i P [] sh R) (hi : 0 ≤ i ∧ i < c.defaultSize) (u : Task) :
    Stg v pr ns ((s.step c (.submit u i false 0)).getD s) i P [u] sh R := by
  have hd : c.execute (fun _ => false) s.cur i = some (.primary i, s.cur) := by
    have : i ≠ defaultStrategy := by simp only [defaultStrategy]; omega
    simp [PoolCfg.execute, PoolCfg.dispatch, this, PoolCfg.place, hi]
  have hq : s.wsq i = [] := by rw [h.wsq]; simp
  simp only [step, hd, deliver, h.lk, Bool.false_eq_true, if_false, Option.getD_some]
  refine ⟨?_, h.prim, h.sec, h.sh, h.pr, h.ns, h.lk, h.pg, h.sg, h.st⟩
  intro k
  simp only [setWsq, hq, WsQueue.push, List.nil_append]
  split
  · rfl
  · rename_i hk; rw [h.wsq, if_neg hk]

theorem Stg.submitShared (h : Stg v pr ns s i P Q [] R) (u : Task) :
    Stg v pr ns ((s.step c (.submit u (-2) false 0)).getD s) i P Q [u] R := by
  have hd : c.execute (fun _ => false) s.cur (-2) = some (.shared false, s.cur) := by
    simp [PoolCfg.execute, PoolCfg.dispatch, defaultStrategy, PoolCfg.place, longTimeStrategy, triggerAllStrategy]
  simp only [step, hd, deliver, Option.getD_some]
  exact ⟨h.wsq, h.prim, h.sec, by simp [AQueue.push, h.sh], h.pr, h.ns, h.lk, h.pg, h.sg, h.st⟩

theorem prim_set (h : Stg v pr ns s i P Q sh R) (p : WPc) (k : Int) :
    (if k = i then p else s.prim k) = if k = i then p else .loop := by
  split
  · rfl
  · rename_i hk; rw [h.prim, if_neg hk]

theorem sec_set (h : Stg v pr ns s i P Q sh R) (p : WPc) (k : Nat) :
    (if k = 0 then p else s.sec k) = if k = 0 then p else .loop := by
  split
  · rfl
  · rename_i hk; rw [h.sec, if_neg hk]

theorem Stg.p1 (h : Stg v pr ns s i .loop Q sh R) (hi : 0 ≤ i ∧ i < c.defaultSize) :
    Stg v pr ns ((s.step c (.prim i true)).getD s) i .pop Q sh R := by
  have hp : s.prim i = .loop := by rw [h.prim]; simp
  simp only [step, if_pos hi, primStep, hp, h.pg, if_true, Option.getD_some]
  exact ⟨h.wsq, prim_set h _, h.sec, h.sh, h.pr, h.ns, h.lk, h.pg, h.sg, h.st⟩

theorem popOwn_one (hb : c.batch = true → c.localBatch ≠ 0) (u : Task) : popOwn c true [u] = ([], [u]) := by
  obtain ⟨x, xs, hx⟩ := popOwn_ne hb (q := [u]) (by simp)
  have := own_split c true [u]
  rw [hx] at this
  simp only [List.cons_append, List.cons.injEq, List.append_eq_nil_iff] at this
  obtain ⟨rfl, rfl, h⟩ := this
  exact Prod.ext h hx

theorem Stg.p2 (h : Stg v pr ns s i .pop [u] sh R) (hi : 0 ≤ i ∧ i < c.defaultSize)
    (hb : c.batch = true → c.localBatch ≠ 0) :
    Stg v pr ns ((s.step c (.prim i true)).getD s) i (.hand [u]) [] sh R := by
  have hp : s.prim i = .pop := by rw [h.prim]; simp
  have hq : s.wsq i = [u] := by rw [h.wsq]; simp
  simp only [step, if_pos hi, primStep, hp, hq, h.lk, Bool.not_false, Bool.and_self, popOwn_one hb,
    List.isEmpty_cons, Bool.false_eq_true, if_false, Option.getD_some]
  refine ⟨?_, prim_set h _, h.sec, h.sh, h.pr, h.ns, h.lk, h.pg, h.sg, h.st⟩
  intro k
  simp only [setPrim, setWsq]
  split
  · rfl
  · rename_i hk; rw [h.wsq, if_neg hk]

theorem Stg.p3 (h : Stg v pr ns s i (.hand [u]) Q sh R) (hi : 0 ≤ i ∧ i < c.defaultSize) (hu : v ≠ u) :
    Stg v pr ns ((s.step c (.prim i true)).getD s) i (.busy u []) Q sh R := by
  have hp : s.prim i = .hand [u] := by rw [h.prim]; simp
  simp only [step, if_pos hi, primStep, hp, Option.getD_some]
  refine ⟨h.wsq, prim_set h _, h.sec, h.sh, h.pr, h.ns, h.lk, h.pg, h.sg, ?_⟩
  simp only [setPrim, List.mem_append, List.mem_singleton, not_or]
  exact ⟨h.st, hu⟩

theorem Stg.p4 (h : Stg v pr ns s i (.busy u []) Q sh R) (hi : 0 ≤ i ∧ i < c.defaultSize) :
    Stg v pr ns ((s.step c (.prim i true)).getD s) i (.hand []) Q sh R := by
  have hp : s.prim i = .busy u [] := by rw [h.prim]; simp
  simp only [step, if_pos hi, primStep, hp, Option.getD_some]
  exact ⟨h.wsq, prim_set h _, h.sec, h.sh, h.pr, h.ns, h.lk, h.pg, h.sg, h.st⟩

theorem Stg.p5 (h : Stg v pr ns s i (.hand []) Q sh R) (hi : 0 ≤ i ∧ i < c.defaultSize) :
    Stg v pr ns ((s.step c (.prim i true)).getD s) i .loop Q sh R := by
  have hp : s.prim i = .hand [] := by rw [h.prim]; simp
  simp only [step, if_pos hi, primStep, hp, Option.getD_some]
  exact ⟨h.wsq, prim_set h _, h.sec, h.sh, h.pr, h.ns, h.lk, h.pg, h.sg, h.st⟩

theorem Stg.s1 (h : Stg v pr ns s i P Q sh .loop) (hn : 0 < ns) :
    Stg v pr ns ((s.step c (.sec 0 true)).getD s) i P Q sh .pool := by
  have hp : s.sec 0 = .loop := by rw [h.sec]; simp
  have hj : 0 < s.nsec := by rw [h.ns]; exact hn
  simp only [step, if_pos hj, secStep, hp, h.sg, if_true, Option.getD_some]
  exact ⟨h.wsq, h.prim, sec_set h _, h.sh, h.pr, h.ns, h.lk, h.pg, h.sg, h.st⟩

theorem popShared_one (hb : c.batch = true → 0 < c.poolBatch) {q : AQueue Task} (hq : q.queue = [u]) :
    (popShared c true q).2 = [u] ∧ (popShared c true q).1.queue = [] := by
  obtain ⟨x, xs, hx⟩ := popShared_ne hb (q := q) (by rw [hq]; simp)
  have := shared_split c true q
  rw [hx, hq] at this
  simp only [List.cons_append, List.cons.injEq, List.append_eq_nil_iff] at this
  obtain ⟨rfl, rfl, h⟩ := this
  exact ⟨hx, h⟩

theorem Stg.s2 (h : Stg v pr ns s i P Q [u] .pool) (hn : 0 < ns) (hb : c.batch = true → 0 < c.poolBatch) :
    Stg v pr ns ((s.step c (.sec 0 true)).getD s) i P Q [] (.hand [u]) := by
  have hp : s.sec 0 = .pool := by rw [h.sec]; simp
  have hj : 0 < s.nsec := by rw [h.ns]; exact hn
  have h2 := popShared_one hb h.sh
  simp only [step, if_pos hj, secStep, hp, h2.1, List.isEmpty_cons, Bool.false_eq_true, if_false, Option.getD_some]
  exact ⟨h.wsq, h.prim, sec_set h _, h2.2, h.pr, h.ns, h.lk, h.pg, h.sg, h.st⟩

theorem Stg.s3 (h : Stg v pr ns s i P Q sh (.hand [u])) (hn : 0 < ns) (hu : v ≠ u) :
    Stg v pr ns ((s.step c (.sec 0 true)).getD s) i P Q sh (.busy u []) := by
  have hp : s.sec 0 = .hand [u] := by rw [h.sec]; simp
  have hj : 0 < s.nsec := by rw [h.ns]; exact hn
  simp only [step, if_pos hj, secStep, hp, Option.getD_some]
  refine ⟨h.wsq, h.prim, sec_set h _, h.sh, h.pr, h.ns, h.lk, h.pg, h.sg, ?_⟩
  simp only [setSec, List.mem_append, List.mem_singleton, not_or]
  exact ⟨h.st, hu⟩

theorem Stg.s4 (h : Stg v pr ns s i P Q sh (.busy u [])) (hn : 0 < ns) :
    Stg v pr ns ((s.step c (.sec 0 true)).getD s) i P Q sh (.hand []) := by
  have hp : s.sec 0 = .busy u [] := by rw [h.sec]; simp
  have hj : 0 < s.nsec := by rw [h.ns]; exact hn
  simp only [step, if_pos hj, secStep, hp, Option.getD_some]
  exact ⟨h.wsq, h.prim, sec_set h _, h.sh, h.pr, h.ns, h.lk, h.pg, h.sg, h.st⟩

theorem Stg.s5 (h : Stg v pr ns s i P Q sh (.hand [])) (hn : 0 < ns) :
    Stg v pr ns ((s.step c (.sec 0 true)).getD s) i P Q sh .loop := by
  have hp : s.sec 0 = .hand [] := by rw [h.sec]; simp
  have hj : 0 < s.nsec := by rw [h.ns]; exact hn
  simp only [step, if_pos hj, secStep, hp, Option.getD_some]
  exact ⟨h.wsq, h.prim, sec_set h _, h.sh, h.pr, h.ns, h.lk, h.pg, h.sg, h.st⟩

end

/-- Task 0 goes to the shared queue; then task 1, 2, … to the primary threads in turn, each executed before the next
one is submitted. -/
def starve (D : Int) : Nat → PAct
  | 0 => .submit 0 (-2) false 0
  | n + 1 =>
    let i := ((n / 6 : Nat) : Int) % D
    if n % 6 = 0 then .submit (n / 6 + 1) i false 0 else .prim i true

/-- Task 0 goes to the priority queue; then task 1, 2, … to the primary threads in turn and to the shared queue. -/
def starvePrio (D : Int) : Nat → PAct
  | 0 => .submitPrio 0 0 0
  | n + 1 =>
    let i := ((n / 12 : Nat) : Int) % D
    if n % 12 = 0 then .submit (n / 12 + 1) i false 0
    else if n % 12 < 6 then .prim i true
    else if n % 12 = 6 then .submit (n / 12 + 1) (-2) false 0
    else .sec 0 true

theorem starve_stage {c : PoolCfg} (hD : 0 < c.defaultSize) (hb : c.batch = true → c.localBatch ≠ 0) (k : Nat) :
    ∃ i, Stg 0 [] 0 (trace c (init 0) (starve c.defaultSize) (6 * k + 1)) i .loop [] [0] .loop ∧
    ∀ r, r < 6 → ∃ i P Q sh R, Stg 0 [] 0 (trace c (init 0) (starve c.defaultSize) (6 * k + 1 + r)) i P Q sh R := by
  have mod : ∀ k : Nat, 0 ≤ ((k : Int) % c.defaultSize) ∧ ((k : Int) % c.defaultSize) < c.defaultSize :=
    fun k => ⟨Int.emod_nonneg _ (by omega), Int.emod_lt_of_pos _ hD⟩
  have act : ∀ (k r : Nat), r < 6 → starve c.defaultSize (6 * k + 1 + r) =
      if r = 0 then .submit (k + 1) ((k : Int) % c.defaultSize) false 0
      else .prim ((k : Int) % c.defaultSize) true := by
    intro k r hr
    have h1 : (6 * k + r) % 6 = r := by omega
    have h2 : (6 * k + r) / 6 = k := by omega
    rw [show 6 * k + 1 + r = (6 * k + r) + 1 by omega]
    simp only [starve, h1, h2]
  have one : ∀ (k : Nat), (∃ i, Stg 0 [] 0 (trace c (init 0) (starve c.defaultSize) (6 * k + 1)) i .loop [] [0] .loop) →
      (∃ i, Stg 0 [] 0 (trace c (init 0) (starve c.defaultSize) (6 * (k + 1) + 1)) i .loop [] [0] .loop) ∧
      ∀ r, r < 6 → ∃ i P Q sh R,
        Stg 0 [] 0 (trace c (init 0) (starve c.defaultSize) (6 * k + 1 + r)) i P Q sh R := by
    rintro k ⟨i0, h⟩
    have hi := mod k
    have h0 := h.move ((k : Int) % c.defaultSize)
    have h1 := h0.submit hi (k + 1)
    have h2 := h1.p1 hi
    have h3 := h2.p2 hi hb
    have h4 := h3.p3 hi (Nat.succ_ne_zero k).symm
    have h5 := h4.p4 hi
    have h6 := h5.p5 hi
    have nx : ∀ (r : Nat) (a : PAct), r < 6 → starve c.defaultSize (6 * k + 1 + r) = a →
        trace c (init 0) (starve c.defaultSize) (6 * k + 1 + (r + 1)) =
          ((trace c (init 0) (starve c.defaultSize) (6 * k + 1 + r)).step c a).getD
            (trace c (init 0) (starve c.defaultSize) (6 * k + 1 + r)) := by
      intro r a hr ha
      rw [← Nat.add_assoc, trace, ha]
    have t1 := nx 0 _ (by omega) (act k 0 (by omega))
    have t2 := nx 1 _ (by omega) (act k 1 (by omega))
    have t3 := nx 2 _ (by omega) (act k 2 (by omega))
    have t4 := nx 3 _ (by omega) (act k 3 (by omega))
    have t5 := nx 4 _ (by omega) (act k 4 (by omega))
    have t6 := nx 5 _ (by omega) (act k 5 (by omega))
    simp only [Nat.add_zero, if_true] at t1
    rw [if_neg (by omega)] at t2 t3 t4 t5 t6
    rw [← t1] at h1 h2 h3 h4 h5 h6
    rw [← t2] at h2 h3 h4 h5 h6
    rw [← t3] at h3 h4 h5 h6
    rw [← t4] at h4 h5 h6
    rw [← t5] at h5 h6
    rw [← t6] at h6
    refine ⟨⟨(k : Int) % c.defaultSize, ?_⟩, ?_⟩
    · rw [show 6 * (k + 1) + 1 = 6 * k + 1 + (5 + 1) by omega]; exact h6
    · intro r hr
      rcases (show r = 0 ∨ r = 1 ∨ r = 2 ∨ r = 3 ∨ r = 4 ∨ r = 5 by omega) with
        rfl | rfl | rfl | rfl | rfl | rfl
      · exact ⟨_, _, _, _, _, h⟩
      · exact ⟨_, _, _, _, _, h1⟩
      · exact ⟨_, _, _, _, _, h2⟩
      · exact ⟨_, _, _, _, _, h3⟩
      · exact ⟨_, _, _, _, _, h4⟩
      · exact ⟨_, _, _, _, _, h5⟩
  have base : Stg 0 [] 0 (init 0) 0 .loop [] [] .loop :=
    ⟨fun k => by simp [init], fun k => by simp [init], fun k => by simp [init], rfl, rfl, rfl, fun _ => rfl,
      fun _ => rfl, fun _ => rfl, by simp [init]⟩
  have all : ∀ k, ∃ i, Stg 0 [] 0 (trace c (init 0) (starve c.defaultSize) (6 * k + 1)) i .loop [] [0] .loop := by
    intro k
    induction k with
    | zero => exact ⟨0, base.submitShared 0⟩
    | succ k ih => exact (one k ih).1
  obtain ⟨i, h⟩ := all k
  exact ⟨i, h, (one k (all k)).2⟩

theorem starve_all {c : PoolCfg} (hD : 0 < c.defaultSize) (hb : c.batch = true → c.localBatch ≠ 0) (n : Nat) :
    ∃ i P Q sh R, Stg 0 [] 0 (trace c (init 0) (starve c.defaultSize) n) i P Q sh R := by
  cases n with
  | zero =>
    exact ⟨0, .loop, [], [], .loop, ⟨fun k => by simp [trace, init], fun k => by simp [trace, init],
      fun k => by simp [trace, init], rfl, rfl, rfl, fun _ => rfl, fun _ => rfl, fun _ => rfl, by simp [trace, init]⟩⟩
  | succ n =>
    obtain ⟨_, _, h⟩ := starve_stage hD hb (n / 6)
    have := h (n % 6) (by omega)
    rwa [show 6 * (n / 6) + 1 + n % 6 = n + 1 by omega] at this

theorem starve_fair {c : PoolCfg} (hD : 0 < c.defaultSize) (hb : c.batch = true → c.localBatch ≠ 0) :
    Fair c (init 0) (starve c.defaultSize) := by
  refine fair_of ?_ ?_ ?_
  · intro w n h
    cases n with
    | zero => cases w <;> simp [starve, Wk.act] at h
    | succ n =>
      simp only [starve] at h
      split at h <;> cases w <;> simp [Wk.act] at h
  · intro n i
    obtain ⟨_, _, _, _, _, h⟩ := starve_all hD hb n
    exact h.lk i
  · intro w n h
    cases w with
    | p i =>
      have hi : 0 ≤ i ∧ i < c.defaultSize := h
      -- block number `n * D + i` belongs to thread `i`
      refine ⟨6 * (n * c.defaultSize.toNat + i.toNat) + 1 + 1, ?_, true, ?_⟩
      · have : n ≤ n * c.defaultSize.toNat := Nat.le_mul_of_pos_right n (by omega)
        omega
      · generalize hk : n * c.defaultSize.toNat + i.toNat = k
        have h1 : (6 * k + 1) % 6 = 1 := by omega
        have h2 : (6 * k + 1) / 6 = k := by omega
        simp only [starve, h1, h2, Wk.act]
        rw [if_neg (by omega)]
        congr 1
        rw [← hk]
        push_cast
        rw [Int.toNat_of_nonneg (by omega), Int.toNat_of_nonneg hi.1, Int.add_comm, Int.add_mul_emod_self_right]
        exact Int.emod_eq_of_lt hi.1 hi.2
    | s j =>
      obtain ⟨_, _, _, _, _, h'⟩ := starve_all hD hb n
      have : j < 0 := by rw [← h'.ns]; exact h
      omega

/-- **C99** does not hold for the shared queue without secondary threads: in every pool with primary threads only
there is a fair execution in which a task accepted for the shared queue is never started, because every time a thread
becomes free there is something in its own queue. -/
theorem C99_starve_violated (c : PoolCfg) (hD : 0 < c.defaultSize) (hb : c.batch = true → c.localBatch ≠ 0) :
    ∃ σ, Fair c (init 0) σ ∧ 0 ∈ (trace c (init 0) σ 1).submitted ∧ ∀ n, 0 ∉ (trace c (init 0) σ n).started := by
  refine ⟨starve c.defaultSize, starve_fair hD hb, ?_, ?_⟩
  · have hd : c.execute (fun _ => false) 0 (-2) = some (.shared false, 0) := by
      simp [PoolCfg.execute, PoolCfg.dispatch, defaultStrategy, PoolCfg.place, longTimeStrategy, triggerAllStrategy]
    have he : (init 0).cur = 0 := rfl
    simp [trace, starve, step, he, hd, deliver]
  · intro n
    obtain ⟨_, _, _, _, _, h⟩ := starve_all hD hb n
    exact h.st

theorem starvePrio_stage {c : PoolCfg} (hD : 0 < c.defaultSize)
    (hb : c.batch = true → c.localBatch ≠ 0 ∧ 0 < c.poolBatch) (k : Nat) :
    ∃ i, Stg 0 [⟨0, 0, 0⟩] 1 (trace c (init 1) (starvePrio c.defaultSize) (12 * k + 1)) i .loop [] [] .loop ∧
    ∀ r, r < 12 → ∃ i P Q sh R,
      Stg 0 [⟨0, 0, 0⟩] 1 (trace c (init 1) (starvePrio c.defaultSize) (12 * k + 1 + r)) i P Q sh R := by
  have mod : ∀ k : Nat, 0 ≤ ((k : Int) % c.defaultSize) ∧ ((k : Int) % c.defaultSize) < c.defaultSize :=
    fun k => ⟨Int.emod_nonneg _ (by omega), Int.emod_lt_of_pos _ hD⟩
  have act : ∀ (k r : Nat), r < 12 → starvePrio c.defaultSize (12 * k + 1 + r) =
      if r = 0 then .submit (k + 1) ((k : Int) % c.defaultSize) false 0
      else if r < 6 then .prim ((k : Int) % c.defaultSize) true
      else if r = 6 then .submit (k + 1) (-2) false 0
      else .sec 0 true := by
    intro k r hr
    have h1 : (12 * k + r) % 12 = r := by omega
    have h2 : (12 * k + r) / 12 = k := by omega
    rw [show 12 * k + 1 + r = (12 * k + r) + 1 by omega]
    simp only [starvePrio, h1, h2]
  have one : ∀ (k : Nat),
      (∃ i, Stg 0 [⟨0, 0, 0⟩] 1 (trace c (init 1) (starvePrio c.defaultSize) (12 * k + 1)) i .loop [] [] .loop) →
      (∃ i, Stg 0 [⟨0, 0, 0⟩] 1 (trace c (init 1) (starvePrio c.defaultSize) (12 * (k + 1) + 1)) i .loop [] [] .loop) ∧
      ∀ r, r < 12 → ∃ i P Q sh R,
        Stg 0 [⟨0, 0, 0⟩] 1 (trace c (init 1) (starvePrio c.defaultSize) (12 * k + 1 + r)) i P Q sh R := by
    rintro k ⟨i0, h⟩
    have hi := mod k
    have hn : 0 < 1 := Nat.zero_lt_one
    have h0 := h.move ((k : Int) % c.defaultSize)
    have h1 := h0.submit hi (k + 1)
    have h2 := h1.p1 hi
    have h3 := h2.p2 hi (fun e => (hb e).1)
    have h4 := h3.p3 hi (Nat.succ_ne_zero k).symm
    have h5 := h4.p4 hi
    have h6 := h5.p5 hi
    have h7 := h6.submitShared (c := c) (k + 1)
    have h8 := h7.s1 (c := c) hn
    have h9 := h8.s2 hn (fun e => (hb e).2)
    have h10 := h9.s3 (c := c) hn (Nat.succ_ne_zero k).symm
    have h11 := h10.s4 (c := c) hn
    have h12 := h11.s5 (c := c) hn
    have nx : ∀ (r : Nat) (a : PAct), r < 12 → starvePrio c.defaultSize (12 * k + 1 + r) = a →
        trace c (init 1) (starvePrio c.defaultSize) (12 * k + 1 + (r + 1)) =
          ((trace c (init 1) (starvePrio c.defaultSize) (12 * k + 1 + r)).step c a).getD
            (trace c (init 1) (starvePrio c.defaultSize) (12 * k + 1 + r)) := by
      intro r a hr ha
      rw [← Nat.add_assoc, trace, ha]
    have t1 := nx 0 _ (by omega) (act k 0 (by omega))
    have t2 := nx 1 _ (by omega) (act k 1 (by omega))
    have t3 := nx 2 _ (by omega) (act k 2 (by omega))
    have t4 := nx 3 _ (by omega) (act k 3 (by omega))
    have t5 := nx 4 _ (by omega) (act k 4 (by omega))
    have t6 := nx 5 _ (by omega) (act k 5 (by omega))
    have t7 := nx 6 _ (by omega) (act k 6 (by omega))
    have t8 := nx 7 _ (by omega) (act k 7 (by omega))
    have t9 := nx 8 _ (by omega) (act k 8 (by omega))
    have t10 := nx 9 _ (by omega) (act k 9 (by omega))
    have t11 := nx 10 _ (by omega) (act k 10 (by omega))
    have t12 := nx 11 _ (by omega) (act k 11 (by omega))
    simp only [Nat.add_zero, if_true] at t1
    rw [if_neg (by omega), if_pos (by omega)] at t2 t3 t4 t5 t6
    rw [if_neg (by omega), if_neg (by omega), if_pos (by omega)] at t7
    rw [if_neg (by omega), if_neg (by omega), if_neg (by omega)] at t8 t9 t10 t11 t12
    rw [← t1] at h1 h2 h3 h4 h5 h6 h7 h8 h9 h10 h11 h12
    rw [← t2] at h2 h3 h4 h5 h6 h7 h8 h9 h10 h11 h12
    rw [← t3] at h3 h4 h5 h6 h7 h8 h9 h10 h11 h12
    rw [← t4] at h4 h5 h6 h7 h8 h9 h10 h11 h12
    rw [← t5] at h5 h6 h7 h8 h9 h10 h11 h12
    rw [← t6] at h6 h7 h8 h9 h10 h11 h12
    rw [← t7] at h7 h8 h9 h10 h11 h12
    rw [← t8] at h8 h9 h10 h11 h12
    rw [← t9] at h9 h10 h11 h12
    rw [← t10] at h10 h11 h12
    rw [← t11] at h11 h12
    rw [← t12] at h12
    refine ⟨⟨(k : Int) % c.defaultSize, ?_⟩, ?_⟩
    · rw [show 12 * (k + 1) + 1 = 12 * k + 1 + (11 + 1) by omega]; exact h12
    · intro r hr
      rcases (show r = 0 ∨ r = 1 ∨ r = 2 ∨ r = 3 ∨ r = 4 ∨ r = 5 ∨ r = 6 ∨ r = 7 ∨ r = 8 ∨ r = 9 ∨ r = 10 ∨ r = 11
        by omega) with rfl | rfl | rfl | rfl | rfl | rfl | rfl | rfl | rfl | rfl | rfl | rfl
      · exact ⟨_, _, _, _, _, h⟩
      · exact ⟨_, _, _, _, _, h1⟩
      · exact ⟨_, _, _, _, _, h2⟩
      · exact ⟨_, _, _, _, _, h3⟩
      · exact ⟨_, _, _, _, _, h4⟩
      · exact ⟨_, _, _, _, _, h5⟩
      · exact ⟨_, _, _, _, _, h6⟩
      · exact ⟨_, _, _, _, _, h7⟩
      · exact ⟨_, _, _, _, _, h8⟩
      · exact ⟨_, _, _, _, _, h9⟩
      · exact ⟨_, _, _, _, _, h10⟩
      · exact ⟨_, _, _, _, _, h11⟩
  have all : ∀ k, ∃ i, Stg 0 [⟨0, 0, 0⟩] 1 (trace c (init 1) (starvePrio c.defaultSize) (12 * k + 1)) i .loop [] []
      .loop := by
    intro k
    induction k with
    | zero =>
      exact ⟨0, ⟨fun k => by simp [trace, starvePrio, step, init], fun k => by simp [trace, starvePrio, step, init],
        fun k => by simp [trace, starvePrio, step, init], rfl, rfl, rfl, fun _ => rfl, fun _ => rfl, fun _ => rfl,
        by simp [trace, starvePrio, step, init]⟩⟩
    | succ k ih => exact (one k ih).1
  obtain ⟨i, h⟩ := all k
  exact ⟨i, h, (one k (all k)).2⟩

theorem starvePrio_all {c : PoolCfg} (hD : 0 < c.defaultSize)
    (hb : c.batch = true → c.localBatch ≠ 0 ∧ 0 < c.poolBatch) (n : Nat) :
    ∃ i P Q sh R, Stg 0 [⟨0, 0, 0⟩] 1 (trace c (init 1) (starvePrio c.defaultSize) (n + 1)) i P Q sh R := by
  obtain ⟨_, _, h⟩ := starvePrio_stage hD hb (n / 12)
  have := h (n % 12) (by omega)
  rwa [show 12 * (n / 12) + 1 + n % 12 = n + 1 by omega] at this

theorem starvePrio_fair {c : PoolCfg} (hD : 0 < c.defaultSize)
    (hb : c.batch = true → c.localBatch ≠ 0 ∧ 0 < c.poolBatch) : Fair c (init 1) (starvePrio c.defaultSize) := by
  refine fair_of ?_ ?_ ?_
  · intro w n h
    cases n with
    | zero => cases w <;> simp [starvePrio, Wk.act] at h
    | succ n =>
      simp only [starvePrio] at h
      split at h
      · cases w <;> simp [Wk.act] at h
      · split at h
        · cases w <;> simp [Wk.act] at h
        · split at h <;> cases w <;> simp [Wk.act] at h
  · intro n i
    cases n with
    | zero => rfl
    | succ n =>
      obtain ⟨_, _, _, _, _, h⟩ := starvePrio_all hD hb n
      exact h.lk i
  · intro w n h
    cases w with
    | p i =>
      have hi : 0 ≤ i ∧ i < c.defaultSize := h
      refine ⟨12 * (n * c.defaultSize.toNat + i.toNat) + 1 + 1, ?_, true, ?_⟩
      · have : n ≤ n * c.defaultSize.toNat := Nat.le_mul_of_pos_right n (by omega)
        omega
      · generalize hk : n * c.defaultSize.toNat + i.toNat = k
        have h1 : (12 * k + 1) % 12 = 1 := by omega
        have h2 : (12 * k + 1) / 12 = k := by omega
        simp only [starvePrio, h1, h2, Wk.act]
        rw [if_neg (by omega), if_pos (by omega)]
        congr 1
        rw [← hk]
        push_cast
        rw [Int.toNat_of_nonneg (by omega), Int.toNat_of_nonneg hi.1, Int.add_comm, Int.add_mul_emod_self_right]
        exact Int.emod_eq_of_lt hi.1 hi.2
    | s j =>
      have hj : j < 1 := by
        cases n with
        | zero => exact h
        | succ n =>
          obtain ⟨_, _, _, _, _, h'⟩ := starvePrio_all hD hb n
          rw [← h'.ns]; exact h
      obtain rfl : j = 0 := by omega
      refine ⟨12 * n + 7 + 1, by omega, true, ?_⟩
      have h1 : (12 * n + 7) % 12 = 7 := by omega
      simp only [starvePrio, h1, Wk.act]
      rw [if_neg (by omega), if_neg (by omega), if_neg (by omega)]

/-- **C99** does not hold for the priority queue: in every pool with primary threads and one secondary thread there is
a fair execution in which a task submitted with a priority is never started, because the secondary thread always finds
something in the shared queue first. -/
theorem C99_priority_starve_violated (c : PoolCfg) (hD : 0 < c.defaultSize)
    (hb : c.batch = true → c.localBatch ≠ 0 ∧ 0 < c.poolBatch) :
    ∃ σ, Fair c (init 1) σ ∧ 0 ∈ (trace c (init 1) σ 1).submitted ∧ ∀ n, 0 ∉ (trace c (init 1) σ n).started := by
  refine ⟨starvePrio c.defaultSize, starvePrio_fair hD hb, by simp [trace, starvePrio, step, init], ?_⟩
  intro n
  cases n with
  | zero => simp [trace, init]
  | succ n =>
    obtain ⟨_, _, _, _, _, h⟩ := starvePrio_all hD hb n
    exact h.st

/-! ### cases of `C99_own` and `C99_shared_partial` -/

example : ∃ m, 2 ≤ m ∧ (trace exPool (init 0) (starve 2) (m + 1)).finished =
    (trace exPool (init 0) (starve 2) m).finished ++ [1] :=
  C99_own exPool 0 [] (starve 2) (starve_fair (c := exPool) (by decide) (by decide)) (by decide) 0 (by decide)
    (fun n => by
      obtain ⟨_, _, _, _, _, h⟩ := starve_all (c := exPool) (by decide) (by decide) n
      exact h.pg 0) 2 1 (by decide)

example : ∃ m, 8 ≤ m ∧ (trace exPool (init 1) (starvePrio 2) (m + 1)).finished =
    (trace exPool (init 1) (starvePrio 2) m).finished ++ [1] :=
  C99_shared_partial exPool 1 [] (starvePrio 2) (starvePrio_fair (c := exPool) (by decide) (by decide)) (by decide) 8 0
    (by decide)
    (fun n hn => by
      obtain ⟨n, rfl⟩ : ∃ k, n = k + 1 := ⟨n - 1, by omega⟩
      obtain ⟨_, _, _, _, _, h⟩ := starvePrio_all (c := exPool) (by decide) (by decide) n
      exact h.sg 0) 1 (by decide)

end CGraph.PoolLive
