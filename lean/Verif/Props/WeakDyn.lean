import Verif.Lemmas.WeakDynAcc
import Verif.Lemmas.DynProgress
import Verif.Props.WeakMem
import Verif.Props.Dynamic

/-! # C102: runs of the dynamic engine on weakly ordered memory

Over `Model/WeakDyn.lean`, for all executions that `Spec.Coherent` allows. -/
namespace CGraph
namespace WeakDyn
open Spec Weak DynSt

section
variable {c : DynCfg} {may : Eid → Nat → Bool → Bool} {w : WdSt}

/-- A mark of a start or an end is made once. -/
theorem mark_unique (h : Core c w) {r i j t t' : Nat} {x : Ev} (hi : w.log[i]? = some (mrk t r (.ev x))) (hj : w.log[j]? = some (mrk t' r (.ev x))) :
    i = j := by
  have h1 := h.once r x
  have hi' : (w.log.map (mirA c.totalEnd))[i]? = some ⟨t, .note (r, .ev x)⟩ := by rw [List.getElem?_map, hi]; rfl
  have hj' : (w.log.map (mirA c.totalEnd))[j]? = some ⟨t', .note (r, .ev x)⟩ := by rw [List.getElem?_map, hj]; rfl
  rcases Nat.lt_trichotomy i j with hl | hl | hl
  · have := Visible.filterMap_twice (b := x) hl hi' hj' (f := fun a : Visible.Act => match a.op with
      | .note (r', .ev e) => if r' = r then some e else none | _ => none) (by simp) (by simp)
    exact absurd (Nat.le_trans (show 2 ≤ (Visible.evs (w.log.map (mirA c.totalEnd)) r).count x from this) h1) (by omega)
  · exact hl
  · have := Visible.filterMap_twice (b := x) hl hj' hi' (f := fun a : Visible.Act => match a.op with
      | .note (r', .ev e) => if r' = r then some e else none | _ => none) (by simp) (by simp)
    exact absurd (Nat.le_trans (show 2 ≤ (Visible.evs (w.log.map (mirA c.totalEnd)) r).count x from this) h1) (by omega)

theorem mark_mir {i r t : Nat} {m : Visible.Mk} (h : w.log[i]? = some (mrk t r m)) : NotedAt (mirror c w).log i (r, m) := noted_mir.2 ⟨t, h⟩

theorem end_start (h : Core c w) {d e : Eid} (hde : Relation.TransGen c.g.Edge d e) {r i t : Nat}
    (hi : w.log[i]? = some (mrk t r (.ev (.start e)))) :
    (∃ (k t' : Nat), w.log[k]? = some (mrk t' r (.ev (.finish d)))) ∧
    ∀ (k t' : Nat), w.log[k]? = some (mrk t' r (.ev (.finish d))) → WHb w.log k i := by
  obtain ⟨k, h1, h2⟩ := Visible.trans_before h.k.base.ok hde r i (mark_mir hi)
  obtain ⟨t', h1⟩ := noted_mir.1 h1
  exact ⟨⟨k, t', h1⟩, fun k' t'' h3 => by rw [mark_unique h h3 h1]; exact h.l.hb h2⟩

theorem end_ret (h : Core c w) (wf : c.g.WF) (ac : AcyclicOn c.g.Edge c.g.elems) {e : Eid} (he : e ∈ c.g.elems) {r i t : Nat}
    (hi : w.log[i]? = some (mrk t r (.ret false))) :
    (∃ (k t' : Nat), w.log[k]? = some (mrk t' r (.ev (.finish e)))) ∧
    ∀ (k t' : Nat), w.log[k]? = some (mrk t' r (.ev (.finish e))) → WHb w.log k i := by
  obtain ⟨k, h1, h2⟩ := Visible.all_before wf ac h.k.base.ok (mark_mir hi) e he
  obtain ⟨t', h1⟩ := noted_mir.1 h1
  exact ⟨⟨k, t', h1⟩, fun k' t'' h3 => by rw [mark_unique h h3 h1]; exact h.l.hb h2⟩

theorem start_begin (h : Core c w) (ac : AcyclicOn c.g.Edge c.g.elems) {e : Eid} {r i t : Nat} (hi : w.log[i]? = some (mrk t r (.ev (.start e)))) :
    e ∈ c.g.elems ∧ 0 < r ∧ r ≤ w.s.nrun ∧ ∃ (k t' : Nat), w.log[k]? = some (mrk t' r .begin) ∧ WHb w.log k i := by
  obtain ⟨k, h1, h2⟩ := Visible.begin_before ac h.k.base.ok (mark_mir hi)
  have h3 := h.k.base.ok k r _ h1
  have h4 := h.k.base.ok i r _ (mark_mir hi)
  obtain ⟨t', h1⟩ := noted_mir.1 h1
  exact ⟨h4.1, h3.1, h.k.base.rn i r _ (mark_mir hi), k, t', h1, h.l.hb h2⟩

theorem ret_begin (h : Core c w) (hA : Acc may w) {r r' i t : Nat} (h0 : 0 < r) (hr : r < r') (hi : w.log[i]? = some (mrk t r' .begin)) :
    ∃ (k t' : Nat), w.log[k]? = some (mrk t' r (.ret false)) ∧ WHb w.log k i := by
  have e : r' = r + 1 + (r' - r - 1) := by omega
  rw [e] at hi
  obtain ⟨k, h1, h2⟩ := Visible.ret_before h.k.base.ok h0 (fun k hk => by
    obtain ⟨t', hk⟩ := noted_mir.1 hk
    exact (hA.bt k t' r _ hk (.inr ⟨true, rfl⟩)).2 rfl) _ i (mark_mir hi)
  obtain ⟨t', h1⟩ := noted_mir.1 h1
  exact ⟨k, t', h1, h.l.hb h2⟩

/-- The end of an element that made an access, when its run is over. -/
theorem acc_end (h : Core c w) (hA : Acc may w) (wf : c.g.WF) (ac : AcyclicOn c.g.Edge c.g.elems) {p r : Nat} {e : Eid}
    (hp : (p, r, some e) ∈ w.accs) (hr : r < w.s.nrun ∨ w.s.main = .idle) :
    ∃ (m t : Nat), w.log[m]? = some (mrk t r (.ev (.finish e))) ∧ WHb w.log p m := by
  obtain ⟨a, n, wr, b1, b2, b3, -, b6⟩ := hA.ac p r e hp
  rcases b6 with ⟨rfl, b6⟩ | ⟨m, b6, b7⟩
  · exfalso
    rcases hr with hr | hr
    · omega
    · rcases b6 with ⟨n, h5, -⟩ | ⟨h5, -⟩
      · have := (Visible.clean_harmless wf ac h.s hr (.inl h.nf)).2 _ (List.mem_of_getElem? h5)
        simp [Job.harmless] at this
      · rw [hr] at h5; simp at h5
  · exact ⟨m, a.tid, b7, hb_seq b6 b1 b7 rfl⟩

theorem acc_start (hA : Acc may w) {p r : Nat} {e : Eid} (hp : (p, r, some e) ∈ w.accs) :
    ∃ (k t : Nat), w.log[k]? = some (mrk t r (.ev (.start e))) ∧ WHb w.log k p := by
  obtain ⟨a, n, wr, b1, b2, b3, ⟨k, b4, b5⟩, -⟩ := hA.ac p r e hp
  exact ⟨k, a.tid, b5, hb_seq b4 b5 b1 rfl⟩

/-- An element in execution has not ended. -/
theorem body_no_end (h : Core c w) {d : Eid} {t : Nat} (b6 : At w t (.body d)) (k' t' : Nat) : w.log[k']? ≠ some (mrk t' w.s.nrun (.ev (.finish d))) := by
  intro h3
  have hn : w.s.nrun ≠ 0 := by
    intro h0
    have := h.s.first h0
    rcases b6 with ⟨i, b6, -⟩ | ⟨b6, -⟩ <;> rw [this] at b6 <;> simp [DynSt.init] at b6
  have hi := h.s.inv hn
  have hb := hi.body d
  have hm : Job.body d ∈ w.s.allJobs := by
    rcases b6 with ⟨i, b6, -⟩ | ⟨b6, -⟩
    · have := List.mem_of_getElem? b6
      unfold allJobs; split
      · exact List.mem_cons_of_mem _ this
      · exact this
    · simp [allJobs, b6]
  have hc : 0 < (w.s.trace.count (.finish d)) := by
    have e1 : Visible.evs (w.log.map (mirA c.totalEnd)) w.s.nrun = w.s.trace := h.k.base.tr
    rw [← e1]
    refine List.count_pos_iff.2 (List.mem_filterMap.2 ⟨_, List.mem_of_getElem? (?_ : (w.log.map (mirA c.totalEnd))[k']? = some ⟨t', .note (w.s.nrun, .ev (.finish d))⟩), by simp⟩)
    rw [List.getElem?_map, h3]; rfl
  have ht := hi.tok d
  have hd : 0 < cnt Job.bodyOf w.s.allJobs d := List.count_pos_iff.2 (List.mem_flatMap.2 ⟨_, hm, by simp [Job.bodyOf]⟩)
  omega

theorem order_dep (h : Core c w) (hA : Acc may w) {p q r : Nat} {d e : Eid} (hde : Relation.TransGen c.g.Edge d e)
    (hp : (p, r, some d) ∈ w.accs) (hq : (q, r, some e) ∈ w.accs) : WHb w.log p q := by
  obtain ⟨k, t, h1, h2⟩ := acc_start hA hq
  obtain ⟨⟨k', t', h3⟩, h4⟩ := end_start h hde h1
  obtain ⟨a, n, wr, b1, b2, b3, ⟨s, b4, b5⟩, b6⟩ := hA.ac p r d hp
  rcases b6 with ⟨rfl, b6⟩ | ⟨m, b6, b7⟩
  · exact absurd h3 (body_no_end h b6 k' t')
  · exact hb_trans (hb_trans (hb_seq b6 b1 b7 rfl) (h4 m _ b7)) h2

theorem order_runs (h : Core c w) (hA : Acc may w) (wf : c.g.WF) (ac : AcyclicOn c.g.Edge c.g.elems) {p q r r' : Nat} {d e : Eid} (hr : r < r')
    (hp : (p, r, some d) ∈ w.accs) (hq : (q, r', some e) ∈ w.accs) : WHb w.log p q := by
  obtain ⟨k, t, h1, h2⟩ := acc_start hA hq
  obtain ⟨k0, t0, h3, -⟩ := acc_start hA hp
  obtain ⟨g1, g2, g3, -⟩ := start_begin h ac h3
  obtain ⟨-, -, g4, b, tb, g5, g6⟩ := start_begin h ac h1
  obtain ⟨m, tm, h4, h5⟩ := acc_end h hA wf ac hp (.inl (by omega))
  obtain ⟨x, tx, h6, h7⟩ := ret_begin h hA g2 hr g5
  exact hb_trans (hb_trans h5 ((end_ret h wf ac g1 h6).2 m tm h4)) (hb_trans h7 (hb_trans g6 h2))

/-- The caller, after a run. -/
theorem order_out (h : Core c w) (hA : Acc may w) (wf : c.g.WF) (ac : AcyclicOn c.g.Edge c.g.elems) {p q r r' : Nat} {d : Eid} (hr : r ≤ r')
    (hp : (p, r, some d) ∈ w.accs) (hq : (q, r', none) ∈ w.accs) : WHb w.log p q := by
  obtain ⟨k0, t0, h3, -⟩ := acc_start hA hp
  obtain ⟨g1, g2, g3, -⟩ := start_begin h ac h3
  obtain ⟨⟨a, n, wr, b1, b2, b3⟩, b4, b5, -⟩ := hA.ow q r' hq
  obtain ⟨k, b6, b7⟩ := b4 (by omega)
  obtain ⟨m, tm, h4, h5⟩ := acc_end h hA wf ac hp (by
    rcases b5 with ⟨-, b5⟩ | ⟨m, -, b5⟩
    · exact .inr b5
    · have := h.k.base.rn m _ _ (mark_mir b5)
      exact .inl (by simp only [mirror] at this; omega))
  have h6 : WHb w.log k q := hb_seq b6 b7 b1 b3.symm
  rcases Nat.lt_or_eq_of_le hr with hlt | rfl
  · obtain ⟨⟨b, g4, g5⟩, -⟩ := h.k.base.ok k r' _ (mark_mir b7)
    obtain ⟨tb, g4⟩ := noted_mir.1 g4
    obtain ⟨x, tx, h7, h8⟩ := ret_begin h hA g2 hlt g4
    exact hb_trans (hb_trans h5 ((end_ret h wf ac g1 h7).2 m tm h4)) (hb_trans h8 (hb_trans (h.l.hb g5) h6))
  · exact hb_trans (hb_trans h5 ((end_ret h wf ac g1 b7).2 m tm h4)) h6

/-- The caller, before a run. -/
theorem order_in (h : Core c w) (hA : Acc may w) (ac : AcyclicOn c.g.Edge c.g.elems) {p q r r' : Nat} {e : Eid} (hr : r < r')
    (hp : (p, r, none) ∈ w.accs) (hq : (q, r', some e) ∈ w.accs) : WHb w.log p q := by
  obtain ⟨k, t, h1, h2⟩ := acc_start hA hq
  obtain ⟨-, -, g4, b, tb, g5, g6⟩ := start_begin h ac h1
  obtain ⟨⟨a, n, wr, b1, b2, b3⟩, -, -, b5⟩ := hA.ow p r hp
  have htb := (hA.bt b tb r' _ g5 (.inl rfl)).1
  have hpb : p < b := by
    rcases Nat.lt_trichotomy p b with h3 | h3 | h3
    · exact h3
    · subst h3; rw [b1] at g5; cases g5; cases wr <;> simp [WdSt.access] at b2
    · have := b5 b tb r' _ h3 g5; omega
  exact hb_trans (hb_seq hpb b1 g5 (b3.trans htb.symm)) (hb_trans g6 h2)

theorem acc_same (h : Core c w) (hA : Acc may w) {p q r : Nat} {e : Eid} (hp : (p, r, some e) ∈ w.accs) (hq : (q, r, some e) ∈ w.accs) :
    ∃ a b : WkLogged, w.log[p]? = some a ∧ w.log[q]? = some b ∧ a.tid = b.tid := by
  obtain ⟨a, n, wr, b1, b2, b3, ⟨k, b4, b5⟩, -⟩ := hA.ac p r e hp
  obtain ⟨a', n', wr', c1, c2, c3, ⟨k', c4, c5⟩, -⟩ := hA.ac q r e hq
  have := mark_unique h b5 c5
  subst this
  rw [b5] at c5
  simp only [mrk, Option.some.injEq, WAct.mk.injEq] at c5
  exact ⟨a, a', b1, c1, c5.1⟩

/-! ### progress -/

/-- A source that is up to date. -/
theorem last_src (c : DynCfg) (log : List WkLogged) (l : WLoc) : ∃ src, rd c log l src = lastv (ini c) log l ∧
    ((∃ m, src = some m ∧ LastAt log l m) ∨ (src = none ∧ ∀ (k : Nat) (b : WkLogged) (x : Int), log[k]? = some b → ¬ b.op.Writes l x)) := by
  rcases lastv_spec (ini c) log l with ⟨h1, h2⟩ | ⟨m, a, h1, h2, h3⟩
  · exact ⟨none, h2.symm, .inr ⟨rfl, h1⟩⟩
  · refine ⟨some m, ?_, .inl ⟨m, rfl, h3⟩⟩
    obtain ⟨tid, o⟩ := a
    cases o with
    | store l' r v => simp only [WOp.Writes] at h2; simp [rd, h1, h2.2]
    | rmw l' a r s o v => simp only [WOp.Writes] at h2; simp [rd, h1, h2.2]
    | _ => exact h2.elim

theorem coherent_ops {log : List WkLogged} (hc : Coherent (ini c) log) {t : Nat} {ops : List WkOp} {ol : Option WLoc} {src : Option Nat}
    (h1 : ∀ l, ol = some l → (∃ m, src = some m ∧ LastAt log l m) ∨ (src = none ∧ ∀ (k : Nat) (b : WkLogged) (x : Int), log[k]? = some b → ¬ b.op.Writes l x))
    (h2 : ∀ o ∈ ops.tail, ∀ l s v, ¬ o.Reads l s v)
    (h3 : ∀ o ∈ ops, ∀ l s v, o.Reads l s v → ol = some l ∧ s = src ∧ v = lastv (ini c) log l) :
    Coherent (ini c) (log ++ ops.map (fun o => ⟨t, o⟩)) := by
  cases ops with
  | nil => simpa using hc
  | cons o r =>
    have hc1 : Coherent (ini c) (log ++ [⟨t, o⟩]) := by
      refine coherent_snoc hc _ (fun l s v hr => ?_)
      obtain ⟨e1, e2, e3⟩ := h3 o (by simp) l s v hr
      subst e2 e3
      exact ⟨rfl, h1 l e1⟩
    have key : ∀ (r : List WkOp) (log : List WkLogged), Coherent (ini c) log → (∀ o ∈ r, ∀ l s v, ¬ o.Reads l s v) →
        Coherent (ini c) (log ++ r.map (fun o => ⟨t, o⟩)) := by
      intro r
      induction r with
      | nil => intro log h _; simpa using h
      | cons o r ih =>
        intro log h hr
        have e : log ++ (o :: r).map (fun o => (⟨t, o⟩ : WkLogged)) = (log ++ [⟨t, o⟩]) ++ r.map (fun o => ⟨t, o⟩) := by simp
        rw [e]
        exact ih _ (coherent_snoc h _ (fun l s v h0 => absurd h0 (hr o (by simp) l s v))) (fun x hx => hr x (by simp [hx]))
    have e : log ++ (o :: r).map (fun o => (⟨t, o⟩ : WkLogged)) = (log ++ [⟨t, o⟩]) ++ r.map (fun o => ⟨t, o⟩) := by simp
    rw [e]
    exact key r _ hc1 h2

/-- The atomic a job reads next. -/
def nextLoc (j : Job) : Option WLoc := match j with | .tailNotify => some .mtx | _ => jobLoc j

theorem job_reads {s : DynSt} {n : Nat} {src : Option Nat} {v : Int} {j : Job} :
    (∀ o ∈ (jobOps c s n src v j).tail, ∀ l s v, ¬ o.Reads l s v) ∧
    ∀ o ∈ jobOps c s n src v j, ∀ l s v', o.Reads l s v' → nextLoc j = some l ∧ s = src ∧ v' = v := by
  cases j with
  | nIter e r q => cases r <;> simp [jobOps, WOp.Reads, nextLoc, jobLoc]
  | rIter e r => rcases r with _ | ⟨x, _ | ⟨y, r⟩⟩ <;> simp [jobOps, WOp.Reads]
  | proc e => by_cases h : c.isDefault e = true <;> simp [jobOps, h, WOp.Reads]
  | tailInc e => simp [jobOps, WOp.Reads, nextLoc, jobLoc]
  | tailNotify => simp [jobOps, WOp.Reads, nextLoc]
  | _ => simp [jobOps, WOp.Reads]

theorem main_reads {s : DynSt} {n : Nat} {src : Option Nat} {v : Int} :
    (∀ o ∈ (mainOps c s n src v).tail, ∀ l s v, ¬ o.Reads l s v) ∧
    ∀ o ∈ mainOps c s n src v, ∀ l s' v', o.Reads l s' v' → mainLoc s = some l ∧ s' = src ∧ v' = v := by
  cases hm : s.main with
  | inline j =>
    have e1 : mainOps c s n src v = jobOps c s n src v j := by simp [mainOps, hm]
    have e2 : mainLoc s = nextLoc j := by
      unfold mainLoc nextLoc
      rw [hm]
      cases j <;> rfl
    rw [e1, e2]; exact job_reads
  | fronts r =>
    rcases r with _ | ⟨x, _ | ⟨y, r⟩⟩
    · simp [mainOps, hm]
    · by_cases h : c.isDefault x = true <;> simp [mainOps, hm, h, WOp.Reads]
    · simp [mainOps, hm, WOp.Reads]
  | poll k =>
    cases k with
    | zero => simp [mainOps, hm]
    | succ k => by_cases h : c.totalEnd ≤ v.toNat <;> simp [mainOps, hm, h, retOps, WOp.Reads, mainLoc]
  | check => by_cases h : c.totalEnd ≤ v.toNat <;> simp [mainOps, hm, h, retOps, WOp.Reads, mainLoc]
  | lock => simp [mainOps, hm, WOp.Reads, mainLoc]
  | waking => simp [mainOps, hm, WOp.Reads, mainLoc]
  | _ => simp [mainOps, hm, WOp.Reads]

theorem main_enabled {s : DynSt} (v : Int) (h1 : s.main ≠ .idle) (h2 : s.main ≠ .asleep) : (mainStep c s v).isSome = true := by
  have hv : ∀ j, (jobView s v j).main = s.main := by intro j; unfold jobView; split <;> rfl
  unfold mainStep
  cases hm : s.main with
  | idle => exact absurd hm h1
  | asleep => exact absurd hm h2
  | inline j =>
    simp only
    have := jobStep_enabled (c := c) (s := jobView s v j) (st := CStatus.ok) (j := j) (by rw [hv, hm]; simp) (by rw [hv, hm]; simp)
    simp only [DynSt.step, hv, hm]
    split <;> simp_all
  | poll k =>
    cases k with
    | zero => simp [DynSt.step, hm]
    | succ k => simp only [DynSt.step, hm]; split <;> rfl
  | check => simp only [DynSt.step, hm]; split <;> rfl
  | fronts r =>
    rcases r with _ | ⟨x, _ | ⟨y, r⟩⟩ <;> simp only [DynSt.step, hm]
    · rfl
    · split
      · rfl
      · split <;> rfl
    · split <;> rfl
  | _ => simp [DynSt.step, hm]

theorem go_on (h : Core c w) (hT : ∀ a ∈ w.log, Tame a.op) (hc : Coherent (ini c) w.log) (wf : c.g.WF) (ac : AcyclicOn c.g.Edge c.g.elems)
    (hw : 1 ≤ c.workers) (hm : w.s.main ≠ .idle) :
    ∃ a w', ((∃ src, a = .main src) ∨ (∃ i src, a = .take i src) ∨ ∃ i src, a = .work i src) ∧ WdSt.step c may w a = some w' ∧
      Coherent (ini c) w'.log := by
  have fresh : ∀ ol : Option WLoc, ∃ src, (∀ l, ol = some l → rd c w.log l src = lastv (ini c) w.log l ∧
      ((∃ m, src = some m ∧ LastAt w.log l m) ∨ (src = none ∧ ∀ (k : Nat) (b : WkLogged) (x : Int), w.log[k]? = some b → ¬ b.op.Writes l x))) := by
    intro ol
    cases ol with
    | none => exact ⟨none, by simp⟩
    | some l =>
      obtain ⟨src, h1, h2⟩ := last_src c w.log l
      exact ⟨src, fun l' hl' => by cases hl'; exact ⟨h1, h2⟩⟩
  by_cases hsl : w.s.main = .asleep
  · have hnr := h.run hm
    cases hj : w.s.jobs with
    | cons j js =>
      obtain ⟨src, hsrc⟩ := fresh (nextLoc j)
      have hje : (w.s.jobs[0]?) = some j := by rw [hj]; rfl
      obtain ⟨v, hv, hst⟩ : ∃ v, (∀ l, nextLoc j = some l → v = rd c w.log l src) ∧ WdSt.step c may w (.work 0 src) =
          (DynSt.step c (jobView w.s v j) (.work 0 CStatus.ok)).map (fun s' =>
        { w.put (w.jt.getD 0 0) (jobOps c w.s w.next src v j) with
            s := s', jt := if s'.jobs.length < w.s.jobs.length then w.jt.eraseIdx 0 else w.jt }) := by
        refine ⟨match nextLoc j with | some l => rd c w.log l src | none => 0, by intro l hl; rw [hl], ?_⟩
        simp only [WdSt.step, hje]
        cases j <;> rfl
      have hgo : ∃ s', DynSt.step c (jobView w.s v j) (.work 0 CStatus.ok) = some s' := by
        have hv : (jobView w.s v j).main = w.s.main ∧ (jobView w.s v j).jobs = w.s.jobs := by unfold jobView; split <;> simp
        have := jobStep_enabled (c := c) (s := jobView w.s v j) (st := CStatus.ok) (j := j) (by simp [hv.1, hsl]) (by simp [hv.1, hsl])
        simp only [DynSt.step, hv.2, hje]
        split
        · rename_i h0; exact absurd h0 this
        · exact ⟨_, rfl⟩
        · exact ⟨_, rfl⟩
      obtain ⟨s', hs'⟩ := hgo
      rw [hs'] at hst
      refine ⟨.work 0 src, _, .inr (.inr ⟨0, src, rfl⟩), hst, ?_⟩
      refine coherent_ops hc (fun l hl => (hsrc l hl).2) job_reads.1 (fun o ho l s' v' hr => ?_)
      obtain ⟨e1, e2, e3⟩ := job_reads.2 o ho l s' v' hr
      exact ⟨e1, e2, by rw [e3, hv l e1, (hsrc l e1).1]⟩
    | nil =>
      cases hq : w.s.queue with
      | nil =>
        exfalso
        have hst : Stuck c w.s := by
          intro a h1 h2
          cases a with
          | begin => exact absurd rfl h1
          | spurious => exact absurd rfl h2
          | main st => simp [DynSt.step, hsl]
          | take i => simp [DynSt.step, hq]
          | work i st => simp [DynSt.step, hj]
        have := (stuck_cases wf ac hw h.s hnr hm hst).2.2.2
        rw [SInv.status h.s h.nf] at this
        exact absurd this (by decide)
      | cons x q =>
        have hlq : w.qt.length = w.s.queue.length := h.k.lenQ
        have hne : 0 < w.qt.length := by rw [hlq, hq]; simp
        obtain ⟨n, hn⟩ : ∃ n, w.qt[0]? = some n := ⟨_, List.getElem?_eq_getElem hne⟩
        have hnd : w.qt.getD 0 0 = n := by rw [List.getD_eq_getElem?_getD, hn]; rfl
        obtain ⟨m, hmn⟩ : ∃ m, m ∈ Visible.need c x := by
          unfold Visible.need
          by_cases hd : c.g.deps x = []
          · exact ⟨.begin, by simp [hd]⟩
          · obtain ⟨y, l, hy⟩ := List.exists_cons_of_ne_nil hd
            exact ⟨.ev (.finish y), by simp [hy]⟩
        have htk := h.k.qk 0 x n (by simp [mirror, hq]) (by simpa [mirror] using hn) m hmn
        obtain ⟨i0, j0, a0, -, -, ha0, ha1⟩ := htk
        have hwt : ∃ (k : Nat) (b : WkLogged), w.log[k]? = some b ∧ ∃ x, b.op.Writes (.task n) x := by
          simp only [mirror, List.getElem?_map, Option.map_eq_some_iff] at ha0
          obtain ⟨b, hb, rfl⟩ := ha0
          refine ⟨j0, b, hb, ?_⟩
          obtain ⟨t, o⟩ := b
          simp only [mirA] at ha1
          unfold mir at ha1
          split at ha1 <;> simp_all [WOp.Writes]
          split at ha1 <;> simp at ha1
        obtain ⟨src, hsrc⟩ := fresh (some (.task n))
        obtain ⟨hs1, hs2⟩ := hsrc _ rfl
        have hone : lastv (ini c) w.log (.task n) = 1 := by
          rcases lastv_spec (ini c) w.log (.task n) with ⟨g1, g2⟩ | ⟨k, a, g1, g2, g3⟩
          · obtain ⟨k, b, hb, y, hy⟩ := hwt
            exact absurd hy (g1 k b y hb)
          · have := hT a (List.mem_of_getElem? g1)
            obtain ⟨t, o⟩ := a
            cases o with
            | store l r v => exact this.1 n _ (by simpa [WOp.Writes] using g2)
            | rmw l r v => exact this.1 n _ (by simpa [WOp.Writes] using g2)
            | _ => exact g2.elim
        have hgo : ∃ s', DynSt.step c w.s (.take 0) = some s' := by
          have : ([] : List Job).length < c.workers := by simp; omega
          simp only [DynSt.step, hq, List.getElem?_cons_zero, hj, this, if_true]
          exact ⟨_, rfl⟩
        obtain ⟨s', hs'⟩ := hgo
        refine ⟨.take 0 src, _, .inr (.inl ⟨0, src, rfl⟩), by simp only [WdSt.step, hnd, hs1, hone, if_true, hs', Option.map_some]; rfl, ?_⟩
        simp only
        refine coherent_snoc hc _ (fun l s v hr => ?_)
        simp only [WOp.Reads] at hr
        obtain ⟨rfl, rfl, rfl⟩ := hr
        exact ⟨hone.symm, hs2⟩
  · obtain ⟨src, hsrc⟩ := fresh (mainLoc w.s)
    obtain ⟨v, hv, hst⟩ : ∃ v, (∀ l, mainLoc w.s = some l → v = rd c w.log l src) ∧ WdSt.step c may w (.main src) =
        (mainStep c w.s v).map fun s' => { w.put 0 (mainOps c w.s w.next src v) with s := s' } := by
      refine ⟨match mainLoc w.s with | some l => rd c w.log l src | none => 0, by intro l hl; rw [hl], ?_⟩
      simp only [WdSt.step]
      rfl
    obtain ⟨s', hs'⟩ := Option.isSome_iff_exists.1 (main_enabled (c := c) v hm hsl)
    rw [hs'] at hst
    refine ⟨.main src, _, .inl ⟨src, rfl⟩, hst, ?_⟩
    refine coherent_ops hc (fun l hl => (hsrc l hl).2) main_reads.1 (fun o ho l s' v' hr => ?_)
    obtain ⟨e1, e2, e3⟩ := main_reads.2 o ho l s' v' hr
    exact ⟨e1, e2, by rw [e3, hv l e1, (hsrc l e1).1]⟩

/-- Every step of a run is progress, however stale what it reads. -/
theorem weak_work (wf : c.g.WF) (h : Core c w) {a : WkAct} {w' : WdSt} (hs : WdSt.step c may w a = some w') (hc : Coherent (ini c) w'.log)
    (hb : a ≠ .begin) :
    work c w'.s + (match a with | .use _ _ _ => 0 | _ => 1) ≤ work c w.s + (match a with | .spurious => 4 | _ => 0) := by
  cases a with
  | begin => exact absurd rfl hb
  | spurious =>
    simp only [WdSt.step] at hs
    obtain ⟨s', h1, h2⟩ := Option.map_eq_some_iff.1 hs
    have := DynSt.step_work wf h.s h1 (by simp)
    subst h2
    simpa using this
  | take i src =>
    simp only [WdSt.step] at hs
    split at hs
    · obtain ⟨s', h1, h2⟩ := Option.map_eq_some_iff.1 hs
      have := DynSt.step_work wf h.s h1 (by simp)
      subst h2
      simpa using this
    · simp at hs
  | work i src =>
    simp only [WdSt.step] at hs
    split at hs
    · simp at hs
    rename_i j hj
    obtain ⟨v, hs⟩ : ∃ v, (DynSt.step c (jobView w.s v j) (.work i CStatus.ok)).map (fun s' =>
          { w.put (w.jt.getD i 0) (jobOps c w.s w.next src v j) with
              s := s', jt := if s'.jobs.length < w.s.jobs.length then w.jt.eraseIdx i else w.jt }) = some w' := ⟨_, hs⟩
    obtain ⟨s', h1, h2⟩ := Option.map_eq_some_iff.1 hs
    have hg : Good w.s v j := by
      refine good_of (t := w.jt.getD i 0) (n := w.next) (src := src) ?_ h.vl h.vf
      rw [← h2] at hc
      exact hc
    rw [jobView_good hg] at h1
    have := DynSt.step_work wf h.s h1 (by simp)
    subst h2
    simpa using this
  | use who n wr =>
    have hu : ∀ t e, (w.touch t e n wr).s = w.s := fun _ _ => rfl
    cases who <;> simp only [WdSt.step] at hs <;> grind
  | main src =>
    simp only [WdSt.step] at hs
    obtain ⟨v, hs⟩ : ∃ v, (mainStep c w.s v).map (fun s' => { w.put 0 (mainOps c w.s w.next src v) with s := s' }) = some w' := ⟨_, hs⟩
    obtain ⟨s', h1, h2⟩ := Option.map_eq_some_iff.1 hs
    have hs' : w'.s = s' := by rw [← h2]
    rw [hs']
    simp only
    have low : ∀ (m : MainPc), mainW c m + 1 ≤ mainW c w.s.main → (∀ j, w.s.main ≠ .inline j) → (∀ j, m ≠ .inline j) →
        s'.main = m ∧ s'.trace = w.s.trace ∧ s'.queue = w.s.queue ∧ s'.jobs = w.s.jobs → work c s' + 1 ≤ work c w.s + 0 := by
      rintro m hm h3 h4 ⟨h5, h6, h7, h8⟩
      simp only [work]
      rw [allJobs_of (by rw [h5]; exact h4), allJobs_of h3, h5, h6, h7, h8]
      omega
    unfold mainStep at h1
    split at h1
    · rename_i j hm
      have hg : Good w.s v j := by
        refine good_of (t := 0) (n := w.next) (src := src) ?_ h.vl h.vf
        rw [← h2] at hc
        have e1 : mainOps c w.s w.next src v = jobOps c w.s w.next src v j := by simp [mainOps, hm]
        rw [← e1]
        exact hc
      rw [jobView_good hg] at h1
      simpa using DynSt.step_work wf h.s h1 (by simp)
    · rename_i k hm
      obtain ⟨s1, h3, h4⟩ := Option.map_eq_some_iff.1 h1
      simp only [DynSt.step, hm] at h3
      split at h3
      · simp only [Option.some.injEq] at h3
        refine low .idle (by rw [hm]; simp only [mainW]; omega) (by simp [hm]) (by simp) ?_
        rw [← h4, ← h3]; simp [DynSt.ret]
      · simp only [Option.some.injEq] at h3
        refine low (.poll k) (by rw [hm]; simp only [mainW]; omega) (by simp [hm]) (by simp) ?_
        rw [← h4, ← h3]; simp
    · rename_i hm
      obtain ⟨s1, h3, h4⟩ := Option.map_eq_some_iff.1 h1
      simp only [DynSt.step, hm] at h3
      split at h3
      · simp only [Option.some.injEq] at h3
        refine low .idle (by rw [hm]; simp only [mainW]; omega) (by simp [hm]) (by simp) ?_
        rw [← h4, ← h3]; simp [DynSt.ret]
      · simp only [Option.some.injEq] at h3
        refine low .preSleep (by rw [hm]; simp only [mainW]; omega) (by simp [hm]) (by simp) ?_
        rw [← h4, ← h3]; simp
    · simpa using DynSt.step_work wf h.s h1 (by simp)

end

/-! ### C102 -/

/-- Position `i` marks the start of element `e` in run `r`, in thread `t`. -/
def StartAt (w : WdSt) (t r : Nat) (e : Eid) (i : Nat) : Prop := w.log[i]? = some ⟨t, .read (.mark r (.ev (.start e)))⟩
/-- Position `i` marks the end of element `e` in run `r`. -/
def EndAt (w : WdSt) (r : Nat) (e : Eid) (i : Nat) : Prop := ∃ t, w.log[i]? = some ⟨t, .read (.mark r (.ev (.finish e)))⟩
/-- Position `i` marks the return of run `r`, to the caller. -/
def ReturnAt (w : WdSt) (r i : Nat) : Prop := w.log[i]? = some ⟨0, .read (.mark r (.ret false))⟩

/-- **C102** (order): on every execution that the memory model allows, an element starts at most once in a run, the end of each element it
depends on — directly or not — happens-before its start, and the ends of all elements happen-before the return of the run, which reports success. -/
theorem C102_order (c : DynCfg) (wf : c.g.WF) (ac : AcyclicOn c.g.Edge c.g.elems) (may : Eid → Nat → Bool → Bool) (l : List WkAct) (w : WdSt)
    (hw : w = WdSt.run c may (WdSt.init c) l) (hc : Coherent (ini c) w.log) :
    (∀ t t' r e i j, StartAt w t r e i → StartAt w t' r e j → i = j) ∧
    (∀ d e, Relation.TransGen c.g.Edge d e → ∀ t r i, StartAt w t r e i → ∃ k, EndAt w r d k ∧ (∀ k', EndAt w r d k' → k' = k) ∧ WHb w.log k i) ∧
    (∀ r i, ReturnAt w r i → ∀ e ∈ c.g.elems, ∃ k, EndAt w r e k ∧ (∀ k', EndAt w r e k' → k' = k) ∧ WHb w.log k i) ∧
    (w.s.nrun ≠ 0 → w.s.main = .idle → w.s.lastRet = some CStatus.ok ∧ ∃ i, ReturnAt w w.s.nrun i) := by
  subst hw
  obtain ⟨h, hA, -⟩ := inv_run wf ac may l hc
  refine ⟨fun t t' r e i j h1 h2 => mark_unique h h1 h2, fun d e hde t r i h1 => ?_, fun r i h1 e he => ?_, fun h1 h2 => ⟨?_, hA.rt h1 h2⟩⟩
  · obtain ⟨⟨k, t', h2⟩, h3⟩ := end_start h hde h1
    exact ⟨k, ⟨t', h2⟩, fun k' ⟨t'', h4⟩ => mark_unique h h4 h2, h3 k t' h2⟩
  · obtain ⟨⟨k, t', h2⟩, h3⟩ := end_ret h wf ac he h1
    exact ⟨k, ⟨t', h2⟩, fun k' ⟨t'', h4⟩ => mark_unique h h4 h2, h3 k t' h2⟩
  · cases hl : (WdSt.run c may (WdSt.init c) l).s.lastRet with
    | none => exact absurd hl (h.s.idle h1 h2)
    | some r =>
      have := (h.s.ret r hl).2.1
      rw [this, SInv.status h.s h.nf]

/-- **C102** (visibility): on every execution that the memory model allows, an access of memory by an element happens-before every access, in
the same run, by an element that depends on it — directly or not —, every access in a later run, and every access by the caller after that
run; accesses by the caller happen-before those in all later runs. -/
theorem C102_visible (c : DynCfg) (wf : c.g.WF) (ac : AcyclicOn c.g.Edge c.g.elems) (may : Eid → Nat → Bool → Bool) (l : List WkAct) (w : WdSt)
    (hw : w = WdSt.run c may (WdSt.init c) l) (hc : Coherent (ini c) w.log) (p q r r' : Nat) :
    (∀ d e, Relation.TransGen c.g.Edge d e → (p, r, some d) ∈ w.accs → (q, r, some e) ∈ w.accs → WHb w.log p q) ∧
    (∀ d e, r < r' → (p, r, some d) ∈ w.accs → (q, r', some e) ∈ w.accs → WHb w.log p q) ∧
    (∀ d, r ≤ r' → (p, r, some d) ∈ w.accs → (q, r', none) ∈ w.accs → WHb w.log p q) ∧
    (∀ e, r < r' → (p, r, none) ∈ w.accs → (q, r', some e) ∈ w.accs → WHb w.log p q) := by
  subst hw
  obtain ⟨h, hA, -⟩ := inv_run wf ac may l hc
  exact ⟨fun d e hde h1 h2 => order_dep h hA hde h1 h2, fun d e hr h1 h2 => order_runs h hA wf ac hr h1 h2,
    fun d hr h1 h2 => order_out h hA wf ac hr h1 h2, fun e hr h1 h2 => order_in h hA ac hr h1 h2⟩

/-- The accesses noted in `accs` are the accesses of memory of the user, made in the element noted. -/
theorem C102_accs (c : DynCfg) (wf : c.g.WF) (ac : AcyclicOn c.g.Edge c.g.elems) (may : Eid → Nat → Bool → Bool) (l : List WkAct) (w : WdSt)
    (hw : w = WdSt.run c may (WdSt.init c) l) (hc : Coherent (ini c) w.log) :
    (∀ p t n, w.log[p]? = some ⟨t, .read (.user n)⟩ ∨ w.log[p]? = some ⟨t, .write (.user n)⟩ → ∃ r oe, (p, r, oe) ∈ w.accs) ∧
    (∀ p r e, (p, r, some e) ∈ w.accs → ∃ t n, ∃ wr : Bool, w.log[p]? = some ⟨t, if wr then .write (.user n) else .read (.user n)⟩ ∧ may e n wr = true ∧
      (∃ i, i < p ∧ StartAt w t r e i) ∧ ∀ j, EndAt w r e j → p < j) ∧
    (∀ p r, (p, r, none) ∈ w.accs → ∃ n, ∃ wr : Bool, w.log[p]? = some ⟨0, if wr then .write (.user n) else .read (.user n)⟩ ∧
      (r ≠ 0 → ∃ i, i < p ∧ ReturnAt w r i)) := by
  subst hw
  obtain ⟨h, hA, -⟩ := inv_run wf ac may l hc
  refine ⟨fun p t n h1 => ?_, fun p r e h1 => ?_, fun p r h1 => ?_⟩
  · rcases h1 with h1 | h1
    · exact hA.us p _ n false h1 rfl
    · exact hA.us p _ n true h1 rfl
  · obtain ⟨⟨t, o⟩, n, wr, b1, b2, b3, b4, b5⟩ := hA.ac p r e h1
    simp only at b2 b4
    subst b2
    refine ⟨t, n, wr, b1, b3, b4, fun j ⟨t', hj⟩ => ?_⟩
    rcases b5 with ⟨rfl, b5⟩ | ⟨m, b6, b7⟩
    · exact absurd hj (body_no_end h b5 j t')
    · rw [mark_unique h hj b7]; exact b6
  · obtain ⟨⟨⟨t, o⟩, n, wr, b1, b2, b3⟩, b4, -⟩ := hA.ow p r h1
    simp only at b2 b3
    subst b2 b3
    exact ⟨n, wr, b1, fun h0 => b4 h0⟩

/-- **C102** (no races): if elements neither of which depends on the other only read the cells that both access, no execution that the memory
model allows has a data race: not among elements, not with the caller between runs, not in the engine itself. -/
theorem C102_racefree (c : DynCfg) (wf : c.g.WF) (ac : AcyclicOn c.g.Edge c.g.elems) (may : Eid → Nat → Bool → Bool)
    (hmay : ∀ e ∈ c.g.elems, ∀ e' ∈ c.g.elems, e ≠ e' → ¬ Relation.TransGen c.g.Edge e e' → ¬ Relation.TransGen c.g.Edge e' e →
      ∀ n wr wr', may e n wr = true → may e' n wr' = true → wr = false ∧ wr' = false)
    (l : List WkAct) (hc : Coherent (ini c) (WdSt.run c may (WdSt.init c) l).log) (i j : Nat) :
    ¬ WRace (WdSt.run c may (WdSt.init c) l).log i j := by
  obtain ⟨h, hA, hT⟩ := inv_run wf ac may l hc
  generalize WdSt.run c may (WdSt.init c) l = w at *
  rintro ⟨a, b, h1, h2, h3, h4, h5, h6⟩
  obtain ⟨n, wr, wr', ha, hb, hor⟩ : ∃ n wr wr', a.op = WdSt.access n wr ∧ b.op = WdSt.access n wr' ∧ (wr = true ∨ wr' = true) := by
    have hta := (hT a (List.mem_of_getElem? h1)).2
    have htb := (hT b (List.mem_of_getElem? h2)).2
    obtain ⟨t, o⟩ := a
    obtain ⟨t', o'⟩ := b
    simp only at h4 hta htb ⊢
    cases o with
    | read d =>
      cases o' with
      | write d' => obtain ⟨n, rfl⟩ := htb d' rfl; cases h4; exact ⟨n, false, true, rfl, rfl, .inr rfl⟩
      | _ => exact h4.elim
    | write d =>
      obtain ⟨n, rfl⟩ := hta d rfl
      cases o' with
      | write d' => cases h4; exact ⟨n, true, true, rfl, rfl, .inl rfl⟩
      | read d' => cases h4; exact ⟨n, true, false, rfl, rfl, .inl rfl⟩
      | _ => exact h4.elim
    | _ => exact h4.elim
  obtain ⟨r, oe, hp⟩ := hA.us i a n wr h1 ha
  obtain ⟨r', oe', hq⟩ := hA.us j b n wr' h2 hb
  have inj : ∀ m k k', WdSt.access m k = WdSt.access n k' → m = n ∧ k = k' := by
    intro m k k'
    cases k <;> cases k' <;> simp [WdSt.access]
  cases oe with
  | none =>
    cases oe' with
    | none =>
      obtain ⟨⟨a', -, -, g1, -, g2⟩, -⟩ := hA.ow i r hp
      obtain ⟨⟨b', -, -, g3, -, g4⟩, -⟩ := hA.ow j r' hq
      rw [h1] at g1; rw [h2] at g3
      cases g1; cases g3
      exact h3 (g2.trans g4.symm)
    | some e =>
      rcases Nat.lt_or_ge r r' with hr | hr
      · exact h5 (order_in h hA ac hr hp hq)
      · exact h6 (order_out h hA wf ac hr hq hp)
  | some d =>
    cases oe' with
    | none =>
      rcases Nat.lt_or_ge r' r with hr | hr
      · exact h6 (order_in h hA ac hr hq hp)
      · exact h5 (order_out h hA wf ac hr hp hq)
    | some e =>
      rcases Nat.lt_trichotomy r r' with hr | rfl | hr
      · exact h5 (order_runs h hA wf ac hr hp hq)
      · by_cases hde : d = e
        · subst hde
          obtain ⟨a', b', g1, g2, g3⟩ := acc_same h hA hp hq
          rw [h1] at g1; rw [h2] at g2
          cases g1; cases g2
          exact h3 g3
        · by_cases hx : Relation.TransGen c.g.Edge d e
          · exact h5 (order_dep h hA hx hp hq)
          · by_cases hy : Relation.TransGen c.g.Edge e d
            · exact h6 (order_dep h hA hy hq hp)
            · obtain ⟨a', m, k, b1, b2, b3, ⟨s, -, b5⟩, -⟩ := hA.ac i r d hp
              obtain ⟨b', m', k', c1, c2, c3, ⟨s', -, c5⟩, -⟩ := hA.ac j r e hq
              rw [h1] at b1; rw [h2] at c1
              cases b1; cases c1
              obtain ⟨rfl, rfl⟩ := inj m k wr (b2.symm.trans ha)
              obtain ⟨rfl, rfl⟩ := inj m' k' wr' (c2.symm.trans hb)
              obtain ⟨g1, g2⟩ := hmay d (start_begin h ac b5).1 e (start_begin h ac c5).1 hde hx hy _ _ _ b3 c3
              rcases hor with hor | hor <;> simp_all
      · exact h6 (order_runs h hA wf ac hr hq hp)

/-- A wake-up without notification. -/
def isSpurious : WkAct → Bool
  | .spurious => true
  | _ => false
/-- A step of the engine: neither the beginning of a run nor an access of memory of the user. -/
def isEngine : WkAct → Bool
  | .begin => false
  | .use _ _ _ => false
  | _ => true

/-- Steps one after the other, all of them possible. -/
def Steps (c : DynCfg) (may : Eid → Nat → Bool → Bool) : WdSt → List WkAct → WdSt → Prop
  | w, [], w' => w = w'
  | w, a :: l, w' => ∃ w1, WdSt.step c may w a = some w1 ∧ Steps c may w1 l w'

theorem steps_log {w w' : WdSt} {l : List WkAct} {c : DynCfg} {may : Eid → Nat → Bool → Bool} (h : Steps c may w l w') :
    ∃ u, w'.log = w.log ++ u := by
  induction l generalizing w with
  | nil => cases h; exact ⟨[], by simp⟩
  | cons a l ih =>
    obtain ⟨w1, h1, h2⟩ := h
    obtain ⟨u, hu⟩ := ih h2
    obtain ⟨u', hu', -⟩ := step_log h1
    exact ⟨u' ++ u, by rw [hu, hu', List.append_assoc]⟩

theorem steps_run {w w' : WdSt} {l : List WkAct} {c : DynCfg} {may : Eid → Nat → Bool → Bool} (h : Steps c may w l w') :
    w' = WdSt.run c may w l := by
  induction l generalizing w with
  | nil => cases h; rfl
  | cons a l ih =>
    obtain ⟨w1, h1, h2⟩ := h
    rw [ih h2]
    simp [WdSt.run, h1]

/-- **C102** (return): from every state of a run that the memory model allows — whatever old values have been read so far — (1) as long as
`run` has not returned, there is a next step that the model allows, and (2) there is a number that bounds the steps which the engine still
takes, in whichever order and whatever values are read, up to wake-ups without notification: so `run` returns. -/
theorem C102_returns (c : DynCfg) (wf : c.g.WF) (ac : AcyclicOn c.g.Edge c.g.elems) (hw : 1 ≤ c.workers) (may : Eid → Nat → Bool → Bool)
    (l : List WkAct) (w : WdSt) (hl : w = WdSt.run c may (WdSt.init c) l) (hc : Coherent (ini c) w.log) :
    (w.s.main ≠ .idle → ∃ a w', isEngine a = true ∧ isSpurious a = false ∧ WdSt.step c may w a = some w' ∧ Coherent (ini c) w'.log) ∧
    ∃ N, ∀ l' w', Steps c may w l' w' → Coherent (ini c) w'.log → .begin ∉ l' → l'.countP isEngine ≤ N + 4 * l'.countP isSpurious := by
  constructor
  · intro hm
    subst hl
    obtain ⟨h, -, hT⟩ := inv_run wf ac may l hc
    obtain ⟨a, w', ha, h1, h2⟩ := go_on (may := may) h hT hc wf ac hw hm
    refine ⟨a, w', ?_, ?_, h1, h2⟩ <;> rcases ha with ⟨src, rfl⟩ | ⟨i, src, rfl⟩ | ⟨i, src, rfl⟩ <;> rfl
  · refine ⟨work c w.s, fun l' => ?_⟩
    suffices h : ∀ (l' l : List WkAct) (w w' : WdSt), w = WdSt.run c may (WdSt.init c) l → Steps c may w l' w' → Coherent (ini c) w'.log →
        .begin ∉ l' → l'.countP isEngine + work c w'.s ≤ work c w.s + 4 * l'.countP isSpurious by
      intro w' h1 h2 h3
      have := h l' l w w' hl h1 h2 h3
      omega
    intro l'
    induction l' with
    | nil => intro l w w' _ h1 _ _; cases h1; simp
    | cons a l' ih =>
      intro l w w' hl ⟨w1, h1, h2⟩ h3 h4
      simp only [List.mem_cons, not_or] at h4
      have hl1 : w1 = WdSt.run c may (WdSt.init c) (l ++ [a]) := by
        rw [WdSt.run, List.foldl_append]
        change _ = (WdSt.step c may (WdSt.run c may (WdSt.init c) l) a).getD (WdSt.run c may (WdSt.init c) l)
        rw [← hl, h1]; rfl
      obtain ⟨u, hu⟩ := steps_log h2
      have hc1 : Coherent (ini c) w1.log := coherent_left (by rw [← hu]; exact h3)
      obtain ⟨u1, hu1, -⟩ := step_log h1
      have hc0 : Coherent (ini c) w.log := coherent_left (by rw [← hu1]; exact hc1)
      have hcore := (inv_run wf ac may l (by rw [← hl]; exact hc0)).1
      rw [← hl] at hcore
      have hwk := weak_work wf hcore h1 hc1 (Ne.symm h4.1)
      have := ih (l ++ [a]) w1 w' hl1 h2 h3 h4.2
      cases a <;> simp [List.countP_cons, isEngine, isSpurious] at hwk ⊢ <;> omega

/-- `exJoin`: element 0 executed by the pool, 1 and 2 by the caller; 0 and 1 write cells 0 and 1, 2 reads them and writes cell 2; then the
caller reads cell 2. -/
def joinActs : List WkAct :=
  [.use none 3 true, .begin, .main none, .main none, .main none, .take 0 (some 5), .work 0 none, .use (some 0) 3 false, .use (some 0) 0 true,
   .work 0 none, .work 0 none, .work 0 none, .work 0 none, .use none 1 true, .main none, .main none, .main (some 16), .main none, .main none,
   .main none, .use none 0 false, .use none 1 false, .use none 2 true, .main none, .main none, .main (some 2), .main none, .main (some 29),
   .use none 2 false]

/-- Cell 3 is an input of all elements. -/
def joinMay (e : Eid) (n : Nat) (wr : Bool) : Bool := n = 3 ∧ wr = false ∨ n = e ∨ e = 2 ∧ n < 2 ∧ wr = false

theorem joinCoh : Coherent (ini exJoinCfg) (WdSt.run exJoinCfg joinMay (WdSt.init exJoinCfg) joinActs).log := coherent_of_fresh (by decide +kernel)

theorem joinEdge : exJoinCfg.g.Edge 0 2 ∧ exJoinCfg.g.Edge 1 2 := by constructor <;> (unfold Graph.Edge; decide)

example : ∀ e ∈ exJoinCfg.g.elems, ∀ e' ∈ exJoinCfg.g.elems, e ≠ e' → ¬ Relation.TransGen exJoinCfg.g.Edge e e' →
    ¬ Relation.TransGen exJoinCfg.g.Edge e' e → ∀ n wr wr', joinMay e n wr = true → joinMay e' n wr' = true → wr = false ∧ wr' = false := by
  intro e he e' he' hne h1 h2 n wr wr' h3 h4
  have g1 : e = 0 ∨ e = 1 ∨ e = 2 := by simpa [exJoinCfg, exJoin] using he
  have g2 : e' = 0 ∨ e' = 1 ∨ e' = 2 := by simpa [exJoinCfg, exJoin] using he'
  have t0 := Relation.TransGen.single joinEdge.1
  have t1 := Relation.TransGen.single joinEdge.2
  simp only [joinMay, decide_eq_true_eq] at h3 h4
  rcases g1 with rfl | rfl | rfl <;> rcases g2 with rfl | rfl | rfl <;>
    first
      | exact absurd rfl hne
      | exact absurd t0 h1
      | exact absurd t1 h1
      | exact absurd t0 h2
      | exact absurd t1 h2
      | (cases wr <;> cases wr' <;> simp at h3 h4 ⊢ <;> omega)

/-- Element 2, in the caller's thread, reads what element 0 has written in another thread. -/
example : WHb (WdSt.run exJoinCfg joinMay (WdSt.init exJoinCfg) joinActs).log 13 24 :=
  (C102_visible exJoinCfg exJoin_wf exJoin_acyclic joinMay joinActs _ rfl joinCoh 13 24 1 1).1 0 2 (.single joinEdge.1) (by decide +kernel)
    (by decide +kernel)

example : (WdSt.run exJoinCfg joinMay (WdSt.init exJoinCfg) joinActs).s.main = .idle ∧
    (WdSt.run exJoinCfg joinMay (WdSt.init exJoinCfg) joinActs).s.nrun = 1 ∧
    (WdSt.run exJoinCfg joinMay (WdSt.init exJoinCfg) (joinActs.take 7)).s.main ≠ .idle ∧ 1 ≤ exJoinCfg.workers := by decide +kernel

example : StartAt (WdSt.run exJoinCfg joinMay (WdSt.init exJoinCfg) joinActs) 0 1 2 23 ∧
    ReturnAt (WdSt.run exJoinCfg joinMay (WdSt.init exJoinCfg) joinActs) 1 34 := by
  unfold StartAt ReturnAt; decide +kernel

end WeakDyn
end CGraph
