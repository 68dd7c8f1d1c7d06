import Verif.Lemmas.WeakDyn
import Verif.Props.Dynamic

/-! Steps keep the invariant of `Lemmas/WeakDyn.lean`. -/
namespace CGraph
namespace WeakDyn
open Spec Weak DynSt

theorem vis_core {c : DynCfg} (wf : c.g.WF) (ac : AcyclicOn c.g.Edge c.g.elems) {w w' : WdSt} (h : Core c w) (hv : Vis c w w') :
    SInv c w'.s ∧ Visible.KInv c (mirror c w') ∧ w'.s.failed = [] ∧
    (∀ r x, (Visible.evs (w'.log.map (mirA c.totalEnd)) r).count x ≤ 1) ∧ DynSt.Clean w.s := by
  obtain ⟨a, h1, h2⟩ := hv
  have hcl : DynSt.Clean w.s := .inl h.nf
  have h3 := Visible.step_s h2
  have hs := sinv_step wf ac h.s h3 (fun _ => hcl)
  have hk := Visible.kinv_step wf ac h.k h.s h2 (fun _ => hcl)
  refine ⟨hs, hk, step_failed h3 h.nf h1, fun r x => ?_, hcl⟩
  obtain ⟨u, hu, hn⟩ := Visible.step_notes h2
  by_cases hc : r = w'.s.nrun
  · have := hk.base.tr
    rw [hc]
    have e : Visible.evs (w'.log.map (mirA c.totalEnd)) w'.s.nrun = w'.s.trace := this
    rw [e]
    by_cases h0 : w'.s.nrun = 0
    · have h5 : w'.s = DynSt.init c := hs.first h0
      rw [h5]; simp [DynSt.init]
    · have hi := hs.inv h0
      cases x with
      | start e => have := hi.tok e; simp only [mirror] at this; omega
      | finish e => exact hi.finished_le e
  · have hu' : w'.log.map (mirA c.totalEnd) = w.log.map (mirA c.totalEnd) ++ u := hu
    rw [hu', Visible.evs_app, Visible.evs_nil (u := u) (fun t r' m hm => by rw [hn t r' m hm]; exact Ne.symm hc), List.append_nil]
    exact h.once r x

theorem kinv_dull {c : DynCfg} {v : Visible.VSt} (h : Visible.KInv c v) (t : Nat) {ops : List Visible.Op} (ho : ∀ o ∈ ops, Visible.dull o)
    (hs : Visible.VSt.sends ops = false) : Visible.KInv c (v.put t ops) := by
  refine ⟨?_, h.lenJ, ?_, ?_, ?_, h.fr, ?_, ?_, ?_⟩
  · simp only [Visible.VSt.put, hs]; exact h.lenQ
  · simp only [Visible.VSt.put, hs]
    intro i x n hx hn m hm
    exact (h.qk i x n hx hn m hm).app
  · intro i j n hj hn
    exact (h.jk i j n hj hn).app
  · intro j hj
    exact (h.mn j hj).app
  · intro hm
    exact (h.bg hm).app
  · intro h0 hm
    obtain ⟨b, hb⟩ := h.re h0 hm
    exact ⟨b, hb.app⟩
  · exact h.base.dull ops ho

theorem evs_dull {c : DynCfg} {w w' : WdSt} {t : Nat} {ops : List WkOp} (h : Core c w) (hl : w'.log = w.log ++ ops.map (fun o => ⟨t, o⟩))
    (ho : ∀ o ∈ ops, ∀ r m, o ≠ .read (.mark r m)) :
    ∀ r x, (Visible.evs (w'.log.map (mirA c.totalEnd)) r).count x ≤ 1 := by
  intro r x
  rw [hl, List.map_append, Visible.evs_app, Visible.evs_nil (u := (ops.map (fun o => (⟨t, o⟩ : WkLogged))).map (mirA c.totalEnd)), List.append_nil]
  · exact h.once r x
  · intro t' r' m hm
    exfalso
    rw [List.map_map] at hm
    obtain ⟨o, h1, h2⟩ := List.mem_map.1 hm
    have := congrArg MemAct.op h2
    simp only [Function.comp, mirA] at this
    have hne := ho o h1
    cases o with
    | read k => cases k <;> simp_all [mir]
    | write k => simp [mir] at this
    | store l a b => cases l <;> simp [mir] at this
    | rmw l => cases l <;> simp [mir] at this
    | load l a s v =>
      cases l
      case fin => by_cases hv : c.totalEnd ≤ v.toNat <;> simp [mir, hv] at this
      all_goals simp [mir] at this

theorem Core.run {c : DynCfg} {w : WdSt} (h : Core c w) (hm : w.s.main ≠ .idle) : w.s.nrun ≠ 0 := by
  intro h0
  have := h.s.first h0
  rw [this] at hm
  exact hm rfl

theorem TskLt.mono {log : List WkLogged} {n n' : Nat} (h : TskLt log n) (hn : n ≤ n') : TskLt log n' :=
  fun k b m v h1 h2 => Nat.lt_of_lt_of_le (h k b m v h1 h2) hn

theorem keep_vl {c : DynCfg} {w w' : WdSt} {t : Nat} {ops : List WkOp} (h : Core c w) (hl : w'.log = w.log ++ ops.map (fun o => ⟨t, o⟩))
    (h1 : w'.s.left = w.s.left) (hn : ∀ x, NoW (.left x) ops) : ∀ x, lastv (ini c) w'.log (.left x) = w'.s.left x := by
  intro x
  rw [hl, lastv_ops, foldl_noW (hn x), h1, h.vl x]

theorem keep_vf {c : DynCfg} {w w' : WdSt} {t : Nat} {ops : List WkOp} (h : Core c w) (hl : w'.log = w.log ++ ops.map (fun o => ⟨t, o⟩))
    (h1 : w'.s.fin = w.s.fin) (hn : NoW .fin ops) : lastv (ini c) w'.log .fin = w'.s.fin := by
  rw [hl, lastv_ops, foldl_noW hn, h1, h.vf]

theorem at_same {w w' : WdSt} (h1 : w'.s.jobs = w.s.jobs) (h2 : w'.jt = w.jt) (h3 : ∀ k, w.s.main ≠ .inline k) {t : Nat} {k : Job}
    (h : At w t k) : At w' t k := by
  rcases h with ⟨n, h4, h5⟩ | ⟨h4, h5⟩
  · exact .inl ⟨n, by rw [h1]; exact h4, by rw [h2]; exact h5⟩
  · exact absurd h4 (h3 k)

theorem core_begin {c : DynCfg} (wf : c.g.WF) (ac : AcyclicOn c.g.Edge c.g.elems) {w w' : WdSt} (h : Core c w)
    (hc : Coherent (ini c) w'.log) (hm : w.s.main = .idle) (hx : w'.next = w.next)
    (hl : w'.log = w.log ++ [.read .status, .store .fin true 0, .read (.mark (w.s.nrun + 1) .begin)].map (fun o => ⟨0, o⟩))
    (h1 : w'.s.left = w.s.left) (h2 : w'.s.fin = 0) (h4 : ∃ r, w'.s.main = .fronts r) (hv : Vis c w w') : Core c w' := by
  obtain ⟨r, h4⟩ := h4
  obtain ⟨v1, v2, v3, v4, -⟩ := vis_core wf ac h hv
  have hl2 : w'.log = ((w.log ++ [⟨0, .read .status⟩]) ++ [⟨0, .store .fin true 0⟩]) ++
      [WOp.read (.mark (w.s.nrun + 1) .begin)].map (fun o => (⟨0, o⟩ : WkLogged)) := by rw [hl]; simp
  have hlast : LastAt w'.log .fin (w.log.length + 1) := by
    rw [hl2, last_ops (by simp [NoW, WOp.Writes])]
    have := last_snoc (t := w.log ++ [(⟨0, .read .status⟩ : WkLogged)]) (a := (⟨0, .store .fin true 0⟩ : WkLogged)) (l := .fin) (v := 0) ⟨rfl, rfl⟩
    simpa using this
  have hget : w'.log[w.log.length + 1]? = some ⟨0, .store .fin true 0⟩ := by rw [hl]; simp
  refine ⟨v1, v2, v3, v4, ?_, keep_vl h hl h1 (by simp [NoW, WOp.Writes]), ?_, ?_, ?_, ?_, ?_⟩
  · rw [hl] at hc ⊢
    exact linv_ops h.l hc (opsOk_easy (by simp [easy]))
  · rw [lastv_at hlast hget ⟨rfl, rfl⟩, h2]; rfl
  · rw [hl]
    exact h.m.keep (by simp [Holding, hm, h4]) (by simp [NoW, WOp.Writes])
  · rw [hl, hx]
    exact h.tsk.ops (by simp [WOp.Writes])
  · intro _
    refine ⟨_, hget, fun k a v h5 h6 h7 => ?_⟩
    have h8 := hlast.2 k a v h5 h6
    have e : k = w.log.length + 1 := by omega
    subst e
    rw [hget] at h5
    cases h5
    obtain ⟨-, h9⟩ := h6
    rw [h2, ← h9]
    exact ⟨by omega, by simp, fun _ => hlast⟩
  · intro _ _ p hp
    have := last_unique hp hlast
    subst this
    exact .inr (.inl ⟨_, _, hget, rfl, .inl rfl⟩)

theorem core_job {c : DynCfg} (wf : c.g.WF) (ac : AcyclicOn c.g.Edge c.g.elems) {w w' : WdSt} (h : Core c w)
    (hc : Coherent (ini c) w'.log) {t : Nat} {j : Job} {s1 : DynSt} {oj : Option Job} {src : Option Nat} {v : Int}
    (hs : jobStep c w.s CStatus.ok j = some (s1, oj)) (hg : Good w.s v j)
    (hx : w'.next = if WdSt.sends (jobOps c w.s w.next src v j) then w.next + 1 else w.next)
    (hl : w'.log = w.log ++ (jobOps c w.s w.next src v j).map (fun o => ⟨t, o⟩))
    (h1 : w'.s.left = s1.left) (h2 : w'.s.fin = s1.fin) (h3 : w'.s.nrun = w.s.nrun)
    (f1 : ∀ t' k, At w t' k → At w' t' k ∨ (t' = t ∧ k = j))
    (f3 : ∀ k, oj = some k → At w' t k) (hh : Holding w'.s ↔ Holding w.s) (hv : Vis c w w') : Core c w' := by
  obtain ⟨v1, v2, v3, v4, -⟩ := vis_core wf ac h hv
  have hnh : j = .tailNotify → ¬ Holding w.s := by
    rintro rfl hh
    simp only [jobStep, Holding] at hs hh
    rw [if_pos hh] at hs
    simp at hs
  have hlinv : LInv c.totalEnd w'.log := by
    rw [hl] at hc ⊢
    exact linv_ops h.l hc (job_opsOk h.tsk (fun hj => h.m.free (hnh hj)))
  have hvl : ∀ x, lastv (ini c) w'.log (.left x) = w'.s.left x := by
    intro x
    rw [hl, lastv_ops, h.vl x, job_left hg hs, h1]
  have htsk : TskLt w'.log w'.next := by
    rw [hl, hx]
    exact (h.tsk.mono (by split <;> omega)).ops job_task
  by_cases hj : ∃ e, j = .tailInc e
  · obtain ⟨e, rfl⟩ := hj
    have hv := hg.2 rfl
    subst hv
    simp only [jobStep, Option.some.injEq, Prod.mk.injEq] at hs
    obtain ⟨rfl, rfl⟩ := hs
    have hl2 : w'.log = w.log ++ [⟨t, .rmw .fin true true src w.s.fin (w.s.fin + 1)⟩] := hl
    have hlast : LastAt w'.log .fin w.log.length := by
      rw [hl2]; exact last_snoc (a := (⟨t, .rmw .fin true true src w.s.fin (w.s.fin + 1)⟩ : WkLogged)) ⟨rfl, rfl⟩
    have hget : w'.log[w.log.length]? = some ⟨t, .rmw .fin true true src w.s.fin (w.s.fin + 1)⟩ := by rw [hl2]; exact get_last _
    refine ⟨v1, v2, v3, v4, hlinv, hvl, ?_, ?_, htsk, ?_, ?_⟩
    · rw [lastv_at hlast hget ⟨rfl, rfl⟩, h2]; simp
    · rw [hl]; exact h.m.keep hh (job_mtx (by simp))
    · intro h0
      obtain ⟨b, hb, hk⟩ := h.f (by rwa [h3] at h0)
      refine ⟨b, by rw [hl2]; exact get_app hb, fun k a v h5 h6 h7 => ?_⟩
      rw [h2]
      rw [hl2] at h5
      rcases get_snoc h5 with h5' | ⟨rfl, rfl⟩
      · obtain ⟨h8, h9, h10⟩ := hk k a v h5' h6 h7
        refine ⟨h8, by push_cast; omega, fun h11 => ?_⟩
        push_cast at h11
        omega
      · obtain ⟨-, h6⟩ := h6
        subst h6
        exact ⟨by omega, by simp, fun _ => hlast⟩
    · intro h0 h5 p hp
      have := last_unique hp hlast
      subst this
      have h6 := fin_le (v1.inv h0)
      rw [h2] at h5 h6
      exact .inl ⟨_, hget, f3 _ (by simp only at h5 h6; rw [if_pos (by omega)])⟩
  · have hj' : ∀ e, j ≠ .tailInc e := fun e he => hj ⟨e, he⟩
    obtain ⟨n1, n2⟩ := job_fin (n := w.next) (src := src) (v := v) hs hj'
    refine ⟨v1, v2, v3, v4, hlinv, hvl, keep_vf h hl (h2.trans n2) n1, ?_, htsk, ?_, ?_⟩
    · by_cases hn : j = .tailNotify
      · subst hn
        rw [hl]
        exact MInv.gone (pre := [.rmw .mtx true false src v 1]) (post := []) (fun h0 => hnh rfl (hh.1 h0)) (by simp [NoW])
      · rw [hl]; exact h.m.keep hh (job_mtx hn)
    · rw [hl]; exact h.f.keep h3 (h2.trans n2) n1
    · refine h.n.keep hl h3 (h2.trans n2) n1 (fun t' ht' => ?_)
      rcases f1 t' _ ht' with h5 | ⟨rfl, rfl⟩
      · exact .inl h5
      · refine .inr (fun p a h6 h7 => ?_)
        have hl2 : w'.log = (w.log ++ [⟨t', .rmw .mtx true false src v 1⟩]) ++ [⟨t', .store .mtx true 0⟩] := by rw [hl]; simp [jobOps]
        refine .inr ⟨w.log.length + 1, ⟨t', .store .mtx true 0⟩, 0, by rw [hl2]; simp, ⟨rfl, rfl⟩, ?_⟩
        have := hb_seq (t := w'.log) (i := p) (j := w.log.length + 1) (a := a) (b := ⟨t', .store .mtx true 0⟩)
          (by have := lt_of_get h6; omega) (by rw [hl]; exact get_app h6) (by rw [hl2]; simp) h7
        exact this

theorem core_calm {c : DynCfg} (wf : c.g.WF) (ac : AcyclicOn c.g.Edge c.g.elems) {w w' : WdSt} (h : Core c w)
    (hc : Coherent (ini c) w'.log) {t : Nat} {ops : List WkOp}
    (hx : w.next ≤ w'.next ∧ ∀ o ∈ ops, ∀ m x, o.Writes (.task m) x → m < w'.next)
    (hl : w'.log = w.log ++ ops.map (fun o => ⟨t, o⟩)) (hs : Same w w') (n1 : ∀ x, NoW (.left x) ops) (n2 : NoW .fin ops) (n3 : NoW .mtx ops)
    (ho : OpsOk c.totalEnd t w.log ops) (f1 : ∀ t' k, At w t' k → At w' t' k)
    (hh : Holding w'.s ↔ Holding w.s) (hv : Vis c w w') : Core c w' := by
  obtain ⟨v1, v2, v3, v4, -⟩ := vis_core wf ac h hv
  refine ⟨v1, v2, v3, v4, ?_, keep_vl h hl hs.left n1, keep_vf h hl hs.fin n2, ?_, ?_, ?_, ?_⟩
  · rw [hl] at hc ⊢; exact linv_ops h.l hc ho
  · rw [hl]; exact h.m.keep hh n3
  · rw [hl]; exact (h.tsk.mono hx.1).ops hx.2
  · rw [hl]; exact h.f.keep hs.nrun hs.fin n2
  · exact h.n.keep hl hs.nrun hs.fin n2 (fun t' ht' => .inl (f1 t' _ ht'))

theorem core_mutex {c : DynCfg} (wf : c.g.WF) (ac : AcyclicOn c.g.Edge c.g.elems) {w w' : WdSt} (h : Core c w)
    (hc : Coherent (ini c) w'.log) {o : WkOp} (hl : w'.log = w.log ++ [o].map (fun o => ⟨0, o⟩)) (hx : w'.next = w.next) (hjt : w'.jt = w.jt)
    (hj : w'.s.jobs = w.s.jobs) (hs : Same w w')
    (ho : (∃ src v, o = .rmw .mtx true false src v 1 ∧ (w.s.main = .lock ∨ w.s.main = .waking) ∧ w'.s.main = .check) ∨
        (o = .store .mtx true 0 ∧ w.s.main = .preSleep ∧ w'.s.main = .asleep)) (hv : Vis c w w') : Core c w' := by
  obtain ⟨v1, v2, v3, v4, -⟩ := vis_core wf ac h hv
  have hni : ∀ k, w.s.main ≠ .inline k := by
    intro k hk
    rcases ho with ⟨src, v, -, h1 | h1, -⟩ | ⟨-, h1, -⟩ <;> rw [h1] at hk <;> simp at hk
  have n1 : ∀ x, NoW (.left x) [o] := by
    rcases ho with ⟨src, v, rfl, -⟩ | ⟨rfl, -⟩ <;> simp [NoW, WOp.Writes]
  have n2 : NoW .fin [o] := by
    rcases ho with ⟨src, v, rfl, -⟩ | ⟨rfl, -⟩ <;> simp [NoW, WOp.Writes]
  refine ⟨v1, v2, v3, v4, ?_, keep_vl h hl hs.left n1, keep_vf h hl hs.fin n2, ?_, ?_, ?_, ?_⟩
  · rw [hl] at hc ⊢
    refine linv_ops h.l hc ⟨?_, trivial⟩
    rcases ho with ⟨src, v, rfl, h1, h2⟩ | ⟨rfl, h1, h2⟩
    · have hm := h.m.free (by rcases h1 with h1 | h1 <;> simp [Holding, h1])
      constructor <;> simp [Wf]
      exact hm
    · obtain ⟨m, a, h3, h4, h5⟩ := h.m.hold (by simp [Holding, h1])
      constructor <;> simp [Wf]
      exact ⟨m, h3, a, h4, h5⟩
  · rw [hl]
    rcases ho with ⟨src, v, rfl, h1, h2⟩ | ⟨rfl, h1, h2⟩
    · exact MInv.taken (v := 1) (.inl h2) ⟨rfl, rfl⟩
    · exact MInv.gone (pre := []) (post := []) (by simp [Holding, h2]) (by simp [NoW])
  · rw [hl, hx]
    exact h.tsk.ops (by rcases ho with ⟨src, v, rfl, -⟩ | ⟨rfl, -⟩ <;> simp [WOp.Writes])
  · rw [hl]; exact h.f.keep hs.nrun hs.fin n2
  · exact h.n.keep hl hs.nrun hs.fin n2 (fun t' ht' => .inl (at_same hj hjt hni ht'))

theorem core_ret {c : DynCfg} (wf : c.g.WF) (ac : AcyclicOn c.g.Edge c.g.elems) {w w' : WdSt} (h : Core c w)
    (hc : Coherent (ini c) w'.log) {src : Option Nat} {v : Int} {pre : List WkOp} (hv : c.totalEnd ≤ v.toNat)
    (hops : (∃ k, w.s.main = .poll (k + 1) ∧ pre = []) ∨ (w.s.main = .check ∧ pre = [.store .mtx true 0]))
    (hl : w'.log = w.log ++ (.load .fin true src v :: (pre ++ retOps w.s)).map (fun o => ⟨0, o⟩)) (hx : w'.next = w.next)
    (hjt : w'.jt = w.jt) (hs : w'.s = w.s.ret) (hvis : c.totalEnd ≤ w.s.fin → Vis c w w') :
    Core c w' ∧ c.totalEnd ≤ w.s.fin ∧ Vis c w w' := by
  have hni : ∀ k, w.s.main ≠ .inline k := by
    intro k hk
    rcases hops with ⟨k', h1, -⟩ | ⟨h1, -⟩ <;> rw [h1] at hk <;> simp at hk
  have hnr := h.run (by intro hk; rcases hops with ⟨k', h1, -⟩ | ⟨h1, -⟩ <;> rw [h1] at hk <;> simp at hk)
  obtain ⟨⟨m, rfl, hm1, hm2, -⟩, -, h2, h3⟩ := load_fresh h.s h.f hnr (coh_first (hl ▸ hc))
  have hlast := hm2 (h3 hv)
  have hfin : c.totalEnd ≤ w.s.fin := by have := h3 hv; omega
  have hv' := hvis hfin
  obtain ⟨v1, v2, v3, v4, -⟩ := vis_core wf ac h hv'
  have nn : ∀ l, l ≠ .mtx → NoW l (.load .fin true (some m) v :: (pre ++ retOps w.s)) := by
    intro l hne
    rcases hops with ⟨k', h1, rfl⟩ | ⟨h1, rfl⟩ <;> simp [NoW, WOp.Writes, retOps]
    exact fun h5 => absurd h5.symm hne
  have e1 : w'.s.left = w.s.left ∧ w'.s.fin = w.s.fin ∧ w'.s.nrun = w.s.nrun ∧ w'.s.jobs = w.s.jobs ∧ w'.s.main = .idle := by
    rw [hs]; simp [DynSt.ret]
  obtain ⟨e1, e2, e3, e4, e5⟩ := e1
  refine ⟨⟨v1, v2, v3, v4, ?_, keep_vl h hl e1 (fun x => nn _ (by simp)), keep_vf h hl e2 (nn _ (by simp)), ?_, ?_, ?_, ?_⟩, hfin, hv'⟩
  · rw [hl] at hc ⊢
    refine linv_ops h.l hc ⟨?_, ?_⟩
    · constructor <;> simp [Wf]
      intro hv2 k b x h5 h6
      exact hlast.2 k b x h5 h6
    · rcases hops with ⟨k', h1, rfl⟩ | ⟨h1, rfl⟩
      · exact opsOk_easy (by simp [retOps, easy])
      · refine ⟨?_, opsOk_easy (by simp [retOps, easy])⟩
        obtain ⟨m', a, h5, h6, h7⟩ := h.m.hold (by simp [Holding, h1])
        constructor <;> simp [Wf]
        exact ⟨m', (last_keep (by simp [WOp.Writes])).2 h5, a, get_app h6, h7⟩
  · rw [hl]
    rcases hops with ⟨k', h1, rfl⟩ | ⟨h1, rfl⟩
    · exact h.m.keep (by simp [Holding, h1, e5]) (by simp [NoW, WOp.Writes, retOps])
    · exact MInv.gone (pre := [.load .fin true (some m) v]) (post := retOps w.s) (by simp [Holding, e5]) (by simp [NoW, WOp.Writes, retOps])
  · rw [hl, hx]
    refine h.tsk.ops (fun o ho m' x h5 => ?_)
    exact absurd h5 (nn (.task m') (by simp) o ho x)
  · rw [hl]; exact h.f.keep e3 e2 (nn _ (by simp))
  · exact h.n.keep hl e3 e2 (nn _ (by simp)) (fun t' ht' => .inl (at_same e4 hjt hni ht'))

theorem core_low {c : DynCfg} {w w' : WdSt} (h : Core c w)
    (hc : Coherent (ini c) w'.log) {src : Option Nat} {v : Int} {ops : List WkOp} (hv : v.toNat < c.totalEnd) (hops : ops = [] ∨ ops = [.read .status])
    (hl : w'.log = w.log ++ (.load .fin true src v :: ops).map (fun o => ⟨0, o⟩)) (hx : w'.next = w.next)
    (hqt : w'.qt = w.qt) (hjt : w'.jt = w.jt)
    (hs : (∃ k, w.s.main = .poll (k + 1) ∧ w'.s = { w.s with main := .poll k }) ∨ (w.s.main = .check ∧ w'.s = { w.s with main := .preSleep })) :
    Core c w' := by
  have hmm : (∀ k, w.s.main ≠ .inline k) ∧ w.s.main ≠ .idle ∧ (∀ k, w.s.main ≠ .fronts k) ∧ (∀ k, w'.s.main ≠ .inline k) ∧ w'.s.main ≠ .idle ∧
      (∀ k, w'.s.main ≠ .fronts k) ∧ w'.s.main ≠ .asleep := by
    rcases hs with ⟨k, h1, h2⟩ | ⟨h1, h2⟩ <;> rw [h1, h2] <;> simp
  obtain ⟨m1, m2, m3, m4, m5, m6, m7⟩ := hmm
  have hsa : ∃ M, w'.s = { w.s with main := M } := by
    rcases hs with ⟨k, -, h2⟩ | ⟨-, h2⟩ <;> exact ⟨_, h2⟩
  obtain ⟨M, hM⟩ := hsa
  have e1 : w'.s.left = w.s.left := by rw [hM]
  have e2 : w'.s.fin = w.s.fin := by rw [hM]
  have e3 : w'.s.nrun = w.s.nrun := by rw [hM]
  have e4 : w'.s.jobs = w.s.jobs := by rw [hM]
  have e5 : w'.s.lastRet = w.s.lastRet := by rw [hM]
  have hnr := h.run m2
  have nn : ∀ l, NoW l (.load .fin true src v :: ops) := by
    intro l
    rcases hops with rfl | rfl <;> simp [NoW, WOp.Writes]
  have hi := h.s.inv hnr
  rw [allJobs_of m1, frs_of m3] at hi
  refine ⟨⟨fun h0 => absurd (e3 ▸ h0) hnr, fun _ => ?_, fun r hr => ?_, fun _ h0 => absurd h0 m5, fun h0 h1 => ?_⟩, ?_, by rw [hM]; exact h.nf, ?_, ?_,
    keep_vl h hl e1 (fun x => nn _), keep_vf h hl e2 (nn _), ?_, ?_, ?_, ?_⟩
  · rw [allJobs_of m4, frs_of m6, hM]
    exact hi.congr rfl rfl rfl rfl rfl rfl rfl rfl
  · rw [e5] at hr
    exact absurd (h.s.ret r hr).1 m2
  · rcases hs with ⟨k, -, h2⟩ | ⟨h2, h3⟩
    · rw [h2] at h0; simp at h0
    rw [e2] at h1
    obtain ⟨b, hb, -⟩ := h.f hnr
    rcases lastv_spec (ini c) w.log .fin with ⟨h5, -⟩ | ⟨p, a, h5, h6, h7⟩
    · exact absurd (⟨rfl, rfl⟩ : (WOp.store WLoc.fin true 0 : WkOp).Writes .fin 0) (h5 b _ 0 hb)
    rcases h.n hnr h1 p h7 with ⟨a', h8, h9⟩ | h8
    · rw [e4]
      rcases h9 with ⟨n, h9, -⟩ | ⟨h9, -⟩
      · exact List.mem_of_getElem? h9
      · exact absurd h9 (m1 _)
    · have := told_fresh h.l h.m (.inl h2) h.vf (coh_first (hl ▸ hc)) h7 h8
      omega
  · have e : mirror c w' = { (mirror c w).put 0 ((.load .fin true src v :: ops).map (mir c.totalEnd)) with s := w'.s } := by
      have : Visible.VSt.sends ((.load .fin true src v :: ops).map (mir c.totalEnd)) = false := by
        rw [sends_mir]; rcases hops with rfl | rfl <;> simp [WdSt.sends]
      simp only [mirror, Visible.VSt.put, this, hl, hqt, hjt, hx, List.map_append, List.map_map]
      rfl
    rw [e]
    have hb : c.totalEnd ≤ v.toNat ↔ False := by simp; omega
    refine Visible.KInv.main (oj := none) h.k (Visible.JEff.plain h.k.base ?_ ?_ ?_ ?_ (by simp) (.inl ⟨?_, ?_⟩)) m2 e4 e3
      (fun j hj => absurd hj (m4 j)) (fun r hr => absurd hr (m6 r)) m5
    · rcases hops with rfl | rfl <;> simp [mir, hb, Visible.dull]
    · rw [hM]; rfl
    · rw [hM]; rfl
    · rw [hM]; rfl
    · rw [hM]; rfl
    · rw [sends_mir]; rcases hops with rfl | rfl <;> simp [WdSt.sends]
  · exact evs_dull h hl (by rcases hops with rfl | rfl <;> simp)
  · rw [hl] at hc ⊢
    refine linv_ops h.l hc ⟨?_, ?_⟩
    · constructor <;> simp [Wf]
      intro hv2
      omega
    · exact opsOk_easy (by rcases hops with rfl | rfl <;> simp [easy])
  · rw [hl]
    refine h.m.keep ?_ (nn _)
    rcases hs with ⟨k, h1, h2⟩ | ⟨h1, h2⟩ <;> rw [h2] <;> simp [Holding, h1]
  · rw [hl, hx]
    exact h.tsk.ops (fun o ho m' x h5 => absurd h5 (nn (.task m') o ho x))
  · rw [hl]; exact h.f.keep e3 e2 (nn _)
  · exact h.n.keep hl e3 e2 (nn _) (fun t' ht' => .inl (at_same e4 hjt m1 ht'))

theorem core_use {c : DynCfg} {w w' : WdSt} (h : Core c w) (hc : Coherent (ini c) w'.log) {t n : Nat} {wr : Bool} (hs : w'.s = w.s)
    (hqt : w'.qt = w.qt) (hjt : w'.jt = w.jt) (hx : w'.next = w.next)
    (hl : w'.log = w.log ++ [WdSt.access n wr].map (fun o => ⟨t, o⟩)) : Core c w' := by
  have nn : ∀ l, NoW l [WdSt.access n wr] := by
    intro l
    cases wr <;> simp [NoW, WOp.Writes, WdSt.access]
  have f : ∀ t' k, At w t' k → At w' t' k := by
    intro t' k hk
    unfold At at hk ⊢
    rw [hs, hjt]; exact hk
  refine ⟨by rw [hs]; exact h.s, ?_, by rw [hs]; exact h.nf, evs_dull h hl (by cases wr <;> simp [WdSt.access]), ?_,
    keep_vl h hl (by rw [hs]) (fun x => nn _), keep_vf h hl (by rw [hs]) (nn _), ?_, ?_, ?_, ?_⟩
  · have e : mirror c w' = (mirror c w).put t ([WdSt.access n wr].map (mir c.totalEnd)) := by
      have : Visible.VSt.sends ([WdSt.access n wr].map (mir c.totalEnd)) = false := by
        cases wr <;> rfl
      simp only [mirror, Visible.VSt.put, this, hl, hqt, hjt, hx, hs, List.map_append, List.map_map]
      rfl
    rw [e]
    exact kinv_dull h.k t (by cases wr <;> simp [WdSt.access, mir, Visible.dull]) (by cases wr <;> rfl)
  · rw [hl] at hc ⊢
    exact linv_ops h.l hc (opsOk_easy (by cases wr <;> simp [WdSt.access, easy]))
  · rw [hl]; exact h.m.keep (by rw [hs]) (nn _)
  · rw [hl, hx]; exact h.tsk.ops (fun o ho m' x h5 => absurd h5 (nn (.task m') o ho x))
  · rw [hl]; exact h.f.keep (by rw [hs]) (by rw [hs]) (nn _)
  · exact h.n.keep hl (by rw [hs]) (by rw [hs]) (nn _) (fun t' ht' => .inl (f t' _ ht'))

theorem core_kind {c : DynCfg} (wf : c.g.WF) (ac : AcyclicOn c.g.Edge c.g.elems) {may : Eid → Nat → Bool → Bool} {w w' : WdSt} (h : Core c w)
    (hc : Coherent (ini c) w'.log) (hk : Kind c may w w') : Core c w' := by
  cases hk with
  | begin hm ha hx hjt hj hl h1 h2 h3 h4 hv => exact core_begin wf ac h hc hm hx hl h1 h2 h4 hv
  | job t j s1 oj src v hat hs hg ha hx hl h1 h2 h3 f1 f2 f3 hh hi hv => exact core_job wf ac h hc hs hg hx hl h1 h2 h3 f1 f3 hh hv
  | calm t ops e ha hx hl hs n1 n2 n3 n4 ho f1 f2 hh hi hv => exact core_calm wf ac h hc hx hl hs n1 n2 n3 ho f1 hh hv
  | low src v ops hv hops ha hl hx hqt hjt hs => exact core_low h hc hv hops hl hx hqt hjt hs
  | ret src v pre hv hops ha hl hx hjt hs hvis => exact (core_ret wf ac h hc hv hops hl hx hjt hs hvis).1
  | mutex o ha hl hx hjt hj hs ho hv => exact core_mutex wf ac h hc hl hx hjt hj hs ho hv
  | use t n wr oe hs hqt hjt hx hl ha hac => exact core_use h hc hs hqt hjt hx hl

end WeakDyn
end CGraph
