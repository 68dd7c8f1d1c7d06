import Verif.Lemmas.Mutable
import Verif.Props.Graph

/-! # Mutable groups: C83 -/
namespace CGraph
namespace MuSt
open Spec

theorem transGen_on {R R' : Eid → Eid → Prop} {C : List Eid} (h : ∀ a b, b ∈ C → R a b → R' a b ∧ a ∈ C) {u v : Eid}
    (hv : v ∈ C) (ht : Relation.TransGen R u v) : Relation.TransGen R' u v := by
  have key : Relation.TransGen R' u v ∧ u ∈ C := by
    induction ht using Relation.TransGen.head_induction_on with
    | single h1 => exact ⟨.single (h _ _ hv h1).1, (h _ _ hv h1).2⟩
    | head h1 _ ih => exact ⟨.head (h _ _ ih.2 h1).1 ih.1, (h _ _ ih.2 h1).2⟩
  exact key.1

theorem acyclicOn_congr {R R' : Eid → Eid → Prop} {C : List Eid} (h : ∀ a b, b ∈ C → (R a b ↔ R' a b))
    (hc : ∀ a b, b ∈ C → R a b → a ∈ C) : AcyclicOn R C ↔ AcyclicOn R' C := by
  constructor
  · intro ha v hv ht
    exact ha v hv (transGen_on (fun a b hb hr => ⟨(h a b hb).mpr hr, hc a b hb ((h a b hb).mpr hr)⟩) hv ht)
  · intro ha v hv ht
    exact ha v hv (transGen_on (fun a b hb hr => ⟨(h a b hb).mp hr, hc a b hb hr⟩) hv ht)

/-! ## What a run executes -/

/-- **C83** (structure).  Whatever happened to the group before, when `reshape` has made its calls without a refusal, the
children are related exactly by the arrows of this `reshape`, are visible exactly when it said so, and loop as often as it
said last, otherwise once. -/
theorem C83_structure (s : MuSt) (w : MuWF s) (ops : List RsOp) (hok : (s.setup.calls ops).2 = true) (e : Eid)
    (he : e ∈ s.children) :
    let s' := (s.setup.calls ops).1
    (∀ d, d ∈ (s'.h.elt e).deps ↔ Arrows ops d e) ∧
    (∀ d ∈ s.children, d ∈ (s'.h.elt e).succs ↔ Arrows ops e d) ∧
    s'.vis e = lastWord (saysVis e) false ops ∧
    s'.loop e = lastWord (saysLoop (s.timed e) e) 1 ops := by
  have w1 := setup_wf w
  have w2 := calls_wf w1 ops
  have nil : ∀ x ∈ s.children, (s.setup.h.elt x).deps = [] := by
    intro x hx; simp only [setup]; rw [Heap.mutableSetup_elt, if_pos hx]
  obtain ⟨h1, h2, h3⟩ := calls_effect w1 hok (e := e) he
  have hv : s.setup.vis e = false := by simp only [setup]; rw [if_pos he]
  have hl : s.setup.loop e = 1 := by simp only [setup]; rw [if_pos he]
  rw [hv] at h2
  rw [hl] at h3
  refine ⟨?_, ?_, h2, h3⟩
  · intro d; rw [h1, nil e he]; simp
  · intro d hd
    rw [w2.sym, (calls_effect w1 hok (e := d) hd).1, nil d hd]; simp

theorem acyclic_arrows {s : MuSt} (w : MuWF s) {ops : List RsOp} (hok : (s.setup.calls ops).2 = true) :
    AcyclicOn (s.setup.calls ops).1.cfg.g.Edge s.children ↔ AcyclicOn (Arrows ops) s.children := by
  have w2 := calls_wf (setup_wf w) ops
  have same := (setup_same s).trans (calls_same s.setup ops)
  refine acyclicOn_congr ?_ ?_
  · intro a b hb
    exact (C83_structure s w ops hok b hb).1 a
  · intro a b hb hab
    have := w2.inD b (by rw [same.children]; exact hb) a hab
    rw [same.children] at this; exact this

theorem isDag_arrows {s : MuSt} (w : MuWF s) {ops : List RsOp} (hok : (s.setup.calls ops).2 = true) (left : Eid → Int) :
    (s.setup.calls ops).1.cfg.g.isDag left = true ↔ AcyclicOn (Arrows ops) s.children := by
  have same := (setup_same s).trans (calls_same s.setup ops)
  rw [C23_cycle_detection_exact _ (cfg_wf (calls_wf (setup_wf w) ops)), ← acyclic_arrows w hok]
  show AcyclicOn _ (s.setup.calls ops).1.children ↔ _
  rw [same.children]

theorem parMatrix_some (c : DynCfg) {thd : Nat} (hthd : 1 ≤ thd) (hd : c.dagType = .parallel) :
    ∃ m, c.parMatrix thd = some m := by
  have hne : c.g.elems ≠ [] := by
    intro hnil
    unfold DynCfg.dagType at hd
    rw [hnil] at hd
    simp at hd
  have hend : c.g.elems.length = c.totalEnd := by
    unfold DynCfg.dagType at hd
    split_ifs at hd with h1 h2
    simp only [Bool.and_eq_true, decide_eq_true_eq] at h2
    exact h2.1
  have hpos : 1 ≤ c.totalEnd := by
    rw [← hend]; exact List.length_pos_iff.mpr hne
  unfold DynCfg.parMatrix
  rw [if_neg (by omega)]
  simp only
  rw [if_neg]
  · exact ⟨_, rfl⟩
  · intro h0
    by_cases hm : c.totalEnd % thd = 0
    · have h1 : c.totalEnd / thd = 0 := (Nat.add_eq_zero_iff.mp h0).1
      have := Nat.div_add_mod c.totalEnd thd
      rw [h1, hm] at this
      simp at this
      omega
    · rw [if_pos hm] at h0; exact Nat.succ_ne_zero _ h0

/-- **C83** (outcome).  A run is refused when `reshape` throws or fails; otherwise the engine finds a cycle exactly when the
arrows of this `reshape` have one, and is ready exactly when they have none. -/
theorem C83_outcome (s : MuSt) (w : MuWF s) (ops : List RsOp) (code : Int) (thd : Nat) (hthd : 1 ≤ thd) :
    ((s.run ops code thd).2 = .refused ↔ (s.setup.calls ops).2 = false ∨ code < 0) ∧
    ((s.run ops code thd).2 = .notDag ↔
      (s.setup.calls ops).2 = true ∧ 0 ≤ code ∧ ¬ AcyclicOn (Arrows ops) s.children) ∧
    ((s.run ops code thd).2 = .ready ↔
      (s.setup.calls ops).2 = true ∧ 0 ≤ code ∧ AcyclicOn (Arrows ops) s.children) := by
  cases hc : (s.setup.calls ops).2 with
  | false =>
    have : (s.run ops code thd).2 = .refused := by simp only [run, hc]; rfl
    rw [this]; simp
  | true =>
    by_cases hcode : code < 0
    · have : (s.run ops code thd).2 = .refused := by simp [run, hc, hcode]
      rw [this]; simp [hcode]
    · have h0 : 0 ≤ code := by omega
      have hrun : (s.run ops code thd).2 = ((s.setup.calls ops).1.engSetup thd).2 := by
        simp [run, hc, hcode]
      have hdag := isDag_arrows w hc (fun e => (((s.setup.calls ops).1.h.elt e).left : Int))
      rw [hrun]
      unfold engSetup
      by_cases ha : AcyclicOn (Arrows ops) s.children
      · rw [if_neg (by rw [hdag.mpr ha]; simp)]
        cases hk : (s.setup.calls ops).1.cfg.dagType with
        | parallel =>
          obtain ⟨m, hm⟩ := parMatrix_some _ hthd hk
          simp [hm, hcode, h0, ha]
        | serial => simp [hcode, h0, ha]
        | common => simp [hcode, h0, ha]
      · have : (s.setup.calls ops).1.cfg.g.isDag (fun e => (((s.setup.calls ops).1.h.elt e).left : Int)) = false := by
          cases hd : (s.setup.calls ops).1.cfg.g.isDag (fun e => (((s.setup.calls ops).1.h.elt e).left : Int)) with
          | false => rfl
          | true => exact absurd (hdag.mp hd) ha
        rw [this]
        simp [hcode, h0, ha]

/-! ## Independence of the past -/

section
variable {s t : MuSt}

theorem rel_fronts (r : MuRel s t) : t.cfg.fronts = s.cfg.fronts := by
  show t.children.filter _ = s.children.filter _
  rw [r.same.children]
  refine List.filter_congr fun e he => ?_
  show (t.h.elt e).deps.isEmpty = (s.h.elt e).deps.isEmpty
  rw [r.deps e he]

theorem rel_totalEnd (r : MuRel s t) : t.cfg.totalEnd = s.cfg.totalEnd := by
  show (t.children.filter _).length = (s.children.filter _).length
  rw [r.same.children]
  congr 1
  refine List.filter_congr fun e he => ?_
  show (t.h.elt e).succs.isEmpty = (s.h.elt e).succs.isEmpty
  rw [r.succs e he]

theorem rel_isLink (w : MuWF s) (r : MuRel s t) {e : Eid} (he : e ∈ s.children) : t.cfg.isLink e = s.cfg.isLink e := by
  have hs : t.cfg.g.succs e = s.cfg.g.succs e := r.succs e he
  have hb : t.cfg.bind = s.cfg.bind := r.same.bind
  have hsub : ∀ d ∈ s.cfg.g.succs e, t.cfg.g.deps d = s.cfg.g.deps d := fun d hd => r.deps d (w.inS e he d hd)
  unfold DynCfg.isLink
  rw [hs, hb]
  cases hl : s.cfg.g.succs e with
  | nil => rfl
  | cons x l =>
    cases l with
    | nil => simp only; rw [hsub x (by rw [hl]; simp)]
    | cons y l => rfl

theorem rel_shape (w : MuWF s) (r : MuRel s t) {e : Eid} (he : e ∈ s.children) : t.cfg.shapeOf e = s.cfg.shapeOf e := by
  have hs : t.cfg.g.succs e = s.cfg.g.succs e := r.succs e he
  have hsub : ∀ d ∈ s.cfg.g.succs e, t.cfg.g.deps d = s.cfg.g.deps d := fun d hd => r.deps d (w.inS e he d hd)
  have hall : (s.cfg.g.succs e).all (fun x => decide ((t.cfg.g.deps x).length = 1)) =
      (s.cfg.g.succs e).all (fun x => decide ((s.cfg.g.deps x).length = 1)) := by
    rw [Bool.eq_iff_iff, List.all_eq_true, List.all_eq_true]
    constructor
    · intro h x hx; rw [← hsub x hx]; exact h x hx
    · intro h x hx; rw [hsub x hx]; exact h x hx
  unfold DynCfg.shapeOf
  rw [rel_isLink w r he, hs, hall]

theorem rel_linked (w : MuWF s) (r : MuRel s t) : t.cfg.linkedSize = s.cfg.linkedSize := by
  show (t.children.filter _).length = (s.children.filter _).length
  rw [r.same.children]
  congr 1
  exact List.filter_congr fun e he => rel_isLink w r he

theorem rel_dagType (w : MuWF s) (r : MuRel s t) : t.cfg.dagType = s.cfg.dagType := by
  have he : t.cfg.g.elems = s.cfg.g.elems := r.same.children
  unfold DynCfg.dagType
  rw [rel_fronts r, rel_totalEnd r, rel_linked w r, he]

theorem rel_parMatrix (r : MuRel s t) (thd : Nat) : t.cfg.parMatrix thd = s.cfg.parMatrix thd := by
  have he : t.cfg.g.elems = s.cfg.g.elems := r.same.children
  unfold DynCfg.parMatrix
  rw [rel_totalEnd r, he]

theorem rel_isDag (w : MuWF s) (wt : MuWF t) (r : MuRel s t) (l l' : Eid → Int) : t.cfg.g.isDag l' = s.cfg.g.isDag l := by
  rw [Bool.eq_iff_iff, C23_cycle_detection_exact _ (cfg_wf wt), C23_cycle_detection_exact _ (cfg_wf w)]
  show AcyclicOn _ t.children ↔ AcyclicOn _ s.children
  rw [r.same.children]
  refine acyclicOn_congr ?_ ?_
  · intro a b hb
    show a ∈ (t.h.elt b).deps ↔ a ∈ (s.h.elt b).deps
    rw [r.deps b hb]
  · intro a b hb hab
    have := wt.inD b (r.same.children ▸ hb) a hab
    rwa [r.same.children] at this

end

/-- **C83** (each run starts anew).  Take the group in any two states of its life, for instance after any number of runs and
newly created: the same `reshape` has the same outcome, and when the engine is ready it finds the same relations, counters,
visibility, loops and shapes of the children and has the same arrays. -/
theorem C83_anew (s t : MuSt) (ws : MuWF s) (wt : MuWF t) (h : MuSame s t) (ops : List RsOp) (code : Int) (thd : Nat) :
    (t.run ops code thd).2 = (s.run ops code thd).2 ∧
    ((s.run ops code thd).2 = .ready → MuReady (s.run ops code thd).1 (t.run ops code thd).1) := by
  obtain ⟨r, hr⟩ := calls_rel (setup_rel h) ops
  have w1 := calls_wf (setup_wf ws) ops
  have w2 := calls_wf (setup_wf wt) ops
  unfold run
  simp only [hr]
  by_cases hbad : (!(s.setup.calls ops).2 || decide (code < 0)) = true
  · simp [hbad]
  · rw [if_neg hbad, if_neg hbad]
    generalize (s.setup.calls ops).1 = a at r w1
    generalize (t.setup.calls ops).1 = b at r w2
    have hdag := rel_isDag w1 w2 r (fun e => ((a.h.elt e).left : Int)) (fun e => ((b.h.elt e).left : Int))
    have hch : b.children = a.children := r.same.children
    have hd : ∀ e ∈ a.children, (b.resetLeft.h.elt e).deps = (a.resetLeft.h.elt e).deps := fun e he => by
      rw [resetLeft_deps, resetLeft_deps, r.deps e he]
    have hs : ∀ e ∈ a.children, (b.resetLeft.h.elt e).succs = (a.resetLeft.h.elt e).succs := fun e he => by
      rw [resetLeft_succs, resetLeft_succs, r.succs e he]
    have hl : ∀ e ∈ a.children, (b.resetLeft.h.elt e).left = (a.resetLeft.h.elt e).left := fun e he => by
      simp only [resetLeft]
      rw [if_pos he, if_pos (by rw [hch]; exact he)]
      simp only
      rw [r.deps e he]
    have hsh : ∀ e ∈ a.children, (if e ∈ b.children then b.cfg.shapeOf e else b.shape e) =
        (if e ∈ a.children then a.cfg.shapeOf e else a.shape e) := fun e he => by
      rw [if_pos he, if_pos (by rw [hch]; exact he), rel_shape w1 r he]
    unfold engSetup
    rw [hdag]
    by_cases hg : (!a.cfg.g.isDag fun e => ((a.h.elt e).left : Int)) = true
    · rw [if_pos hg, if_pos hg]
      exact ⟨rfl, fun h => by cases h⟩
    · rw [if_neg hg, if_neg hg, rel_dagType w1 r, rel_parMatrix r]
      cases a.cfg.dagType with
      | parallel =>
        cases hm : a.cfg.parMatrix thd with
        | none => exact ⟨rfl, fun h => by cases h⟩
        | some m =>
          exact ⟨rfl, fun _ => ⟨hd, hs, hl, r.vis, r.loop, hsh, hch, rel_fronts r, rel_totalEnd r, rel_linked w1 r,
            rfl, fun _ => rfl⟩⟩
      | serial =>
        exact ⟨rfl, fun _ => ⟨hd, hs, hl, r.vis, r.loop, hsh, hch, rel_fronts r, rel_totalEnd r, rel_linked w1 r,
            rfl, fun h => by cases h⟩⟩
      | common =>
        exact ⟨rfl, fun _ => ⟨hd, hs, hl, r.vis, r.loop, hsh, hch, rel_fronts r, rel_totalEnd r, rel_linked w1 r,
            rfl, fun h => by cases h⟩⟩

/-- **C83** (histories).  The hypotheses of `C83_anew` hold after every history of runs. -/
theorem C83_history (s : MuSt) (w : MuWF s) (l : List (List RsOp × Int × Nat)) :
    MuWF (l.foldl (fun x o => (x.run o.1 o.2.1 o.2.2).1) s) ∧
    MuSame s (l.foldl (fun x o => (x.run o.1 o.2.1 o.2.2).1) s) := by
  induction l generalizing s with
  | nil => exact ⟨w, MuSame.refl s⟩
  | cons o l ih =>
    obtain ⟨h1, h2⟩ := ih _ (run_wf w o.1 o.2.1 o.2.2)
    exact ⟨h1, (run_same s o.1 o.2.1 o.2.2).trans h2⟩

/-- **C83** (ready).  When the engine is ready, its arrays and the shapes of the children are those of the relations of this
run, and the counters are the numbers of dependencies: the engine starts as in `DynSt.init`. -/
theorem C83_ready (s : MuSt) (ops : List RsOp) (code : Int) (thd : Nat)
    (hr : (s.run ops code thd).2 = .ready) :
    let s' := (s.run ops code thd).1
    s'.eng.total = s.children ∧ s'.eng.fronts = s'.cfg.fronts ∧ s'.eng.ends = s'.cfg.totalEnd ∧
    s'.eng.kind = s'.cfg.dagType ∧ (∀ e ∈ s.children, s'.shape e = s'.cfg.shapeOf e) ∧
    (∀ e ∈ s.children, ((s'.h.elt e).left : Int) = (DynSt.init s'.cfg).left e) ∧
    (s'.eng.kind = .parallel → s'.cfg.parMatrix thd = some s'.eng.matrix) := by
  unfold run at hr ⊢
  simp only at hr ⊢
  have same := (setup_same s).trans (calls_same s.setup ops)
  by_cases hbad : (!(s.setup.calls ops).2 || decide (code < 0)) = true
  · rw [if_pos hbad] at hr; cases hr
  · rw [if_neg hbad] at hr ⊢
    have hch := same.children
    generalize (s.setup.calls ops).1 = a at hr hch ⊢
    rw [← hch]
    -- the configuration is not changed by the engine
    have hcfg : ∀ x : MuSt, x.h = a.resetLeft.h → x.children = a.children → x.bind = a.bind → x.cfg = a.cfg := by
      intro x h1 h2 h3
      unfold cfg Heap.graph
      rw [h1, h2, h3]
      congr 2 <;> funext e
      · exact resetLeft_deps a e
      · exact resetLeft_succs a e
    have hc : ∀ (sh : Eid → Shape) (en : MuEng), ({ a.resetLeft with shape := sh, eng := en } : MuSt).cfg = a.cfg :=
      fun sh en => hcfg _ rfl rfl rfl
    have hleft : ∀ x : MuSt, x.h = a.resetLeft.h → ∀ c : DynCfg, c = a.cfg → ∀ e ∈ a.children,
        ((x.h.elt e).left : Int) = (DynSt.init c).left e := by
      intro x hx c hc e he
      rw [hx, hc]
      show ((a.resetLeft.h.elt e).left : Int) = if e ∈ a.children then (((a.h.elt e).deps.length : Nat) : Int) else 0
      rw [if_pos he]
      simp only [resetLeft]
      rw [if_pos he]
    unfold engSetup at hr ⊢
    by_cases hg : (!a.cfg.g.isDag fun e => ((a.h.elt e).left : Int)) = true
    · rw [if_pos hg] at hr; cases hr
    · rw [if_neg hg] at hr ⊢
      cases hk : a.cfg.dagType with
      | parallel =>
        simp only [hk] at hr ⊢
        cases hm : a.cfg.parMatrix thd with
        | none => simp only [hm] at hr; cases hr
        | some m =>
          simp only
          rw [hc]
          exact ⟨trivial, rfl, rfl, hk.symm, fun e he => if_pos he, hleft _ rfl _ rfl, fun _ => hm⟩
      | serial =>
        simp only
        rw [hc]
        exact ⟨trivial, rfl, rfl, hk.symm, fun e he => if_pos he, hleft _ rfl _ rfl, fun h => by cases h⟩
      | common =>
        simp only
        rw [hc]
        exact ⟨trivial, rfl, rfl, hk.symm, fun e he => if_pos he, hleft _ rfl _ rfl, fun h => by cases h⟩

/-! ## Init and destroy -/

theorem run_children (s : MuSt) (ops : List RsOp) (code : Int) (thd : Nat) : (s.run ops code thd).1.children = s.children :=
  (run_same s ops code thd).children

/-- **C83** (life cycle).  Although every run makes children invisible, `init` and `destroy` of the group reach all of them,
in every history that starts with visible children. -/
theorem C83_life (s : MuSt) (hv : ∀ e ∈ s.children, s.vis e = true) (l : List MuOp) :
    ∀ seen ∈ (l.foldl MuLife.step ⟨s, false, []⟩).seen, seen = s.children := by
  have gen : ∀ (l : List MuOp) (x : MuLife), x.s.children = s.children →
      (x.up = false → ∀ e ∈ s.children, x.s.vis e = true) → (∀ seen ∈ x.seen, seen = s.children) →
      ∀ seen ∈ (l.foldl MuLife.step x).seen, seen = s.children := by
    intro l
    induction l with
    | nil => intro x _ _ h; exact h
    | cons o l ih =>
      intro x h1 h2 h3
      refine ih _ ?_ ?_ ?_
      · cases o with
        | init => simp only [MuLife.step]; split_ifs <;> exact h1
        | run ops code thd =>
          simp only [MuLife.step]; split_ifs
          · exact (run_children x.s ops code thd).trans h1
          · exact h1
        | destroy => simp only [MuLife.step]; split_ifs <;> exact h1
      · cases o with
        | init =>
          simp only [MuLife.step]; split_ifs with h
          · exact h2
          · intro h'; cases h'
        | run ops code thd =>
          simp only [MuLife.step]; split_ifs with h
          · intro h'; simp only at h'; rw [h] at h'; cases h'
          · exact h2
        | destroy =>
          simp only [MuLife.step]; split_ifs with h
          · intro _ e he; simp only [destroy]; rw [h1, if_pos he]
          · exact h2
      · cases o with
        | init =>
          simp only [MuLife.step]; split_ifs with h
          · exact h3
          · intro seen hs
            rcases List.mem_append.mp hs with hs | hs
            · exact h3 seen hs
            · rw [List.mem_singleton.mp hs]
              show x.s.children.filter x.s.vis = s.children
              rw [h1]
              exact List.filter_eq_self.mpr (h2 (by simpa using h))
        | run ops code thd => simp only [MuLife.step]; split_ifs <;> exact h3
        | destroy =>
          simp only [MuLife.step]; split_ifs with h
          · intro seen hs
            rcases List.mem_append.mp hs with hs | hs
            · exact h3 seen hs
            · rw [List.mem_singleton.mp hs]
              show x.s.children.filter (fun e => if e ∈ x.s.children then true else x.s.vis e) = s.children
              rw [h1]
              refine List.filter_eq_self.mpr fun e he => by simp [he]
          · exact h3
  exact gen l _ rfl (fun _ => hv) (by simp)

/-! ## A cycle -/

theorem calls_eng : ∀ (l : List RsOp) (x : MuSt), (x.calls l).1.eng = x.eng := by
  intro l
  induction l with
  | nil => intro x; rfl
  | cons o l ih =>
    intro x
    have hc : (x.call o).1.eng = x.eng := by
      cases o with
      | arrow a b =>
        cases b with
        | none => simp only [call, greater, setVis]; split_ifs <;> rfl
        | some b =>
          cases h : x.arrowOk a b with
          | true => rw [arrow_ok h]
          | false => rw [arrow_bad h]; simp only [setVis]; split_ifs <;> rfl
      | «show» a => simp only [call, setVis]; split_ifs <;> rfl
      | times a n => simp only [call, putLoop]; split_ifs <;> rfl
      | setLoop a n => simp only [call, putLoop]; split_ifs <;> rfl
      | setVisible a v => simp only [call, setVis]; split_ifs <;> rfl
    simp only [calls]
    split_ifs
    · rw [ih, hc]
    · exact hc

theorem run_eng (s : MuSt) (ops : List RsOp) (code : Int) (thd : Nat)
    (hr : (s.run ops code thd).2 = .refused ∨ (s.run ops code thd).2 = .notDag) : (s.run ops code thd).1.eng = s.eng := by
  unfold run at hr ⊢
  simp only at hr ⊢
  split_ifs at hr ⊢ with h1
  · exact (calls_eng ops s.setup)
  · unfold engSetup at hr ⊢
    split_ifs at hr ⊢ with h2
    · exact (calls_eng ops s.setup)
    · exfalso
      revert hr
      cases (s.setup.calls ops).1.cfg.dagType with
      | parallel => cases h : (s.setup.calls ops).1.cfg.parMatrix thd <;> simp [h]
      | serial => simp
      | common => simp

/-- **C83** (cycle, partial).  When the relations have a cycle and no run since the last `init` got beyond the shape test
(`l` are those runs), the arrays of the engine are empty and it executes nothing, whatever happened before that `init`.  The
full statement, that nothing is executed in any case, is false (`C83_cyclic_violated`, `C83_stale_violated`). -/
theorem C83_cyclic_partial (t : MuSt) (l : List (List RsOp × Int × Nat))
    (hl : ∀ a o b, l = a ++ o :: b →
      ((a.foldl (fun x o => (x.run o.1 o.2.1 o.2.2).1) t.init).run o.1 o.2.1 o.2.2).2 ∈ [MuOut.refused, .notDag])
    (ops : List RsOp) (code : Int) (thd : Nat)
    (hr : ((l.foldl (fun x o => (x.run o.1 o.2.1 o.2.2).1) t.init).run ops code thd).2 = .notDag) (fp : Eid → CStatus)
    (n : Nat) :
    let s := ((l.foldl (fun x o => (x.run o.1 o.2.1 o.2.2).1) t.init).run ops code thd).1
    s.eng = .fresh ∧ s.serialRun fp n = [] := by
  intro s
  have gen : ∀ (l : List (List RsOp × Int × Nat)) (x : MuSt), x.eng = .fresh →
      (∀ a o b, l = a ++ o :: b →
        ((a.foldl (fun x o => (x.run o.1 o.2.1 o.2.2).1) x).run o.1 o.2.1 o.2.2).2 ∈ [MuOut.refused, .notDag]) →
      (l.foldl (fun x o => (x.run o.1 o.2.1 o.2.2).1) x).eng = .fresh := by
    intro l
    induction l with
    | nil => intro x h _; exact h
    | cons o l ih =>
      intro x h hx
      refine ih _ ?_ fun a o' b e => hx (o :: a) o' b (by rw [e]; rfl)
      have := hx [] o l rfl
      rw [run_eng x _ _ _ (by simpa using this)]; exact h
  have hkeep : s.eng = .fresh := by
    show (MuSt.run _ ops code thd).1.eng = _
    rw [run_eng _ _ _ _ (.inr hr)]
    exact gen l t.init rfl hl
  refine ⟨hkeep, ?_⟩
  unfold serialRun
  rw [hkeep]; rfl

/-- A new mutable group `9` with the given children. -/
def muNew (cs : List Eid) : MuSt :=
  { h := ⟨fun e => if e = 9 then { isMutableGroup := true } else if e ∈ cs then { belong := some 9 } else {}⟩
    vis := fun _ => true
    loop := fun _ => 1
    timed := fun _ => false
    shape := fun _ => .normal
    bind := fun _ => -1
    group := 9
    children := cs
    eng := .fresh }

theorem muNew_wf {cs : List Eid} (h : cs.Nodup) (h9 : 9 ∉ cs) : MuWF (muNew cs) := by
  have hd : ∀ e, ((muNew cs).h.elt e).deps = [] := by intro e; simp only [muNew]; split_ifs <;> rfl
  have hs : ∀ e, ((muNew cs).h.elt e).succs = [] := by intro e; simp only [muNew]; split_ifs <;> rfl
  refine ⟨h, ?_, ?_, ?_, ?_, ?_, ?_, ?_, ?_⟩
  · intro e
    simp only [muNew]
    split_ifs with h1 h2
    · subst h1; simp [h9]
    · simp [h2]
    · simp [h2]
  · simp [muNew]
  · intro a b; rw [hd, hs]; simp
  · intro e; rw [hd]; simp
  · intro e; rw [hs]; simp
  · intro e; rw [hd]; simp
  · intro e _ d; rw [hd]; simp
  · intro e _ d; rw [hs]; simp

theorem loop_forever {g : Graph} (h1 : g.succs 1 = [2]) (h2 : g.succs 2 = [1]) (n : Nat) :
    (DynCfg.serialLoop g (fun _ => CStatus.ok) n 1 CStatus.ok).1.length = n ∧
    (DynCfg.serialLoop g (fun _ => CStatus.ok) n 2 CStatus.ok).1.length = n := by
  induction n with
  | zero => exact ⟨rfl, rfl⟩
  | succ n ih =>
    have hadd : CStatus.ok.add CStatus.ok = CStatus.ok := by decide
    have herr : CStatus.ok.isErr = false := by decide
    constructor
    · simp [DynCfg.serialLoop, h1, hadd, herr, ih.2]
    · simp [DynCfg.serialLoop, h2, hadd, herr, ih.1]

/-- **C83 is false of the code** for cycles: a group of two elements is run once as the chain 1, 2, and then with arrows in
both directions.  The second run is found not to be a DAG, but the engine runs nevertheless with the arrays of the first run:
it calls 1, 2, 1, 2, … and never ends. -/
theorem C83_cyclic_violated :
    let s := ((muNew [1, 2]).init.run [.arrow 1 (some 2)] 0 8).1
    let r := s.run [.arrow 1 (some 2), .arrow 2 (some 1)] 0 8
    r.2 = .notDag ∧ r.1.eng.kind = .serial ∧ r.1.vis 1 = true ∧ r.1.vis 2 = true ∧
    ∀ n, (r.1.serialRun (fun _ => CStatus.ok) n).length = n := by
  refine ⟨by decide +kernel, by decide +kernel, by decide +kernel, by decide +kernel, ?_⟩
  intro n
  have hf : (((muNew [1, 2]).init.run [.arrow 1 (some 2)] 0 8).1.run [.arrow 1 (some 2), .arrow 2 (some 1)] 0 8).1.eng.fronts
      = [1] := by decide +kernel
  unfold serialRun
  rw [hf]
  exact (loop_forever (by decide +kernel) (by decide +kernel) n).1

/-- **C83 is false of the code** for cycles: after a run that fans out from 1 to 2 and 3, the second run (1 alone, and a
cycle of 2 and 3) is found not to be a DAG.  The engine starts element 1 nevertheless, whose kept shape has it look at its
successors, of which there are none: none of the two ends that the engine waits for is ever counted. -/
theorem C83_stale_violated :
    let s := ((muNew [1, 2, 3]).init.run [.arrow 1 (some 2), .arrow 1 (some 3)] 0 8).1
    let r := s.run [.show 1, .arrow 2 (some 3), .arrow 3 (some 2)] 0 8
    r.2 = .notDag ∧ r.1.eng.kind = .common ∧ r.1.eng.fronts = [1] ∧ r.1.eng.ends = 2 ∧ r.1.shape 1 = .root ∧
    (r.1.h.elt 1).succs = [] ∧ r.1.vis 1 = true := by
  refine ⟨?_, ?_, ?_, ?_, ?_, ?_, ?_⟩ <;> decide +kernel

/-! ## Cases -/

/-- A run of five children: 1 before 2 and 3, 4 alone and twice, 5 not mentioned, after a run with other relations. -/
def muDemo : MuSt := ((muNew [1, 2, 3, 4, 5]).init.run [.arrow 5 (some 4), .arrow 4 (some 1), .times 2 7] 0 8).1

def muOps : List RsOp := [.arrow 1 (some 2), .arrow 1 (some 3), .show 4, .times 4 2, .arrow 1 (some 2)]

example : MuWF muDemo ∧ MuSame (muNew [1, 2, 3, 4, 5]).init muDemo :=
  have w : MuWF (muNew [1, 2, 3, 4, 5]).init := muNew_wf (by decide) (by decide)
  ⟨run_wf w _ _ _, run_same _ _ _ _⟩

example : (muDemo.setup.calls muOps).2 = true ∧ (muDemo.run muOps 0 8).2 = .ready := by
  constructor <;> decide +kernel

example : ((muDemo.run muOps 0 8).1.h.elt 1).succs = [2, 3] ∧ ((muDemo.run muOps 0 8).1.h.elt 4).succs = [] ∧
    ((muDemo.run muOps 0 8).1.children.filter (muDemo.run muOps 0 8).1.vis) = [1, 2, 3, 4] ∧
    (muDemo.run muOps 0 8).1.loop 4 = 2 ∧ (muDemo.run muOps 0 8).1.loop 2 = 1 ∧
    (muDemo.run muOps 0 8).1.eng.fronts = [1, 4, 5] := by
  refine ⟨?_, ?_, ?_, ?_, ?_, ?_⟩ <;> decide +kernel

/-- Refusals: an arrow to an element outside the group, a null pointer, a failing code. -/
example : (muDemo.run [.arrow 1 (some 7)] 0 8).2 = .refused ∧ (muDemo.run [.arrow 1 none] 0 8).2 = .refused ∧
    (muDemo.run [] (-1) 8).2 = .refused := by
  refine ⟨?_, ?_, ?_⟩ <;> decide +kernel

/-- A life with a ready run, then a new life: a refused run, and one with a cycle, which executes nothing. -/
example : (((muDemo.destroy.init.run [] (-1) 8).1).run [.arrow 1 (some 2), .arrow 2 (some 1)] 0 8).2 = .notDag ∧
    ∀ a o b, [(([] : List RsOp), (-1 : Int), 8)] = a ++ o :: b →
      ((a.foldl (fun x o => (x.run o.1 o.2.1 o.2.2).1) muDemo.destroy.init).run o.1 o.2.1 o.2.2).2
        ∈ [MuOut.refused, .notDag] := by
  refine ⟨by decide +kernel, fun a o b h => ?_⟩
  cases a with
  | nil => cases h; decide +kernel
  | cons c a => simp at h

/-- Two lives: all children are reached although element 2 was invisible in between. -/
example : ([MuOp.init, .run [.show 1] 0 8, .run [.show 1] (-1) 8, .destroy, .init, .destroy].foldl MuLife.step
    ⟨muNew [1, 2], false, []⟩).seen = [[1, 2], [1, 2], [1, 2], [1, 2]] := by decide +kernel

end MuSt
end CGraph
