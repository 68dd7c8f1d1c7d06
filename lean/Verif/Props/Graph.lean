import Verif.Lemmas.Graph
import Verif.Lemmas.Kahn
import Verif.Lemmas.StaticRun

/-! # C21 – C25, C64: dependency registration, cycle detection, topology and static engines -/
namespace CGraph
open Spec

/-! ## C21 -/

/-- **C21** (relation): after every history of calls — failing ones included — successor and dependency
records mirror each other, nothing is recorded twice and no element depends on itself. -/
theorem C21_relation_symmetric (ops : List GraphOp) :
    let h := ops.foldl Heap.step Heap.empty
    (∀ a b, b ∈ (h.elt a).succs ↔ a ∈ (h.elt b).deps) ∧
    (∀ e, (h.elt e).deps.Nodup ∧ (h.elt e).succs.Nodup) ∧ (∀ e, e ∉ (h.elt e).deps) :=
  ⟨(Heap.inv_run ops).sym, fun e => ⟨(Heap.inv_run ops).dn e, (Heap.inv_run ops).sn e⟩, (Heap.inv_run ops).irr⟩

/-- The call returned OK (calls without a status count as OK). -/
def Heap.stepOk (h : Heap) : GraphOp → Bool
  | .addDepend t es => (h.addDepend t es).2
  | .removeDepend t e => (h.removeDepend t e).2
  | _ => true

/-- All `addDepend` calls of a history returned OK. -/
def Heap.addsOk (h : Heap) : List GraphOp → Bool
  | [] => true
  | o :: os => (match o with | .addDepend _ _ => h.stepOk o | _ => true) && Heap.addsOk (h.step o) os

/-- **C21** (counter, partial): if no dependency addition was refused, the pending counter of every element
is its number of dependencies.  Missing: histories with a refused addition, see
`C21_counter_after_failure_violated`. -/
theorem C21_counter_partial (ops : List GraphOp) (hok : Heap.empty.addsOk ops = true) (e : Eid) :
    ((ops.foldl Heap.step Heap.empty).elt e).left = ((ops.foldl Heap.step Heap.empty).elt e).deps.length := by
  have gen : ∀ (ops : List GraphOp) (h : Heap), (∀ e, (h.elt e).left = (h.elt e).deps.length) →
      h.addsOk ops = true → ∀ e, ((ops.foldl Heap.step h).elt e).left
        = ((ops.foldl Heap.step h).elt e).deps.length := by
    intro ops
    induction ops with
    | nil => intro h hi _; exact hi
    | cons o os ih =>
      intro h hi hk
      simp only [Heap.addsOk, Bool.and_eq_true] at hk
      refine ih (h.step o) ?_ hk.2
      cases o with
      | addDepend t es =>
        have h1 := hk.1
        simp only [Heap.stepOk, Heap.addDepend] at h1
        simp only [Heap.step, Heap.addDepend]
        split at h1
        · cases h1
        · rename_i hc
          rw [if_neg hc]
          exact Heap.addLoop_left t es h1 (fun e _ => hi e)
      | removeDepend t e => exact Heap.removeDepend_left t e hi
      | adopt g x => intro a; simp only [Heap.step, Heap.adopt, Heap.upd]; grind
      | setInit x b => intro a; simp only [Heap.step, Heap.setInit, Heap.upd]; grind
      | markMutable x => intro a; simp only [Heap.step, Heap.upd]; grind
  exact gen ops Heap.empty (by simp [Heap.empty]) hok e

/-- **C21** (counter) is false in general: element 3 depends on {1, 2}, 2 sits in a group, so the call is
refused after 1 was recorded; the counter stays 0 while one dependency is recorded. -/
theorem C21_counter_after_failure_violated :
    let h := [GraphOp.adopt 9 2, .addDepend 3 [some 1, some 2]].foldl Heap.step Heap.empty
    (h.elt 3).deps = [1] ∧ (h.elt 3).left = 0 := by decide

/-- **C21** (mutable groups): clearing the children of a mutable group keeps the relation symmetric when no
child is linked to an outside element. -/
theorem C21_mutable_setup (h : Heap) (i : h.Inv) (cs : List Eid)
    (hin : ∀ c ∈ cs, (∀ d ∈ (h.elt c).deps, d ∈ cs) ∧ (∀ d ∈ (h.elt c).succs, d ∈ cs)) :
    (h.mutableSetup cs).Inv ∧ ∀ c ∈ cs, ((h.mutableSetup cs).elt c).deps = [] ∧
      ((h.mutableSetup cs).elt c).succs = [] := by
  have elt : ∀ (cs : List Eid) (h : Heap) (a : Eid),
      ((h.mutableSetup cs).elt a).deps = (if a ∈ cs then [] else (h.elt a).deps) ∧
      ((h.mutableSetup cs).elt a).succs = (if a ∈ cs then [] else (h.elt a).succs) := by
    intro cs
    induction cs with
    | nil => intro h a; simp [Heap.mutableSetup]
    | cons c cs ih =>
      intro h a
      simp only [Heap.mutableSetup]
      rw [(ih _ a).1, (ih _ a).2]
      simp only [Heap.upd]
      by_cases h1 : a ∈ cs <;> by_cases h2 : a = c <;> simp [h1, h2]
  obtain ⟨sym, dn, sn, irr⟩ := i
  refine ⟨⟨?_, ?_, ?_, ?_⟩, ?_⟩
  · intro a b
    rw [(elt cs h a).2, (elt cs h b).1]
    have := sym a b
    by_cases h1 : a ∈ cs <;> by_cases h2 : b ∈ cs <;> simp only [h1, h2, if_true, if_false] <;> grind
  · intro e; rw [(elt cs h e).1]; have := dn e; split <;> simp [*]
  · intro e; rw [(elt cs h e).2]; have := sn e; split <;> simp [*]
  · intro e; rw [(elt cs h e).1]; have := irr e; split <;> simp [*]
  · intro c hc; rw [(elt cs h c).1, (elt cs h c).2]; simp [hc]

/-- Without that condition the relation becomes asymmetric: 2 depends on 1, then 2 is put into a mutable
group; after the group's setup 1 still lists 2 as a successor. -/
theorem C21_mutable_setup_violated :
    let h := ([GraphOp.addDepend 2 [some 1], .markMutable 9, .adopt 9 2].foldl Heap.step Heap.empty).mutableSetup [2]
    2 ∈ (h.elt 1).succs ∧ 1 ∉ (h.elt 2).deps := by decide

/-- Link to the engines: the graph of any history is well formed when the elements handed to the engine are
closed under dependencies and successors. -/
theorem C21_engine_graph (ops : List GraphOp) (elems : List Eid) (hn : elems.Nodup)
    (hd : ∀ e ∈ elems, ∀ d ∈ ((ops.foldl Heap.step Heap.empty).elt e).deps, d ∈ elems)
    (hs : ∀ e ∈ elems, ∀ d ∈ ((ops.foldl Heap.step Heap.empty).elt e).succs, d ∈ elems) :
    ((ops.foldl Heap.step Heap.empty).graph elems).WF :=
  ⟨⟨hn, fun e _ => (Heap.inv_run ops).dn e, fun e _ => (Heap.inv_run ops).sn e, (Heap.inv_run ops).sym, hs⟩, hd⟩

example : (([GraphOp.addDepend 2 [some 1], .addDepend 3 [some 1, some 2], .removeDepend 3 (some 1),
    .addDepend 4 [some 4, some 3]].foldl Heap.step Heap.empty).elt 1).succs = [2] := by decide

/-! ## C22 -/

/-- **C22** is false: a refused call has already recorded the dependencies that precede the offending
one. -/
theorem C22_failed_registration_violated : ∃ (h : Heap) (t : Eid) (es : List (Option Eid)),
    (h.addDepend t es).2 = false ∧ ((h.addDepend t es).1.elt t).deps ≠ (h.elt t).deps :=
  ⟨[GraphOp.adopt 9 2].foldl Heap.step Heap.empty, 3, [some 1, some 2], by decide⟩

/-- **C22** (what holds): a refused call either changed nothing because the element was initialised, or
there is a first offending entry (null, or member of another group) and exactly the entries before it were
recorded.  Missing: that these are rolled back. -/
theorem C22_refused_prefix_partial (h : Heap) (t : Eid) (es : List (Option Eid))
    (hr : (h.addDepend t es).2 = false) :
    ((h.addDepend t es).1 = h ∧ (h.elt t).isInit = true) ∨
    ∃ pre bad post, es = pre ++ bad :: post ∧
      (bad = none ∨ ∃ e, bad = some e ∧ (h.elt e).belong ≠ (h.elt t).belong) ∧
      (∀ x, x ∈ ((h.addDepend t es).1.elt t).deps ↔ x ∈ (h.elt t).deps ∨ (some x ∈ pre ∧ x ≠ t)) := by
  unfold Heap.addDepend at hr ⊢
  split at hr
  · rename_i hc
    left
    rw [if_pos hc]
    simp only [Bool.and_eq_true] at hc
    exact ⟨rfl, hc.2⟩
  · rename_i hc
    right
    rw [if_neg hc]
    have gen : ∀ (es : List (Option Eid)) (g : Heap), (∀ e, (g.elt e).belong = (h.elt e).belong) →
        (g.addLoop t es).2 = false →
        ∃ pre bad post, es = pre ++ bad :: post ∧
        (bad = none ∨ ∃ e, bad = some e ∧ (h.elt e).belong ≠ (h.elt t).belong) ∧
        (∀ x, x ∈ ((g.addLoop t es).1.elt t).deps ↔ x ∈ (g.elt t).deps ∨ (some x ∈ pre ∧ x ≠ t)) := by
      intro es
      induction es with
      | nil => intro g _ h2; simp [Heap.addLoop] at h2
      | cons x es ih =>
        intro g hb h2
        cases x with
        | none => exact ⟨[], none, es, rfl, Or.inl rfl, by simp [Heap.addLoop]⟩
        | some e =>
          simp only [Heap.addLoop] at h2 ⊢
          split at h2
          · rename_i hne
            rw [if_pos hne]
            exact ⟨[], some e, es, rfl, Or.inr ⟨e, rfl, by rw [← hb, ← hb]; exact hne⟩, by simp⟩
          · rename_i hne
            rw [if_neg hne]
            split at h2
            · rename_i hte
              rw [if_pos hte]
              obtain ⟨pre, bad, post, h3, h4, h5⟩ := ih g hb h2
              refine ⟨some e :: pre, bad, post, by rw [h3]; rfl, h4, ?_⟩
              intro x; rw [h5 x]; grind
            · rename_i hte
              rw [if_neg hte]
              obtain ⟨pre, bad, post, h3, h4, h5⟩ := ih (g.link t e)
                (fun a => by rw [(Heap.elt_link_rest g t e a).1]; exact hb a) h2
              refine ⟨some e :: pre, bad, post, by rw [h3]; rfl, h4, ?_⟩
              intro x
              rw [h5 x, Heap.elt_link_deps g t e hte, if_pos rfl, Heap.mem_insertU]
              have : e ≠ t := fun h => hte h.symm
              grind
    exact gen es h (fun _ => rfl) hr

/-! ## C23 -/

/-- **C23**: on a well-formed graph the DAG test used by init (whatever stale counters other elements have)
accepts exactly the graphs in which no registered element transitively depends on itself. -/
theorem C23_cycle_detection_exact (g : Graph) (w : g.WF) (left0 : Eid → Int) :
    g.isDag left0 = true ↔ AcyclicOn g.Edge g.elems := by
  obtain ⟨hord, hnd, hsub, hcl⟩ := Graph.getTopo_spec w.toWF0 left0
  simp only [Graph.isDag, beq_iff_eq]
  constructor
  · intro hlen v hv
    have := Graph.subset_of_length_eq hnd hsub (by omega) v hv
    exact Graph.acyclic_of_ordered hord v this
  · intro ha
    have h1 := Graph.all_reached w ha _ hcl
    have h2 := Graph.length_le_of_nodup_subset w.nodup h1
    have h3 := Graph.length_le_of_nodup_subset hnd hsub
    omega

/-- **C23** (other engines): the checks of the topology engine and of the static engine accept exactly the
same graphs. -/
theorem C23_all_engines_agree (g : Graph) (w : g.WF) (left0 : Eid → Int) :
    ((g.topoSetup left0).isSome = true ↔ AcyclicOn g.Edge g.elems) ∧
    ((g.staticSetup left0).2 = true ↔ AcyclicOn g.Edge g.elems) := by
  constructor
  · rw [← C23_cycle_detection_exact g w left0]
    simp only [Graph.topoSetup, Graph.isDag]
    split <;> simp_all
  · obtain ⟨hord, hnd, hsub, hcl⟩ := Graph.staticSetup_spec w.toWF0 left0
    have hflat : ((g.staticSetup left0).1.map List.length).sum = (g.staticSetup left0).1.flatten.length := by
      rw [List.length_flatten]
    have hdef : (g.staticSetup left0).2
        = (((g.staticSetup left0).1.map List.length).sum == g.elems.length) := rfl
    rw [hdef, hflat, beq_iff_eq]
    constructor
    · intro hlen v hv
      have := Graph.subset_of_length_eq hnd hsub (by omega) v hv
      exact Graph.acyclic_of_ordered (Graph.topoOrdered_flatten hord) v this
    · intro ha
      have h1 := Graph.all_reached w ha _ hcl
      have h2 := Graph.length_le_of_nodup_subset w.nodup h1
      have h3 := Graph.length_le_of_nodup_subset hnd hsub
      omega

/-- A diamond with a tail, as registered by the API. -/
def exDiamond : Graph :=
  ([GraphOp.addDepend 2 [some 1], .addDepend 3 [some 1], .addDepend 4 [some 2, some 3], .addDepend 5 [some 4]].foldl
    Heap.step Heap.empty).graph [1, 2, 3, 4, 5]

theorem exDiamond_wf : exDiamond.WF :=
  C21_engine_graph _ [1, 2, 3, 4, 5] (by decide) (by decide) (by decide)

example : exDiamond.getTopo (fun _ => 0) = [1, 2, 3, 4, 5] := by decide

/-- The example graph meets the hypotheses and is acyclic. -/
example : AcyclicOn exDiamond.Edge exDiamond.elems :=
  (C23_cycle_detection_exact _ exDiamond_wf (fun _ => 0)).1 (by decide)

/-- The same with a back edge 5 → 2 is well formed and rejected. -/
def exCyclic : Graph :=
  ([GraphOp.addDepend 2 [some 1, some 5], .addDepend 3 [some 1], .addDepend 4 [some 2, some 3],
    .addDepend 5 [some 4]].foldl Heap.step Heap.empty).graph [1, 2, 3, 4, 5]

example : exCyclic.WF ∧ exCyclic.isDag (fun _ => 0) = false :=
  ⟨C21_engine_graph _ [1, 2, 3, 4, 5] (by decide) (by decide) (by decide), by decide⟩

/-! ## C64 — dependencies on elements outside the pipeline -/

/-- **C64** is false: 2 and 3 depend on each other, 4 and 5 belong to another pipeline (or to none) and depend
on 1.  The test accepts {1, 2, 3} as a DAG although it contains a cycle, because 4 and 5 are counted. -/
theorem C64_foreign_successors_violated :
    let h := [GraphOp.addDepend 2 [some 3], .addDepend 3 [some 2], .addDepend 4 [some 1],
      .addDepend 5 [some 1]].foldl Heap.step Heap.empty
    (h.graph [1, 2, 3]).isDag (fun e => (h.elt e).left) = true ∧
    Relation.TransGen (h.graph [1, 2, 3]).Edge 2 2 := by
  refine ⟨by decide, ?_⟩
  exact Relation.TransGen.tail (b := 3) (Relation.TransGen.single (by unfold Graph.Edge; decide))
    (by unfold Graph.Edge; decide)

/-- And a dependency on an element that is not registered makes init refuse an acyclic graph. -/
theorem C64_foreign_dependency_rejected :
    let h := [GraphOp.addDepend 2 [some 1]].foldl Heap.step Heap.empty
    (h.graph [2]).isDag (fun e => (h.elt e).left) = false ∧ (h.graph [2]).topoSetup (fun _ => 0) = none := by
  decide

/-- **C64** (what holds): if a registered element depends on an element outside the pipeline and no
registered element has a successor outside, then init refuses the graph.  Missing: graphs with successors
outside, where foreign elements are counted. -/
theorem C64_foreign_dependency_refused_partial (g : Graph) (w : g.WF0) (left0 : Eid → Int) (e d : Eid)
    (he : e ∈ g.elems) (hde : d ∈ g.deps e) (hd : d ∉ g.elems) : g.isDag left0 = false := by
  obtain ⟨hord, hnd, hsub, _⟩ := Graph.getTopo_spec w left0
  have hnot : e ∉ g.getTopo left0 := by
    intro hm
    obtain ⟨pre, post, hl, _⟩ := List.eq_append_cons_of_mem hm
    have hdp := hord pre e post hl d hde
    exact hd (hsub d (by rw [hl]; exact List.mem_append_left _ hdp))
  have hne : (g.getTopo left0).length ≠ g.elems.length := by
    intro hlen
    exact hnot (Graph.subset_of_length_eq hnd hsub (by omega) e he)
  simpa [Graph.isDag] using hne

/-! ## C24 — topology engine -/

/-- **C24** (order): the order computed by setup lists every registered element exactly once, each after all
its dependencies. -/
theorem C24_order (g : Graph) (w : g.WF) (left0 : Eid → Int) (order : List Eid)
    (h : g.topoSetup left0 = some order) :
    order.Perm g.elems ∧ order.Nodup ∧ TopoOrdered g.Edge order := by
  obtain ⟨hord, hnd, hsub, _⟩ := Graph.getTopo_spec w.toWF0 left0
  simp only [Graph.topoSetup] at h
  split at h
  · cases h
  · rename_i hlen
    have := Option.some.inj h; subst this
    have hlen' : (g.getTopo left0).length = g.elems.length := by omega
    exact ⟨(List.subperm_of_subset hnd hsub).perm_of_length_le (by omega), hnd, hord⟩

/-- **C24** (run): with all elements succeeding, all are executed in the computed order and the result is OK;
otherwise exactly the elements up to and including the first failing one are executed and the result is its
status (an exception carrying its message if the status is a crash). -/
theorem C24_run (fp : Eid → CStatus) (order : List Eid) :
    ((∀ e ∈ order, (fp e).isErr = false) ∧ topoRun fp order CStatus.ok = (order, .ret CStatus.ok)) ∨
    (∃ pre e post, order = pre ++ e :: post ∧ (∀ x ∈ pre, (fp x).isErr = false) ∧ (fp e).isErr = true ∧
      topoRun fp order CStatus.ok =
        (pre ++ [e], if (fp e).isCrash then .throw (fp e).info else .ret (fp e))) := by
  induction order with
  | nil => left; exact ⟨by simp, rfl⟩
  | cons e es ih =>
    cases he : (fp e).isErr
    · have hadd : CStatus.ok.add (fp e) = CStatus.ok := CStatus.add_not_err_right he
      have hchk : checkStatus CStatus.ok = none := by decide
      have hrun : topoRun fp (e :: es) CStatus.ok
          = (e :: (topoRun fp es CStatus.ok).1, (topoRun fp es CStatus.ok).2) := by
        simp only [topoRun, hadd, hchk]
      rcases ih with ⟨h1, h2⟩ | ⟨pre, x, post, h1, h2, h3, h4⟩
      · left
        refine ⟨?_, by rw [hrun, h2]⟩
        intro x hx
        rcases List.mem_cons.1 hx with hx | hx
        · subst hx; exact he
        · exact h1 x hx
      · right
        refine ⟨e :: pre, x, post, by rw [h1]; rfl, ?_, h3, by rw [hrun, h4]; rfl⟩
        intro y hy
        rcases List.mem_cons.1 hy with hy | hy
        · subst hy; exact he
        · exact h2 y hy
    · right
      refine ⟨[], e, es, rfl, by simp, he, ?_⟩
      have hadd : CStatus.ok.add (fp e) = fp e := CStatus.add_of_not_err (by decide) he
      have hchk : checkStatus (fp e)
          = some (if (fp e).isCrash then .throw (fp e).info else .ret (fp e)) := by
        simp only [checkStatus, he, if_true]; split <;> rfl
      simp only [topoRun, hadd, hchk, List.nil_append]

/-- **C24** (whole engine): an acyclic registered graph is accepted, and a run of elements without errors
executes each exactly once after its dependencies. -/
theorem C24_acyclic_run (g : Graph) (w : g.WF) (left0 : Eid → Int) (ha : AcyclicOn g.Edge g.elems)
    (fp : Eid → CStatus) (hok : ∀ e ∈ g.elems, (fp e).isErr = false) :
    ∃ order, g.topoSetup left0 = some order ∧ (topoRun fp order CStatus.ok).2 = .ret CStatus.ok ∧
      (topoRun fp order CStatus.ok).1.Perm g.elems ∧
      TopoOrdered g.Edge (topoRun fp order CStatus.ok).1 := by
  obtain ⟨order, hord⟩ := Option.isSome_iff_exists.1 ((C23_all_engines_agree g w left0).1.2 ha)
  obtain ⟨h1, _, h3⟩ := C24_order g w left0 order hord
  refine ⟨order, hord, ?_⟩
  rcases C24_run fp order with ⟨_, h⟩ | ⟨pre, e, post, he, _, herr, _⟩
  · rw [h]; exact ⟨rfl, h1, h3⟩
  · have : e ∈ g.elems := h1.mem_iff.1 (by rw [he]; simp)
    rw [hok e this] at herr; cases herr

example : topoRun (fun e => if e = 3 then CStatus.err "bad" else CStatus.ok)
    (exDiamond.getTopo (fun _ => 7)) CStatus.ok = ([1, 2, 3], .ret (CStatus.err "bad")) := by decide

/-! ## C25 — static engine -/

/-- **C25** (layers): whatever the graph, the layers contain each listed element once and only registered
ones, and dependencies are in strictly earlier layers; if setup accepts, all elements are placed. -/
theorem C25_layers (g : Graph) (w : g.WF) (left0 : Eid → Int) :
    LayerOrdered g.Edge (g.staticSetup left0).1 ∧ (g.staticSetup left0).1.flatten.Nodup ∧
    (∀ v ∈ (g.staticSetup left0).1.flatten, v ∈ g.elems) ∧
    ((g.staticSetup left0).2 = true ↔ AcyclicOn g.Edge g.elems) ∧
    ((g.staticSetup left0).2 = true → (g.staticSetup left0).1.flatten.Perm g.elems) := by
  obtain ⟨hord, hnd, hsub, hcl⟩ := Graph.staticSetup_spec w.toWF0 left0
  refine ⟨hord, hnd, hsub, (C23_all_engines_agree g w left0).2, ?_⟩
  intro h
  have h1 := Graph.all_reached w ((C23_all_engines_agree g w left0).2.1 h) _ hcl
  have h2 := Graph.length_le_of_nodup_subset w.nodup h1
  exact (List.subperm_of_subset hnd hsub).perm_of_length_le h2

/-- **C25** (run): under every interleaving of the caller and the pool threads, an element starts at most
once and only after all its dependencies have finished (here for any matrix with ordered layers). -/
theorem C25_run_order (g : Graph) (w : g.WF) (left0 : Eid → Int) (direct : Eid → Bool) (fp : Eid → CStatus)
    (sched : List StaticAct) (pre post : List Ev) (e : Eid)
    (ht : (StaticSt.run direct fp (StaticSt.init (g.staticSetup left0).1) sched).trace
      = pre ++ .start e :: post) :
    Ev.start e ∉ pre ∧ ∀ d, g.Edge d e → Ev.finish d ∈ pre := by
  obtain ⟨hord, hnd, _, _⟩ := Graph.staticSetup_spec w.toWF0 left0
  obtain ⟨past, cur, hi⟩ := StaticSt.inv_run hnd direct fp sched
  have hg := hi.good pre e post ht
  refine ⟨hg.1, fun d hd => hg.2 d ?_⟩
  have he : Ev.start e ∈ (StaticSt.run direct fp (StaticSt.init (g.staticSetup left0).1) sched).trace := by
    rw [ht]; simp
  have hmem : ∃ l ∈ (g.staticSetup left0).1, e ∈ l := by
    rcases hi.split with hs | ⟨_, hp, hc⟩
    · rcases hi.started e he with h | h
      · obtain ⟨l, hl, hel⟩ := List.mem_flatten.1 h
        exact ⟨l, by rw [hs]; simp [hl], hel⟩
      · exact ⟨cur, by rw [hs]; simp, h⟩
    · have := hi.started e he
      rw [hp, hc] at this; simp at this
  obtain ⟨l, hl, hel⟩ := hmem
  obtain ⟨p, q, hpq⟩ := List.append_of_mem hl
  obtain ⟨l', hl', hdl⟩ := hord p l q hpq e hel d hd
  exact ⟨p, l, q, hpq, hel, List.mem_flatten.2 ⟨l', hl', hdl⟩⟩

/-- **C25** (error stops later layers): if an element that has started sits in a later layer than `d`, then
`d` finished without error. -/
theorem C25_error_stops (mat : List (List Eid)) (hnd : mat.flatten.Nodup) (direct : Eid → Bool)
    (fp : Eid → CStatus) (sched : List StaticAct) (d e : Eid)
    (hs : Ev.start e ∈ (StaticSt.run direct fp (StaticSt.init mat) sched).trace)
    (hlt : StaticSt.Earlier mat d e) : (fp d).isErr = false := by
  obtain ⟨past, cur, hi⟩ := StaticSt.inv_run hnd direct fp sched
  rcases hi.split with hsp | ⟨_, hp, hc⟩
  · rcases hi.started e hs with h | h
    · obtain ⟨l, hl, hel⟩ := List.mem_flatten.1 h
      obtain ⟨p, q, hpq⟩ := List.append_of_mem hl
      have hm : mat = p ++ l :: (q ++ cur ::
          (StaticSt.run direct fp (StaticSt.init mat) sched).layers) := by
        rw [hpq, List.append_assoc, List.cons_append] at hsp; exact hsp
      obtain ⟨l', hl', hd⟩ := StaticSt.earlier_cur hm hnd hel hlt
      exact (hi.pastFin l' (by rw [hpq]; simp [hl']) d hd).2
    · obtain ⟨l', hl', hd⟩ := StaticSt.earlier_cur hsp hnd h hlt
      exact (hi.pastFin l' hl' d hd).2
  · have := hi.started e hs
    rw [hp, hc] at this; simp at this

/-- **C25** (return): when `run` has returned, no element is executing or waiting to be executed.  It
returns OK only if every element of the matrix finished without error; any other result is the status (or
the exception made from the crash status) of some element. -/
theorem C25_return (mat : List (List Eid)) (hnd : mat.flatten.Nodup) (direct : Eid → Bool)
    (fp : Eid → CStatus) (sched : List StaticAct) (r : Res CStatus)
    (hr : (StaticSt.run direct fp (StaticSt.init mat) sched).ret = some r) :
    let s := StaticSt.run direct fp (StaticSt.init mat) sched
    (s.queued = [] ∧ s.running = [] ∧ s.macroRunning = none) ∧
    ((r = .ret CStatus.ok ∧ ∀ e ∈ mat.flatten, Ev.finish e ∈ s.trace ∧ (fp e).isErr = false) ∨
     (∃ e ∈ mat.flatten, (fp e).isErr = true ∧
       r = if (fp e).isCrash then .throw (fp e).info else .ret (fp e))) := by
  intro s
  obtain ⟨past, cur, hi⟩ := StaticSt.inv_run hnd direct fp sched
  have hq := hi.retQ (by rw [hr]; rfl)
  have hqu : s.queued = [] := by
    cases h : s.queued with
    | nil => rfl
    | cons a t =>
      have h2 := (hi.subQ a (by change a ∈ s.queued; rw [h]; simp)).2
      rw [hq.2.2.2] at h2; cases h2
  have hru : s.running = [] := by
    cases h : s.running with
    | nil => rfl
    | cons a t =>
      have h2 := (hi.subP a (by change a ∈ s.running; rw [h]; simp)).2
      rw [hq.2.2.2] at h2; cases h2
  refine ⟨⟨hqu, hru, hq.2.2.1⟩, ?_⟩
  rcases hi.retV r hr with h | ⟨h1, h2, h3⟩
  · right
    have herr : s.status.isErr = true := by
      cases he : s.status.isErr
      · change checkStatus s.status = some r at h
        rw [checkStatus, he] at h; cases h
      · rfl
    obtain ⟨e, hec, hee⟩ := hi.stErr herr
    have hem : e ∈ mat.flatten := by
      rcases hi.split with hs | ⟨_, _, hs⟩
      · rw [hs]; simp [hec]
      · rw [hs] at hec; cases hec
    refine ⟨e, hem, by rw [← hee]; exact herr, ?_⟩
    rw [← hee]
    change checkStatus s.status = some r at h
    rw [checkStatus, herr, if_pos rfl] at h
    change r = if s.status.isCrash = true then .throw s.status.info else .ret s.status
    cases hc : s.status.isCrash
    · rw [hc] at h; exact (Option.some.inj h).symm
    · rw [hc] at h; exact (Option.some.inj h).symm
  · left
    refine ⟨by rw [h3, hi.stOk' h1], ?_⟩
    have hcur : ∀ e ∈ cur, Ev.finish e ∈ s.trace ∧ (fp e).isErr = false := by
      intro e he
      have h4 := hi.curCov e he
      have h5 := hi.stOk h1 e he
      change _ ∨ _ ∨ _ ∨ e ∈ s.queued ∨ e ∈ s.running ∨ _ at h4
      rw [hq.1, hq.2.1, hq.2.2.1, hqu, hru] at h4
      rw [hq.1, hq.2.1, hq.2.2.1, hq.2.2.2] at h5
      simp at h4 h5
      exact ⟨h4, h5⟩
    intro e he
    rcases hi.split with hs | ⟨hs, _, _⟩
    · rw [hs, h2] at he
      simp only [List.flatten_append, List.flatten_cons, List.flatten_nil, List.append_nil, List.mem_append] at he
      rcases he with he | he
      · obtain ⟨l, hl, hel⟩ := List.mem_flatten.1 he
        exact hi.pastFin l hl e hel
      · exact hcur e he
    · rw [hs, h2] at he; cases he

/-- **C25** (no deadlock): as long as `run` has not returned, some thread can move. -/
theorem C25_progress (mat : List (List Eid)) (hnd : mat.flatten.Nodup) (direct : Eid → Bool)
    (fp : Eid → CStatus) (sched : List StaticAct)
    (hr : (StaticSt.run direct fp (StaticSt.init mat) sched).ret = none) :
    ∃ a, ((StaticSt.run direct fp (StaticSt.init mat) sched).step direct fp a).isSome = true := by
  obtain ⟨past, cur, hi⟩ := StaticSt.inv_run hnd direct fp sched
  generalize StaticSt.run direct fp (StaticSt.init mat) sched = s at *
  cases hq : s.queued with
  | cons e t => exact ⟨.take e, by simp [StaticSt.step, hq]⟩
  | nil =>
    cases hp : s.running with
    | cons e t => exact ⟨.done e, by simp [StaticSt.step, hp]⟩
    | nil =>
      refine ⟨.main, ?_⟩
      have hf : ∀ e ∈ s.futures, e ∈ s.finished := by
        intro e he
        have := (hi.fut e he).2
        rw [hq, hp] at this; simpa using this
      simp only [StaticSt.step, hr]
      simp only [Option.isSome_none, Bool.false_eq_true, if_false]
      split
      · rfl
      · split
        · split <;> rfl
        · split
          · rfl
          · split
            · rename_i e es hfe
              rw [if_pos (hf e (by rw [hfe]; simp))]; rfl
            · split
              · rfl
              · split <;> rfl

example : exDiamond.staticSetup (fun _ => 0) = ([[1], [2, 3], [4], [5]], true) := by decide

example : (StaticSt.run (fun e => e = 3) (fun e => if e = 2 then CStatus.err "x" else CStatus.ok)
    (StaticSt.init [[1], [2, 3], [4]])
    [.main, .main, .take 1, .main, .done 1, .main, .main, .main, .take 2, .main, .main, .main, .done 2, .main,
     .main, .main]).trace = [.start 1, .finish 1, .start 2, .start 3, .finish 3, .finish 2] := by decide

end CGraph
