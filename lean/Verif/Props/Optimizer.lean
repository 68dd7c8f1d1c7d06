import Verif.Lemmas.Optimizer
import Verif.Props.DagType
import Verif.Lemmas.Graph
import Verif.Props.Dynamic

/-! # C32 – C38, C66, C67: optimisers and performance report -/
namespace CGraph
open Spec

/-! ## C37 -/

/-- **C37**: the enumeration ends and lists exactly the full paths, each once. -/
theorem C37_paths_exact (g : Graph) (w : g.WF) (ha : AcyclicOn g.Edge g.elems) (fuel : Nat)
    (hf : g.elems.length ≤ fuel) :
    ∃ ps, g.collectPaths fuel = some ps ∧ ps.Nodup ∧ ∀ p, p ∈ ps ↔ FullPath g.elems g.deps g.succs p := by
  refine ⟨_, Graph.collectPaths_some w ha hf, ?_, Graph.mem_collect w ha hf⟩
  exact Graph.nodup_flatMap_paths fuel _ (w.nodup.filter _) (fun e he => Graph.nodup_pathsFrom w fuel e (List.mem_filter.1 he).1)

/-- `0 → 1 → 3`, `0 → 2 → 3` and the redundant `0 → 3`. -/
def exTrim : Graph :=
  ⟨[0, 1, 2, 3], fun e => if e = 1 ∨ e = 2 then [0] else if e = 3 then [0, 1, 2] else [],
   fun e => if e = 0 then [1, 2, 3] else if e = 1 ∨ e = 2 then [3] else []⟩

theorem exTrim_wf : exTrim.WF where
  nodup := by decide
  dnodup := by intro e _; simp only [exTrim]; split <;> (try split) <;> decide
  snodup := by intro e _; simp only [exTrim]; split <;> (try split) <;> decide
  sym := by intro a b; simp only [exTrim]; grind
  closedS := by intro a _ b; simp only [exTrim]; grind
  closedD := by intro a _ b; simp only [exTrim]; grind

theorem exTrim_acyclic : AcyclicOn exTrim.Edge exTrim.elems := by
  have h0 : ∀ a b, exTrim.Edge a b → a < b := by
    intro a b hab
    simp only [Graph.Edge, exTrim] at hab
    grind
  have h : ∀ a b, Relation.TransGen exTrim.Edge a b → a < b := by
    intro a b hab
    induction hab with
    | single h => exact h0 _ _ h
    | tail _ h ih => exact Nat.lt_trans ih (h0 _ _ h)
  intro v _ hv
  exact Nat.lt_irrefl _ (h v v hv)

example : exTrim.collectPaths 4 = some [[0, 1, 3], [0, 2, 3], [0, 3]] := by decide

/-! ## C34 -/

/-- **C34**: the reported maximum parallelism is the size of a largest set of pairwise independent elements. -/
theorem C34_max_parallel_exact (g : Graph) (w : g.WF) (ha : AcyclicOn g.Edge g.elems) (fuel : Nat)
    (hf : g.elems.length ≤ fuel) :
    ∃ r, g.getMaxParaSize fuel = some r ∧ (∃ A, Antichain g.Edge g.elems A ∧ A.length = r) ∧
      ∀ A, Antichain g.Edge g.elems A → A.length ≤ r := by
  simp only [Graph.getMaxParaSize, Graph.collectPaths_some w ha hf, Option.map_some, Option.some.injEq,
    exists_eq_left']
  generalize hM : g.buildGraph (g.starts.flatMap (g.pathsFrom fuel)) 0 0 1 = M
  have hpos : ∀ i (h : i < g.elems.length), g.pos g.elems[i] = i := fun i h => w.nodup.idxOf_getElem i h
  have hadj : ∀ i j (hi : i < g.elems.length) (hj : j < g.elems.length), i ≠ j →
      (M i j = 1 ↔ Independent g.Edge g.elems[i] g.elems[j]) := by
    intro i j hi hj hij
    obtain ⟨m1, m2, m3⟩ := Graph.matrix w ha hf 0 0 1 (List.getElem_mem hi) (List.getElem_mem hj)
    rw [hM, hpos i hi, hpos j hj] at m1 m2 m3
    constructor
    · intro h1
      refine ⟨fun h => ?_, fun h => ?_⟩
      · rw [m1 h] at h1; simp at h1
      · rw [m2 h] at h1; simp at h1
    · exact m3
  constructor
  · obtain ⟨K, k1, k2, k3⟩ := Graph.backtrace_sound M g.elems.length _ 0 rfl [] 0 (by simp [Graph.Clique])
      (by simp) (Nat.zero_le _) ⟨[], by simp [Graph.Clique]⟩
    refine ⟨K.map (fun i => g.elems.getD i 0), ⟨?_, ?_, ?_⟩, by simpa using k3⟩
    · apply List.Nodup.map_on
      · intro i hi j hj hij
        simp only [List.getD_eq_getElem?_getD, List.getElem?_eq_getElem (k2 i hi),
          List.getElem?_eq_getElem (k2 j hj), Option.getD_some] at hij
        exact (w.nodup.getElem_inj_iff).1 hij
      · exact k1.imp (fun h => Nat.ne_of_lt h.1)
    · intro x hx
      obtain ⟨i, hi, rfl⟩ := List.mem_map.1 hx
      simp only [List.getD_eq_getElem?_getD, List.getElem?_eq_getElem (k2 i hi), Option.getD_some]
      exact List.getElem_mem _
    · intro x hx y hy hxy
      obtain ⟨i, hi, rfl⟩ := List.mem_map.1 hx
      obtain ⟨j, hj, rfl⟩ := List.mem_map.1 hy
      have hij : i ≠ j := fun h => hxy (by rw [h])
      simp only [List.getD_eq_getElem?_getD, List.getElem?_eq_getElem (k2 i hi),
        List.getElem?_eq_getElem (k2 j hj), Option.getD_some]
      have hsymR : Std.Symm (fun i j : Nat => ∀ (hi : i < g.elems.length) (hj : j < g.elems.length),
          Independent g.Edge g.elems[i] g.elems[j]) := ⟨fun a b h ha hb => (h hb ha).symm⟩
      have hpw : K.Pairwise (fun i j : Nat => ∀ (hi : i < g.elems.length) (hj : j < g.elems.length),
          Independent g.Edge g.elems[i] g.elems[j]) :=
        k1.imp (fun h hi hj => (hadj _ _ hi hj (Nat.ne_of_lt h.1)).1 h.2)
      exact hpw.forall hi hj hij (k2 i hi) (k2 j hj)
  · rintro A ⟨a1, a2, a3⟩
    let K := (List.range g.elems.length).filter (fun i => decide (g.elems.getD i 0 ∈ A))
    have hKm : ∀ i ∈ K, ∃ hi : i < g.elems.length, g.elems[i] ∈ A := by
      intro i hi
      simp only [K, List.mem_filter, List.mem_range, decide_eq_true_eq] at hi
      refine ⟨hi.1, ?_⟩
      simpa [List.getD_eq_getElem?_getD, List.getElem?_eq_getElem hi.1] using hi.2
    have hK : Graph.Clique M K := by
      have h1 : K.Pairwise (· < ·) := List.pairwise_lt_range.filter _
      apply h1.imp_of_mem
      intro i j hi hj hlt
      obtain ⟨hi1, hi2⟩ := hKm i hi
      obtain ⟨hj1, hj2⟩ := hKm j hj
      refine ⟨hlt, (hadj i j hi1 hj1 (Nat.ne_of_lt hlt)).2 (a3 _ hi2 _ hj2 ?_)⟩
      intro h
      exact Nat.ne_of_lt hlt ((w.nodup.getElem_inj_iff).1 h)
    have hlen : A.length ≤ K.length := by
      have hsub : ∀ x ∈ A, x ∈ K.map (fun i => g.elems.getD i 0) := by
        intro x hx
        obtain ⟨i, hi, rfl⟩ := List.getElem_of_mem (a2 x hx)
        refine List.mem_map.2 ⟨i, ?_, by simp [List.getD_eq_getElem?_getD, List.getElem?_eq_getElem hi]⟩
        simp only [K, List.mem_filter, List.mem_range, decide_eq_true_eq]
        exact ⟨hi, by simpa [List.getD_eq_getElem?_getD, List.getElem?_eq_getElem hi] using hx⟩
      simpa using Graph.length_le_of_nodup_subset a1 hsub
    have := Graph.backtrace_complete M g.elems.length _ 0 rfl [] 0 K (by simpa using hK)
      (fun x hx => ⟨Nat.zero_le _, (hKm x hx).1⟩)
    simp only [List.length_nil, Nat.zero_add] at this
    omega

example : (exTrim.collectPaths 4).isSome ∧ exTrim.buildGraph [[0, 1, 3], [0, 2, 3], [0, 3]] 0 0 1 1 2 = 1 := by
  decide

/-! ## C35 -/

theorem sublist_pair_of_mem {a b : Eid} {p : List Eid} (ha : a ∈ p) (hb : b ∈ p) (hab : a ≠ b) :
    [a, b].Sublist p ∨ [b, a].Sublist p := by
  induction p with
  | nil => simp at ha
  | cons x p ih =>
    rcases List.mem_cons.1 ha with rfl | ha'
    · rcases List.mem_cons.1 hb with rfl | hb'
      · exact absurd rfl hab
      · exact Or.inl (List.Sublist.cons_cons _ (List.singleton_sublist.2 hb'))
    · rcases List.mem_cons.1 hb with rfl | hb'
      · exact Or.inr (List.Sublist.cons_cons _ (List.singleton_sublist.2 ha'))
      · rcases ih ha' hb' with h | h
        · exact Or.inl (h.cons _)
        · exact Or.inr (h.cons _)

/-- **C35**: for two different elements the check answers true iff one transitively depends on the other. -/
theorem C35_separate_exact (g : Graph) (w : g.WF) (ha : AcyclicOn g.Edge g.elems) (fuel : Nat)
    (hf : g.elems.length ≤ fuel) (a b : Eid) (hae : a ∈ g.elems) (hbe : b ∈ g.elems) (hab : a ≠ b) :
    ∃ r, g.checkSeparate fuel a b = some r ∧
      (r = true ↔ Relation.TransGen g.Edge a b ∨ Relation.TransGen g.Edge b a) := by
  simp only [Graph.checkSeparate, Graph.collectPaths_some w ha hf, Option.map_some, Option.some.injEq,
    exists_eq_left', List.any_eq_true, Bool.and_eq_true, decide_eq_true_eq, Graph.mem_collect w ha hf]
  constructor
  · rintro ⟨p, hp, h1, h2⟩
    rcases sublist_pair_of_mem h1 h2 hab with h | h
    · exact Or.inl (Graph.trans_of_pair w hp.2.2 h)
    · exact Or.inr (Graph.trans_of_pair w hp.2.2 h)
  · rintro (h | h)
    · obtain ⟨p, hp, h2⟩ := Graph.pair_of_trans w ha hae h
      exact ⟨p, hp, h2.subset (by simp), h2.subset (by simp)⟩
    · obtain ⟨p, hp, h2⟩ := Graph.pair_of_trans w ha hbe h
      exact ⟨p, hp, h2.subset (by simp), h2.subset (by simp)⟩

example : exTrim.checkSeparate 4 1 3 = some true ∧ exTrim.checkSeparate 4 1 2 = some false := by decide

/-- What a trace of the dynamic engine guarantees for transitive dependencies: in any trace in which direct
dependencies finish before their dependents start, and nothing finishes before it starts, transitive ones do. -/
theorem trans_finish {r : Eid → Eid → Prop} {tr : List Ev} (hg : StaticSt.GoodTrace r tr)
    (hfin : ∀ pre d post, tr = pre ++ .finish d :: post → Ev.start d ∈ pre) {a b : Eid}
    (h : Relation.TransGen r a b) : ∀ pre post, tr = pre ++ .start b :: post → Ev.finish a ∈ pre := by
  induction h with
  | single h => intro pre post ht; exact (hg pre _ post ht).2 _ h
  | @tail x y _ h ih =>
    intro pre post ht
    have h1 := (hg pre _ post ht).2 _ h
    obtain ⟨p1, p2, hp⟩ := List.append_of_mem h1
    have h2 := hfin p1 x (p2 ++ .start y :: post) (by rw [ht, hp]; simp)
    obtain ⟨q1, q2, hq⟩ := List.append_of_mem h2
    have h3 := ih q1 (q2 ++ Ev.finish x :: (p2 ++ .start y :: post)) (by rw [ht, hp, hq]; simp)
    rw [hp, hq]
    simp [h3]

/-- Nothing finishes before it starts. -/
theorem dyn_finish_after_start (c : DynCfg) (w : c.g.WF) (ha : AcyclicOn c.g.Edge c.g.elems) (s : DynSt)
    (hs : DynSt.Reach c s) : ∀ pre d post, s.trace = pre ++ .finish d :: post → Ev.start d ∈ pre := by
  induction hs with
  | init => intro pre d post h; simp [DynSt.init] at h
  | @step s a s' hr hst hb ih =>
    have hsi := DynSt.sinv_reach w ha hr
    -- the trace is reset, or grows by at most one event, a finish only for an executing element
    have key : s'.trace = [] ∨ s'.trace = s.trace ∨ (∃ e, s'.trace = s.trace ++ [.start e]) ∨
        (∃ e, s'.trace = s.trace ++ [.finish e] ∧ Job.body e ∈ s.allJobs) := by
      have hjob : ∀ st j s1 oj, DynSt.jobStep c s st j = some (s1, oj) → s1.trace = s.trace ∨
          (∃ e, s1.trace = s.trace ++ [.start e]) ∨ (∃ e, s1.trace = s.trace ++ [.finish e] ∧ j = .body e) := by
        intro st j s1 oj hj
        have hn : s.notify.trace = s.trace := by unfold DynSt.notify; split <;> rfl
        unfold DynSt.jobStep at hj
        grind [DynSt.push]
      cases a with
      | begin => simp only [DynSt.step] at hst; grind
      | main st =>
        have hj := hjob st
        have hin : ∀ j, s.main = .inline j → j ∈ s.allJobs := by
          intro j hm; simp [DynSt.allJobs, hm]
        simp only [DynSt.step] at hst
        split at hst <;> grind [DynSt.push, DynSt.toWait, DynSt.ret]
      | take i => simp only [DynSt.step] at hst; grind
      | work i st =>
        have hj := hjob st
        have hin : ∀ j, j ∈ s.jobs → j ∈ s.allJobs := by
          intro j hm; unfold DynSt.allJobs; split <;> simp [hm]
        simp only [DynSt.step] at hst
        split at hst
        · simp at hst
        · rename_i j hq
          have := hin j (List.mem_of_getElem? hq)
          grind
      | spurious => simp only [DynSt.step] at hst; grind
    intro pre d post ht
    rcases key with h | h | ⟨e, h⟩ | ⟨e, h, hj⟩
    · rw [h] at ht; simp at ht
    · rw [h] at ht; exact ih pre d post ht
    · rw [h] at ht
      rcases List.eq_nil_or_concat post with hp | ⟨post', y, hp⟩
      · subst hp
        have := List.append_inj' ht (by simp)
        simp at this
      · subst hp
        rw [List.concat_eq_append, ← List.cons_append, ← List.append_assoc] at ht
        exact ih pre d post' (List.append_inj' ht (by simp)).1
    · rw [h] at ht
      rcases List.eq_nil_or_concat post with hp | ⟨post', y, hp⟩
      · subst hp
        have h2 := List.append_inj' ht (by simp)
        simp at h2
        obtain ⟨h2, h3⟩ := h2
        subst h3
        have hnr : s.nrun ≠ 0 := by
          intro h0
          have := hsi.first h0
          subst this
          simp [DynSt.allJobs, DynSt.init] at hj
        have hb := (hsi.inv hnr).body e
        have : 1 ≤ DynSt.cnt Job.bodyOf s.allJobs e := by
          unfold DynSt.cnt
          exact List.count_pos_iff.2 (List.mem_flatMap.2 ⟨_, hj, by simp [Job.bodyOf]⟩)
        rw [← h2]
        exact List.count_pos_iff.1 (by omega)
      · subst hp
        rw [List.concat_eq_append, ← List.cons_append, ← List.append_assoc] at ht
        exact ih pre d post' (List.append_inj' ht (by simp)).1

/-- **C35** (never concurrent): if the check answers true for two elements of a pipeline, then in every state the
dynamic engine can reach, one of the two starts only after the other has finished. -/
theorem C35_never_concurrent (c : DynCfg) (w : c.g.WF) (ha : AcyclicOn c.g.Edge c.g.elems) (fuel : Nat)
    (hf : c.g.elems.length ≤ fuel) (a b : Eid) (hae : a ∈ c.g.elems) (hbe : b ∈ c.g.elems) (hab : a ≠ b)
    (hsep : c.g.checkSeparate fuel a b = some true) :
    (∀ s, DynSt.Reach c s → ∀ pre post, s.trace = pre ++ .start b :: post → Ev.finish a ∈ pre) ∨
    (∀ s, DynSt.Reach c s → ∀ pre post, s.trace = pre ++ .start a :: post → Ev.finish b ∈ pre) := by
  obtain ⟨r, h1, h2⟩ := C35_separate_exact c.g w ha fuel hf a b hae hbe hab
  rw [hsep] at h1
  simp at h1
  subst h1
  have hgood : ∀ s, DynSt.Reach c s → StaticSt.GoodTrace c.g.Edge s.trace := by
    intro s hs pre e post ht
    have := C26_order c w ha s hs pre post e ht
    exact ⟨this.2.1, this.2.2.2⟩
  rcases h2.1 rfl with h | h
  · exact Or.inl fun s hs => trans_finish (hgood s hs) (dyn_finish_after_start c w ha s hs) h
  · exact Or.inr fun s hs => trans_finish (hgood s hs) (dyn_finish_after_start c w ha s hs) h

/-! ## C38 -/

/-- **C38**: the marked elements are exactly those of one full path with maximal total time. -/
theorem C38_longest_path (g : Graph) (w : g.WF) (ha : AcyclicOn g.Edge g.elems) (fuel : Nat)
    (hf : g.elems.length ≤ fuel) (cost : Eid → Nat) (hne : g.elems ≠ []) :
    ∃ mark p, g.markLongestPath fuel cost = some mark ∧ FullPath g.elems g.deps g.succs p ∧
      (∀ q, FullPath g.elems g.deps g.succs q → (q.map cost).sum ≤ (p.map cost).sum) ∧
      ∀ e, mark e = true ↔ e ∈ p := by
  simp only [Graph.markLongestPath, Graph.collectPaths_some w ha hf, Option.map_some, Option.some.injEq]
  have hps : g.starts.flatMap (g.pathsFrom fuel) ≠ [] := by
    obtain ⟨v, hv⟩ := List.exists_mem_of_ne_nil _ hne
    obtain ⟨f, f1, f2, -⟩ := Graph.exists_start w ha hv
    obtain ⟨z, z1, z2, z3⟩ := Graph.exists_end w ha f1
    obtain ⟨l, l1, l2⟩ := Graph.cons_of_reach z3
    have : f :: l ∈ g.starts.flatMap (g.pathsFrom fuel) := by
      rw [Graph.mem_collect w ha hf]
      refine ⟨⟨f, rfl, f1, f2⟩, ⟨z, l2, z2⟩, ?_⟩
      have h := Graph.sedge_eq w
      unfold Graph.SEdge at h
      rw [h]; exact l1
    exact List.ne_nil_of_mem this
  have h1 := Graph.longestLoop_mem cost _ hps
  have h2 := (Graph.longestLoop_spec cost (g.starts.flatMap (g.pathsFrom fuel)) 0 [] (by simp)).2
  refine ⟨_, _, rfl, (Graph.mem_collect w ha hf _).1 h1, ?_, ?_⟩
  · intro q hq
    exact h2 q (Or.inr ((Graph.mem_collect w ha hf q).2 hq))
  · intro e; simp

example : (exTrim.markLongestPath 4 (fun e => if e = 2 then 5 else 1)).map (fun m => exTrim.elems.map m) =
    some [true, false, true, true] := by decide

/-! ## C32, C33 -/

/-- Which dependencies remain after trimming. -/
theorem trim_deps (h : Heap) (elems : List Eid) (w : (h.graph elems).WF)
    (ha : AcyclicOn (h.graph elems).Edge elems) (inv : h.Inv)
    (hi : ∀ e, (h.elt e).isInit = false) (fuel : Nat)
    (hf : elems.length ≤ fuel) :
    ∃ h' n, h.trim elems fuel = some (h', n) ∧
      (∀ e, (h'.elt e).deps.Sublist (h.elt e).deps) ∧
      (∀ v ∈ elems, ∀ d, d ∈ (h'.elt v).deps ↔ d ∈ (h.elt v).deps ∧
        ¬ ∃ b ∈ (h.elt v).deps, Relation.TransGen (h.graph elems).Edge d b) ∧
      (∀ v, v ∉ elems → (h'.elt v).deps = (h.elt v).deps) ∧
      (h'.graph elems).WF ∧ h'.Inv ∧ n + h'.depCount elems = h.depCount elems := by
  obtain ⟨s1, s2, s3, s4⟩ := Heap.trimLoop_spec elems
    ((h.graph elems).buildGraph ((h.graph elems).starts.flatMap ((h.graph elems).pathsFrom fuel)) 1 0 0)
    elems h 0 w.nodup hi inv.dn inv.sn w.sym
  have hsub : ∀ e, ((Heap.trimLoop elems ((h.graph elems).buildGraph ((h.graph elems).starts.flatMap
      ((h.graph elems).pathsFrom fuel)) 1 0 0) elems (h, 0)).1.elt e).deps.Sublist (h.elt e).deps := by
    intro e
    rw [s1]
    split
    · exact List.filter_sublist
    · exact List.Sublist.refl _
  have hdeps : ∀ v ∈ elems, ∀ d, d ∈ ((Heap.trimLoop elems ((h.graph elems).buildGraph
      ((h.graph elems).starts.flatMap ((h.graph elems).pathsFrom fuel)) 1 0 0) elems (h, 0)).1.elt v).deps ↔
        d ∈ (h.elt v).deps ∧ ¬ ∃ b ∈ (h.elt v).deps, Relation.TransGen (h.graph elems).Edge d b := by
    intro v hv d
    rw [s1, if_pos hv]
    simp only [Heap.keep, List.mem_filter, decide_eq_true_eq, Heap.mem_candidates]
    constructor
    · rintro ⟨h1, h2⟩
      refine ⟨h1, ?_⟩
      rintro ⟨b, hb, hdb⟩
      apply h2
      refine ⟨h1, b, hb, ?_⟩
      exact (Graph.matrix w ha hf 1 0 0 (w.closedD v hv d h1) (w.closedD v hv b hb)).1 hdb
    · rintro ⟨h1, h2⟩
      refine ⟨h1, ?_⟩
      rintro ⟨-, b, hb, hm⟩
      apply h2
      refine ⟨b, hb, ?_⟩
      have hmx := Graph.matrix w ha hf 1 0 0 (w.closedD v hv d h1) (w.closedD v hv b hb)
      by_contra hno
      by_cases hbd : Relation.TransGen (h.graph elems).Edge b d
      · rw [hmx.2.1 hbd] at hm; simp at hm
      · rw [hmx.2.2 ⟨hno, hbd⟩] at hm; simp at hm
  refine ⟨_, _, by simp only [Heap.trim, Graph.collectPaths_some w ha hf, Option.map_some]; rfl, hsub, hdeps,
    fun v hv => by rw [s1, if_neg hv], ?_,
    ⟨s2, fun e => (hsub e).nodup (inv.dn e), s3, fun e he => inv.irr e ((hsub e).subset he)⟩, by simpa using s4⟩
  exact
    { nodup := w.nodup
      dnodup := fun e _ => (hsub e).nodup (inv.dn e)
      snodup := fun e _ => s3 e
      sym := s2
      closedS := fun e he x hx => w.closedS e he x ((w.sym e x).2 ((hsub x).subset ((s2 e x).1 hx)))
      closedD := fun e he x hx => w.closedD e he x ((hsub e).subset hx) }

/-- **C32**: trimming only removes dependencies, keeps the transitive dependency relation, and returns the number
of removed dependencies; the graph stays well formed. -/
theorem C32_trim_keeps_order (h : Heap) (elems : List Eid) (w : (h.graph elems).WF)
    (ha : AcyclicOn (h.graph elems).Edge elems) (inv : h.Inv)
    (hi : ∀ e, (h.elt e).isInit = false) (fuel : Nat)
    (hf : elems.length ≤ fuel) :
    ∃ h' n, h.trim elems fuel = some (h', n) ∧ (∀ e, (h'.elt e).deps.Sublist (h.elt e).deps) ∧
      (∀ a, ∀ b ∈ elems, Relation.TransGen (h'.graph elems).Edge a b ↔ Relation.TransGen (h.graph elems).Edge a b) ∧
      n + (elems.map (fun e => (h'.elt e).deps.length)).sum = (elems.map (fun e => (h.elt e).deps.length)).sum ∧
      (h'.graph elems).WF ∧ h'.Inv := by
  obtain ⟨h', n, t1, t2, t3, t4, t5, t5', t6⟩ := trim_deps h elems w ha inv hi fuel hf
  refine ⟨h', n, t1, t2, ?_, t6, t5, t5'⟩
  have hmono : ∀ a b, Relation.TransGen (h'.graph elems).Edge a b → Relation.TransGen (h.graph elems).Edge a b :=
    fun a b => Relation.TransGen.mono (fun x y hxy => (t2 y).subset hxy) a b
  -- every original edge is still implied
  have hedge : ∀ v ∈ elems, ∀ d ∈ (h.elt v).deps, Relation.TransGen (h'.graph elems).Edge d v := by
    classical
    have hall := Graph.all_reached w ha
      (elems.filter (fun v => decide (∀ a, Relation.TransGen (h.graph elems).Edge a v →
        Relation.TransGen (h'.graph elems).Edge a v))) (by
      intro v hv hdv
      rw [List.mem_filter, decide_eq_true_eq]
      refine ⟨hv, ?_⟩
      have hdv' : ∀ d ∈ (h.elt v).deps, ∀ a, Relation.TransGen (h.graph elems).Edge a d →
          Relation.TransGen (h'.graph elems).Edge a d := by
        intro d hd
        have := hdv d hd
        rw [List.mem_filter, decide_eq_true_eq] at this
        exact this.2
      -- every dependency of v is below or equal to a kept one
      have hmax : ∀ d ∈ (h.elt v).deps, ∃ k ∈ (h'.elt v).deps, Relation.ReflTransGen (h.graph elems).Edge d k := by
        let R := (h.elt v).deps.filter (fun d => decide (¬ ∃ k ∈ (h'.elt v).deps,
          Relation.ReflTransGen (h.graph elems).Edge d k))
        let gR : Graph := ⟨R, fun d => R.filter (fun b => decide (Relation.TransGen (h.graph elems).Edge d b)),
          fun _ => []⟩
        have hR : R = [] := by
          apply Graph.no_deadlock (g := gR) R
          · intro x hx hc
            have hsw : ∀ a b, Relation.TransGen gR.Edge a b → Relation.TransGen (h.graph elems).Edge b a := by
              intro a b hab
              have h0 : ∀ a b, gR.Edge a b → Relation.TransGen (h.graph elems).Edge b a := by
                intro a b hab
                have := (List.mem_filter.1 hab).2
                simpa using this
              induction hab with
              | single h => exact h0 _ _ h
              | tail _ h ih => exact (h0 _ _ h).trans ih
            have hxe : x ∈ elems := w.closedD v hv x (List.mem_filter.1 hx).1
            exact ha x hxe (hsw x x hc)
          · intro d hd
            have hd' := List.mem_filter.1 hd
            have hnk : d ∉ (h'.elt v).deps := by
              intro hk
              have := hd'.2
              rw [decide_eq_true_eq] at this
              exact this ⟨d, hk, .refl⟩
            rw [t3 v hv d] at hnk
            have hex : ∃ b ∈ (h.elt v).deps, Relation.TransGen (h.graph elems).Edge d b := by
              by_contra hno; exact hnk ⟨hd'.1, hno⟩
            obtain ⟨b, hb, hdb⟩ := hex
            have hbR : b ∈ R := by
              refine List.mem_filter.2 ⟨hb, ?_⟩
              rw [decide_eq_true_eq]
              rintro ⟨k, hk, hbk⟩
              have := hd'.2
              rw [decide_eq_true_eq] at this
              exact this ⟨k, hk, hdb.to_reflTransGen.trans hbk⟩
            exact ⟨b, hbR, List.mem_filter.2 ⟨hbR, by simpa using hdb⟩⟩
        intro d hd
        by_contra hno
        have : d ∈ R := List.mem_filter.2 ⟨hd, by rw [decide_eq_true_eq]; exact hno⟩
        rw [hR] at this; simp at this
      have hdep : ∀ d ∈ (h.elt v).deps, Relation.TransGen (h'.graph elems).Edge d v := by
        intro d hd
        obtain ⟨k, hk, hdk⟩ := hmax d hd
        rcases Relation.reflTransGen_iff_eq_or_transGen.1 hdk with he | he
        · subst he; exact .single hk
        · exact (hdv' k ((t2 v).subset hk) d he).tail hk
      intro a hav
      obtain ⟨d, had, hdv2⟩ := Relation.TransGen.tail'_iff.1 hav
      rcases Relation.reflTransGen_iff_eq_or_transGen.1 had with he | he
      · subst he; exact hdep _ hdv2
      · exact (hdv' d hdv2 a he).trans (hdep d hdv2))
    intro v hv d hd
    have := hall v hv
    rw [List.mem_filter, decide_eq_true_eq] at this
    exact this.2 d (.single hd)
  intro a b hb
  refine ⟨hmono a b, fun hab => ?_⟩
  induction hab with
  | single h => exact hedge _ hb _ h
  | tail _ h ih =>
    exact (ih (w.closedD _ hb _ h)).trans (hedge _ hb _ h)

/-- **C33**: after trimming no remaining dependency is implied by a longer chain of remaining dependencies. -/
theorem C33_trim_complete (h : Heap) (elems : List Eid) (w : (h.graph elems).WF)
    (ha : AcyclicOn (h.graph elems).Edge elems) (inv : h.Inv)
    (hi : ∀ e, (h.elt e).isInit = false) (fuel : Nat)
    (hf : elems.length ≤ fuel) :
    ∃ h' n, h.trim elems fuel = some (h', n) ∧
      ∀ v ∈ elems, ∀ d ∈ (h'.elt v).deps, ¬ ∃ x, Relation.TransGen (h'.graph elems).Edge d x ∧
        Relation.TransGen (h'.graph elems).Edge x v := by
  obtain ⟨h', n, t1, t2, t3, t4, t5, t5', t6⟩ := trim_deps h elems w ha inv hi fuel hf
  refine ⟨h', n, t1, ?_⟩
  rintro v hv d hd ⟨x, hdx, hxv⟩
  have hmono : ∀ a b, Relation.TransGen (h'.graph elems).Edge a b → Relation.TransGen (h.graph elems).Edge a b :=
    fun a b => Relation.TransGen.mono (fun x y hxy => (t2 y).subset hxy) a b
  obtain ⟨b, hxb, hbv⟩ := Relation.TransGen.tail'_iff.1 hxv
  have hdb : Relation.TransGen (h.graph elems).Edge d b := by
    have hdx' := hmono _ _ hdx
    rcases Relation.reflTransGen_iff_eq_or_transGen.1 hxb with he | he
    · subst he; exact hdx'
    · exact hdx'.trans (hmono _ _ he)
  exact ((t3 v hv d).1 hd).2 ⟨b, (t2 v).subset hbv, hdb⟩

/-- The heap of `exTrim`. -/
def exTrimHeap : Heap := ⟨fun e => { deps := exTrim.deps e, succs := exTrim.succs e }⟩

example : (exTrimHeap.graph [0, 1, 2, 3]).WF ∧ ∀ e, (exTrimHeap.elt e).isInit = false :=
  ⟨exTrim_wf, fun _ => rfl⟩

example : exTrimHeap.Inv := by
  refine ⟨exTrim_wf.sym, fun e => ?_, fun e => ?_, fun e => ?_⟩ <;>
    simp only [exTrimHeap, exTrim] <;> grind

example : (exTrimHeap.trim [0, 1, 2, 3] 4).map (fun r => (r.2, [0, 1, 2, 3].map (fun e => (r.1.elt e).deps))) =
    some (1, [[], [0], [0], [1, 2]]) := by decide

/-! ## C36, C66 -/

/-- **C36** fails for cyclic graphs: `0 → 1` together with the cycle `2 ↔ 3` is accepted. -/
theorem C36_cycle_accepted_violated :
    ∃ g : Graph, g.WF ∧ g.checkSerializable (fun _ => true) = true ∧
      ¬ ∃ l, l.Perm g.elems ∧ IsOneChain g.deps g.succs l := by
  refine ⟨⟨[0, 1, 2, 3], fun e => if e = 1 then [0] else if e = 2 then [3] else if e = 3 then [2] else [],
    fun e => if e = 0 then [1] else if e = 2 then [3] else if e = 3 then [2] else []⟩, ?_, by decide, ?_⟩
  · exact
    { nodup := by decide
      dnodup := by intro e _; dsimp only; split <;> (try split) <;> (try split) <;> decide
      snodup := by intro e _; dsimp only; split <;> (try split) <;> (try split) <;> decide
      sym := by intro a b; dsimp only; grind
      closedS := by intro a _ b; dsimp only; grind
      closedD := by intro a _ b; dsimp only; grind }
  · rintro ⟨l, hp, h1, h2, h3⟩
    have h4 : l.length = 4 := hp.length_eq
    match l, h4 with
    | [a, b, c, d], _ =>
      simp only [List.isChain_cons_cons] at h1
      obtain ⟨⟨s1, d1⟩, ⟨s2, d2⟩, ⟨s3, d3⟩, -⟩ := h1
      have h5 : ∀ x, x ∈ [a, b, c, d] → x ∈ [0, 1, 2, 3] := fun x hx => hp.mem_iff.1 hx
      have h6 := h2 a rfl
      have h7 := hp.mem_iff.2 (show 2 ∈ [0, 1, 2, 3] by decide)
      have hnd := hp.nodup_iff.2 (by decide : [0, 1, 2, 3].Nodup)
      grind

theorem serial_preds_of_check {g : Graph} (w : g.WF) {ok : Eid → Bool} (h : g.checkSerializable ok = true) :
    ∃ f ∈ g.elems, g.deps f = [] ∧ ∀ v ∈ g.elems, v ≠ f → ∃ e ∈ g.elems, g.succs e = [v] ∧ g.deps v = [e] := by
  simp only [Graph.checkSerializable, Bool.and_eq_true, List.all_eq_true, decide_eq_true_eq] at h
  obtain ⟨⟨h1, h2⟩, h3⟩ := h
  obtain ⟨f, hf⟩ := List.length_eq_one_iff.1 h2
  have hfm : f ∈ g.elems ∧ g.deps f = [] := by
    have : f ∈ g.elems.filter (fun e => (g.deps e).isEmpty) := by rw [hf]; simp
    simpa using List.mem_filter.1 this
  refine ⟨f, hfm.1, hfm.2, ?_⟩
  intro v hv hvf
  have hne : g.deps v ≠ [] := by
    intro h0
    have : v ∈ g.elems.filter (fun e => (g.deps e).isEmpty) := List.mem_filter.2 ⟨hv, by simp [h0]⟩
    rw [hf] at this
    simp at this
    exact hvf this
  have hv1 := (h1 v hv).2
  obtain ⟨e, he⟩ : ∃ e, g.deps v = [e] := by
    match hdv : g.deps v, hne, hv1 with
    | [e], _, _ => exact ⟨e, rfl⟩
    | a :: b :: r, _, h => simp at h
  have hee : e ∈ g.elems := w.closedD v hv e (by simp [he])
  have hse : v ∈ g.succs e := (w.sym e v).2 (by simp [he])
  have hs1 := (h1 e hee).1.2
  refine ⟨e, hee, ?_, he⟩
  match hsv : g.succs e, hs1 with
  | [], _ => rw [hsv] at hse; simp at hse
  | [x], _ => rw [hsv] at hse; simp at hse; rw [hse]
  | a :: b :: r, h => simp at h

/-- **C36** for acyclic graphs (the ones init accepts): the elements form one chain. -/
theorem C36_serialisable_is_chain_partial (g : Graph) (w : g.WF) (ha : AcyclicOn g.Edge g.elems) (ok : Eid → Bool)
    (h : g.checkSerializable ok = true) : ∃ l, l.Perm g.elems ∧ IsOneChain g.deps g.succs l := by
  obtain ⟨f, h1, h2, h3⟩ := serial_preds_of_check w h
  obtain ⟨t, t1, t2, -⟩ := DynCfg.chain_of_preds (c := ⟨g, fun _ => -1, 0, 0⟩) w ha h1 h2 h3
  exact ⟨f :: t, t1, t2⟩

theorem chain_deps {deps succs : Eid → List Eid} : ∀ (l : List Eid) (a : Eid),
    (a :: l).IsChain (fun a b => succs a = [b] ∧ deps b = [a]) →
    (∀ x ∈ l, ∃ y, deps x = [y]) ∧ (∀ x ∈ (a :: l), (∃ y, succs x = [y]) ∨ (a :: l).getLast? = some x) ∧
      (∀ z, (a :: l).getLast? = some z → succs z = [] → ((a :: l).filter (fun e => (succs e).isEmpty)).length = 1) := by
  intro l
  induction l with
  | nil => intro a _; simp; intro h; simp [h]
  | cons b l ih =>
    intro a h
    rw [List.isChain_cons_cons] at h
    obtain ⟨h1, h2, h3⟩ := ih b h.2
    refine ⟨?_, ?_, ?_⟩
    · intro x hx
      rcases List.mem_cons.mp hx with rfl | hx
      · exact ⟨a, h.1.2⟩
      · exact h1 x hx
    · intro x hx
      rcases List.mem_cons.mp hx with rfl | hx
      · exact .inl ⟨b, h.1.1⟩
      · rw [List.getLast?_cons_cons]; exact h2 x hx
    · intro z hz h0
      rw [List.getLast?_cons_cons] at hz
      rw [List.filter_cons_of_neg (by simp [h.1.1])]
      exact h3 z hz h0

/-- **C36** for acyclic graphs, both ways: the test accepts exactly the non-empty chains of elements it accepts one by
one. -/
theorem C36_exact_partial (g : Graph) (w : g.WF) (ha : AcyclicOn g.Edge g.elems) (ok : Eid → Bool) :
    g.checkSerializable ok = true ↔
      (∀ e ∈ g.elems, ok e = true) ∧ ∃ l, l ≠ [] ∧ l.Perm g.elems ∧ IsOneChain g.deps g.succs l := by
  constructor
  · intro h
    obtain ⟨l, h1, h2⟩ := C36_serialisable_is_chain_partial g w ha ok h
    simp only [Graph.checkSerializable, Bool.and_eq_true, List.all_eq_true, decide_eq_true_eq] at h
    refine ⟨fun e he => (h.1.1 e he).1.1, l, ?_, h1, h2⟩
    rintro rfl
    rw [List.nil_perm.mp h1] at h
    simp at h
  · rintro ⟨hok, l, hne, hp, hc, hf, hz⟩
    cases l with
    | nil => exact absurd rfl hne
    | cons a t =>
      obtain ⟨h1, h2, h3⟩ := chain_deps t a hc
      have ha0 := hf a rfl
      obtain ⟨z, hzl⟩ : ∃ z, (a :: t).getLast? = some z := ⟨_, List.getLast?_eq_some_getLast (by simp)⟩
      have hz0 := hz z hzl
      simp only [Graph.checkSerializable, Bool.and_eq_true, List.all_eq_true, decide_eq_true_eq]
      refine ⟨⟨?_, ?_⟩, ?_⟩
      · intro e he
        have hel := hp.mem_iff.mpr he
        refine ⟨⟨hok e he, ?_⟩, ?_⟩
        · rcases h2 e hel with ⟨y, hy⟩ | hl
          · simp [hy]
          · rw [hzl] at hl; cases hl; simp [hz0]
        · rcases List.mem_cons.mp hel with rfl | ht
          · simp [ha0]
          · obtain ⟨y, hy⟩ := h1 e ht; simp [hy]
      · rw [← (hp.filter _).length_eq, List.filter_cons_of_pos (by simp [ha0]), List.filter_eq_nil_iff.mpr]
        · rfl
        · intro x hx
          obtain ⟨y, hy⟩ := h1 x hx
          simp [hy]
      · rw [← (hp.filter _).length_eq]
        exact h3 z hzl hz0

/-- **C66** for pipelines whose elements all have the same binding: after makeSerial has accepted the pipeline the
engine takes the serial path and one run executes all elements in chain order on the caller's thread, up to the
first failure. -/
theorem C66_serial_run_partial (c : DynCfg) (w : c.g.WF) (ha : AcyclicOn c.g.Edge c.g.elems) (ok : Eid → Bool)
    (h : c.g.checkSerializable ok = true) (hb : ∀ a ∈ c.g.elems, ∀ b ∈ c.g.elems, c.bind a = c.bind b) :
    c.dagType = .serial ∧ ∃ l, l.Perm c.g.elems ∧ IsOneChain c.g.deps c.g.succs l ∧
      ∀ fp st, st.isErr = false → c.serialRunAll fp st =
        (upToFirst (fun e => (fp e).isErr) l, ((l.find? (fun e => (fp e).isErr)).map fp).getD st) := by
  suffices hd : c.dagType = .serial by
    refine ⟨hd, C31_serial_is_chain c w ha ?_ hd⟩
    obtain ⟨f, h1, -⟩ := serial_preds_of_check w h
    exact List.ne_nil_of_mem h1
  obtain ⟨f, h1, h2, h3⟩ := serial_preds_of_check w h
  simp only [Graph.checkSerializable, Bool.and_eq_true, List.all_eq_true, decide_eq_true_eq] at h
  obtain ⟨⟨k1, k2⟩, k3⟩ := h
  have hlink : ∀ e ∈ c.g.elems, c.isLink e = !(c.g.succs e).isEmpty := by
    intro e he
    cases hs : c.g.succs e with
    | nil => simp [DynCfg.isLink, hs]
    | cons x xs =>
      have hl := (k1 e he).1.2
      rw [hs] at hl
      have hxs : xs = [] := by cases xs with
        | nil => rfl
        | cons y ys => simp at hl
      subst hxs
      have hxe := w.closedS e he x (by simp [hs])
      have hxd := (k1 x hxe).2
      have hdx : e ∈ c.g.deps x := (w.sym e x).1 (by simp [hs])
      have : (c.g.deps x).length = 1 := by
        have := List.length_pos_of_mem hdx
        omega
      simp [DynCfg.isLink, hs, this, hb e he x hxe]
  have hcount : c.linkedSize = c.g.elems.length - 1 := by
    unfold DynCfg.linkedSize
    rw [List.filter_congr hlink]
    have := List.length_eq_length_filter_add (l := c.g.elems) (fun e => (c.g.succs e).isEmpty)
    simp only [k3] at this
    omega
  have hfr : c.fronts.length = 1 := k2
  simp [DynCfg.dagType, hfr, hcount]

example : exChain.g.checkSerializable (fun _ => true) = true ∧
    ∀ a ∈ exChain.g.elems, ∀ b ∈ exChain.g.elems, exChain.bind a = exChain.bind b := by decide

/-- `0 → 1`, where `1` is bound to thread 2. -/
def exBound (workers : Nat) : DynCfg :=
  ⟨⟨[0, 1], fun e => if e = 1 then [0] else [], fun e => if e = 0 then [1] else []⟩,
   fun e => if e = 1 then 2 else -1, workers, 0⟩

/-- **C66** fails when the bindings differ: makeSerial accepts the pipeline and removes all pool threads, but the
engine takes the general path, hands element `1` to the pool, and waits for ever. -/
theorem C66_bound_elements_hang_violated :
    (exBound 0).g.checkSerializable (fun _ => true) = true ∧ (exBound 0).dagType = .common ∧
    ∃ acts, let s := DynSt.run (exBound 0) (DynSt.init (exBound 0)) acts
      s.main = .asleep ∧ s.queue = [1] ∧ DynSt.Stuck (exBound 0) s := by
  refine ⟨by decide, by decide,
    [.begin, .main .ok, .main .ok, .main .ok, .main .ok, .main .ok, .main .ok, .main .ok, .main .ok, .main .ok,
     .main .ok, .main .ok, .main .ok, .main .ok], ?_⟩
  refine ⟨by decide, by decide, ?_⟩
  intro a h1 h2
  cases a with
  | begin => exact absurd rfl h1
  | spurious => exact absurd rfl h2
  | main st => rfl
  | take i => match i with
    | 0 => decide
    | i + 1 => rfl
  | work i st => rfl

/-! ## C67 -/

/-- **C67** fails: if a start element leads into a cycle, none of the analysis calls ends, whatever the depth of
the recursion. -/
theorem C67_analysis_diverges_violated (g : Graph) (f v a b : Eid) (hf : f ∈ g.elems) (hd : g.deps f = [])
    (h1 : Relation.ReflTransGen (fun a b => b ∈ g.succs a) f v)
    (h2 : Relation.TransGen (fun a b => b ∈ g.succs a) v v) (fuel : Nat) :
    g.collectPaths fuel = none ∧ g.getMaxParaSize fuel = none ∧ g.checkSeparate fuel a b = none := by
  have := Graph.collect_diverges (g := g) (f := f) (v := v)
    (List.mem_filter.2 ⟨hf, by simp [hd]⟩) h1 h2 fuel
  simp [Graph.getMaxParaSize, Graph.checkSeparate, this]

example : let g : Graph := ⟨[0, 1, 2], fun e => if e = 1 then [0, 2] else if e = 2 then [1] else [],
      fun e => if e = 0 then [1] else if e = 1 then [2] else if e = 2 then [1] else []⟩
    ∀ fuel, g.getMaxParaSize fuel = none := by
  intro g fuel
  refine (C67_analysis_diverges_violated g 0 1 0 1 (by decide) (by decide) (.single (by decide)) ?_ fuel).2.1
  exact (Relation.TransGen.single (by decide : 2 ∈ g.succs 1)).tail (by decide : 1 ∈ g.succs 2)

/-- **C67** for acyclic graphs: the analysis calls end. -/
theorem C67_analysis_ends_partial (g : Graph) (w : g.WF) (ha : AcyclicOn g.Edge g.elems) (fuel : Nat)
    (hf : g.elems.length ≤ fuel) (a b : Eid) (cost : Eid → Nat) :
    (g.collectPaths fuel).isSome ∧ (g.getMaxParaSize fuel).isSome ∧ (g.checkSeparate fuel a b).isSome ∧
      (g.markLongestPath fuel cost).isSome := by
  simp [Graph.getMaxParaSize, Graph.checkSeparate, Graph.markLongestPath, Graph.collectPaths_some w ha hf]

/-- **C67** fails: a cycle without a start element is not noticed; the two elements of a cycle are reported as
able to run in parallel and as not separate. -/
theorem C67_cycle_unnoticed_violated :
    ∃ g : Graph, g.elems = [0, 1] ∧ g.deps 0 = [1] ∧ g.deps 1 = [0] ∧
      g.collectPaths 1 = some [] ∧ g.checkSeparate 1 0 1 = some false ∧ g.getMaxParaSize 1 = some 2 := by
  refine ⟨⟨[0, 1], fun e => if e = 0 then [1] else [0], fun e => if e = 0 then [1] else [0]⟩, rfl, rfl, rfl,
    by decide, by decide, ?_⟩
  have : (Graph.collectPaths ⟨[0, 1], fun e => if e = 0 then [1] else [0], fun e => if e = 0 then [1] else [0]⟩ 1)
      = some [] := by decide
  simp only [Graph.getMaxParaSize, this, Option.map_some]
  simp [Graph.backtrace, Graph.buildGraph]

end CGraph
