import Verif.Model.Optimizer
import Verif.Spec.Paths
import Verif.Lemmas.Kahn
import Mathlib.Data.List.Nodup

/-! Path enumeration of the optimisers and the matrix built from it. -/
namespace CGraph
namespace Graph
open Spec

/-- Enough fuel for `collect`. -/
def enough (g : Graph) : Nat → Eid → Bool
  | 0, _ => false
  | n + 1, e => (g.succs e).all (fun c => enough g n c)

/-- All paths from `e`, when the fuel is enough. -/
def pathsFrom (g : Graph) : Nat → Eid → List (List Eid)
  | 0, _ => []
  | n + 1, e =>
    match g.succs e with
    | [] => [[e]]
    | s :: ss => ((s :: ss).flatMap (fun c => pathsFrom g n c)).map (fun p => e :: p)

theorem foldlM_if {α β : Type} (T : α → Bool) (f : α → List β) (l : List α) (ps : List β) :
    l.foldlM (fun ps c => if T c then some (ps ++ f c) else none) ps =
      if l.all T then some (ps ++ l.flatMap f) else none := by
  induction l generalizing ps with
  | nil => simp
  | cons a l ih =>
    rw [List.foldlM_cons]
    cases h : T a with
    | false => simp [h]
    | true => simp [h, ih, List.append_assoc]

theorem collect_eq (g : Graph) (n : Nat) (e : Eid) (cur : List Eid) (ps : List (List Eid)) :
    g.collect n e cur ps =
      if g.enough n e then some (ps ++ (g.pathsFrom n e).map (fun p => cur ++ p)) else none := by
  induction n generalizing e cur ps with
  | zero => simp [collect, enough]
  | succ n ih =>
    simp only [collect, enough, pathsFrom]
    split
    · rename_i hs; simp [hs]
    · rename_i s ss hs
      have : (fun ps c => g.collect n c (cur ++ [e]) ps) =
          fun ps c => if g.enough n c then some (ps ++ (g.pathsFrom n c).map (fun p => cur ++ [e] ++ p)) else none := by
        funext ps c; exact ih c _ ps
      rw [this, foldlM_if]
      simp [hs, List.map_flatMap, List.flatMap_map, List.map_map, Function.comp_def]

/-- The elements without dependencies. -/
def starts (g : Graph) : List Eid := g.elems.filter (fun e => (g.deps e).isEmpty)

theorem collectPaths_eq (g : Graph) (n : Nat) :
    g.collectPaths n = if g.starts.all (g.enough n) then some (g.starts.flatMap (g.pathsFrom n)) else none := by
  have h : ∀ (l : List Eid) (ps : List (List Eid)),
      l.foldlM (fun ps e => if (g.deps e).isEmpty then g.collect n e [] ps else some ps) ps =
      (l.filter (fun e => (g.deps e).isEmpty)).foldlM
        (fun ps c => if g.enough n c then some (ps ++ g.pathsFrom n c) else none) ps := by
    intro l
    induction l with
    | nil => intro ps; rfl
    | cons a l ih =>
      intro ps
      rw [List.foldlM_cons]
      cases ha : (g.deps a).isEmpty with
      | false =>
        rw [List.filter_cons_of_neg (by simp [ha])]
        exact ih ps
      | true =>
        rw [List.filter_cons_of_pos (by simp [ha]), List.foldlM_cons, if_pos rfl, collect_eq]
        simp only [List.nil_append, List.map_id']
        cases g.enough n a with
        | false => rfl
        | true => exact ih _
  rw [collectPaths, h, foldlM_if]
  simp [starts]

/-- The successor relation. -/
def SEdge (g : Graph) (a b : Eid) : Prop := b ∈ g.succs a

theorem sedge_eq {g : Graph} (w : g.WF) : g.SEdge = g.Edge := by
  funext a b
  exact propext (w.sym a b)

theorem enough_of_acyclic {g : Graph} (w : g.WF) (ha : AcyclicOn g.Edge g.elems) :
    ∀ (n : Nat) (l : List Eid) (e : Eid), e ∈ l → l.Nodup → (∀ x ∈ l, x ∈ g.elems) →
      (∀ x ∈ l, Relation.ReflTransGen g.Edge x e) → g.elems.length + 1 ≤ n + l.length → g.enough n e = true := by
  intro n
  induction n with
  | zero =>
    intro l e _ hn hm _ hlen
    have := length_le_of_nodup_subset hn hm
    omega
  | succ n ih =>
    intro l e hel hn hm hr hlen
    simp only [enough, List.all_eq_true]
    intro c hc
    have hce := w.closedS e (hm e hel) c hc
    have hec : g.Edge e c := (w.sym e c).1 hc
    apply ih (c :: l) c (by simp)
    · rw [List.nodup_cons]
      refine ⟨fun hin => ?_, hn⟩
      exact ha e (hm e hel) (Relation.TransGen.head' hec (hr c hin))
    · intro x hx
      rcases List.mem_cons.1 hx with rfl | hx
      · exact hce
      · exact hm x hx
    · intro x hx
      rcases List.mem_cons.1 hx with rfl | hx
      · exact .refl
      · exact (hr x hx).tail hec
    · simp; omega

theorem collectPaths_some {g : Graph} (w : g.WF) (ha : AcyclicOn g.Edge g.elems) {n : Nat} (hn : g.elems.length ≤ n) :
    g.collectPaths n = some (g.starts.flatMap (g.pathsFrom n)) := by
  rw [collectPaths_eq]
  have : g.starts.all (g.enough n) = true := by
    rw [List.all_eq_true]
    intro e he
    have hee : e ∈ g.elems := (List.mem_filter.1 he).1
    exact enough_of_acyclic w ha n [e] e (by simp) (by simp) (by simpa using hee) (by simp; exact .refl)
      (by simp; omega)
  simp [this]

theorem enough_descends {g : Graph} {e c : Eid} (h : Relation.TransGen g.SEdge e c) :
    ∀ n, g.enough n e = true → ∃ m < n, g.enough m c = true := by
  induction h with
  | single h =>
    intro n hn
    cases n with
    | zero => simp [enough] at hn
    | succ n =>
      simp only [enough, List.all_eq_true] at hn
      exact ⟨n, by omega, hn _ h⟩
  | tail _ h ih =>
    intro n hn
    obtain ⟨m, hm, hm2⟩ := ih n hn
    cases m with
    | zero => simp [enough] at hm2
    | succ m =>
      simp only [enough, List.all_eq_true] at hm2
      exact ⟨m, by omega, hm2 _ h⟩

theorem enough_cycle {g : Graph} {v : Eid} (h : Relation.TransGen g.SEdge v v) (n : Nat) : g.enough n v = false := by
  induction n using Nat.strong_induction_on with
  | _ n ih =>
    cases hn : g.enough n v with
    | false => rfl
    | true =>
      obtain ⟨m, hm, hm2⟩ := enough_descends h n hn
      rw [ih m hm] at hm2; cases hm2

/-- With a cycle reachable from a start element the enumeration does not end. -/
theorem collect_diverges {g : Graph} {f v : Eid} (hf : f ∈ g.starts) (h1 : Relation.ReflTransGen g.SEdge f v)
    (h2 : Relation.TransGen g.SEdge v v) (n : Nat) : g.collectPaths n = none := by
  rw [collectPaths_eq]
  have hff : g.enough n f = false := by
    rcases Relation.reflTransGen_iff_eq_or_transGen.1 h1 with h | h
    · subst h; exact enough_cycle h2 n
    · cases hn : g.enough n f with
      | false => rfl
      | true =>
        obtain ⟨m, -, hm2⟩ := enough_descends h n hn
        rw [enough_cycle h2 m] at hm2; cases hm2
  have : g.starts.all (g.enough n) = false := by
    rw [List.all_eq_false]
    exact ⟨f, hf, by simp [hff]⟩
  simp [this]

theorem mem_pathsFrom {g : Graph} : ∀ (n : Nat) (e : Eid), g.enough n e = true → ∀ p, p ∈ g.pathsFrom n e ↔
    p.head? = some e ∧ (∃ z, p.getLast? = some z ∧ g.succs z = []) ∧ p.IsChain g.SEdge := by
  intro n
  induction n with
  | zero => intro e h; simp [enough] at h
  | succ n ih =>
    intro e h p
    simp only [enough, List.all_eq_true] at h
    simp only [pathsFrom]
    split
    · rename_i hs
      simp only [List.mem_singleton]
      constructor
      · rintro rfl; simp [hs]
      · rintro ⟨h1, ⟨z, h2, h3⟩, h4⟩
        match p, h1 with
        | [a], h1 => simpa using h1
        | a :: b :: q, h1 =>
          simp at h1; subst h1
          rw [List.isChain_cons_cons] at h4
          have := h4.1
          simp [SEdge, hs] at this
    · rename_i s ss hs
      rw [← hs]
      simp only [List.mem_map, List.mem_flatMap]
      constructor
      · rintro ⟨q, ⟨c, hc, hq⟩, rfl⟩
        rw [ih c (h c hc)] at hq
        obtain ⟨q1, ⟨z, q2, q3⟩, q4⟩ := hq
        match q, q1 with
        | b :: q, q1 =>
          simp at q1; subst q1
          refine ⟨rfl, ⟨z, by simpa [List.getLast?_cons_cons] using q2, q3⟩, ?_⟩
          rw [List.isChain_cons_cons]
          exact ⟨hc, q4⟩
      · rintro ⟨h1, ⟨z, h2, h3⟩, h4⟩
        match p, h1 with
        | [a], h1 =>
          simp at h1; subst h1
          simp at h2; subst h2
          simp [hs] at h3
        | a :: b :: q, h1 =>
          simp at h1; subst h1
          rw [List.isChain_cons_cons] at h4
          refine ⟨b :: q, ⟨b, h4.1, ?_⟩, rfl⟩
          rw [ih b (h b h4.1)]
          exact ⟨rfl, ⟨z, by simpa [List.getLast?_cons_cons] using h2, h3⟩, h4.2⟩

theorem head_pathsFrom {g : Graph} (n : Nat) (e : Eid) : ∀ p ∈ g.pathsFrom n e, p.head? = some e := by
  cases n with
  | zero => simp [pathsFrom]
  | succ n =>
    simp only [pathsFrom]
    split
    · simp
    · intro p hp
      simp only [List.mem_map] at hp
      obtain ⟨q, -, rfl⟩ := hp
      rfl

theorem nodup_flatMap_paths {g : Graph} (n : Nat) (l : List Eid) (hl : l.Nodup)
    (h : ∀ e ∈ l, (g.pathsFrom n e).Nodup) : (l.flatMap (g.pathsFrom n)).Nodup := by
  rw [List.nodup_flatMap]
  refine ⟨h, ?_⟩
  apply List.Pairwise.imp _ hl
  intro a b hab p hp1 hp2
  have h1 := head_pathsFrom n a p hp1
  have h2 := head_pathsFrom n b p hp2
  rw [h1] at h2
  simp at h2
  exact hab h2

theorem nodup_pathsFrom {g : Graph} (w : g.WF) (n : Nat) : ∀ e ∈ g.elems, (g.pathsFrom n e).Nodup := by
  induction n with
  | zero => intro e _; simp [pathsFrom]
  | succ n ih =>
    intro e he
    simp only [pathsFrom]
    split
    · simp
    · rename_i s ss hse
      rw [← hse]
      apply List.Nodup.map
      · intro a b h; simpa using h
      · exact nodup_flatMap_paths n _ (w.snodup e he) (fun x hx => ih x (w.closedS e he x hx))

/-! ### pairs on a path -/

/-- Pairs `(x, y)` with `x` before `y`. -/
def pairsOf : List Eid → List (Eid × Eid)
  | [] => []
  | x :: ys => ys.map (fun y => (x, y)) ++ pairsOf ys

theorem mem_pairsOf {p : List Eid} {x y : Eid} : (x, y) ∈ pairsOf p ↔ [x, y].Sublist p := by
  induction p with
  | nil => simp [pairsOf]
  | cons a p ih =>
    simp only [pairsOf, List.mem_append, List.mem_map, Prod.mk.injEq, ih]
    constructor
    · rintro (⟨b, hb, rfl, rfl⟩ | h)
      · exact List.Sublist.cons_cons _ (List.singleton_sublist.2 hb)
      · exact h.cons _
    · intro h
      cases h with
      | cons _ h => exact Or.inr h
      | cons_cons _ h => exact Or.inl ⟨y, List.singleton_sublist.1 h, rfl, rfl⟩

/-- One pair of assignments. -/
def markPair (g : Graph) (father son : Int) (m : Mat) (q : Eid × Eid) : Mat :=
  setMat (setMat m (g.pos q.1) (g.pos q.2) father) (g.pos q.2) (g.pos q.1) son

theorem markRow_eq (g : Graph) (f s : Int) (x : Eid) (ys : List Eid) (m : Mat) :
    markRow g f s x ys m = (ys.map (fun y => (x, y))).foldl (markPair g f s) m := by
  induction ys generalizing m with
  | nil => rfl
  | cons y ys ih => simp [markRow, ih, markPair]

theorem markPath_eq (g : Graph) (f s : Int) (p : List Eid) (m : Mat) :
    markPath g f s p m = (pairsOf p).foldl (markPair g f s) m := by
  induction p generalizing m with
  | nil => rfl
  | cons x ys ih => simp [markPath, ih, pairsOf, markRow_eq]

theorem buildGraph_eq (g : Graph) (ps : List (List Eid)) (f s u : Int) :
    g.buildGraph ps f s u = (ps.flatMap pairsOf).foldl (markPair g f s) (fun _ _ => u) := by
  unfold buildGraph
  generalize (fun _ _ => u : Mat) = m
  induction ps generalizing m with
  | nil => rfl
  | cons p ps ih => rw [List.foldl_cons, ih, List.flatMap_cons, List.foldl_append, markPath_eq]

/-- Values of the matrix after marking antisymmetric pairs of elements. -/
theorem marks {g : Graph} (f s u : Int) (S : List (Eid × Eid)) (hm : ∀ q ∈ S, q.1 ∈ g.elems ∧ q.2 ∈ g.elems)
    (has : ∀ a b, (a, b) ∈ S → (b, a) ∉ S) {a b : Eid} (ha : a ∈ g.elems) (hb : b ∈ g.elems) :
    S.foldl (markPair g f s) (fun _ _ => u) (g.pos a) (g.pos b) =
      if (a, b) ∈ S then f else if (b, a) ∈ S then s else u := by
  have hinj : ∀ x y, x ∈ g.elems → g.pos x = g.pos y → x = y := fun x y hx h => (List.idxOf_inj hx).1 h
  induction S using List.reverseRecOn with
  | nil => simp
  | append_singleton S q ih =>
    rw [List.foldl_append]
    simp only [List.foldl_cons, List.foldl_nil, markPair, setMat]
    have hq := hm q (by simp)
    have ih' := ih (fun r hr => hm r (by simp [hr])) (fun a b h1 h2 => has a b (by simp [h1]) (by simp [h2]))
    have e1 : (g.pos a = g.pos q.2 ∧ g.pos b = g.pos q.1) ↔ (b, a) = q := by
      constructor
      · rintro ⟨h1, h2⟩; rw [hinj a q.2 ha h1, hinj b q.1 hb h2]
      · rintro rfl; exact ⟨rfl, rfl⟩
    have e2 : (g.pos a = g.pos q.1 ∧ g.pos b = g.pos q.2) ↔ (a, b) = q := by
      constructor
      · rintro ⟨h1, h2⟩; rw [hinj a q.1 ha h1, hinj b q.2 hb h2]
      · rintro rfl; exact ⟨rfl, rfl⟩
    simp only [e1, e2, ih', List.mem_append, List.mem_singleton]
    by_cases h1 : (b, a) = q
    · have h2 : (a, b) ∉ S := fun h => has a b (by simp [h]) (by simp [h1])
      have h3 : (a, b) ≠ q := fun h => has a b (by simp [h]) (by simp [h1])
      simp [h1, h2, h3]
    · by_cases h2 : (a, b) = q
      · simp [h1, h2]
      · simp [h1, h2]

/-! ### paths and the transitive relation -/

theorem mem_of_reach {g : Graph} (w : g.WF) {a b : Eid} (ha : a ∈ g.elems) (h : Relation.ReflTransGen g.Edge a b) :
    b ∈ g.elems := by
  induction h with
  | refl => exact ha
  | tail _ h ih => exact w.closedS _ ih _ ((w.sym _ _).2 h)

theorem exists_start {g : Graph} (w : g.WF) (ha : AcyclicOn g.Edge g.elems) {v : Eid} (hv : v ∈ g.elems) :
    ∃ f ∈ g.elems, g.deps f = [] ∧ Relation.ReflTransGen g.Edge f v := by
  classical
  have h := all_reached w ha
    (g.elems.filter (fun v => decide (∃ f ∈ g.elems, g.deps f = [] ∧ Relation.ReflTransGen g.Edge f v))) (by
      intro v hv hd
      rw [List.mem_filter, decide_eq_true_eq]
      refine ⟨hv, ?_⟩
      cases hdv : g.deps v with
      | nil => exact ⟨v, hv, hdv, .refl⟩
      | cons d ds =>
        have hm := hd d (by simp [hdv])
        rw [List.mem_filter, decide_eq_true_eq] at hm
        obtain ⟨f, f1, f2, f3⟩ := hm.2
        exact ⟨f, f1, f2, f3.tail (by show d ∈ g.deps v; simp [hdv])⟩)
  have := h v hv
  rw [List.mem_filter, decide_eq_true_eq] at this
  exact this.2

/-- The graph with all arrows turned round. -/
def rev (g : Graph) : Graph := ⟨g.elems, g.succs, g.deps⟩

theorem rev_wf {g : Graph} (w : g.WF) : g.rev.WF where
  nodup := w.nodup
  dnodup := w.snodup
  snodup := w.dnodup
  sym := fun a b => (w.sym b a).symm
  closedS := w.closedD
  closedD := w.closedS

theorem rev_edge {g : Graph} (w : g.WF) (a b : Eid) : g.rev.Edge a b ↔ g.Edge b a := w.sym b a

theorem rev_trans {g : Graph} (w : g.WF) (a b : Eid) :
    Relation.TransGen g.rev.Edge a b ↔ Relation.TransGen g.Edge b a := by
  have : g.rev.Edge = Function.swap g.Edge := by
    funext a b; exact propext (rev_edge w a b)
  rw [this]
  exact Relation.transGen_swap

theorem rev_reach {g : Graph} (w : g.WF) (a b : Eid) :
    Relation.ReflTransGen g.rev.Edge a b ↔ Relation.ReflTransGen g.Edge b a := by
  have : g.rev.Edge = Function.swap g.Edge := by
    funext a b; exact propext (rev_edge w a b)
  rw [this]
  exact Relation.reflTransGen_swap

theorem rev_acyclic {g : Graph} (w : g.WF) (ha : AcyclicOn g.Edge g.elems) : AcyclicOn g.rev.Edge g.rev.elems :=
  fun v hv h => ha v hv ((rev_trans w v v).1 h)

theorem exists_end {g : Graph} (w : g.WF) (ha : AcyclicOn g.Edge g.elems) {v : Eid} (hv : v ∈ g.elems) :
    ∃ z ∈ g.elems, g.succs z = [] ∧ Relation.ReflTransGen g.Edge v z := by
  obtain ⟨z, z1, z2, z3⟩ := exists_start (rev_wf w) (rev_acyclic w ha) (v := v) hv
  exact ⟨z, z1, z2, (rev_reach w z v).1 z3⟩

/-- A list view of reachability: the intermediate elements. -/
theorem chain_of_reach {r : Eid → Eid → Prop} {a b : Eid} (h : Relation.ReflTransGen r a b) :
    ∃ l, (l ++ [b]).IsChain r ∧ (l ++ [b]).head? = some a := by
  obtain ⟨l, h1, h2⟩ := List.exists_isChain_cons_of_relationReflTransGen h
  refine ⟨(a :: l).dropLast, ?_, ?_⟩
  · have : (a :: l).dropLast ++ [b] = a :: l := by rw [← h2]; exact List.dropLast_append_getLast _
    rw [this]; exact h1
  · have : (a :: l).dropLast ++ [b] = a :: l := by rw [← h2]; exact List.dropLast_append_getLast _
    rw [this]; rfl

theorem chain_join {r : Eid → Eid → Prop} {l m : List Eid} {b : Eid} (h1 : (l ++ [b]).IsChain r)
    (h2 : (b :: m).IsChain r) : (l ++ b :: m).IsChain r := by
  rw [List.isChain_split]
  exact ⟨h1, h2⟩

theorem cons_of_reach {r : Eid → Eid → Prop} {a b : Eid} (h : Relation.ReflTransGen r a b) :
    ∃ l, (a :: l).IsChain r ∧ (a :: l).getLast? = some b := by
  obtain ⟨l, h1, h2⟩ := List.exists_isChain_cons_of_relationReflTransGen h
  exact ⟨l, h1, by rw [← h2]; exact List.getLast?_eq_some_getLast _⟩

theorem pair_of_trans {g : Graph} (w : g.WF) (ha : AcyclicOn g.Edge g.elems) {x y : Eid} (hx : x ∈ g.elems)
    (h : Relation.TransGen g.Edge x y) : ∃ p, FullPath g.elems g.deps g.succs p ∧ [x, y].Sublist p := by
  have hy : y ∈ g.elems := mem_of_reach w hx h.to_reflTransGen
  obtain ⟨f, f1, f2, f3⟩ := exists_start w ha hx
  obtain ⟨z, z1, z2, z3⟩ := exists_end w ha hy
  obtain ⟨u, hxu, huy⟩ := Relation.TransGen.head'_iff.1 h
  obtain ⟨l1, a1, a2⟩ := chain_of_reach f3
  obtain ⟨l2, b1, b2⟩ := chain_of_reach huy
  obtain ⟨l3, c1, c2⟩ := cons_of_reach z3
  have h23 : (l2 ++ y :: l3).IsChain g.Edge := chain_join b1 c1
  have hx23 : (x :: (l2 ++ y :: l3)).IsChain g.Edge := by
    cases l2 with
    | nil => simp at b2; subst b2; exact List.IsChain.cons_cons hxu h23
    | cons c l2 => simp at b2; subst b2; exact List.IsChain.cons_cons hxu h23
  have hall : (l1 ++ x :: (l2 ++ y :: l3)).IsChain g.Edge := chain_join a1 hx23
  refine ⟨l1 ++ x :: (l2 ++ y :: l3), ⟨⟨f, ?_, f1, f2⟩, ⟨z, ?_, z2⟩, ?_⟩, ?_⟩
  · cases l1 with
    | nil => simp at a2 ⊢; exact a2
    | cons c l1 => simp at a2 ⊢; exact a2
  · rw [List.getLast?_append, List.getLast?_cons, List.getLast?_append, c2]; simp
  · have := sedge_eq w
    unfold SEdge at this
    show List.IsChain (fun a b => b ∈ g.succs a) _
    rw [this]; exact hall
  · refine (List.Sublist.cons_cons x ?_).trans (List.sublist_append_right l1 _)
    exact List.singleton_sublist.2 (by simp)

theorem trans_of_pair {g : Graph} (w : g.WF) {x y : Eid} {p : List Eid} (hp : p.IsChain g.SEdge)
    (h : [x, y].Sublist p) : Relation.TransGen g.Edge x y := by
  rw [sedge_eq w] at hp
  have h1 : p.IsChain (Relation.TransGen g.Edge) := hp.imp (fun _ _ h => .single h)
  have : IsTrans Eid (Relation.TransGen g.Edge) := ⟨fun _ _ _ h1 h2 => h1.trans h2⟩
  have h2 := List.isChain_iff_pairwise.1 h1
  have := h2.sublist h
  simpa using this

/-- Full paths, as enumerated. -/
theorem mem_collect {g : Graph} (w : g.WF) (ha : AcyclicOn g.Edge g.elems) {n : Nat} (hn : g.elems.length ≤ n)
    (p : List Eid) : p ∈ g.starts.flatMap (g.pathsFrom n) ↔ FullPath g.elems g.deps g.succs p := by
  rw [List.mem_flatMap]
  have hen : ∀ e ∈ g.elems, g.enough n e = true := fun e he =>
    enough_of_acyclic w ha n [e] e (by simp) (by simp) (by simpa using he) (by simp; exact .refl) (by simp; omega)
  constructor
  · rintro ⟨f, hf, hp⟩
    have hfm := List.mem_filter.1 hf
    rw [mem_pathsFrom n f (hen f hfm.1)] at hp
    exact ⟨⟨f, hp.1, hfm.1, by simpa using hfm.2⟩, hp.2.1, hp.2.2⟩
  · rintro ⟨⟨f, h1, h2, h3⟩, h4, h5⟩
    refine ⟨f, List.mem_filter.2 ⟨h2, by simp [h3]⟩, ?_⟩
    rw [mem_pathsFrom n f (hen f h2)]
    exact ⟨h1, h4, h5⟩

theorem fullPath_mem {g : Graph} (w : g.WF) {p : List Eid} (hp : FullPath g.elems g.deps g.succs p) :
    ∀ x ∈ p, x ∈ g.elems := by
  obtain ⟨⟨f, h1, h2, h3⟩, -, h5⟩ := hp
  have key : ∀ (p : List Eid) (f : Eid), f ∈ g.elems → (f :: p).IsChain g.SEdge → ∀ x ∈ f :: p, x ∈ g.elems := by
    intro p
    induction p with
    | nil => intro f hf _ x hx; simp at hx; subst hx; exact hf
    | cons b p ih =>
      intro f hf hc x hx
      rw [List.isChain_cons_cons] at hc
      rcases List.mem_cons.1 hx with rfl | hx
      · exact hf
      · exact ih b (w.closedS f hf b hc.1) hc.2 x hx
  match p, h1 with
  | a :: p, h1 => simp at h1; subst h1; exact key p a h2 h5

/-- The matrix of the optimisers. -/
theorem matrix {g : Graph} (w : g.WF) (ha : AcyclicOn g.Edge g.elems) {n : Nat} (hn : g.elems.length ≤ n)
    (f s u : Int) {a b : Eid} (hae : a ∈ g.elems) (hbe : b ∈ g.elems) :
    (Relation.TransGen g.Edge a b → g.buildGraph (g.starts.flatMap (g.pathsFrom n)) f s u (g.pos a) (g.pos b) = f) ∧
    (Relation.TransGen g.Edge b a → g.buildGraph (g.starts.flatMap (g.pathsFrom n)) f s u (g.pos a) (g.pos b) = s) ∧
    (Independent g.Edge a b → g.buildGraph (g.starts.flatMap (g.pathsFrom n)) f s u (g.pos a) (g.pos b) = u) := by
  rw [buildGraph_eq]
  have hS : ∀ x y, (x, y) ∈ (g.starts.flatMap (g.pathsFrom n)).flatMap pairsOf ↔
      x ∈ g.elems ∧ Relation.TransGen g.Edge x y := by
    intro x y
    rw [List.mem_flatMap]
    constructor
    · rintro ⟨p, hp, hxy⟩
      rw [mem_collect w ha hn] at hp
      rw [mem_pairsOf] at hxy
      exact ⟨fullPath_mem w hp x (hxy.subset (by simp)), trans_of_pair w hp.2.2 hxy⟩
    · rintro ⟨hx, hxy⟩
      obtain ⟨p, hp, h2⟩ := pair_of_trans w ha hx hxy
      exact ⟨p, (mem_collect w ha hn p).2 hp, mem_pairsOf.2 h2⟩
  have hanti : ∀ x y, (x, y) ∈ (g.starts.flatMap (g.pathsFrom n)).flatMap pairsOf →
      (y, x) ∉ (g.starts.flatMap (g.pathsFrom n)).flatMap pairsOf := by
    intro x y h1 h2
    rw [hS] at h1 h2
    exact ha x h1.1 (h1.2.trans h2.2)
  have hm := marks (g := g) f s u _ (fun q hq => by
    obtain ⟨x, y⟩ := q
    rw [hS] at hq
    exact ⟨hq.1, mem_of_reach w hq.1 hq.2.to_reflTransGen⟩) hanti hae hbe
  rw [hm]
  have e1 := hS a b
  have e2 := hS b a
  refine ⟨fun h => ?_, fun h => ?_, fun h => ?_⟩
  · simp [e1.2 ⟨hae, h⟩]
  · have := e2.2 ⟨hbe, h⟩
    simp [this, hanti b a this]
  · have h1 : (a, b) ∉ (g.starts.flatMap (g.pathsFrom n)).flatMap pairsOf := fun h1 => h.1 (e1.1 h1).2
    have h2 : (b, a) ∉ (g.starts.flatMap (g.pathsFrom n)).flatMap pairsOf := fun h1 => h.2 (e2.1 h1).2
    simp [h1, h2]

end Graph
end CGraph
