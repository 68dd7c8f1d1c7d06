import Verif.Lemmas.Dump
import Mathlib.Data.List.Forall2
import Mathlib.Data.List.Perm.Basic

/-! # The graphviz text shows the pipeline: C86 -/
namespace CGraph
open Spec
namespace DumpEnv

theorem labelsOf_append (a b : List Dot) : labelsOf (a ++ b) = labelsOf a ++ labelsOf b := by
  induction a with
  | nil => rfl
  | cons d a ih => simp only [List.cons_append, labelsOf, ih, List.append_assoc]

theorem edgesOf_append (a b : List Dot) : edgesOf (a ++ b) = edgesOf a ++ edgesOf b := by
  induction a with
  | nil => rfl
  | cons d a ih => simp only [List.cons_append, edgesOf, ih, List.append_assoc]

theorem boxesOf_append (a b : List Dot) : boxesOf (a ++ b) = boxesOf a ++ boxesOf b := by
  induction a with
  | nil => rfl
  | cons d a ih => simp only [List.cons_append, boxesOf, ih, List.append_assoc]

/-- How an edge is written. -/
def inked (q : Eid × Eid × Option Nat) : List Char × List Char × List (List Char) :=
  (pAddr q.1, pAddr q.2.1, q.2.2.toList.map (numeral 10))

/-! ## The pieces -/

theorem labels_element (v : DumpEnv) (e : Eid) :
    labelsOf (v.elementStmts e) = [(pAddr e, v.title e ++ v.perfInfo e)] := by
  have h1 : (v.nodeStmt e).labels = [(pAddr e, v.title e ++ v.perfInfo e)] := by
    unfold nodeStmt
    cases v.kind e <;> rfl
  unfold elementStmts
  rw [labelsOf, h1]
  split_ifs <;> rfl

theorem labels_edges {α : Type} (l : List α) (f g : α → List Char) (a : α → List (List Char × List Char)) :
    labelsOf (l.flatMap fun d => [.edge (f d) (g d) (a d)]) = [] := by
  induction l with
  | nil => rfl
  | cons x l ih => simp only [List.flatMap_cons, labelsOf_append, ih]; rfl

theorem labels_rel (v : DumpEnv) (e : Eid) : labelsOf (v.relStmts e) = [] := labels_edges _ _ _ _

theorem labels_style (v : DumpEnv) (e : Eid) : labelsOf (v.styleStmts e) = [] := by
  unfold styleStmts
  cases v.kind e <;> rfl

theorem edges_element (v : DumpEnv) (e : Eid) : edgesOf (v.elementStmts e) =
    (if v.kind e = .plain ∧ v.loop e > 1 then [(e, e, some (v.loop e))] else []).map inked := by
  have h1 : (v.nodeStmt e).edges = [] := by
    unfold nodeStmt
    cases v.kind e <;> rfl
  unfold elementStmts
  rw [edgesOf, h1]
  split_ifs <;> rfl

theorem edgeAttrs_label (v : DumpEnv) (a b : Eid) : (v.edgeAttrs a b).filter (·.1 == "label".toList) = [] := by
  unfold edgeAttrs
  cases v.isGroup a <;> cases v.isGroup b <;> cases (v.longest a && v.longest b) <;> rfl

theorem edges_rel (v : DumpEnv) (e : Eid) :
    edgesOf (v.relStmts e) = ((v.succs e).map fun d => (e, d, (none : Option Nat))).map inked := by
  unfold relStmts
  induction v.succs e with
  | nil => rfl
  | cons d l ih =>
    simp only [List.flatMap_cons, edgesOf_append, ih, List.map_cons]
    simp only [edgesOf, Dot.edges, edgeAttrs_label, List.map_nil, List.append_nil, List.singleton_append]
    rfl

theorem edges_style (v : DumpEnv) (e : Eid) : edgesOf (v.styleStmts e) = [] := by
  unfold styleStmts
  cases v.kind e <;> rfl

theorem boxes_element (v : DumpEnv) (e : Eid) : boxesOf (v.elementStmts e) = [] := by
  have h1 : (v.nodeStmt e).boxes = [] := by
    unfold nodeStmt
    cases v.kind e <;> rfl
  unfold elementStmts
  rw [boxesOf, h1]
  split_ifs <;> rfl

theorem boxes_rel (v : DumpEnv) (e : Eid) : boxesOf (v.relStmts e) = [] := by
  unfold relStmts
  induction v.succs e with
  | nil => rfl
  | cons d l ih => simp only [List.flatMap_cons, boxesOf_append, ih]; rfl

theorem boxes_style (v : DumpEnv) (e : Eid) : boxesOf (v.styleStmts e) = [] := by
  unfold styleStmts
  cases v.kind e <;> rfl

/-! ## Trees -/

theorem whole_head {v : DumpEnv} {t : DumpTree} {ts : List DumpTree} (h : DrawnWhole v (t :: ts)) : DrawnWhole v [t] :=
  fun p hp => h p (by simp only [partsOf, List.append_nil] at hp ⊢; exact List.mem_append_left _ hp)

theorem whole_tail {v : DumpEnv} {t : DumpTree} {ts : List DumpTree} (h : DrawnWhole v (t :: ts)) : DrawnWhole v ts :=
  fun p hp => h p (by simp only [partsOf]; exact List.mem_append_right _ hp)

theorem whole_kids {v : DumpEnv} {e : Eid} {cs : List DumpTree} (h : DrawnWhole v [.node e cs]) : DrawnWhole v cs :=
  fun p hp => h p (by simp only [partsOf, parts, List.append_nil]; exact List.mem_cons_of_mem _ hp)

theorem whole_leaf {v : DumpEnv} {e : Eid} {cs : List DumpTree} (h : DrawnWhole v [.node e cs]) (hk : ¬ Opens (v.kind e)) :
    cs = [] := by
  by_contra hne
  exact hk (h (e, cs) (by simp [partsOf, parts]) hne)

/-- The statements of a group that is drawn, with the statements `x` of its children. -/
theorem boxed (v : DumpEnv) (e : Eid) (x : List Dot) :
    let l := v.elementStmts e ++ ([.sub ("cluster_".toList ++ pAddr e) (.set "label".toList (v.boxLabel e) ::
        (v.styleStmts e ++ x))] ++ v.relStmts e)
    labelsOf l = (pAddr e, v.title e ++ v.perfInfo e) :: labelsOf x ∧
    (edgesOf l).Perm (((v.succs e).map fun d => (e, d, (none : Option Nat))).map inked ++
      (if v.kind e = .plain ∧ v.loop e > 1 then [(e, e, some (v.loop e))] else []).map inked ++ edgesOf x) ∧
    boxesOf l = ("cluster_".toList ++ pAddr e, (labelsOf x).map (·.1)) :: boxesOf x := by
  intro l
  refine ⟨?_, ?_, ?_⟩
  · simp only [l, labelsOf_append, labels_element, labels_rel, labelsOf, Dot.labels, labels_style, List.append_nil,
      List.nil_append, List.singleton_append]
  · simp only [l, edgesOf_append, edges_element, edges_rel, edgesOf, Dot.edges, edges_style, List.append_nil,
      List.nil_append]
    refine (List.perm_append_comm (l₁ := _) (l₂ := _)).trans ?_
    rw [List.append_assoc, List.append_assoc]
    refine (List.perm_append_comm (l₁ := _) (l₂ := _)).trans ?_
    rw [List.append_assoc]
  · simp only [l, boxesOf_append, boxes_element, boxes_rel, boxesOf, Dot.boxes, boxes_style, labelsOf, Dot.labels,
      labelsOf_append, labels_style, List.append_nil, List.nil_append, List.singleton_append]

/-- What is written of some trees. -/
structure Drawn (v : DumpEnv) (x : List Dot) (ts : List DumpTree) (more : List (Eid × Eid × Option Nat)) : Prop where
  labels : labelsOf x = (eidsOf ts).map fun e => (pAddr e, v.title e ++ v.perfInfo e)
  edges : (edgesOf x).Perm ((((partsOf ts).flatMap fun p => ownEdges v p.1 p.2) ++ more).map inked)
  boxes : boxesOf x = ((partsOf ts).filter fun p => decide (Opens (v.kind p.1))).map fun p =>
    ("cluster_".toList ++ pAddr p.1, (eidsOf p.2).map pAddr)

theorem Drawn.nil (v : DumpEnv) : Drawn v [] [] [] := ⟨rfl, List.Perm.nil, rfl⟩

/-- One more tree, and an edge. -/
theorem Drawn.cons {v : DumpEnv} {x y z : List Dot} {t : DumpTree} {ts : List DumpTree} {m n : List (Eid × Eid × Option Nat)}
    (h1 : Drawn v x [t] []) (h2 : Drawn v z ts m) (hl : labelsOf y = []) (hb : boxesOf y = []) (he : edgesOf y = n.map inked) :
    Drawn v (x ++ (y ++ z)) (t :: ts) (n ++ m) := by
  have hp : partsOf (t :: ts) = partsOf [t] ++ partsOf ts := by simp only [partsOf, List.append_nil]
  refine ⟨?_, ?_, ?_⟩
  · rw [labelsOf_append, labelsOf_append, hl, List.nil_append, h1.labels, h2.labels, ← List.map_append]
    unfold eidsOf
    simp only [hp, List.map_append]
  · rw [edgesOf_append, edgesOf_append, he, hp, List.flatMap_append]
    refine (h1.edges.append (h2.edges.append_left _)).trans ?_
    simp only [List.append_nil, List.map_append, List.append_assoc]
    refine List.Perm.append_left _ ?_
    rw [← List.append_assoc, ← List.append_assoc]
    exact List.Perm.append_right _ List.perm_append_comm
  · rw [boxesOf_append, boxesOf_append, hb, List.nil_append, h1.boxes, h2.boxes, hp, List.filter_append, List.map_append]

/-- A group whose children are drawn. -/
theorem Drawn.group {v : DumpEnv} {e : Eid} {cs : List DumpTree} {x : List Dot} {m : List (Eid × Eid × Option Nat)}
    (ho : Opens (v.kind e)) (h : Drawn v x cs m)
    (hm : ownEdges v e cs = (v.succs e).map (fun d => (e, d, none)) ++
      (if v.kind e = .plain ∧ v.loop e > 1 then [(e, e, some (v.loop e))] else []) ++ m) :
    Drawn v (v.elementStmts e ++ ([.sub ("cluster_".toList ++ pAddr e) (.set "label".toList (v.boxLabel e) ::
        (v.styleStmts e ++ x))] ++ v.relStmts e)) [.node e cs] [] := by
  obtain ⟨b1, b2, b3⟩ := boxed v e x
  have hp : partsOf [.node e cs] = (e, cs) :: partsOf cs := by simp only [partsOf, parts, List.append_nil]
  refine ⟨?_, ?_, ?_⟩
  · rw [b1, h.labels]; unfold eidsOf; rw [hp]; rfl
  · refine b2.trans ?_
    rw [hp, List.flatMap_cons, hm]
    refine (h.edges.append_left _).trans ?_
    simp only [List.append_nil, List.map_append, List.append_assoc]
    refine List.Perm.append_left _ (List.Perm.append_left _ List.perm_append_comm)
  · rw [b3, h.labels, h.boxes, hp, List.filter_cons, if_pos (by simpa using ho), List.map_cons, List.map_map]
    rfl

/-- An element without drawn children. -/
theorem Drawn.leaf {v : DumpEnv} {e : Eid} (ho : ¬ Opens (v.kind e)) :
    Drawn v (v.elementStmts e ++ v.relStmts e) [.node e []] [] := by
  have hp : partsOf [.node e []] = [(e, [])] := by simp only [partsOf, parts, List.append_nil]
  have hown : ownEdges v e [] = (v.succs e).map (fun d => (e, d, none)) ++
      (if v.kind e = .plain ∧ v.loop e > 1 then [(e, e, some (v.loop e))] else []) := by
    unfold ownEdges
    cases v.kind e <;> simp
  refine ⟨?_, ?_, ?_⟩
  · rw [labelsOf_append, labels_element, labels_rel, List.append_nil]; unfold eidsOf; rw [hp]; rfl
  · rw [edgesOf_append, edges_element, edges_rel, hp, List.flatMap_cons, hown, List.flatMap_nil, List.append_nil, List.append_nil,
      List.map_append]
    exact List.perm_append_comm
  · rw [boxesOf_append, boxes_element, boxes_rel, hp, List.filter_cons, if_neg (by simpa using ho)]; rfl

/-- The order in a cluster, from the child before. -/
def chainFrom : Option Eid → List Eid → List (Eid × Eid × Option Nat)
  | _, [] => []
  | none, e :: l => chainFrom (some e) l
  | some p, e :: l => (p, e, none) :: chainFrom (some e) l

theorem chainFrom_some (p : Eid) (l : List Eid) : chainFrom (some p) l = ((p :: l).zip l).map fun q => (q.1, q.2, none) := by
  induction l generalizing p with
  | nil => rfl
  | cons e l ih => simp only [chainFrom, ih, List.zip_cons_cons, List.map_cons]

theorem chainFrom_none (l : List Eid) : chainFrom none l = (l.zip l.tail).map fun q => (q.1, q.2, none) := by
  cases l with
  | nil => rfl
  | cons e l => simp only [chainFrom, chainFrom_some, List.tail_cons]

mutual
theorem drawn_tree (v : DumpEnv) : ∀ t : DumpTree, DrawnWhole v [t] → Drawn v (v.stmts t) [t] []
  | .node e cs => fun h => by
    by_cases ho : Opens (v.kind e)
    · have hk := whole_kids h
      unfold stmts
      cases hkind : v.kind e with
      | cluster =>
        refine Drawn.group ho (drawn_chain v none cs hk) ?_
        unfold ownEdges; rw [hkind, chainFrom_none]
      | condition =>
        refine Drawn.group ho (drawn_choice v e 0 cs hk) ?_
        unfold ownEdges; rw [hkind]
      | region =>
        refine Drawn.group ho (drawn_trees v cs hk) ?_
        unfold ownEdges; rw [hkind]
      | some =>
        refine Drawn.group ho (drawn_trees v cs hk) ?_
        unfold ownEdges; rw [hkind]
      | plain => rw [hkind] at ho; exact absurd ho (by decide)
      | fence => rw [hkind] at ho; exact absurd ho (by decide)
      | coordinator => rw [hkind] at ho; exact absurd ho (by decide)
      | «mutable» => rw [hkind] at ho; exact absurd ho (by decide)
    · have hc := whole_leaf h ho
      subst hc
      have hs : v.stmts (.node e []) = v.elementStmts e ++ v.relStmts e := by
        unfold stmts
        cases hkind : v.kind e with
        | cluster => exact absurd (.inl hkind) ho
        | region => exact absurd (.inr (.inl hkind)) ho
        | some => exact absurd (.inr (.inr (.inl hkind))) ho
        | condition => exact absurd (.inr (.inr (.inr hkind))) ho
        | _ => rfl
      rw [hs]
      exact Drawn.leaf ho
theorem drawn_trees (v : DumpEnv) : ∀ ts : List DumpTree, DrawnWhole v ts → Drawn v (v.stmtss ts) ts []
  | [], _ => Drawn.nil v
  | t :: ts, h => Drawn.cons (y := []) (n := []) (drawn_tree v t (whole_head h)) (drawn_trees v ts (whole_tail h)) rfl rfl rfl
theorem drawn_chain (v : DumpEnv) : ∀ (p : Option Eid) (ts : List DumpTree), DrawnWhole v ts →
    Drawn v (v.stmtsChain p ts) ts (chainFrom p (ts.map DumpTree.root))
  | none, [], _ => Drawn.nil v
  | some _, [], _ => Drawn.nil v
  | none, .node e cs :: ts, h =>
    Drawn.cons (y := []) (n := []) (drawn_tree v (.node e cs) (whole_head h)) (drawn_chain v (some e) ts (whole_tail h)) rfl rfl rfl
  | some p, .node e cs :: ts, h => by
    refine Drawn.cons (n := [(p, e, none)]) (drawn_tree v (.node e cs) (whole_head h))
      (drawn_chain v (some e) ts (whole_tail h)) rfl rfl ?_
    simp only [edgesOf, Dot.edges, edgeAttrs_label]
    rfl
theorem drawn_choice (v : DumpEnv) (g : Eid) : ∀ (i : Nat) (ts : List DumpTree), DrawnWhole v ts →
    Drawn v (v.stmtsChoice g i ts) ts (((ts.map DumpTree.root).zipIdx i).map fun p => (g, p.1, some p.2))
  | _, [], _ => Drawn.nil v
  | i, .node e cs :: ts, h => by
    refine Drawn.cons (n := [(g, e, some i)]) (drawn_tree v (.node e cs) (whole_head h))
      (drawn_choice v g (i + 1) ts (whole_tail h)) rfl rfl ?_
    simp only [edgesOf, Dot.edges, List.filter_append, edgeAttrs_label]
    rfl
end

/-! ## C86 -/

/-- **C86** (text, partial).  When no name has a quote or a backslash and no mutable group has children, the text is of the
DOT language and shows exactly the pipeline: one labelled node for each element, with its name; one edge for each relation,
each loop, each step of a cluster and each choice of a condition, with the numbers of rounds and choices; and for each group
one cluster with the elements of the group at any depth.  Without these conditions it need not
(`C86_quote_violated`, `C86_backslash_violated`, `C86_mutable_violated`). -/
theorem C86_text_partial (v : DumpEnv) (ts : List DumpTree) (hn : PlainNames v) (hw : DrawnWhole v ts) :
    ∃ d, readDot (v.pipeline ts) = some d ∧
    List.Forall₂ (fun e l => l.1 = pAddr e ∧ ∃ x, l.2 = caption v e ++ x ∧ (v.perf e = none → x = [])) (eidsOf ts) (labelsOf d) ∧
    (edgesOf d).Perm (((partsOf ts).flatMap fun p => ownEdges v p.1 p.2).map fun q =>
      (pAddr q.1, pAddr q.2.1, q.2.2.toList.map (numeral 10))) ∧
    boxesOf d = ((partsOf ts).filter fun p => decide (Opens (v.kind p.1))).map fun p =>
      ("cluster_".toList ++ pAddr p.1, (eidsOf p.2).map pAddr) := by
  refine ⟨_, read_pipeline hn ts, ?_, ?_, ?_⟩
  · have h := (drawn_trees v ts hw).labels
    have : labelsOf (.set "compound".toList "true".toList :: v.stmtss ts) = labelsOf (v.stmtss ts) := rfl
    rw [this, h]
    generalize eidsOf ts = l
    induction l with
    | nil => exact .nil
    | cons e l ih =>
      refine .cons ⟨rfl, v.perfInfo e, rfl, fun hp => ?_⟩ ih
      simp only [perfInfo, hp]
  · have h := (drawn_trees v ts hw).edges
    rw [List.append_nil] at h
    exact h
  · exact (drawn_trees v ts hw).boxes

/-- **C86** (addresses and numbers).  Different elements have different words, and different numbers different digits. -/
theorem C86_distinct (a b : Nat) : (pAddr a = pAddr b ↔ a = b) ∧ (numeral 10 a = numeral 10 b ↔ a = b) :=
  ⟨⟨pAddr_inj, congrArg _⟩, ⟨numeral_inj (by omega) (by omega), congrArg _⟩⟩

/-- A pipeline of plain elements without relations, with these names. -/
def flat (name : Eid → List Char) : DumpEnv := ⟨fun _ => .plain, name, fun _ => 1, fun _ => none, fun _ => false, fun _ => []⟩

theorem flat_dump (name : Eid → List Char) (e : Eid) (h : name e ≠ []) :
    (flat name).dump (.node e []) = pAddr e ++ ("[label=\"".toList ++ (name e ++ "\"];\n".toList)) := by
  have h1 : (flat name).dump (.node e []) = (flat name).element e ++ [] := rfl
  have h2 : (flat name).element e = ((pAddr e ++ ("[label=\"".toList ++ (flat name).title e)) ++ ([] ++ ("\"];\n".toList ++ []))) := rfl
  have h3 : (flat name).title e = name e := if_neg h
  rw [h1, h2, h3]
  have gen : ∀ a b c d : List Char, ((a ++ (b ++ c)) ++ ([] ++ (d ++ []))) ++ [] = a ++ (b ++ (c ++ d)) := by intros; simp
  exact gen _ _ _ _

/-- **C86 is false of the code** for names with quotes: names are written as they are, so that a pipeline of one element can
have the same text as one of two elements, whatever these are called. -/
theorem C86_quote_violated (a b : Eid) (hne : a ≠ b) (x y : List Char) (hx : x ≠ []) (hy : y ≠ []) :
    ∃ v w : DumpEnv, v.name a = x ++ ("\"];\n".toList ++ (pAddr b ++ ("[label=\"".toList ++ y))) ∧
      w.name a = x ∧ w.name b = y ∧ v.pipeline [.node a []] = w.pipeline [.node a [], .node b []] := by
  refine ⟨flat fun _ => x ++ ("\"];\n".toList ++ (pAddr b ++ ("[label=\"".toList ++ y))), flat fun e => if e = a then x else y, rfl,
    if_pos rfl, if_neg (fun h => hne h.symm), ?_⟩
  have h1 := flat_dump (fun _ => x ++ ("\"];\n".toList ++ (pAddr b ++ ("[label=\"".toList ++ y)))) a (by simp [hx])
  have h2 := flat_dump (fun e => if e = a then x else y) a (by rw [if_pos rfl]; exact hx)
  have h3 := flat_dump (fun e => if e = a then x else y) b (by rw [if_neg (fun h => hne h.symm)]; exact hy)
  rw [if_pos rfl] at h2
  rw [if_neg (fun h => hne h.symm)] at h3
  unfold pipeline
  refine congrArg _ (congrArg (fun z => z ++ "}\n\n".toList) ?_)
  show (flat _).dump (.node a []) ++ [] = (flat _).dump (.node a []) ++ ((flat _).dump (.node b []) ++ [])
  rw [h1, h2, h3]
  have gen : ∀ A L X C B Y : List Char, (A ++ (L ++ ((X ++ (C ++ (B ++ (L ++ Y)))) ++ C))) ++ [] =
      (A ++ (L ++ (X ++ C))) ++ ((B ++ (L ++ (Y ++ C))) ++ []) := by intros; simp
  exact gen _ _ _ _ _ _

/-- **C86 is false of the code** for names with backslashes: when the name of the element ends with one, the text is not of
the language. -/
theorem C86_backslash_violated (a : Eid) (x : List Char) (hx : PlainTxt x) :
    ∃ v : DumpEnv, v.name a = x ++ ['\\'] ∧ v.kind a = .plain ∧ readDot (v.pipeline [.node a []]) = none := by
  refine ⟨flat fun _ => x ++ ['\\'], rfl, rfl, ?_⟩
  have h1 := flat_dump (fun _ => x ++ ['\\']) a (by simp)
  have h2 : (flat fun _ => x ++ ['\\']).pipeline [.node a []] = "\ndigraph CGraph {\ncompound=true;\n".toList ++
      (((flat fun _ => x ++ ['\\']).dump (.node a []) ++ []) ++ "}\n\n".toList) := rfl
  rw [h2, h1]
  have gen : ∀ A B C X D E : List Char, A ++ (((B ++ (C ++ ((X ++ ['\\']) ++ D))) ++ []) ++ E) =
      A ++ (B ++ (C ++ (X ++ (['\\'] ++ (D ++ E))))) := by intros; simp
  rw [gen]
  have l1 : Lx .idle "\ndigraph CGraph {\ncompound=true;\n".toList .idle [.word "digraph".toList, .word "CGraph".toList, .lbrace,
      .word "compound".toList, .eq, .word "true".toList, .semi] := rfl
  have l2 : Lx (.word (pAddr a)) "[label=\"".toList (.text []) [.word (pAddr a), .lsq, .word "label".toList, .eq] := rfl
  have l3 : Lx (.text []) x (.text x) [] := Lx.text (w := []) hx
  have l4 : Lx (.text x) ['\\'] (.esc x) [] := rfl
  have l5 : Lx (.esc x) ("\"];\n".toList ++ "}\n\n".toList) (.text (x ++ ['"'] ++ [']'] ++ [';'] ++ ['\n'] ++ ['}'] ++ ['\n'] ++ ['\n'])) [] :=
    rfl
  have h := l1.app (Lx.addr0.app (l2.app (l3.app (l4.app l5))))
  unfold Lx at h
  unfold readDot
  rw [h]

/-- **C86 is false of the code** for mutable groups: their children are not written. -/
theorem C86_mutable_violated (v : DumpEnv) (e : Eid) (hk : v.kind e = .mutable) (cs cs' a b : List DumpTree) :
    v.pipeline (a ++ .node e cs :: b) = v.pipeline (a ++ .node e cs' :: b) := by
  have h1 : v.dump (.node e cs) = v.dump (.node e cs') := by unfold dump; rw [hk]
  have h2 : ∀ a : List DumpTree, v.dumps (a ++ .node e cs :: b) = v.dumps (a ++ .node e cs' :: b) := by
    intro a
    induction a with
    | nil => simp only [List.nil_append, dumps, h1]
    | cons t a ih => simp only [List.cons_append, dumps, ih]
  unfold pipeline
  rw [h2]

/-! ## Cases -/

/-- A node before a region with a node (5 rounds) and a cluster of two nodes; a condition with two nodes after it, and a
fence; some have names. -/
def demoEnv : DumpEnv :=
  { kind := fun e => if e = 2 then .region else if e = 4 then .cluster else if e = 7 then .condition else if e = 10 then .fence
      else .plain
    name := fun e => if e = 1 then "read file".toList else if e = 7 then "which?".toList else []
    loop := fun e => if e = 3 then 5 else if e = 2 then 2 else 1
    perf := fun e => if e = 1 then some ⟨"0.10".toList, "2.50".toList, "2.40".toList, none⟩ else none
    longest := fun e => e == 1 || e == 2
    succs := fun e => if e = 1 then [2] else if e = 2 then [7, 10] else if e = 3 then [4] else [] }

def demoTrees : List DumpTree :=
  [.node 1 [], .node 2 [.node 3 [], .node 4 [.node 5 [], .node 6 []]], .node 7 [.node 8 [], .node 9 []], .node 10 []]

example : PlainNames demoEnv := by
  constructor
  · intro e
    simp only [demoEnv]
    split_ifs <;> exact plain_lit (by decide)
  · intro e t h
    simp only [demoEnv] at h
    split_ifs at h
    cases h
    exact ⟨plain_lit (by decide), plain_lit (by decide), plain_lit (by decide), by simp⟩

example : DrawnWhole demoEnv demoTrees := by
  have h : ((partsOf demoTrees).all fun p => p.2.isEmpty || decide (Opens (demoEnv.kind p.1))) = true := by decide +kernel
  intro p hp hne
  have := List.all_eq_true.mp h p hp
  simp only [Bool.or_eq_true, List.isEmpty_iff, decide_eq_true_eq] at this
  exact this.resolve_left hne

example : ((partsOf demoTrees).flatMap fun p => ownEdges demoEnv p.1 p.2) =
    [(1, 2, none), (2, 7, none), (2, 10, none), (3, 4, none), (3, 3, some 5), (5, 6, none), (7, 8, some 0), (7, 9, some 1)] := by
  decide +kernel

example : pAddr 4242 = "p0x1092".toList ∧ demoEnv.dump (.node 4 [.node 5 [], .node 6 []]) =
    ("p0x4[label=\"p0x4\"];\nsubgraph cluster_p0x4 {\nlabel=\"p0x4\";\np0x4[shape=point height=0];\ncolor=blue;\n" ++
     "p0x5[label=\"p0x5\"];\np0x6[label=\"p0x6\"];\np0x5 -> p0x6;\n}\n").toList := by
  decide +kernel

end DumpEnv
end CGraph
