import Verif.Model.Dump

/-! # Specification for the graphviz text

A reader of the part of the DOT language that matters (https://graphviz.org/doc/info/lang.html): words, quoted texts,
`{ } [ ] ; , = ->`; node, edge, attribute and subgraph statements, where `;` is optional.  It knows nothing of CGraph. -/
namespace CGraph.Spec

inductive DTok where
  | word (w : List Char)
  | text (w : List Char)
  | lbrace | rbrace | lsq | rsq | semi | comma | eq | arrow
deriving DecidableEq, Repr

inductive LexSt where
  | idle
  | word (w : List Char)
  | text (w : List Char)
  | esc (w : List Char)
  | dash

def wordChar (c : Char) : Bool := c.isAlphanum || c == '_'

/-- A character outside of words and texts. -/
def lexIdle (c : Char) : Option (LexSt × List DTok) :=
  if c = ' ' ∨ c = '\n' then some (.idle, [])
  else if c = '"' then some (.text [], [])
  else if c = '{' then some (.idle, [.lbrace])
  else if c = '}' then some (.idle, [.rbrace])
  else if c = '[' then some (.idle, [.lsq])
  else if c = ']' then some (.idle, [.rsq])
  else if c = ';' then some (.idle, [.semi])
  else if c = ',' then some (.idle, [.comma])
  else if c = '=' then some (.idle, [.eq])
  else if c = '-' then some (.dash, [])
  else if wordChar c then some (.word [c], [])
  else none

/-- One character.  In a quoted text, `\"` stands for a quote and another backslash for itself. -/
def lexStep : LexSt → Char → Option (LexSt × List DTok)
  | .idle, c => lexIdle c
  | .word w, c => if wordChar c then some (.word (w ++ [c]), []) else (lexIdle c).map fun r => (r.1, .word w :: r.2)
  | .text w, c =>
    if c = '"' then some (.idle, [.text w]) else if c = '\\' then some (.esc w, []) else some (.text (w ++ [c]), [])
  | .esc w, c => if c = '"' then some (.text (w ++ ['"']), []) else some (.text (w ++ ['\\', c]), [])
  | .dash, c => if c = '>' then some (.idle, [.arrow]) else none

def lexRun : LexSt → List Char → Option (LexSt × List DTok)
  | s, [] => some (s, [])
  | s, c :: l => (lexStep s c).bind fun r => (lexRun r.1 l).map fun q => (q.1, r.2 ++ q.2)

/-- A statement. -/
inductive Dot where
  | node (w : List Char) (attrs : List (List Char × List Char))
  | edge (a b : List Char) (attrs : List (List Char × List Char))
  | set (k x : List Char)
  | sub (w : List Char) (body : List Dot)

/-- Where the reader is. -/
inductive PMode where
  | start
  | subName
  | subOpen (w : List Char)
  | one (w : List Char)
  | arr (w : List Char)
  | asg (w : List Char)
  | after (d : Dot)
  | attrs (d : Dot)
  | key (d : Dot) (k : List Char)
  | val (d : Dot) (k : List Char)

/-- The statements read of the innermost subgraph, and those around it; `fin`: the graph is closed. -/
structure PSt where
  stack : List (List Char × List Dot)
  cur : List Dot
  mode : PMode
  fin : Bool := false

def Dot.add : Dot → List Char → List Char → Dot
  | .node w l, k, x => .node w (l ++ [(k, x)])
  | .edge a b l, k, x => .edge a b (l ++ [(k, x)])
  | d, _, _ => d

/-- A token where a statement can begin. -/
def pStart (stack : List (List Char × List Dot)) (cur : List Dot) : DTok → Option PSt
  | .word w => some ⟨stack, cur, if w = "subgraph".toList then .subName else .one w, false⟩
  | .text w => some ⟨stack, cur, .one w, false⟩
  | .semi => some ⟨stack, cur, .start, false⟩
  | .rbrace => match stack with
    | [] => some ⟨[], cur, .start, true⟩
    | (w, out) :: st => some ⟨st, out ++ [.sub w cur], .start, false⟩
  | _ => none

/-- After a complete statement. -/
def pAfter (stack : List (List Char × List Dot)) (cur : List Dot) (d : Dot) : DTok → Option PSt
  | .lsq => some ⟨stack, cur, .attrs d, false⟩
  | t => pStart stack (cur ++ [d]) t

def pStep (s : PSt) (t : DTok) : Option PSt :=
  if s.fin then none
  else match s.mode, t with
    | .start, t => pStart s.stack s.cur t
    | .subName, .word w => some { s with mode := .subOpen w }
    | .subOpen w, .lbrace => some ⟨(w, s.cur) :: s.stack, [], .start, false⟩
    | .one w, .arrow => some { s with mode := .arr w }
    | .one w, .eq => some { s with mode := .asg w }
    | .one w, t => pAfter s.stack s.cur (.node w []) t
    | .arr w, .word x => some { s with mode := .after (.edge w x []) }
    | .arr w, .text x => some { s with mode := .after (.edge w x []) }
    | .asg w, .word x => some { s with cur := s.cur ++ [.set w x], mode := .start }
    | .asg w, .text x => some { s with cur := s.cur ++ [.set w x], mode := .start }
    | .after d, t => pAfter s.stack s.cur d t
    | .attrs d, .rsq => some { s with mode := .after d }
    | .attrs d, .comma => some { s with mode := .attrs d }
    | .attrs d, .semi => some { s with mode := .attrs d }
    | .attrs d, .word k => some { s with mode := .key d k }
    | .key d k, .eq => some { s with mode := .val d k }
    | .val d k, .word x => some { s with mode := .attrs (d.add k x) }
    | .val d k, .text x => some { s with mode := .attrs (d.add k x) }
    | _, _ => none

def pRun (s : PSt) : List DTok → Option PSt
  | [] => some s
  | t :: l => (pStep s t).bind fun s' => pRun s' l

/-- The statements of a text `digraph <name> { ... }`; `none` when the text is not of the language. -/
def readDot (text : List Char) : Option (List Dot) :=
  match lexRun .idle text with
  | some (.idle, .word d :: .word _ :: .lbrace :: l) =>
    if d = "digraph".toList then
      match pRun ⟨[], [], .start, false⟩ l with
      | some s => if s.fin then some s.cur else none
      | none => none
    else none
  | _ => none

mutual
/-- The labelled nodes of a graph with their labels. -/
def Dot.labels : Dot → List (List Char × List Char)
  | .node w l => (l.filter (·.1 == "label".toList)).map fun a => (w, a.2)
  | .sub _ b => labelsOf b
  | _ => []
def labelsOf : List Dot → List (List Char × List Char)
  | [] => []
  | d :: l => d.labels ++ labelsOf l
end

mutual
/-- The edges of a graph with their labels. -/
def Dot.edges : Dot → List (List Char × List Char × List (List Char))
  | .edge a b l => [(a, b, (l.filter (·.1 == "label".toList)).map (·.2))]
  | .sub _ b => edgesOf b
  | _ => []
def edgesOf : List Dot → List (List Char × List Char × List (List Char))
  | [] => []
  | d :: l => d.edges ++ edgesOf l
end

mutual
/-- The clusters of a graph, each with the labelled nodes drawn in it. -/
def Dot.boxes : Dot → List (List Char × List (List Char))
  | .sub w b => (w, (labelsOf b).map (·.1)) :: boxesOf b
  | _ => []
def boxesOf : List Dot → List (List Char × List (List Char))
  | [] => []
  | d :: l => d.boxes ++ boxesOf l
end

/-! What should be drawn. -/

def DumpTree.root : DumpTree → Eid
  | .node e _ => e

mutual
/-- All elements with their children. -/
def parts : DumpTree → List (Eid × List DumpTree)
  | .node e cs => (e, cs) :: partsOf cs
def partsOf : List DumpTree → List (Eid × List DumpTree)
  | [] => []
  | t :: ts => parts t ++ partsOf ts
end

/-- The elements of some trees. -/
def eidsOf (ts : List DumpTree) : List Eid := (partsOf ts).map (·.1)

/-- The edges that belong to one element, with numbers on some: its relations; a loop, with the number of rounds; the order
in a cluster; the choices of a condition, with their index. -/
def ownEdges (v : DumpEnv) (e : Eid) (cs : List DumpTree) : List (Eid × Eid × Option Nat) :=
  (v.succs e).map (fun d => (e, d, none)) ++
  (if v.kind e = .plain ∧ v.loop e > 1 then [(e, e, some (v.loop e))] else []) ++
  match v.kind e with
  | .cluster => ((cs.map DumpTree.root).zip (cs.map DumpTree.root).tail).map fun p => (p.1, p.2, none)
  | .condition => (cs.map DumpTree.root).zipIdx.map fun p => (e, p.1, some p.2)
  | _ => []

/-- What is written under a node: the name of the element, or its address when it has none. -/
def caption (v : DumpEnv) (e : Eid) : List Char := if v.name e = [] then pAddr e else v.name e

/-- The groups whose children are drawn. -/
def Opens (k : DumpKind) : Prop := k = .cluster ∨ k = .region ∨ k = .some ∨ k = .condition

instance (k : DumpKind) : Decidable (Opens k) := by unfold Opens; infer_instance

/-- Only groups whose children are drawn have children. -/
def DrawnWhole (v : DumpEnv) (ts : List DumpTree) : Prop := ∀ p ∈ partsOf ts, p.2 ≠ [] → Opens (v.kind p.1)

/-- A text that does not end or escape a quoted text. -/
def PlainTxt (l : List Char) : Prop := '"' ∉ l ∧ '\\' ∉ l

/-- All names and numbers are such texts. -/
def PlainNames (v : DumpEnv) : Prop :=
  (∀ e, PlainTxt (v.name e)) ∧
  ∀ e t, v.perf e = some t → PlainTxt t.start ∧ PlainTxt t.finish ∧ PlainTxt t.per ∧ ∀ x, t.total = some x → PlainTxt x

end CGraph.Spec
