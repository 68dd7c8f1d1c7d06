import Verif.Model.Graph

/-! # The graphviz text of a pipeline

`GPipeline::dump` writes a text in the DOT language: a node for every element, an edge for every relation, and a cluster for
every group.  The text is a list of characters here.

Simplifications: an address is written as `0x` and hexadecimal digits, as the usual standard libraries do.  The numbers of
the performance records are given as texts (the formatting of floating point numbers is left out). -/
namespace CGraph

/-- The kinds that differ in the text.  GElementDefine.h:22-37; `plain`: nodes, functions and singletons; `some`: also user
groups have one of these kinds. -/
inductive DumpKind where
  | plain
  | fence
  | coordinator
  | cluster
  | region
  | some
  | condition
  | mutable
deriving DecidableEq, Repr

/-- An element with its children, by their addresses. -/
inductive DumpTree where
  | node (id : Eid) (children : List DumpTree)

/-- The texts of a performance record: first start, last finish, cost of one loop, and the total when there are several
loops (GElement.cpp:426-438). -/
structure PerfTxt where
  start : List Char
  finish : List Char
  per : List Char
  total : Option (List Char)

/-- What `dump` reads of the elements: type, name, loop, performance record (when its loop is not 0), whether it is in the
longest path, and `run_before_`. -/
structure DumpEnv where
  kind : Eid → DumpKind
  name : Eid → List Char
  loop : Eid → Nat
  perf : Eid → Option PerfTxt
  longest : Eid → Bool
  succs : Eid → List Eid

/-- A digit. -/
def digitChar (d : Nat) : Char := "0123456789abcdef".toList.getD d '0'

/-- The digits of `n` to the base `b`, with at most `f` of them. -/
def numeralGo (b : Nat) : Nat → Nat → List Char
  | 0, _ => []
  | f + 1, n => if n < b then [digitChar n] else numeralGo b f (n / b) ++ [digitChar (n % b)]

/-- A number as `operator<<` writes it. -/
def numeral (b n : Nat) : List Char := numeralGo b (n + 1) n

/-- `'p' << this`. -/
def pAddr (e : Eid) : List Char := "p0x".toList ++ numeral 16 e

namespace DumpEnv

/-- GElement.cpp:453-456 `isGGroup`. -/
def isGroup (v : DumpEnv) (e : Eid) : Bool :=
  match v.kind e with
  | .plain | .fence | .coordinator => false
  | _ => true

/-- GElement.cpp:426-438 `dumpPerfInfo`. -/
def perfInfo (v : DumpEnv) (e : Eid) : List Char :=
  match v.perf e with
  | none => []
  | some t => "\n[start ".toList ++ (t.start ++ ("ms, finish ".toList ++ (t.finish ++ ("ms,\nper_cost ".toList ++ (t.per ++
      ((match t.total with | none => [] | some x => "ms, total_cost ".toList ++ x) ++ "ms]".toList))))))

/-- The name, or the address when there is none: GElement.cpp:418-422, GGroup.cpp:69-73. -/
def title (v : DumpEnv) (e : Eid) : List Char := if v.name e = [] then pAddr e else v.name e

/-- GElement.cpp:416-423 `dumpElementHeader`. -/
def header (v : DumpEnv) (e : Eid) : List Char := pAddr e ++ ("[label=\"".toList ++ v.title e)

/-- GElement.cpp:405-413, GFence.cpp:57-61, GCoordinator.inl:35-39 `dumpElement`. -/
def element (v : DumpEnv) (e : Eid) : List Char :=
  match v.kind e with
  | .fence => v.header e ++ (v.perfInfo e ++ "\", shape=box]\n".toList)
  | .coordinator => v.header e ++ (v.perfInfo e ++ "\", shape=diamond]\n".toList)
  | _ => v.header e ++ (v.perfInfo e ++ ("\"];\n".toList ++
      (if v.loop e > 1 && !v.isGroup e then
        pAddr e ++ (" -> ".toList ++ (pAddr e ++ ("[label=\"".toList ++ (numeral 10 (v.loop e) ++ "\"];\n".toList))))
      else [])))

/-- GElement.cpp:384-402 `dumpEdge`. -/
def edge (v : DumpEnv) (src dst : Eid) (label : List Char) : List Char :=
  pAddr src ++ (" -> ".toList ++ (pAddr dst ++ (label ++
    ((match v.isGroup src, v.isGroup dst with
      | true, true => "[ltail=cluster_".toList ++ (pAddr src ++ (" lhead=cluster_".toList ++ (pAddr dst ++ "]".toList)))
      | true, false => "[ltail=cluster_".toList ++ (pAddr src ++ "]".toList)
      | false, true => "[lhead=cluster_".toList ++ (pAddr dst ++ "]".toList)
      | false, false => []) ++
    ((if v.longest src && v.longest dst then "[color=red]".toList else []) ++ ";\n".toList)))))

/-- The relations of an element: GElement.cpp:378-380, GCluster.cpp:50-52, GRegion.cpp:97-99, GSome.cpp:99-101,
GCondition.cpp:54-56. -/
def relations (v : DumpEnv) (e : Eid) : List Char := (v.succs e).flatMap fun d => v.edge e d []

/-- GGroup.cpp:64-81 `dumpGroupLabelBegin`. -/
def groupBegin (v : DumpEnv) (e : Eid) : List Char :=
  "subgraph cluster_".toList ++ (pAddr e ++ (" {\nlabel=\"".toList ++ (v.title e ++
    ((if v.loop e > 1 then "(loop=".toList ++ (numeral 10 (v.loop e) ++ ")".toList) else []) ++
      (v.perfInfo e ++ "\";\n".toList)))))

/-- The lines after the beginning of the cluster: GCluster.cpp:33-34, GRegion.cpp:88-89, GSome.cpp:90-91,
GCondition.cpp:41-42. -/
def groupStyle (v : DumpEnv) (e : Eid) : List Char :=
  match v.kind e with
  | .condition => pAddr e ++ "[shape=diamond];\ncolor=blue;\n".toList
  | .some => pAddr e ++ "[shape=point height=0];\ncolor=blue;style=dashed;\n".toList
  | _ => pAddr e ++ "[shape=point height=0];\ncolor=blue;\n".toList

mutual
/-- `dump` of an element: GElement.cpp:375-381 (also for mutable groups, whose children are not written), GCluster.cpp:30-53,
GRegion.cpp:85-100, GSome.cpp:87-102, GCondition.cpp:38-57. -/
def dump (v : DumpEnv) : DumpTree → List Char
  | .node e cs =>
    match v.kind e with
    | .plain | .fence | .coordinator | .mutable => v.element e ++ v.relations e
    | .cluster => v.element e ++ (v.groupBegin e ++ (v.groupStyle e ++ (v.dumpChain none cs ++ ("}\n".toList ++ v.relations e))))
    | .region | .some => v.element e ++ (v.groupBegin e ++ (v.groupStyle e ++ (v.dumps cs ++ ("}\n".toList ++ v.relations e))))
    | .condition =>
      v.element e ++ (v.groupBegin e ++ (v.groupStyle e ++ (v.dumpChoice e 0 cs ++ ("}\n".toList ++ v.relations e))))
/-- Elements one after another. -/
def dumps (v : DumpEnv) : List DumpTree → List Char
  | [] => []
  | t :: ts => v.dump t ++ v.dumps ts
/-- GCluster.cpp:36-46: an edge from each child to the next one. -/
def dumpChain (v : DumpEnv) : Option Eid → List DumpTree → List Char
  | _, [] => []
  | none, .node e cs :: ts => v.dump (.node e cs) ++ v.dumpChain (some e) ts
  | some p, .node e cs :: ts => v.dump (.node e cs) ++ (v.edge p e [] ++ v.dumpChain (some e) ts)
/-- GCondition.cpp:44-50: an edge to each child with its index. -/
def dumpChoice (v : DumpEnv) (g : Eid) : Nat → List DumpTree → List Char
  | _, [] => []
  | i, .node e cs :: ts => v.dump (.node e cs) ++
      (v.edge g e ("[label=\"".toList ++ (numeral 10 i ++ "\"]".toList)) ++ v.dumpChoice g (i + 1) ts)
end

/-- GPipeline.cpp:200-216 `dump`. -/
def pipeline (v : DumpEnv) (ts : List DumpTree) : List Char :=
  "\ndigraph CGraph {\ncompound=true;\n".toList ++ (v.dumps ts ++ "}\n\n".toList)

end DumpEnv
end CGraph
