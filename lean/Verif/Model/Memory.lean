/-! # Who deletes what

`GPipelineFactory.cpp` and `GPipeline.cpp:17-33` for pipelines, `GPipeline.inl:18-176`, `GPipeline.cpp:127-156, 379-396`,
`GElementRepository.cpp:78-97, 158-163` and `GElement.cpp:16-22` for elements, `GElement.inl:18-60`, `GAspectManager.cpp:68-101`
for their aspects and local parameters, `GParamManager.inl:20-37`, `GParamManager.cpp:76-87`, `GDaemonManager.cpp:40-65`,
`GEventManager.inl:20-38` and `GStageManager.h:44-72` for the other parts of a pipeline.

Objects are numbers given out in order.  `freed` is the list of all `delete`s so far: an object that is in it twice was
deleted twice.  Simplified: a pipeline and the managers, engine and schedule that only it refers to are one object; an
aspect, daemon, event or stage and its parameter are one object; the order of the deletes inside one destructor is not that
of the code; relations between elements own nothing and are left out, but that a dependency in another group (or null) makes
a registration fail (`GElement.cpp:161-164`) is kept; the types of parameters are left out. -/
namespace CGraph

/-- All pipelines and elements of a program. -/
structure MemSt where
  /-- the next object -/
  next : Nat
  /-- objects deleted so far, in order -/
  freed : List Nat
  /-- `s_pipeline_list_`, GPipelineFactory.h:44 -/
  live : List Nat
  /-- `is_init_` of a pipeline -/
  up : Nat → Bool
  /-- `elements_` of the repository (a set), and `manager_elements_` of the element manager -/
  repo : Nat → List Nat
  top : Nat → List Nat
  /-- `daemons_`; `params_map_`, `events_map_`, `stage_map_` with their keys -/
  daemons : Nat → List Nat
  params : Nat → List (Nat × Nat)
  events : Nat → List (Nat × Nat)
  stages : Nat → List (Nat × Nat)
  /-- of an element: `belong_`, whether it has managers, `children_`, `aspect_arr_`, `local_params_` -/
  belong : Nat → Option Nat
  registered : Nat → Bool
  children : Nat → List Nat
  aspects : Nat → List Nat
  eparams : Nat → List (Nat × Nat)

/-- Assignment of one value of a map. -/
def upd {α : Type} (f : Nat → α) (i : Nat) (v : α) : Nat → α := fun x => if x = i then v else f x

/-- Insertion into a set of pointers. -/
def setIns (l : List Nat) (x : Nat) : List Nat := if x ∈ l then l else l ++ [x]

/-- Lookup in a map with keys. -/
def keyGet (l : List (Nat × Nat)) (k : Nat) : Option Nat := (l.find? (fun p => p.1 == k)).map (·.2)

/-- Removal of a key (a key occurs once). -/
def keyDel (l : List (Nat × Nat)) (k : Nat) : List (Nat × Nat) := l.eraseP (fun p => p.1 == k)

/-- Calls. -/
inductive MemOp where
  /-- `GPipelineFactory::create`, `remove`, `clear` -/
  | create
  | remove (p : Nat)
  | clear
  /-- `registerGElement<T>` of a node type: the node is made by the call -/
  | regNew (p : Nat) (deps : List (Option Nat))
  /-- `createGNode`, `createGGroup` -/
  | mkNode (p : Nat) (deps : List (Option Nat))
  | mkGroup (p : Nat) (els : List Nat) (deps : List (Option Nat))
  /-- `registerGNode`, `registerGGroup` of an element that exists -/
  | reg (p e : Nat) (deps : List (Option Nat))
  /-- `init` (with its outcome) and `destroy` -/
  | init (p : Nat) (ok : Bool)
  | destroy (p : Nat)
  /-- `addGAspect`, `popLastAspect`, `addEParam` -/
  | aspect (e : Nat)
  | pop (e : Nat)
  | eparam (e k : Nat)
  /-- `createGParam`, `removeGParam`, `addGDaemon`, `addGEvent`, `addGStage` -/
  | param (p k : Nat)
  | rmParam (p k : Nat)
  | daemon (p : Nat)
  | event (p k : Nat)
  | stage (p k : Nat)
deriving DecidableEq, Repr

namespace MemSt

/-- Beginning of the program. -/
def start : MemSt :=
  ⟨0, [], [], fun _ => false, fun _ => [], fun _ => [], fun _ => [], fun _ => [], fun _ => [], fun _ => [], fun _ => none,
    fun _ => false, fun _ => [], fun _ => [], fun _ => []⟩

/-- What deleting an element deletes: GElement.cpp:16-22, GAspectManager.cpp:18-20, 82-90. -/
def eObjs (s : MemSt) (e : Nat) : List Nat := e :: (s.aspects e ++ (s.eparams e).map (·.2))

/-- What deleting a pipeline deletes: GPipeline.cpp:26-33 and the destructors of the managers and of the repository. -/
def pObjs (s : MemSt) (p : Nat) : List Nat :=
  p :: (s.daemons p ++ (s.params p).map (·.2) ++ (s.events p).map (·.2) ++ (s.stages p).map (·.2)
    ++ (s.repo p).flatMap s.eObjs)

/-- GElement.cpp:161-164 for an element `e`: no null pointer, and all in the same group. -/
def depsOk (s : MemSt) (e : Nat) (deps : List (Option Nat)) : Bool :=
  deps.all (fun d => match d with | none => false | some d => s.belong d == s.belong e)

/-- A new object that is an element with these children. -/
def newElt (s : MemSt) (children : List Nat) : MemSt :=
  { s with
    next := s.next + 1
    belong := upd (fun x => if x ∈ children then some s.next else s.belong x) s.next none
    registered := upd s.registered s.next false
    children := upd s.children s.next children
    aspects := upd s.aspects s.next []
    eparams := upd s.eparams s.next [] }

/-- GPipeline.cpp:389-393: managers, manager, repository.  (The managers of the children of a group are left out: whether a
child is registered does not matter, see `reg`.) -/
def enter (s : MemSt) (p e : Nat) : MemSt :=
  { s with
    registered := upd s.registered e true
    top := upd s.top p (setIns (s.top p) e)
    repo := upd s.repo p (setIns (s.repo p) e) }

/-- GElementRepository.cpp:89-97 `fetch`: an element and everything in it.  Children are made before their group, so that
`s.next` rounds are enough. -/
def below (s : MemSt) : Nat → Nat → List Nat
  | 0, e => [e]
  | n + 1, e => e :: (s.children e).flatMap (below s n)

/-- GElementRepository.cpp:78-86 `fetchAll`. -/
def fetchAll (s : MemSt) (p : Nat) : MemSt :=
  { s with repo := upd s.repo p (((s.top p).flatMap (s.below s.next)).foldl setIns (s.repo p)) }

/-- One call, and whether it reports success (no error and no exception). -/
def step (s : MemSt) : MemOp → MemSt × Bool
  -- GPipelineFactory.cpp:16-24
  | .create => ({ s with
      next := s.next + 1
      live := s.live ++ [s.next]
      up := upd s.up s.next false
      repo := upd s.repo s.next []
      top := upd s.top s.next []
      daemons := upd s.daemons s.next []
      params := upd s.params s.next []
      events := upd s.events s.next []
      stages := upd s.stages s.next [] }, true)
  -- GPipelineFactory.cpp:27-37
  | .remove p => ({ s with live := s.live.filter (· != p), freed := s.freed ++ s.pObjs p }, true)
  -- GPipelineFactory.cpp:40-50
  | .clear => ({ s with live := [], freed := s.freed ++ s.live.flatMap s.pObjs }, true)
  -- GPipeline.inl:18-53, GPipeline.cpp:379-396
  | .regNew p deps =>
    if s.up p then (s, false)
    else if (s.newElt []).depsOk s.next deps then ((s.newElt []).enter p s.next, true) else (s.newElt [], false)
  -- GPipeline.inl:122-135
  | .mkNode p deps =>
    if s.up p then (s, false)
    else if (s.newElt []).depsOk s.next deps then
      ({ s.newElt [] with repo := upd s.repo p (setIns (s.repo p) s.next) }, true)
    else (s.newElt [], false)
  -- GPipeline.inl:147-176, GGroup.cpp:45-57
  | .mkGroup p els deps =>
    if s.up p then (s, false)
    else if deps.any (·.isNone) then (s, false)
    else if (s.newElt els).depsOk s.next deps then
      ({ s.newElt els with repo := upd s.repo p (setIns (s.repo p) s.next) }, true)
    else (s.newElt els, false)
  -- GPipeline.cpp:127-156
  | .reg p e deps =>
    if s.up p then (s, false)
    else if (s.belong e).isSome then (s, false)
    else if s.registered e then (s, false)
    else if s.depsOk e deps then (s.enter p e, true)
    else (s, false)
  -- GPipeline.cpp:36-53, 359-376; 80-103
  | .init p ok => if s.up p then (s, false) else ({ s.fetchAll p with up := upd s.up p ok }, ok)
  | .destroy p => if s.up p then ({ s with up := upd s.up p false }, true) else (s, false)
  -- GElement.inl:18-46
  | .aspect e => ({ s with next := s.next + 1, aspects := upd s.aspects e (s.aspects e ++ [s.next]) }, true)
  -- GElement.cpp:519-532, GAspectManager.cpp:93-101
  | .pop e => match (s.aspects e).getLast? with
    | none => (s, false)
    | some a => ({ s with freed := s.freed ++ [a], aspects := upd s.aspects e (s.aspects e).dropLast }, true)
  -- GElement.inl:48-62
  | .eparam e k => ({ s with
      next := s.next + 1
      freed := s.freed ++ (keyGet (s.eparams e) k).toList
      eparams := upd s.eparams e (keyDel (s.eparams e) k ++ [(k, s.next)]) }, true)
  -- GParamManager.inl:18-36
  | .param p k => match keyGet (s.params p) k with
    | some _ => (s, true)
    | none => ({ s with next := s.next + 1, params := upd s.params p (s.params p ++ [(k, s.next)]) }, true)
  -- GParamManager.cpp:76-87
  | .rmParam p k => match keyGet (s.params p) k with
    | none => (s, false)
    | some x => ({ s with freed := s.freed ++ [x], params := upd s.params p (keyDel (s.params p) k) }, true)
  -- GPipeline.inl:198-232
  | .daemon p =>
    if s.up p then (s, false)
    else ({ s with next := s.next + 1, daemons := upd s.daemons p (s.daemons p ++ [s.next]) }, true)
  -- GPipeline.inl:235-248, GEventManager.inl:20-38
  | .event p k =>
    if s.up p then (s, false)
    else match keyGet (s.events p) k with
      | some _ => (s, false)
      | none => ({ s with next := s.next + 1, events := upd s.events p (s.events p ++ [(k, s.next)]) }, true)
  -- GPipeline.inl:251-264, GStageManager.h:63-72: `insert` does nothing when the key is there
  | .stage p k =>
    if s.up p then (s, false)
    else match keyGet (s.stages p) k with
      | some _ => ({ s with next := s.next + 1 }, true)
      | none => ({ s with next := s.next + 1, stages := upd s.stages p (s.stages p ++ [(k, s.next)]) }, true)

/-- A sequence of calls. -/
def exec (s : MemSt) : List MemOp → MemSt
  | [] => s
  | o :: l => exec (s.step o).1 l

end MemSt
end CGraph
