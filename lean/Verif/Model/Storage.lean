import Verif.Model.Codec

/-! # Saving and loading a pipeline

`src/GraphCtrl/GraphPipeline/_GStroage/GStorage.cpp`, `GStorageDefine.h`, `GStorageFactory.*`, with `GPipeline::save`,
`load`, `innerRegister`.

Simplified: an element is referred to by its session, which is unique (`URandom<>::generateSession`), instead of by its
address; so the sets of addresses are lists of sessions in the order of the iteration.  The file is the list of its bytes; failing
file operations are left out.  The pipeline that is loaded into is a new one.  A class name is a string; the factory
(GStorageFactory.h:41-44) gives the kind of object for a class name.  What an object contains besides the listed members is
not modelled (it is not saved). -/
namespace CGraph

abbrev Bytes := List UInt8

/-- A signed number of `w` bytes (two's complement). -/
def encI (x : Int) (w : Nat) : Bytes := le (x % (256 ^ w : Nat)).toNat w

def decI (b : Bytes) : Int :=
  if 2 * unle b < 256 ^ b.length then (unle b : Int) else (unle b : Int) - (256 ^ b.length : Nat)

def encB (b : Bool) : Bytes := [if b then 1 else 0]

def decB (b : Bytes) : Bool := unle b ≠ 0

/-! ## The storages -/

/-- GStorageDefine.h:86-102 `_GElementStorage`. -/
structure StElem where
  name : Bytes
  loop : Nat
  session : Bytes
  deps : List Bytes
  visible : Bool
  binding : Int
  level : Int
  timeout : Int
  strategy : Int
  isMacro : Bool
  clz : Bytes
  belong : Bytes
  ty : Int
  children : List StElem
  aspects : List Bytes
  eparams : List (Bytes × Bytes)

/-- UThreadPoolConfig.h:19-41. -/
structure SCfg where
  defaultThreadSize : Int := 8
  secondaryThreadSize : Int := 0
  maxThreadSize : Int := 8
  maxTaskStealRange : Int := 7
  maxLocalBatchSize : Int := 2
  maxPoolBatchSize : Int := 2
  maxStealBatchSize : Int := 2
  pipelineWaitBusyEpoch : Int := 0
  primaryThreadBusyEpoch : Int := 3
  primaryThreadEmptyInterval : Int := 1000
  secondaryThreadTtl : Int := 10
  monitorSpan : Int := 5
  queueEmptyInterval : Int := 1000
  primaryThreadPolicy : Int := 0
  secondaryThreadPolicy : Int := 0
  primaryThreadPriority : Int := 0
  secondaryThreadPriority : Int := 0
  bindCpuEnable : Bool := false
  batchTaskEnable : Bool := false
  monitorEnable : Bool := false
  deliverRunningPrimaryThreadEnable : Bool := false
deriving DecidableEq, Repr

/-- UThreadPoolConfig.h:43-59 `check`: `true` if there is no error. -/
def SCfg.check (c : SCfg) : Bool :=
  !(decide (c.defaultThreadSize < 0) || decide (c.secondaryThreadSize < 0)) &&
  !decide (c.defaultThreadSize + c.secondaryThreadSize > c.maxThreadSize) &&
  !(c.monitorEnable && decide (c.monitorSpan ≤ 0))

/-- GStorageDefine.h:160-167 `_GPipelineStorage`; events, parameters with backtrace, daemons, stages as in 26-74. -/
structure StPipe where
  elements : List StElem
  events : List (Bytes × Bytes)
  /-- key, backtrace, class name -/
  params : List (Bytes × Bool × Bytes)
  daemons : List (Int × Bytes)
  stages : List (Bytes × Int × Bytes)
  cfg : SCfg

/-! ## The storages as values of the codec -/

/-- GStorage.cpp:20-98: the fields in order, with their ids.  0 pipeline, 1 element, 2 event, 3 parameter, 4 daemon,
5 stage, 6 configuration, 7 aspect, 8 passed parameter; other numbers are not used. -/
def stEnv : REnv
  | 0 => [(1, .vec (.cls 1)), (2, .vec (.cls 2)), (3, .vec (.cls 3)), (4, .vec (.cls 4)), (5, .vec (.cls 5)), (6, .cls 6)]
  | 1 => [(1, .str), (2, .fixed 8), (3, .str), (4, .vec .str), (5, .fixed 1), (6, .fixed 4), (7, .fixed 4), (8, .fixed 8),
      (9, .fixed 4), (10, .fixed 1), (11, .str), (12, .str), (13, .fixed 4), (14, .vec (.cls 1)), (15, .vec (.cls 7)),
      (16, .vec (.cls 8))]
  | 2 => [(1, .str), (2, .str)]
  | 3 => [(1, .str), (2, .str)]
  | 4 => [(1, .fixed 8), (2, .str)]
  | 5 => [(1, .str), (2, .fixed 4), (3, .str)]
  | 6 => [(1, .fixed 4), (2, .fixed 4), (3, .fixed 4), (4, .fixed 4), (5, .fixed 4), (6, .fixed 4), (7, .fixed 4),
      (8, .fixed 4), (9, .fixed 8), (10, .fixed 8), (11, .fixed 8), (12, .fixed 8), (13, .fixed 4), (14, .fixed 4),
      (15, .fixed 4), (16, .fixed 4), (17, .fixed 1), (18, .fixed 1), (19, .fixed 1)]
  | 7 => [(1, .str)]
  | 8 => [(1, .str), (2, .str)]
  | _ => [(1, .str)]

/-- GStorage.cpp:25-27. -/
def aspVal (c : Bytes) : RVal := .obj [.str c]

def aspOf : RVal → Option Bytes
  | .obj [.str c] => some c
  | _ => none

/-- GStorage.cpp:20-23, 45-48 (and 40-43 after dropping the backtrace). -/
def pairVal (p : Bytes × Bytes) : RVal := .obj [.str p.1, .str p.2]

def pairOf : RVal → Option (Bytes × Bytes)
  | .obj [.str a, .str b] => some (a, b)
  | _ => none

/-- GStorage.cpp:40-43: the backtrace flag is not among the fields. -/
def prmVal (p : Bytes × Bool × Bytes) : RVal := .obj [.str p.1, .str p.2.2]

/-- GStorageDefine.h:73: the flag keeps its initial value. -/
def prmOf : RVal → Option (Bytes × Bool × Bytes)
  | .obj [.str a, .str b] => some (a, false, b)
  | _ => none

/-- GStorage.cpp:29-32. -/
def dmnVal (p : Int × Bytes) : RVal := .obj [.fixed (encI p.1 8), .str p.2]

def dmnOf : RVal → Option (Int × Bytes)
  | .obj [.fixed a, .str b] => some (decI a, b)
  | _ => none

/-- GStorage.cpp:34-38. -/
def stgVal (p : Bytes × Int × Bytes) : RVal := .obj [.str p.1, .fixed (encI p.2.1 4), .str p.2.2]

def stgOf : RVal → Option (Bytes × Int × Bytes)
  | .obj [.str k, .fixed a, .str b] => some (k, decI a, b)
  | _ => none

def strOf : RVal → Option Bytes
  | .str b => some b
  | _ => none

/-- All results, if there are. -/
def mapO {α β : Type} (f : α → Option β) : List α → Option (List β)
  | [] => some []
  | a :: l => (f a).bind fun b => (mapO f l).bind fun r => some (b :: r)

/-- GStorage.cpp:69-89: `pipeline_wait_busy_epoch_` and `deliver_running_primary_thread_enable_` are not among the
fields. -/
def cfgVal (c : SCfg) : RVal :=
  .obj [.fixed (encI c.defaultThreadSize 4), .fixed (encI c.secondaryThreadSize 4), .fixed (encI c.maxThreadSize 4),
    .fixed (encI c.maxTaskStealRange 4), .fixed (encI c.maxLocalBatchSize 4), .fixed (encI c.maxPoolBatchSize 4),
    .fixed (encI c.maxStealBatchSize 4), .fixed (encI c.primaryThreadBusyEpoch 4),
    .fixed (encI c.primaryThreadEmptyInterval 8), .fixed (encI c.secondaryThreadTtl 8), .fixed (encI c.monitorSpan 8),
    .fixed (encI c.queueEmptyInterval 8), .fixed (encI c.primaryThreadPolicy 4), .fixed (encI c.secondaryThreadPolicy 4),
    .fixed (encI c.primaryThreadPriority 4), .fixed (encI c.secondaryThreadPriority 4), .fixed (encB c.bindCpuEnable),
    .fixed (encB c.batchTaskEnable), .fixed (encB c.monitorEnable)]

/-- The object that is read into has the initial values (UThreadPoolConfig.h:21-41). -/
def cfgOf : RVal → Option SCfg
  | .obj [.fixed a1, .fixed a2, .fixed a3, .fixed a4, .fixed a5, .fixed a6, .fixed a7, .fixed a8, .fixed a9, .fixed a10,
      .fixed a11, .fixed a12, .fixed a13, .fixed a14, .fixed a15, .fixed a16, .fixed a17, .fixed a18, .fixed a19] =>
    some { defaultThreadSize := decI a1, secondaryThreadSize := decI a2, maxThreadSize := decI a3,
           maxTaskStealRange := decI a4, maxLocalBatchSize := decI a5, maxPoolBatchSize := decI a6,
           maxStealBatchSize := decI a7, primaryThreadBusyEpoch := decI a8, primaryThreadEmptyInterval := decI a9,
           secondaryThreadTtl := decI a10, monitorSpan := decI a11, queueEmptyInterval := decI a12,
           primaryThreadPolicy := decI a13, secondaryThreadPolicy := decI a14, primaryThreadPriority := decI a15,
           secondaryThreadPriority := decI a16, bindCpuEnable := decB a17, batchTaskEnable := decB a18,
           monitorEnable := decB a19 }
  | _ => none

mutual
/-- GStorage.cpp:50-67. -/
def elemVal : StElem → RVal
  | ⟨name, loop, session, deps, visible, binding, level, timeout, strategy, isMacro, clz, belong, ty, children, aspects,
      eparams⟩ =>
    .obj [.str name, .fixed (le loop 8), .str session, .vec (deps.map .str), .fixed (encB visible),
      .fixed (encI binding 4), .fixed (encI level 4), .fixed (encI timeout 8), .fixed (encI strategy 4),
      .fixed (encB isMacro), .str clz, .str belong, .fixed (encI ty 4), .vec (elemVals children),
      .vec (aspects.map aspVal), .vec (eparams.map pairVal)]

def elemVals : List StElem → List RVal
  | [] => []
  | e :: l => elemVal e :: elemVals l
end

mutual
def elemOf : RVal → Option StElem
  | .obj [.str name, .fixed loop, .str session, .vec deps, .fixed visible, .fixed binding, .fixed level, .fixed timeout,
      .fixed strategy, .fixed isMacro, .str clz, .str belong, .fixed ty, .vec children, .vec aspects, .vec eparams] =>
    (mapO strOf deps).bind fun deps =>
      (elemsOf children).bind fun children =>
        (mapO aspOf aspects).bind fun aspects =>
          (mapO pairOf eparams).bind fun eparams =>
            some ⟨name, unle loop, session, deps, decB visible, decI binding, decI level, decI timeout, decI strategy,
              decB isMacro, clz, belong, decI ty, children, aspects, eparams⟩
  | _ => none

def elemsOf : List RVal → Option (List StElem)
  | [] => some []
  | v :: l => (elemOf v).bind fun e => (elemsOf l).bind fun r => some (e :: r)
end

/-- GStorage.cpp:91-98. -/
def pipeVal (p : StPipe) : RVal :=
  .obj [.vec (elemVals p.elements), .vec (p.events.map pairVal), .vec (p.params.map prmVal), .vec (p.daemons.map dmnVal),
    .vec (p.stages.map stgVal), cfgVal p.cfg]

def pipeOf : RVal → Option StPipe
  | .obj [.vec es, .vec evs, .vec ps, .vec ds, .vec ss, c] =>
    (elemsOf es).bind fun es => (mapO pairOf evs).bind fun evs => (mapO prmOf ps).bind fun ps =>
      (mapO dmnOf ds).bind fun ds => (mapO stgOf ss).bind fun ss => (cfgOf c).bind fun c => some ⟨es, evs, ps, ds, ss, c⟩
  | _ => none

/-! ## The pipeline -/

/-- GElement.h: the members that take part. -/
structure SElem where
  session : Bytes
  name : Bytes
  clz : Bytes
  ty : Int
  loop : Nat
  visible : Bool
  binding : Int
  level : Int
  timeout : Int
  strategy : Int
  isMacro : Bool
  belong : Option Bytes
  deps : List Bytes
  children : List Bytes
  aspects : List Bytes
  eparams : List (Bytes × Bytes)
deriving DecidableEq, Repr

/-- GElementDefine.h:23, 28; GElement.cpp:453-466. -/
def tyNode : Int := 0x00010000
def tySome : Int := 0x00020008
def tyIsGroup (t : Int) : Bool := t.toNat &&& 0x00020000 ≠ 0
def tyIsAdaptor (t : Int) : Bool := t.toNat &&& 0x00040000 ≠ 0

/-- GPipeline.h: the members that take part. -/
structure SPipe where
  /-- all elements that exist -/
  objs : List SElem
  /-- `repository_.elements_` -/
  repo : List Bytes
  /-- `element_manager_->manager_elements_` -/
  roots : List Bytes
  /-- key, class name -/
  events : List (Bytes × Bytes)
  /-- key, backtrace, class name -/
  params : List (Bytes × Bool × Bytes)
  /-- interval, class name -/
  daemons : List (Int × Bytes)
  /-- key, threshold, class name -/
  stages : List (Bytes × Int × Bytes)
  cfg : SCfg
deriving DecidableEq, Repr

/-- Look up an element. -/
def lookE (h : List SElem) (s : Bytes) : Option SElem := h.find? (fun e => e.session == s)

/-- Change an element. -/
def updE (h : List SElem) (s : Bytes) (f : SElem → SElem) : List SElem :=
  h.map fun e => if e.session = s then f e else e

/-! ## Saving -/

/-- GStorageDefine.h:106-133.  The recursion goes to the children; the first argument bounds its depth (`none`: too deep
or a dangling pointer). -/
def buildElem (objs : List SElem) : Nat → SElem → Option StElem
  | 0, _ => none
  | f + 1, e =>
    (mapO (fun s => (lookE objs s).bind (buildElem objs f)) e.children).bind fun cs =>
      some { name := e.name, loop := e.loop, session := e.session, deps := e.deps, visible := e.visible,
             binding := e.binding, level := e.level, timeout := e.timeout, strategy := e.strategy, isMacro := e.isMacro,
             clz := e.clz, belong := e.belong.getD [], ty := e.ty, children := cs, aspects := e.aspects,
             eparams := e.eparams }

/-- GStorage.cpp:154-189, with GStorageDefine.h:67-70: the constructor of the parameter storage does not use the class
name. -/
def buildPipe (f : Nat) (p : SPipe) : Option StPipe :=
  (mapO (fun s => (lookE p.objs s).bind (buildElem p.objs f)) p.repo).bind fun es =>
    some { elements := es, events := p.events, params := p.params.map fun q => (q.1, q.2.1, []), daemons := p.daemons,
           stages := p.stages, cfg := p.cfg }

/-- The result of `save`. -/
inductive SaveRes where
  | ok (b : Bytes)
  | err
  /-- does not end, or undefined behaviour -/
  | crash
deriving DecidableEq, Repr

/-- GPipeline.cpp:325-342, GStorage.cpp:109-119, 192-221; the pipeline is not initialised. -/
def savePipe (f : Nat) (p : SPipe) : SaveRes :=
  if p.repo.any (fun s => (lookE p.objs s).any fun e => tyIsAdaptor e.ty) then .err
  else
    match (buildPipe f p).bind fun st => saveBytes stEnv (pipeVal st) (.cls 0) with
    | some b => .ok b
    | none => .crash

/-! ## Loading -/

/-- What the factory can create. -/
inductive SKind where
  | elem (ty : Int)
  | event
  | param
  | daemon
  | stage
  | aspect
  | passed
deriving DecidableEq, Repr

/-- GStorageFactory.h:41-44, GStorageFactory.cpp:15-18: class name to kind of object, `none` for `nullptr`. -/
abbrev SFac := Bytes → Option SKind

/-- The result of a part of `load`. -/
inductive LRes (α : Type) where
  | ok (a : α)
  /-- an error status is returned -/
  | err
  /-- a `CException` leaves `load` -/
  | thrown
  /-- read outside of the buffer -/
  | crash
deriving DecidableEq, Repr

def LRes.bind {α β : Type} : LRes α → (α → LRes β) → LRes β
  | .ok a, f => f a
  | .err, _ => .err
  | .thrown, _ => .thrown
  | .crash, _ => .crash

/-- GStorageDefine.h:140-155 on a new object (whose session is `rnd`, whose timeout is 0 and which has no relations), with
GElement.cpp:34-100. -/
def recoverE (rnd : Bytes) (st : StElem) : LRes SElem :=
  if st.timeout < 0 then .thrown
  else if 1 < st.loop ∧ st.timeout ≠ 0 then .thrown
  else .ok { session := st.session, name := if st.name = [] then rnd else st.name, clz := st.clz, ty := st.ty,
             loop := st.loop, visible := st.visible, binding := st.binding, level := st.level, timeout := st.timeout,
             strategy := st.strategy, isMacro := if st.ty = tyNode then st.isMacro else false, belong := none,
             deps := [], children := [], aspects := [], eparams := [] }

/-- `eleCache[session] = element`. -/
def cacheE (h : List SElem) (e : SElem) : List SElem :=
  if (lookE h e.session).isSome then updE h e.session (fun _ => e) else h ++ [e]

/-- GStorage.cpp:253-263. -/
def pass1 (fac : SFac) (rnd : Bytes) : List StElem → List SElem → LRes (List SElem)
  | [], h => .ok h
  | st :: l, h =>
    match fac st.clz with
    | some (.elem ty) => if ty ≠ st.ty then .err else (recoverE rnd st).bind fun e => pass1 fac rnd l (cacheE h e)
    | _ => .err

/-- GPipeline.cpp:379-396 with GElement.cpp:178-190 for an element that is in the cache. -/
def innerReg (st : StElem) (hr : List SElem × List Bytes) : LRes (List SElem × List Bytes) :=
  match lookE hr.1 st.session with
  | none => .err
  | some e =>
    if 0 < e.timeout ∧ st.loop ≠ 1 then .thrown
    else .ok (updE hr.1 st.session (fun e => { e with loop := st.loop, name := if st.name = [] then e.name else st.name }),
      if st.session ∈ hr.2 then hr.2 else hr.2 ++ [st.session])

/-- GStorage.cpp:271: a session that is not in the cache gives `nullptr`. -/
def setBelong (st : StElem) (h : List SElem) : List SElem :=
  updE h st.session fun e => { e with belong := (lookE h st.belong).map (·.session) }

/-- The `local_params_` map: the last one with a key stays. -/
def insKey {β : Type} (l : List (Bytes × β)) (p : Bytes × β) : List (Bytes × β) :=
  if l.any (fun q => q.1 = p.1) then l.map (fun q => if q.1 = p.1 then p else q) else l ++ [p]

/-- GStorage.cpp:379-409. -/
def loadAE (fac : SFac) (st : StElem) (h : List SElem) : LRes (List SElem) :=
  if st.aspects.all (fun c => fac c = some .aspect) ∧ st.eparams.all (fun p => fac p.2 = some .passed) then
    .ok (updE h st.session fun e => { e with
      aspects := if st.aspects = [] then e.aspects else st.aspects, eparams := st.eparams.foldl insKey e.eparams })
  else .err

/-- GStorage.cpp:266-277. -/
def pass2 (fac : SFac) : List StElem → List SElem × List Bytes → LRes (List SElem × List Bytes)
  | [], hr => .ok hr
  | st :: l, hr =>
    (if st.belong = [] then innerReg st hr else .ok (setBelong st hr.1, hr.2)).bind fun hr =>
      (loadAE fac st hr.1).bind fun h => pass2 fac l (h, hr.2)

/-- GElement.cpp:154-175 with GStorage.cpp:281-289: all are in the cache and belong to the same element. -/
def loadDeps (st : StElem) (h : List SElem) : LRes (List SElem) :=
  match lookE h st.session with
  | none => .err
  | some e =>
    if st.deps.all (fun d => (lookE h d).any fun e' => e'.belong = e.belong) then
      .ok (updE h st.session fun e => { e with
        deps := st.deps.foldl (fun ds d => if d = st.session ∨ d ∈ ds then ds else ds ++ [d]) e.deps })
    else .err

/-- GGroup.cpp:45-56, GSome.cpp:23-37 with GElement.cpp:80-90, for the children in order (GStorage.cpp:294-296: the status
is not looked at). -/
def loadKids (st : StElem) : List Bytes → List SElem → LRes (List SElem)
  | [], h => .ok h
  | c :: l, h =>
    match lookE h c with
    | none => loadKids st l h
    | some e =>
      let h := updE h st.session fun g => { g with children := g.children ++ [c] }
      let h := updE h c fun e => { e with belong := some st.session }
      if st.ty = tySome ∧ e.timeout = 0 then
        if 1 < e.loop then .thrown else loadKids st l (updE h c fun e => { e with timeout := 1999999999, strategy := 1 })
      else loadKids st l h

/-- GStorage.cpp:280-298. -/
def pass3 : List StElem → List SElem → LRes (List SElem)
  | [], h => .ok h
  | st :: l, h =>
    (if st.deps = [] then .ok h else loadDeps st h).bind fun h =>
      (if st.children = [] then .ok h
       else if tyIsGroup st.ty then loadKids st (st.children.map (·.session)) h else .err).bind fun h => pass3 l h

/-- GStorage.cpp:247-301: the elements and the ones registered in the pipeline. -/
def loadElems (fac : SFac) (rnd : Bytes) (l : List StElem) : LRes (List SElem × List Bytes) :=
  (pass1 fac rnd l []).bind fun h => (pass2 fac l (h, [])).bind fun hr => (pass3 l hr.1).bind fun h => .ok (h, hr.2)

/-- GStorage.cpp:224-244, 304-376.  Events, parameters, daemons and stages are all tried before the status is looked at; the
maps keep the last one with a key. -/
def loadStorage (fac : SFac) (rnd : Bytes) (st : StPipe) : LRes SPipe :=
  (loadElems fac rnd st.elements).bind fun hr =>
    if st.events.all (fun q => fac q.2 = some .event) ∧ st.params.all (fun q => fac q.2.2 = some .param) ∧
        st.daemons.all (fun q => fac q.2 = some .daemon) ∧ st.stages.all (fun q => fac q.2.2 = some .stage) then
      if st.cfg.check then
        .ok { objs := hr.1, repo := hr.2, roots := hr.2, events := st.events.foldl insKey [],
              params := st.params.foldl insKey [], daemons := st.daemons, stages := st.stages.foldl insKey [],
              cfg := st.cfg }
      else .thrown
    else .err

/-- GPipeline.cpp:345-356, GStorage.cpp:128-151.  `f` bounds the steps of the reader. -/
def loadPipe (fac : SFac) (rnd : Bytes) (f : Nat) (b : Bytes) : LRes SPipe :=
  match (loadBytes stEnv f b (.cls 0)).toOption.bind pipeOf with
  | some st => loadStorage fac rnd st
  | none => .crash

end CGraph
