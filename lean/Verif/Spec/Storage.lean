import Verif.Model.Storage

/-! # Pipelines that can be expected to load -/
namespace CGraph.Spec
open CGraph

/-- A signed number that fits into `w` bytes. -/
def FitsI (x : Int) (w : Nat) : Prop := -(256 ^ w : Int) ≤ 2 * x ∧ 2 * x < (256 ^ w : Int)

/-- The numbers of an element are numbers of the types in the program. -/
structure ElemFits (e : SElem) : Prop where
  loop : e.loop < 2 ^ 64
  binding : FitsI e.binding 4
  level : FitsI e.level 4
  timeout : FitsI e.timeout 8
  strategy : FitsI e.strategy 4
  ty : FitsI e.ty 4

structure CfgFits (c : SCfg) : Prop where
  defaultThreadSize : FitsI c.defaultThreadSize 4
  secondaryThreadSize : FitsI c.secondaryThreadSize 4
  maxThreadSize : FitsI c.maxThreadSize 4
  maxTaskStealRange : FitsI c.maxTaskStealRange 4
  maxLocalBatchSize : FitsI c.maxLocalBatchSize 4
  maxPoolBatchSize : FitsI c.maxPoolBatchSize 4
  maxStealBatchSize : FitsI c.maxStealBatchSize 4
  primaryThreadBusyEpoch : FitsI c.primaryThreadBusyEpoch 4
  primaryThreadEmptyInterval : FitsI c.primaryThreadEmptyInterval 8
  secondaryThreadTtl : FitsI c.secondaryThreadTtl 8
  monitorSpan : FitsI c.monitorSpan 8
  queueEmptyInterval : FitsI c.queueEmptyInterval 8
  primaryThreadPolicy : FitsI c.primaryThreadPolicy 4
  secondaryThreadPolicy : FitsI c.secondaryThreadPolicy 4
  primaryThreadPriority : FitsI c.primaryThreadPriority 4
  secondaryThreadPriority : FitsI c.secondaryThreadPriority 4

/-- All numbers fit. -/
structure PipeFits (p : SPipe) : Prop where
  elems : ∀ e ∈ p.objs, ElemFits e
  daemons : ∀ q ∈ p.daemons, FitsI q.1 8
  stages : ∀ q ∈ p.stages, FitsI q.2.1 4
  cfg : CfgFits p.cfg

/-- The relations between the elements of a pipeline made with the public functions. -/
structure ElemsOK (p : SPipe) : Prop where
  /-- the sessions differ -/
  nodup : (p.objs.map SElem.session).Nodup
  /-- every element is in the repository -/
  repo : p.repo = p.objs.map SElem.session
  session : ∀ e ∈ p.objs, e.session ≠ []
  name : ∀ e ∈ p.objs, e.name ≠ []
  isMacro : ∀ e ∈ p.objs, e.isMacro = true → e.ty = tyNode
  timeout : ∀ e ∈ p.objs, 0 ≤ e.timeout ∧ (e.timeout = 0 ∨ e.loop = 1)
  /-- dependences are between elements with the same owner -/
  deps : ∀ e ∈ p.objs, e.deps.Nodup ∧ ∀ d ∈ e.deps, d ≠ e.session ∧ ∃ e' ∈ p.objs, e'.session = d ∧ e'.belong = e.belong
  /-- only groups have children; these are elements and know their owner; `GSome` gives them a timeout -/
  children : ∀ e ∈ p.objs, e.children ≠ [] → tyIsGroup e.ty = true
  child : ∀ e ∈ p.objs, ∀ c ∈ e.children,
    ∃ e' ∈ p.objs, e'.session = c ∧ e'.belong = some e.session ∧ (e.ty = tySome → e'.timeout ≠ 0)
  /-- the owner is an element -/
  belong : ∀ e ∈ p.objs, ∀ s, e.belong = some s → ∃ g ∈ p.objs, g.session = s
  eparams : ∀ e ∈ p.objs, (e.eparams.map Prod.fst).Nodup

/-- All class names are registered with the factory. -/
structure Registered (fac : SFac) (p : SPipe) : Prop where
  elem : ∀ e ∈ p.objs, fac e.clz = some (.elem e.ty)
  aspect : ∀ e ∈ p.objs, ∀ c ∈ e.aspects, fac c = some .aspect
  passed : ∀ e ∈ p.objs, ∀ q ∈ e.eparams, fac q.2 = some .passed
  event : ∀ q ∈ p.events, fac q.2 = some .event
  param : ∀ q ∈ p.params, fac q.2.2 = some .param
  daemon : ∀ q ∈ p.daemons, fac q.2 = some .daemon
  stage : ∀ q ∈ p.stages, fac q.2.2 = some .stage
  /-- no class has the empty name -/
  nonempty : fac [] = none

/-- The maps have one entry for a key, and the configuration is one that `check` accepts. -/
structure PipeOK (p : SPipe) : Prop where
  elems : ElemsOK p
  events : (p.events.map Prod.fst).Nodup
  stages : (p.stages.map Prod.fst).Nodup
  cfg : p.cfg.check = true

end CGraph.Spec
