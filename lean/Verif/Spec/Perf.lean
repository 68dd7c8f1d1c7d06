import Verif.Model.Perf

/-! # Specification for the performance analysis -/
namespace CGraph.Spec

/-- No element has a perf aspect or a record: nothing of an analysis is left. -/
structure PfClean (s : PfSt) : Prop where
  asp : ∀ e, ∀ a ∈ s.asp e, a % 2 = 0
  info : ∀ e, s.info e = none

/-- The aspects that the user has added. -/
def userAsp (s : PfSt) (e : Nat) : List Nat := (s.asp e).filter (fun a => a % 2 = 0)

/-- A call ended with an error or an exception. -/
def pfFailed : Out CStatus → Prop
  | .ret st => st.code < 0
  | .thr _ => True

/-- Begin aspects answer with OK or an error, never with a positive code. -/
def NoWarn (U : User) : Prop := ∀ e a p t s, U.beginA e a p t = .ret s → s.code ≤ 0

/-- User code adds no aspects while the pipeline is executed. -/
def AddsNone (E : PfEnv) : Prop := ∀ t e, E.added t e = []

/-- The pipeline's elements are distinct, and addresses of records are not reused. -/
structure PfWF (s : PfSt) : Prop where
  ids : (Tree.idsAll s.trees).Nodup
  live : ∀ p ∈ s.live, p < s.next

end CGraph.Spec
