import Verif.Model.Overlap

/-! What a run may rely on when other runs of the same pipeline are going on. -/
namespace CGraph.Spec

/-- No element has more than one dependency. -/
def Forest (g : Graph) : Prop := ∀ e, (g.deps e).length ≤ 1

/-- The events of one run. -/
def eventsOf (t : List (Nat × Ev)) (r : Nat) : List Ev := (t.filter (fun p => p.1 == r)).map (·.2)

/-- One run: every element starts at most once, and after all its dependencies have ended without error. -/
def RunOrdered (g : Graph) (t : List Ev) : Prop :=
  ∀ pre e post, t = pre ++ .start e :: post →
    e ∈ g.elems ∧ Ev.start e ∉ pre ∧ Ev.start e ∉ post ∧ ∀ d ∈ g.deps e, Ev.finish d ∈ pre

/-- One run: every element has been started and has ended exactly once. -/
def RunComplete (g : Graph) (t : List Ev) : Prop :=
  ∀ e ∈ g.elems, t.count (.start e) = 1 ∧ t.count (.finish e) = 1

/-- No element fails in this step. -/
def FineAct (a : Overlap.OvAct) : Prop :=
  ∀ st, ((∃ r k, a = .main r st k) ∨ ∃ i k, a = .work i st k) → st.isErr = false

/-- No thread can take a step; beginning a run and waking without a reason do not count. -/
def Quiet (c : DynCfg) (s : Overlap.OvSt) : Prop :=
  (∀ r st k, Overlap.OvSt.step c s (.main r st k) = none) ∧ (∀ i, Overlap.OvSt.step c s (.take i) = none) ∧ ∀ i st k, Overlap.OvSt.step c s (.work i st k) = none

end CGraph.Spec
