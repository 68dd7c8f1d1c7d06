import Verif.Lemmas.Overlap
import Verif.Props.Dynamic

/-! # C94: several runs of one pipeline at the same time -/
namespace CGraph
namespace Overlap
open Spec OvSt

/-! ## example configurations -/

/-- `0` before `1` and `2`, which are independent of each other. -/
def exFork : Graph :=
  ⟨[0, 1, 2], fun e => if e = 1 ∨ e = 2 then [0] else [], fun e => if e = 0 then [1, 2] else []⟩

theorem exFork_wf : exFork.WF where
  nodup := by decide
  dnodup := by intro e; simp only [exFork]; split <;> simp
  snodup := by intro e; simp only [exFork]; split <;> simp
  sym := by
    intro a b
    simp only [exFork]
    by_cases hb : b = 1 ∨ b = 2
    · by_cases ha : a = 0 <;> simp [ha, hb]
    · by_cases ha : a = 0 <;> simp [ha, hb]
  closedS := by simp [exFork]
  closedD := by simp [exFork]

theorem exFork_acyclic : AcyclicOn exFork.Edge exFork.elems := by
  apply Graph.acyclic_of_ordered
  intro pre x post h d hd
  simp only [exFork] at h
  simp only [Graph.Edge, exFork] at hd
  split at hd
  · rename_i hx
    match pre, h with
    | [], h =>
      have h0 : (0 : Nat) = x := (List.cons.inj h).1
      rw [← h0] at hx
      simp at hx
    | a :: r, h => simp at h hd; rw [hd, h.1]; simp
  · simp at hd

theorem exFork_forest : Forest exFork := by
  intro e; simp only [exFork]; split <;> simp

def exForkCfg : DynCfg := ⟨exFork, fun _ => -1, 2, 1⟩

/-- Two elements that are independent of each other. -/
def exPair : Graph := ⟨[0, 1], fun _ => [], fun _ => []⟩

def exPairCfg : DynCfg := ⟨exPair, fun _ => -1, 2, 1⟩

/-! ## what holds: elements with at most one dependency -/

/-- **C94** (order, forests): if no element has more than one dependency then, for every number of runs that overlap in any way
and for every schedule and all statuses that elements return, in every single run each element starts at most once, and after its
dependencies have ended without error in that same run. -/
theorem C94_forest_order_partial (c : DynCfg) (w : c.g.WF) (ha : AcyclicOn c.g.Edge c.g.elems) (hf : Forest c.g)
    (acts : List OvAct) (r : Nat) : RunOrdered c.g (eventsOf (OvSt.run c (init c) acts).trace r) := by
  have h := oinv_run (nf := False) w hf acts (fun h => h.elim)
  intro pre e post ht
  obtain ⟨a, b, h1, h2, h3⟩ := eventsOf_split _ _ _ _ _ ht
  have hc := h.start_le w ha hf r e
  rw [← count_eventsOf, ht, List.count_append, List.count_cons_self] at hc
  refine ⟨h.el r e (by rw [h1]; simp), ?_, ?_, fun d hd => ?_⟩
  · rw [← List.count_eq_zero]; omega
  · rw [← List.count_eq_zero]; omega
  · rw [← h2, mem_eventsOf]
    exact h.good a r e b h1 d hd

/-- **C94** (nothing is lost, forests): if no element has more than one dependency and none fails then, for every number of
overlapping runs and every schedule, once no thread can take a step any more, in every run that was begun every element has run
exactly once. -/
theorem C94_forest_complete_partial (c : DynCfg) (w : c.g.WF) (ha : AcyclicOn c.g.Edge c.g.elems) (hf : Forest c.g)
    (hw : 0 < c.workers) (acts : List OvAct) (hn : ∀ a ∈ acts, FineAct a) (hq : Quiet c (OvSt.run c (init c) acts)) (r : Nat)
    (hr : r < (OvSt.run c (init c) acts).callers.length) : RunComplete c.g (eventsOf (OvSt.run c (init c) acts).trace r) := by
  have h := oinv_run (nf := True) w hf acts (fun _ => hn)
  obtain ⟨q1, q2, q3⟩ := quiet_facts hq hw
  obtain ⟨p, hp⟩ : ∃ p, (OvSt.run c (init c) acts).callers[r]? = some p := ⟨_, List.getElem?_eq_getElem hr⟩
  have hz : ∀ x, oweC c p x = 0 ∧ bodyC p x = 0 := by
    intro x
    rcases q3 r p hp with rfl | ⟨st, rfl⟩ | rfl <;> exact ⟨rfl, rfl⟩
  intro e he
  rw [count_eventsOf, count_eventsOf]
  refine h.start_ge w ha hf trivial r hr (fun x => ?_) (fun x => ?_) e he
  · simp [pending, q1, q2, sumJ, callerOwe, hp, (hz x).1]
  · simp [bodies, q2, sumJ, callerBody, hp, (hz x).2]

/-- Both callers come to the end in a fork, the second one beginning before the first one is done. -/
def forkActs : List OvAct :=
  [.begin, .main 0 .ok 0, .main 0 .ok 0, .begin, .main 1 .ok 0, .main 1 .ok 0] ++
  (List.replicate 14 [.main 0 .ok 0, .main 1 .ok 0, .take 0, .work 0 .ok 0, .work 1 .ok 0]).flatten ++
  List.replicate 14 (.main 1 .ok 0) ++ List.replicate 14 (.main 0 .ok 0)

example : Forest exForkCfg.g ∧ (∀ a ∈ forkActs, FineAct a) ∧ Quiet exForkCfg (OvSt.run exForkCfg (init exForkCfg) forkActs) ∧
    (OvSt.run exForkCfg (init exForkCfg) forkActs).callers.length = 2 ∧
    ∃ pre post, eventsOf (OvSt.run exForkCfg (init exForkCfg) forkActs).trace 1 = pre ++ .start 2 :: post := by
  refine ⟨exFork_forest, ?_, quiet_of (by decide +kernel) (by decide +kernel) ?_, by decide +kernel, ?_⟩
  · intro a ha st h
    have : ∀ a ∈ forkActs, a = .begin ∨ (∃ i, a = .take i) ∨ (∃ r, a = .main r .ok 0) ∨ ∃ i, a = .work i .ok 0 := by
      intro a ha
      simp only [forkActs, List.mem_append, List.mem_flatten, List.mem_replicate] at ha
      simp at ha
      grind
    rcases this a ha with rfl | ⟨i, rfl⟩ | ⟨r, rfl⟩ | ⟨i, rfl⟩ <;> simp at h <;> subst h <;> rfl
  · have : (OvSt.run exForkCfg (init exForkCfg) forkActs).callers.all
        (fun p => p == .at .asleep || match p with | .returned _ => true | _ => false) = true := by decide +kernel
    intro p hp
    have := List.all_eq_true.1 this p hp
    cases p with
    | zero => simp at this
    | «at» m => simp at this; exact .inl (by rw [this])
    | returned st => exact .inr ⟨st, rfl⟩
  · have : Ev.start 2 ∈ eventsOf (OvSt.run exForkCfg (init exForkCfg) forkActs).trace 1 := by decide +kernel
    exact List.append_of_mem this

/-! ## what does not hold -/

def joinActs : List OvAct :=
  [.begin, .begin, .main 0 .ok 0, .main 0 .ok 0, .main 1 .ok 0, .main 1 .ok 0, .take 0, .take 0] ++
  List.replicate 12 (.work 0 .ok 0)

/-- **C94** (violated: order): two runs of `0, 1 → 2` overlap, which nothing refuses, and each of them counts down the same
`left_depend_`; `2` starts in the second run though `1` has not even started in either run. -/
theorem C94_order_violated : ∃ acts : List OvAct, (∀ a ∈ acts, FineAct a) ∧
    ∃ r, Ev.start 2 ∈ eventsOf (OvSt.run exJoinCfg (init exJoinCfg) acts).trace r ∧
      1 ∈ exJoinCfg.g.deps 2 ∧ ∀ r', Ev.start 1 ∉ eventsOf (OvSt.run exJoinCfg (init exJoinCfg) acts).trace r' := by
  refine ⟨joinActs, ?_, 1, by decide +kernel, by decide, fun r' => ?_⟩
  · intro a ha st h
    have : ∀ a ∈ joinActs, a = .begin ∨ a = .take 0 ∨ (∃ r, a = .main r .ok 0) ∨ a = .work 0 .ok 0 := by
      simp [joinActs]
    rcases this a ha with rfl | rfl | ⟨r, rfl⟩ | rfl <;> simp at h <;> subst h <;> rfl
  · rw [mem_eventsOf]
    have : (OvSt.run exJoinCfg (init exJoinCfg) joinActs).trace.all (fun p => p.2 != .start 1) = true := by decide +kernel
    intro h
    have := List.all_eq_true.1 this _ h
    simp at this

def earlyActs : List OvAct :=
  [.begin, .begin, .main 0 .ok 0, .main 1 .ok 0, .main 0 .ok 0, .main 1 .ok 0] ++
  List.replicate 5 (.main 0 .ok 0) ++ List.replicate 8 (.main 1 .ok 0)

/-- **C94** (violated: return): the end of a run is a common count; the second run returns OK with one of its two elements not
started, because an element of the first run was counted. -/
theorem C94_early_return_violated : ∃ acts : List OvAct, (∀ a ∈ acts, FineAct a) ∧
    ∃ r, (OvSt.run exPairCfg (init exPairCfg) acts).callers[r]? = some (.returned .ok) ∧
      ∃ e ∈ exPairCfg.g.elems, Ev.start e ∉ eventsOf (OvSt.run exPairCfg (init exPairCfg) acts).trace r := by
  refine ⟨earlyActs, ?_, 1, by decide +kernel, 0, by decide, by decide +kernel⟩
  intro a ha st h
  have : ∀ a ∈ earlyActs, a = .begin ∨ ∃ r, a = .main r .ok 0 := by simp [earlyActs]
  rcases this a ha with rfl | ⟨r, rfl⟩
  · simp at h
  · simp at h; subst h; rfl

def hangActs : List OvAct :=
  .begin :: List.replicate 12 (.main 0 .ok 0) ++ .begin :: List.replicate 12 (.main 1 .ok 0) ++
  [.take 0, .take 0] ++ List.replicate 12 (.work 0 .ok 0) ++ List.replicate 4 (.main 0 .ok 0)

/-- **C94** (violated: liveness): the waiting caller is notified when the count is equal to the number of last elements, and one
caller only; of two runs in which every element has run exactly once and nothing failed, the second one's caller sleeps, and
whatever the threads do from there on it never returns. -/
theorem C94_hang_violated : ∃ acts : List OvAct, (∀ a ∈ acts, FineAct a) ∧
    (∀ r < 2, RunComplete exPairCfg.g (eventsOf (OvSt.run exPairCfg (init exPairCfg) acts).trace r)) ∧
    ∀ more : List OvAct, (∀ a ∈ more, a ≠ .begin ∧ ∀ r, a ≠ .spurious r) →
      (OvSt.run exPairCfg (OvSt.run exPairCfg (init exPairCfg) acts) more).callers[1]? = some (.at .asleep) := by
  refine ⟨hangActs, ?_, ?_, fun more hm => ?_⟩
  · intro a ha st h
    have : ∀ a ∈ hangActs, a = .begin ∨ a = .take 0 ∨ (∃ r, a = .main r .ok 0) ∨ a = .work 0 .ok 0 := by
      simp [hangActs]
    rcases this a ha with rfl | rfl | ⟨r, rfl⟩ | rfl <;> simp at h <;> subst h <;> rfl
  · unfold RunComplete; decide +kernel
  · rw [quiet_run (quiet_of (by decide +kernel) (by decide +kernel) ?_) more hm]
    · decide +kernel
    · have : (OvSt.run exPairCfg (init exPairCfg) hangActs).callers = [.returned .ok, .at .asleep] := by decide +kernel
      rw [this]; simp

def exErr : CStatus := CStatus.err "failed"

def lostActs : List OvAct :=
  .begin :: List.replicate 3 (.main 0 .ok 0) ++ [.main 0 .ok 0, .main 0 exErr 0, .main 0 .ok 0, .main 0 .ok 0] ++
  .begin :: List.replicate 8 (.main 1 .ok 0) ++ [.take 0] ++ List.replicate 5 (.work 0 .ok 0) ++ [.main 0 .ok 0]

/-- **C94** (violated: status lost): the first run's caller executes `1` itself, which returns an error and so never ends
without one; a second run begins and clears the common status; the first run returns OK. -/
theorem C94_status_lost_violated : ∃ acts : List OvAct,
    (OvSt.run exPairCfg (init exPairCfg) acts).callers[0]? = some (.returned .ok) ∧
    Ev.start 1 ∈ eventsOf (OvSt.run exPairCfg (init exPairCfg) acts).trace 0 ∧
    Ev.finish 1 ∉ eventsOf (OvSt.run exPairCfg (init exPairCfg) acts).trace 0 := by
  exact ⟨lostActs, by decide +kernel, by decide +kernel, by decide +kernel⟩

def spreadActs : List OvAct :=
  .begin :: .begin :: List.replicate 4 (.main 0 .ok 0) ++ [.main 0 exErr 0, .main 0 .ok 0, .main 0 .ok 0] ++
  List.replicate 12 (.main 1 .ok 0)

/-- **C94** (violated: status of another run): the second run, none of whose elements has been started, returns the error of an
element of the first run. -/
theorem C94_status_spreads_violated : ∃ acts : List OvAct,
    (OvSt.run exPairCfg (init exPairCfg) acts).callers[1]? = some (.returned exErr) ∧ exErr.isErr = true ∧
    eventsOf (OvSt.run exPairCfg (init exPairCfg) acts).trace 1 = [] := by
  exact ⟨spreadActs, by decide +kernel, by decide +kernel, by decide +kernel⟩

end Overlap
end CGraph
