import Verif.Lemmas.PipeMgr
import Mathlib.Tactic.IntervalCases

/-! # Properties of the pipeline manager: C61 -/
namespace CGraph
namespace PmSt
open Spec

/-- **C61** (exclusive).  No pipeline is executed by two callers at once, and a pipeline whose execution threw is not
executed by anybody.  Missing for the full property: `PmFair` also asks that no busy pipeline is removed; the manager does
not see to that (`C61_remove_violated`). -/
theorem C61_exclusive_partial (acts : List PmAct) (hf : PmFair (start.exec acts).hist) :
    (∀ t u p, (t, p) ∈ pmHeld (start.exec acts).hist → (u, p) ∈ pmHeld (start.exec acts).hist → t = u) ∧
    (∀ t p, (t, p) ∈ pmHeld (start.exec acts).hist → p ∉ pmLost (start.exec acts).hist) := by
  have h := inv_start.exec acts hf
  refine ⟨fun t u p h1 h2 => h.held_inj h1 h2, ?_⟩
  intro t p hm hl
  have hn := h.busy_nodup
  unfold pmBusy at hn
  exact (List.nodup_append.mp hn).2.2 p (List.mem_map.mpr ⟨(t, p), hm, rfl⟩) p hl rfl

/-- **C61** (partition).  The free and the busy pipelines are the registered ones, each once; `find` and `getSize` tell
exactly what is registered. -/
theorem C61_partition_partial (acts : List PmAct) (hf : PmFair (start.exec acts).hist) :
    ((start.exec acts).mgr.free ++ pmBusy (start.exec acts).hist).Perm (pmRegs (start.exec acts).hist) ∧
    (pmRegs (start.exec acts).hist).Nodup ∧
    (∀ p, (start.exec acts).mgr.find p = true ↔ p ∈ pmRegs (start.exec acts).hist) ∧
    (start.exec acts).mgr.getSize = (pmRegs (start.exec acts).hist).length := by
  have h := inv_start.exec acts hf
  refine ⟨(List.Perm.append_left _ h.busy.symm).trans h.reg, h.reg.nodup_iff.mp h.nodup, ?_, ?_⟩
  · intro p
    rw [← h.mem_reg]
    simp [PipeMgr.find, or_comm]
  · rw [← h.reg.length_eq, List.length_append]
    rfl

/-- **C61** (refusal).  Whoever gets a pipeline gets a registered one that is not busy; a call is refused for want of a free
pipeline only when all registered ones are busy; giving a pipeline back always succeeds. -/
theorem C61_refused_partial (acts : List PmAct) (hf : PmFair (start.exec acts).hist) (p q : List PmEv) :
    (∀ t x, (start.exec acts).hist = p ++ .begin t x :: q → x ∈ pmRegs p ∧ x ∉ pmBusy p) ∧
    (∀ t, (start.exec acts).hist = p ++ .noFree t :: q → ∀ x, x ∈ pmRegs p → x ∈ pmBusy p) ∧
    (∀ t x r, (start.exec acts).hist = p ++ .done t x r :: q → r = true) := by
  have h := inv_start.exec acts hf
  exact ⟨fun t x => h.got t x p q, fun t => h.noFree t p q, fun t x r => h.ok t x r p q⟩

/-- What the callers hold is what the history says. -/
theorem C61_held (acts : List PmAct) (hf : PmFair (start.exec acts).hist) (t p : Nat) :
    (start.exec acts).pc t = .hold p ↔ (t, p) ∈ pmHeld (start.exec acts).hist :=
  (inv_start.exec acts hf).pcs t p

theorem lost_append (l m : List PmEv) : pmLost (l ++ m) = pmLost l ++ pmLost m := by
  unfold pmLost; rw [List.filterMap_append]

/-- **C61, consequence of exceptions.**  `run` does not release a pipeline whose run throws.  Ever after it is not handed
out again, and the manager can be neither destroyed nor initialised. -/
theorem C61_throw_violated (acts : List PmAct) (hf : PmFair (start.exec acts).hist) (t x : Nat) (p q : List PmEv)
    (h : (start.exec acts).hist = p ++ .thrown t x :: q) :
    (∀ u, .begin u x ∉ q) ∧ .destroyed ∉ q ∧ .inited ∉ q := by
  have hi := inv_start.exec acts hf
  have hb : ∀ q1, x ∈ pmBusy (p ++ .thrown t x :: q1) := by
    intro q1
    unfold pmBusy
    refine List.mem_append_right _ ?_
    rw [lost_append]
    exact List.mem_append_right _ (by simp [pmLost])
  have hsplit : ∀ q1 (e : PmEv) q2, q = q1 ++ e :: q2 →
      (start.exec acts).hist = (p ++ .thrown t x :: q1) ++ e :: q2 := by
    rintro q1 e q2 rfl; rw [h]; simp
  refine ⟨?_, ?_, ?_⟩
  · intro u hu
    obtain ⟨q1, q2, rfl⟩ := List.append_of_mem hu
    exact (hi.got u x _ q2 (hsplit q1 _ q2 rfl)).2 (hb q1)
  · intro hu
    obtain ⟨q1, q2, rfl⟩ := List.append_of_mem hu
    have := hi.stop _ _ q2 (hsplit q1 _ q2 rfl) (Or.inl rfl)
    have h2 := hb q1
    rw [this] at h2; cases h2
  · intro hu
    obtain ⟨q1, q2, rfl⟩ := List.append_of_mem hu
    have := hi.stop _ _ q2 (hsplit q1 _ q2 rfl) (Or.inr rfl)
    have h2 := hb q1
    rw [this] at h2; cases h2

/-- **C61, why the pipelines must be distinct.**  `add` accepts a pipeline that is registered already; then two callers
execute it at once. -/
theorem C61_duplicate_violated (p t u : Nat) (h : t ≠ u) :
    (t, p) ∈ pmHeld (start.exec [.add p, .add p, .init true, .run t, .fetch t, .run u, .fetch u]).hist ∧
    (u, p) ∈ pmHeld (start.exec [.add p, .add p, .init true, .run t, .fetch t, .run u, .fetch u]).hist := by
  simp [exec, step, start, PipeMgr.new, ctl, PipeMgr.add, PipeMgr.init, setPc, PipeMgr.fetch, pmHeld, h.symm]

/-- **C61 is violated** when a busy pipeline is removed: `remove` reports success but looks only at the free ones.
Registered again, the pipeline, although never registered twice, is executed by two callers at once. -/
theorem C61_remove_violated (p t u : Nat) (h : t ≠ u) :
    (start.exec [.add p, .fetch t, .remove p, .add p, .fetch u]).hist =
      [.added p, .begin t p, .removed p, .added p, .begin u p] ∧
    (t, p) ∈ pmHeld (start.exec [.add p, .fetch t, .remove p, .add p, .fetch u]).hist ∧
    (u, p) ∈ pmHeld (start.exec [.add p, .fetch t, .remove p, .add p, .fetch u]).hist := by
  simp [exec, step, start, PipeMgr.new, ctl, PipeMgr.add, PipeMgr.remove, setPc, PipeMgr.fetch, pmHeld, h.symm]

/-! ## Examples -/

/-- Three callers, two pipelines, an exception. -/
def exPm : List PmAct :=
  [.add 7, .add 8, .add 9, .remove 9, .init true, .run 1, .run 2, .fetch 2, .run 3, .fetch 1, .fetch 3, .release 2,
   .run 3, .fetch 3, .throw 3, .destroy true, .run 2, .fetch 2]

example : (start.exec exPm).hist =
    [.added 7, .added 8, .added 9, .removed 9, .inited, .begin 2 7, .begin 1 8, .noFree 3, .done 2 7 true, .begin 3 7,
     .thrown 3 7, .refused, .noFree 2] := by decide +kernel

example : pmHeld (start.exec exPm).hist = [(1, 8)] ∧ pmLost (start.exec exPm).hist = [7] ∧
    pmRegs (start.exec exPm).hist = [7, 8] := by decide +kernel

/-- It is fair. -/
example : PmFair (start.exec exPm).hist := by
  have he : (start.exec exPm).hist =
    [.added 7, .added 8, .added 9, .removed 9, .inited, .begin 2 7, .begin 1 8, .noFree 3, .done 2 7 true, .begin 3 7,
     .thrown 3 7, .refused, .noFree 2] := by decide +kernel
  rw [he]
  have key : ∀ (l p q : List PmEv) (e : PmEv), l = p ++ e :: q → p.length < l.length ∧ l[p.length]? = some e ∧
      p = l.take p.length := by
    rintro l p q e rfl; simp
  refine ⟨?_, ?_, ?_⟩
  · intro p q x h
    obtain ⟨h0, h1, h2⟩ := key _ _ _ _ h
    rw [h2]
    generalize p.length = k at h0 h1
    simp only [List.length_cons, List.length_nil] at h0
    interval_cases k <;> simp at h1 <;> subst h1 <;> decide
  · intro p q x h
    obtain ⟨h0, h1, h2⟩ := key _ _ _ _ h
    rw [h2]
    generalize p.length = k at h0 h1
    simp only [List.length_cons, List.length_nil] at h0
    interval_cases k <;> simp at h1 <;> subst h1 <;> decide
  · intro p q h
    obtain ⟨h0, h1, h2⟩ := key _ _ _ _ h
    generalize p.length = k at h0 h1
    simp only [List.length_cons, List.length_nil] at h0
    interval_cases k <;> simp at h1

end PmSt
end CGraph
