import Verif.Lemmas.EventRun

/-! # Properties of events: C60 -/
namespace CGraph
namespace EvSt
open Spec

/-- **C60** (synchronous).  A synchronous notification returns only after its handler was executed. -/
theorem C60_sync (m : Nat) (unique : Bool) (acts : List EvAct) (id e : Nat) (p q : List EvEv)
    (h : (new.exec m unique acts).hist = p ++ .back id :: q)
    (hc : .call id e .sync ∈ (new.exec m unique acts).hist) : .handled id ∈ p := by
  have hi := (inv_new m unique).exec acts
  obtain ⟨n, hn, _, hk, _⟩ := hi.call_lt hc
  exact (hi.note id n hn).syncBack p q h hk

/-- **C60** (once).  Handlers are executed only for notifications, after they were made, and at most once each. -/
theorem C60_once (m : Nat) (unique : Bool) (acts : List EvAct) : HandlersOK (new.exec m unique acts).hist := by
  have hi := (inv_new m unique).exec acts
  have ho := ord_exec acts (inv_new m unique) (s := new) ⟨by simp [new], by simp [new]⟩
  refine ⟨?_, ?_, ho.called, ho.started⟩
  · intro id
    cases hn : (new.exec m unique acts).notes[id]? with
    | none => rw [List.count_eq_zero.mpr (hi.fresh id (List.getElem?_eq_none_iff.mp hn)).2.2.1]; exact Nat.zero_le _
    | some n => rw [(hi.note id n hn).start]; split <;> omega
  · intro id
    cases hn : (new.exec m unique acts).notes[id]? with
    | none => rw [List.count_eq_zero.mpr (hi.fresh id (List.getElem?_eq_none_iff.mp hn)).2.1]; exact Nat.zero_le _
    | some n => rw [(hi.note id n hn).handled]; split <;> omega

/-- **C60** (wait on run).  When `run` returns, the handlers of all notifications that asked for it, and had returned when
the engine finished, were executed. -/
theorem C60_run (m : Nat) (unique : Bool) (acts : List EvAct) (id e : Nat) (P q : List EvEv)
    (h : (new.exec m unique acts).hist = P ++ .runEnd :: q) (hd : RunDue P id e) : .handled id ∈ P := by
  obtain ⟨p0, pa, pb, h1, h2, h3, h4⟩ := hd
  exact ((inv_new m unique).exec acts).core.r P q h id e p0 pa pb h1 ⟨h3, h4⟩ h2

/-- **C60** (wait on destroy).  When `destroy` returns, the handlers of all notifications that asked for it were executed;
except, when the pipeline has a pool of its own, those that were still in a queue.  Missing: those are dropped
(`C60_destroy_violated`). -/
theorem C60_destroy_partial (m : Nat) (unique : Bool) (acts : List EvAct) (id e : Nat) (P q : List EvEv)
    (h : (new.exec m unique acts).hist = P ++ .destroyEnd :: q) (hd : DestroyDue P .destroy id e) :
    .handled id ∈ P ∨ (unique = true ∧ .start id ∉ P) := by
  obtain ⟨p0, p1, p2, h1, h2, h3, h4, h5⟩ := hd
  exact ((inv_new m unique).exec acts).core.e P q h id e p0 p1 p2 h1 ⟨h3, h4⟩ h2 h5

/-- **C60** (wait on destroy, shared pool).  With a shared pool all of them were executed. -/
theorem C60_destroy_shared (m : Nat) (acts : List EvAct) (id e : Nat) (P q : List EvEv)
    (h : (new.exec m false acts).hist = P ++ .destroyEnd :: q) (hd : DestroyDue P .destroy id e) :
    .handled id ∈ P :=
  (C60_destroy_partial m false acts id e P q h hd).resolve_right (fun x => by cases x.1)

/-- **C60** (the waits end).  When the handlers return, every call of `run` and `destroy` ends: from every reachable
state there is a schedule, consisting only of steps of handlers and of the waiting thread, that ends the call. -/
theorem C60_ends (m : Nat) (unique : Bool) (acts : List EvAct) :
    ∃ more : List EvAct, (∀ a ∈ more, a = .main ∨ ∃ id, a = .take id ∨ a = .finish id) ∧
      ((new.exec m unique (acts ++ more)).pc = .idle ∨ (new.exec m unique (acts ++ more)).pc = .gone) := by
  have hi := (inv_new m unique).exec acts
  generalize hs : new.exec m unique acts = s at hi
  have hi2 := hi.exec (drain s.notes.length)
  obtain ⟨k, hk⟩ := drained_ends hi2 (drained_drain m unique s)
  refine ⟨drain s.notes.length ++ List.replicate k .main, ?_, ?_⟩
  · intro a ha
    rcases List.mem_append.mp ha with ha | ha
    · simp only [drain, List.mem_flatMap, List.mem_range, List.mem_cons, List.not_mem_nil, or_false] at ha
      obtain ⟨id, _, h1⟩ := ha
      exact Or.inr ⟨id, h1⟩
    · exact Or.inl (List.eq_of_mem_replicate ha)
  · rw [exec_append, hs, exec_append]
    exact hk

/-! ## Violations -/

/-- **C60 is violated** for a pipeline with a pool of its own: `destroy` deletes the pool before it waits for the events.
Every task that is still in a queue is dropped: whatever happens later, its handler is never executed. -/
theorem C60_destroy_violated (m : Nat) (acts : List EvAct) (id : Nat) (n : EvNote)
    (hn : (new.exec m true acts).notes[id]? = some n) (hk : n.kind ≠ .sync) (hq : n.run = .queued)
    (hp : (new.exec m true acts).pc = .poolDown) (hb : (new.exec m true acts).notes.any busy = false)
    (more : List EvAct) : .handled id ∉ (new.exec m true (acts ++ .main :: more)).hist := by
  have hd : ∃ a : EvNote, (new.exec m true (acts ++ .main :: more)).notes[id]? = some a ∧ a.run = .dropped := by
    rw [exec_append]
    generalize new.exec m true acts = s at *
    rw [EvSt.exec]
    apply dropped_exec
    have hs : EvSt.step m true s .main =
        some (dwaitFrom m { s with poolUp := false, notes := s.notes.map dropTask } 0) := by
      simp only [EvSt.step, EvSt.main, hp, hb, if_true, Bool.false_eq_true, if_false]
    rw [hs, Option.getD_some, dwaitFrom_notes]
    refine ⟨dropTask n, by simp [List.getElem?_map, hn], ?_⟩
    unfold dropTask
    cases hkn : n.kind with
    | sync => exact absurd hkn hk
    | async st => simp only [hq, if_true]
  obtain ⟨a, ha, hr⟩ := hd
  have := ((inv_new m true).exec (acts ++ .main :: more)).note id a ha
  have h0 := this.handled
  rw [hr] at h0
  exact List.count_eq_zero.mp (by simpa using h0)

/-- `destroy` without futures to wait for. -/
theorem dwait_nil_end {m : Nat} {unique : Bool} (d : Nat) : ∀ (e : Nat) (s : EvSt), m - e = d → e < m →
    s.pc = .dwait e [] → (∀ k, s.desL k = []) →
    (EvSt.exec m unique s (List.replicate d .main)).hist = s.hist ++ [.destroyEnd] := by
  induction d with
  | zero => intro e s h1 h2; omega
  | succ d ih =>
    intro e s h1 h2 hp hdes
    have hs : EvSt.step m unique s .main =
        some (dwaitFrom m { s with runL := setAt s.runL e [], desL := setAt s.desL e [] } (e + 1)) := by
      simp only [EvSt.step, EvSt.main, hp]
    have hset : ∀ k, setAt s.desL e [] k = [] := by
      intro k; unfold setAt; split
      · rfl
      · exact hdes k
    rw [List.replicate_succ, EvSt.exec, hs, Option.getD_some]
    by_cases h : e + 1 < m
    · rw [ih (e + 1) _ (by omega) h (by simp only [dwaitFrom, h, if_true, hset]) (by
        intro k; simp only [dwaitFrom, h, if_true, hset])]
      simp only [dwaitFrom, h, if_true]
    · have : d = 0 := by omega
      subst this
      simp only [List.replicate_zero, EvSt.exec, dwaitFrom, h, if_false]

/-- **C60 is violated** for notifications that ask to be waited for at the end of the run but are made when no run
follows: `destroy` does not wait for them, whatever the pool; its futures are discarded. -/
theorem C60_run_destroy_violated (m : Nat) (hm : 0 < m) (unique : Bool) :
    ∃ (acts : List EvAct) (P q : List EvEv), (new.exec m unique acts).hist = P ++ .destroyEnd :: q ∧
      DestroyDue P .runFinish 0 0 ∧ .handled 0 ∉ (new.exec m unique acts).hist := by
  have hh : (new.exec m unique ([.notify 0 (.async .runFinish), .ret 0, .destroy, .main] ++ List.replicate m .main)).hist =
      [.call 0 0 (.async .runFinish), .back 0, .destroyBegin] ++ [.destroyEnd] := by
    rw [exec_append]
    rw [dwait_nil_end m 0 _ (Nat.sub_zero m) hm]
    · cases unique <;>
        simp [EvSt.exec, EvSt.step, EvSt.notify, new, hm, EvSt.ret, runLocked, setNote, EvSt.main, busy, dwaitFrom]
    · cases unique <;>
        simp [EvSt.exec, EvSt.step, EvSt.notify, new, hm, EvSt.ret, runLocked, setNote, EvSt.main, busy, dwaitFrom]
    · intro k
      cases unique <;>
        simp [EvSt.exec, EvSt.step, EvSt.notify, new, hm, EvSt.ret, runLocked, setNote, EvSt.main, busy, dwaitFrom]
  refine ⟨_, _, [], hh, ⟨[], [.back 0], [], rfl, by simp, by simp, by simp, by simp⟩, ?_⟩
  rw [hh]; simp

/-! ## Examples -/

/-- Two notifications in a run; the second is made while the engine runs. -/
def exRun : List EvAct :=
  [.notify 0 (.async .runFinish), .ret 0, .run, .notify 1 .sync, .notify 1 (.async .runFinish), .take 1, .take 2, .ret 2,
   .finish 1, .ret 1, .main, .take 0, .finish 0, .main, .main, .finish 2, .main, .main]

example : (new.exec 2 true exRun).hist =
    [.call 0 0 (.async .runFinish), .back 0, .call 1 1 .sync, .call 2 1 (.async .runFinish), .start 1, .start 2, .back 2,
     .handled 1, .back 1, .waitBegin, .start 0, .handled 0, .handled 2] ++ .runEnd :: [] := by decide +kernel

example : RunDue [.call 0 0 (.async .runFinish), .back 0, .call 1 1 .sync, .call 2 1 (.async .runFinish), .start 1,
    .start 2, .back 2, .handled 1, .back 1, .waitBegin, .start 0, .handled 0, .handled 2] 2 1 :=
  ⟨[.call 0 0 (.async .runFinish), .back 0, .call 1 1 .sync], [.start 1, .start 2, .back 2, .handled 1, .back 1],
    [.start 0, .handled 0, .handled 2], rfl, by simp, by simp, by simp⟩

/-- `run` waits: the same steps without the end of the second handler do not end it. -/
example : .runEnd ∉ (new.exec 2 true (exRun.erase (.finish 2))).hist := by decide +kernel

/-- One handler is running when `destroy` is called, the other is in a queue. -/
def exDestroy : List EvAct :=
  [.notify 0 (.async .destroy), .take 0, .ret 0, .notify 0 (.async .destroy), .ret 1, .destroy, .finish 0]

/-- With a pool of its own the second handler is dropped. -/
example : (new.exec 1 true (exDestroy ++ [.main, .main, .main, .main])).hist =
    [.call 0 0 (.async .destroy), .start 0, .back 0, .call 1 0 (.async .destroy), .back 1, .destroyBegin, .handled 0] ++
      .destroyEnd :: [] := by decide +kernel

/-- It meets the hypotheses of `C60_destroy_violated`. -/
example : (new.exec 1 true exDestroy).notes[1]? = some ⟨0, .async .destroy, .queued, true⟩ ∧
    (new.exec 1 true exDestroy).pc = .poolDown ∧ (new.exec 1 true exDestroy).notes.any busy = false := by decide +kernel

/-- With a shared pool it is waited for. -/
example : (new.exec 1 false (exDestroy ++ [.main, .main, .main, .take 1, .finish 1, .main, .main])).hist =
    [.call 0 0 (.async .destroy), .start 0, .back 0, .call 1 0 (.async .destroy), .back 1, .destroyBegin, .handled 0,
     .start 1, .handled 1] ++ .destroyEnd :: [] := by decide +kernel

example : DestroyDue [.call 0 0 (.async .destroy), .start 0, .back 0, .call 1 0 (.async .destroy), .back 1, .destroyBegin,
    .handled 0, .start 1, .handled 1] .destroy 1 0 :=
  ⟨[.call 0 0 (.async .destroy), .start 0, .back 0], [.back 1], [.handled 0, .start 1, .handled 1], rfl, by simp, by simp,
    by simp, by simp⟩

end EvSt
end CGraph
