import Verif.Lemmas.StatPool

/-! # C106: the static engine on the pool's queues and threads -/
namespace CGraph.StatPool
open SpSt Spec
open EngPool (Thr Ok)

/-- **C106** (order): in every run, whatever queue a task is routed to and whichever thread pops or steals it, an element
starts at most once and only after all its dependencies have finished. -/
theorem C106_order (c : SpCfg) (ok : Ok c.ep) (w : c.g.WF) (σ : Nat → SpAct) (n : Nat) (pre post : List Ev) (e : Eid)
    (ht : (trace c σ n).eng.trace = pre ++ .start e :: post) :
    Ev.start e ∉ pre ∧ ∀ d, c.g.Edge d e → Ev.finish d ∈ pre := by
  obtain ⟨d, Q, q, b, h⟩ := here ok w σ n
  obtain ⟨sch, hd⟩ := h.reach
  refine C25_run_order c.g w c.left0 c.direct (c.fp (trace c σ n).runs) sch pre post e ?_
  have he := h.eq
  rw [hd] at he
  show (StaticSt.run c.direct (c.fp (trace c σ n).runs) (StaticSt.init c.mat) sch).trace = _
  rw [he]; exact ht

/-- **C106** (return): on an operating system that schedules the caller and the threads fairly, every call of `run()`
returns, whatever the elements return. -/
theorem C106_returns (c : SpCfg) (ok : Ok c.ep) (w : c.g.WF) (σ : Nat → SpAct) (hf : Fair c σ) (n : Nat) :
    ∃ m, n ≤ m ∧ (trace c σ m).eng.ret.isSome = true ∧
      (∀ k, n ≤ k → k < m → (trace c σ k).eng.ret = none) ∧ (trace c σ m).runs = (trace c σ n).runs := by
  have hex := returns ok w hf n
  classical
  obtain ⟨h1, h2⟩ := Nat.find_spec hex
  have hmin : ∀ k, n ≤ k → k < Nat.find hex → (trace c σ k).eng.ret = none := by
    intro k h3 h4
    cases h : (trace c σ k).eng.ret with
    | none => rfl
    | some r => exact absurd ⟨h3, by rw [h]; rfl⟩ (Nat.find_min hex h4)
  refine ⟨Nat.find hex, h1, h2, hmin, ?_⟩
  have : ∀ k, n ≤ k → k ≤ Nat.find hex → (trace c σ k).runs = (trace c σ n).runs := by
    intro k h3 h4
    obtain ⟨i, rfl⟩ := Nat.exists_eq_add_of_le h3
    clear h3
    induction i with
    | zero => rfl
    | succ i ih =>
      rw [← ih (by omega)]
      have hr := hmin (n + i) (by omega) (by omega)
      show (trace c σ (n + i + 1)).runs = _
      cases hs : (trace c σ (n + i)).step c (σ (n + i)) with
      | none => simp [trace, hs]
      | some s' =>
        have he : trace c σ (n + i + 1) = s' := by simp [trace, hs]
        rw [he]
        obtain ⟨d, Q, q, b, h⟩ := here ok w σ (n + i)
        obtain ⟨d', _, _, _, _, hm⟩ := here_step ok w h hs
        generalize σ (n + i) = a at hm
        cases hm with
        | begin h5 _ _ =>
          have : d.ret = none := by rw [h.eq]; exact hr
          rw [this] at h5; simp at h5
        | main _ _ _ hr => exact hr
        | take _ _ _ _ hr _ => exact hr
        | done _ _ _ _ hr _ => exact hr
        | pool _ _ _ hr _ => exact hr
  exact this _ h1 (Nat.le_refl _)

/-- **C106** (result): when `run()` has returned, nothing is executing and nothing is left in the pool.  The result is OK
exactly if every element was executed without error; otherwise it is the status of an element (or the exception made from
its crash status). -/
theorem C106_result (c : SpCfg) (ok : Ok c.ep) (w : c.g.WF) (acy : AcyclicOn c.g.Edge c.g.elems) (σ : Nat → SpAct) (n : Nat)
    (r : Res CStatus) (hr : (trace c σ n).eng.ret = some r) :
    (trace c σ n).eng.running = [] ∧ (trace c σ n).pool.finished.Perm (trace c σ n).pool.submitted ∧
    ((r = .ret CStatus.ok ∧ ∀ e ∈ c.g.elems, Ev.finish e ∈ (trace c σ n).eng.trace ∧
        (c.fp (trace c σ n).runs e).isErr = false) ∨
     (∃ e ∈ c.g.elems, (c.fp (trace c σ n).runs e).isErr = true ∧
        r = if (c.fp (trace c σ n).runs e).isCrash then .throw (c.fp (trace c σ n).runs e).info
            else .ret (c.fp (trace c σ n).runs e))) := by
  obtain ⟨d, Q, q, b, h⟩ := here ok w σ n
  have he := h.eq
  have hrd : d.ret = some r := by rw [he]; exact hr
  obtain ⟨hQ, hR⟩ := h.returned w (by rw [hrd]; rfl)
  have hR' : (trace c σ n).eng.running = [] := by rw [he] at hR; exact hR
  obtain ⟨sch, hd⟩ := h.reach
  have hl := C25_layers c.g w c.left0
  have hperm := hl.2.2.2.2 (hl.2.2.2.1.2 acy)
  rw [hd] at hrd
  have h25 := (C25_return c.mat hl.2.1 c.direct (c.fp (trace c σ n).runs) sch r hrd).2
  refine ⟨hR', ?_, ?_⟩
  · have hq : q = [] := by have := h.wait; rw [hQ] at this; simpa using this.symm
    have hb : b = [] := by have := h.exec; rw [hR'] at this; simpa using this.symm
    rw [List.perm_iff_count]
    intro t
    have h1 := h.cntq t
    have h2 := h.cntb t
    rw [hq] at h1
    rw [hb] at h2
    simp only [List.count_nil] at h1 h2
    omega
  · have htr : (StaticSt.run c.direct (c.fp (trace c σ n).runs) (StaticSt.init c.mat) sch).trace =
        (trace c σ n).eng.trace := by rw [← hd, he]; rfl
    simp only [htr] at h25
    rcases h25 with ⟨h1, h2⟩ | ⟨e, h1, h2⟩
    · exact .inl ⟨h1, fun e hm => h2 e (hperm.mem_iff.2 hm)⟩
    · exact .inr ⟨e, hperm.mem_iff.1 h1, h2⟩

/-! ### A case: the diamond on two threads, one element fails in the second run -/

/-- Element 2 is a macro; element 3 fails in the second run. -/
def exSp : SpCfg where
  g := exDiamond
  left0 := fun _ => 0
  bind := fun _ => -1
  isMac := fun e => e == 2
  fp := fun k e => if k = 1 ∧ e = 3 then CStatus.err "bad" else CStatus.ok
  pool := exPool
  secs := 0

theorem exSp_ok : Ok exSp.ep := ⟨by decide, by decide, by decide, .inr ⟨fun _ => by simp [exSp, SpCfg.ep, longTimeStrategy], by decide⟩⟩

/-- In turn: the caller, the two threads, and `run()` is called again if it has returned. -/
def exSched (n : Nat) : SpAct :=
  if n % 4 = 0 then .main false 0 else if n % 4 = 1 then .work (.p 0) true else if n % 4 = 2 then .work (.p 1) true
  else .begin

theorem exSched_fair : Fair exSp exSched where
  caller n := ⟨4 * n, by omega, false, 0, by simp [exSched]⟩
  often k n hk := by
    cases k with
    | s j => simp [Thr.here, SpCfg.ep, exSp] at hk
    | p i =>
      have h : 0 ≤ i ∧ i < 2 := hk
      have : i = 0 ∨ i = 1 := by omega
      rcases this with rfl | rfl
      · exact ⟨4 * n + 1, by omega, true, by simp [exSched]⟩
      · exact ⟨4 * n + 2, by omega, true, by simp [exSched]⟩
  lock k P _ h n := by
    obtain ⟨m, h1, h2, pre, h3⟩ := h n
    refine ⟨m, h1, h2, ?_⟩
    have : pre = true := by
      simp only [exSched] at h3
      split at h3
      · simp at h3
      · split at h3
        · simp at h3; exact h3.2
        · split at h3
          · simp at h3; exact h3.2
          · simp at h3
    rw [h3, this]

example : ∃ m, 0 ≤ m ∧ (trace exSp exSched m).eng.ret.isSome = true ∧
    (∀ k, 0 ≤ k → k < m → (trace exSp exSched k).eng.ret = none) ∧ (trace exSp exSched m).runs = 0 :=
  C106_returns exSp exSp_ok exDiamond_wf exSched exSched_fair 0

/-- The first run: elements 2 and 3 overlap, 2 on the caller's thread. -/
example : (trace exSp exSched 89).eng.trace = [.start 1, .finish 1, .start 2, .start 3, .finish 2, .finish 3, .start 4,
    .finish 4, .start 5, .finish 5] ∧ (trace exSp exSched 89).eng.ret = some (.ret .ok) := by decide +kernel

/-- The second run: nothing after the layer of the failing element. -/
example : (trace exSp exSched 161).runs = 1 ∧ (trace exSp exSched 161).eng.trace =
    [.start 1, .finish 1, .start 2, .finish 2, .start 3, .finish 3] ∧
    (trace exSp exSched 161).eng.ret = some (.ret (.err "bad")) := by decide +kernel

example (pre post : List Ev) (ht : (trace exSp exSched 89).eng.trace = pre ++ .start 4 :: post) :
    Ev.finish 3 ∈ pre :=
  (C106_order exSp exSp_ok exDiamond_wf exSched 89 pre post 4 ht).2 3 (show 3 ∈ exDiamond.deps 4 by decide +kernel)

example : (trace exSp exSched 161).pool.finished.Perm (trace exSp exSched 161).pool.submitted :=
  (C106_result exSp exSp_ok exDiamond_wf ((C25_layers exDiamond exDiamond_wf (fun _ => 0)).2.2.2.1.1 (by decide +kernel))
    exSched 161 (.ret (.err "bad")) (by decide +kernel)).2.1

end CGraph.StatPool
