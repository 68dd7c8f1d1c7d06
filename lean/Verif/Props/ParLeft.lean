import Verif.Lemmas.ParLeft
import Verif.Props.DagType

/-! # C65, continued: runs begun while work of a failed run is left over -/
namespace CGraph

/-! ## General graphs -/
section
open DynSt

/-- Elements 0 and 1 before element 2.  In the first run 1 fails while 0 is being executed.  In the second run the old execution of 0 ends
and is counted for 2.  The new task of 0 is executed only after the second run has returned. -/
def exLeftActs : List DynAct :=
  [.begin, .main .ok, .main .ok, .take 0, .work 0 .ok, .main .ok, .main (.err "bad"), .main .ok, .main .ok, .main .ok, .main .ok,
   .main .ok, .main .ok] ++
  [.begin, .main .ok, .main .ok, .main .ok, .main .ok, .work 0 .ok, .work 0 .ok, .work 0 .ok, .work 0 .ok] ++
  List.replicate 13 (.main .ok)

/-- A further run, begun when nothing is left over. -/
def exLeftCycle : List DynAct := .begin :: List.replicate 15 (.main .ok)

/-- What is left over of it. -/
def exLeftRest : List DynAct := [.take 0] ++ List.replicate 5 (.work 0 .ok)

/-- **C65 is false**: the run after a failed run may return OK although one of its elements was not executed in it; the element that
depends on it was executed. -/
theorem C65_ok_without_element_violated :
    let s := run exJoinCfg (init exJoinCfg) exLeftActs
    s.nrun = 2 ∧ s.lastRet = some CStatus.ok ∧ s.failed = [] ∧ Ev.start 0 ∉ s.trace ∧ Ev.finish 2 ∈ s.trace := by decide

theorem exLeft_cycle {s : DynSt} (h1 : s.status = CStatus.ok) (h2 : s.queue = []) (h3 : s.jobs = []) (h4 : s.main = .idle)
    (h5 : s.left 2 = 1) :
    let t := run exJoinCfg s exLeftCycle
    let u := run exJoinCfg t exLeftRest
    (t.nrun = s.nrun + 1 ∧ t.lastRet = some CStatus.ok ∧ t.trace = [.start 1, .finish 1, .start 2, .finish 2]) ∧
    u.status = CStatus.ok ∧ u.queue = [] ∧ u.jobs = [] ∧ u.main = .idle ∧ u.left 2 = 1 ∧ u.nrun = s.nrun + 1 := by
  have f1 : exJoinCfg.fronts = [0, 1] := by decide
  have f2 : exJoinCfg.g.succs 0 = [2] := by decide
  have f3 : exJoinCfg.g.succs 1 = [2] := by decide
  have f4 : exJoinCfg.g.deps 2 = [0, 1] := by decide
  have f5 : exJoinCfg.shapeOf 0 = .normal := by decide
  have f6 : exJoinCfg.shapeOf 1 = .normal := by decide
  have f7 : exJoinCfg.shapeOf 2 = .tail := by decide
  have f8 : ∀ e, exJoinCfg.isDefault e = true := by intro e; rfl
  have f9 : exJoinCfg.totalEnd = 1 := by decide
  have g1 : exJoinCfg.workers = 2 := rfl
  have g2 : exJoinCfg.epoch = 1 := rfl
  have g3 : CStatus.ok.isNotErr = true := by decide
  have g4 : CStatus.ok.isOK = true := by decide
  obtain ⟨left, status, fin, queue, jobs, main, trace, fired, failed, ended, nrun, lastRet⟩ := s
  simp only at h1 h2 h3 h4 h5
  subst h1 h2 h3 h4
  simp [exLeftCycle, exLeftRest, run, step, jobStep, List.replicate, f1, f2, f3, f4, f5, f6, f7, f8, f9, g1, g2, g3, g4,
    toWait, ret, DynSt.push, Graph.setLeft, h5, DynSt.notify]

/-- The schedule with `n` further runs, each begun when all work of those before is over, and one more. -/
def exLeftLong (n : Nat) : List DynAct :=
  exLeftActs ++ exLeftRest ++ (List.replicate n (exLeftCycle ++ exLeftRest)).flatten ++ exLeftCycle

/-- **C65 is false**: the damage lasts for ever.  However many runs follow, all begun when nothing is left over, all without failures and
all returning OK, none executes element 0 before element 2, which depends on it, or before it returns. -/
theorem C65_damage_lasts_violated (n : Nat) :
    let s := run exJoinCfg (init exJoinCfg) (exLeftLong n)
    s.nrun = n + 3 ∧ s.lastRet = some CStatus.ok ∧ Ev.start 0 ∉ s.trace ∧ Ev.finish 2 ∈ s.trace := by
  have happ : ∀ (l m : List DynAct) (s : DynSt), run exJoinCfg s (l ++ m) = run exJoinCfg (run exJoinCfg s l) m := by
    intro l; induction l with
    | nil => intro m s; rfl
    | cons a l ih => intro m s; simp only [List.cons_append, run]; exact ih _ _
  have base : let u := run exJoinCfg (init exJoinCfg) (exLeftActs ++ exLeftRest)
      u.status = CStatus.ok ∧ u.queue = [] ∧ u.jobs = [] ∧ u.main = .idle ∧ u.left 2 = 1 ∧ u.nrun = 2 := by decide
  have hind : ∀ n : Nat,
      let u := run exJoinCfg (run exJoinCfg (init exJoinCfg) (exLeftActs ++ exLeftRest))
        (List.replicate n (exLeftCycle ++ exLeftRest)).flatten
      u.status = CStatus.ok ∧ u.queue = [] ∧ u.jobs = [] ∧ u.main = .idle ∧ u.left 2 = 1 ∧ u.nrun = n + 2 := by
    intro n
    induction n with
    | zero => simpa [run] using base
    | succ n ih =>
      rw [List.replicate_succ', List.flatten_append, happ]
      simp only [List.flatten_cons, List.flatten_nil, List.append_nil]
      rw [happ]
      obtain ⟨i1, i2, i3, i4, i5, i6⟩ := ih
      have := (exLeft_cycle i1 i2 i3 i4 i5).2
      refine ⟨this.1, this.2.1, this.2.2.1, this.2.2.2.1, this.2.2.2.2.1, ?_⟩
      rw [this.2.2.2.2.2, i6]
  obtain ⟨i1, i2, i3, i4, i5, i6⟩ := hind n
  have := (exLeft_cycle i1 i2 i3 i4 i5).1
  simp only [exLeftLong]
  rw [happ, happ]
  refine ⟨?_, this.2.1, ?_, ?_⟩
  · rw [this.1, i6]
  · rw [this.2.2]; decide
  · rw [this.2.2]; decide

end

/-! ## Independent elements -/
section
open ParSt

/-- **C65 is false** (independent elements): the run after a failed run may return OK although one of its elements was not started in it:
an element of the failed run was counted in its place. -/
theorem C65_parallel_early_violated :
    let s := ParSt.run [0, 1] 2 2 0 ParSt.init
      ([.begin, .main .ok, .main .ok, .main .ok, .take 0, .take 0, .work 0 .ok, .work 1 .ok, .work 0 (.err "bad"), .work 0 .ok,
        .main .ok, .main .ok, .main .ok] ++
       [.begin, .main .ok, .main .ok, .main .ok, .work 1 .ok, .work 1 .ok, .take 0, .work 0 .ok, .work 0 .ok] ++
       [.work 0 .ok, .work 1 .ok, .work 0 .ok, .work 1 .ok, .work 1 .ok, .work 0 .ok, .main .ok, .main .ok, .main .ok])
    s.nrun = 2 ∧ s.lastRet = some CStatus.ok ∧ s.failed = [] ∧ Ev.start 1 ∉ s.trace ∧ 1 ∈ s.queue := by decide

/-- **C65 is false** (independent elements): a run in which no element failed, and none was even started, may return the error of an element
of the run before. -/
theorem C65_parallel_old_error_violated :
    let s := ParSt.run [0, 1] 2 2 0 ParSt.init
      ([.begin, .main .ok, .main .ok, .main .ok, .take 0, .take 0, .work 0 .ok, .work 1 .ok, .work 0 (.err "a"), .work 1 (.err "b"),
        .work 0 .ok, .main .ok, .main .ok, .main .ok] ++
       [.begin, .main .ok, .main .ok, .main .ok, .work 1 .ok, .main .ok, .main .ok, .main .ok])
    s.nrun = 2 ∧ s.lastRet = some (.err "b") ∧ s.failed = [] ∧ s.trace = [] := by decide

/-- **C65 (partial)** (independent elements): whatever is left over of earlier runs, every run returns: in every state in which the caller
is inside of `run` some step is possible, and every step except a new run and a spurious wake-up decreases a measure.  (Missing: which
elements were executed when it returns.) -/
theorem C65_parallel_returns_partial (T : List Eid) (w ep : Nat) (hw : 1 ≤ w) (s : ParSt) (hs : Any T w ep s) (hm : s.main ≠ .idle) :
    (∃ a, a ≠ .begin ∧ a ≠ .spurious ∧ step T T.length w ep s a ≠ none) ∧
    ∀ a s', a ≠ .begin → a ≠ .spurious → step T T.length w ep s a = some s' → work ep s' < work ep s := by
  refine ⟨not_stuck_any hw (linv_any hs) hm, fun a s' h1 h2 h3 => ?_⟩
  have := step_work h3 h1
  simp [h2] at this
  omega

theorem ParSt.any_run {T : List Eid} {w ep : Nat} {s : ParSt} (h : Any T w ep s) (acts : List DynAct) :
    Any T w ep (run T T.length w ep s acts) := by
  induction acts generalizing s with
  | nil => exact h
  | cons a l ih =>
    simp only [run]
    cases hs : step T T.length w ep s a with
    | none => exact ih h
    | some s' => exact ih (Any.step h hs)

/-- The caller is in the second run while an element of the first is being executed. -/
example :
    let s := ParSt.run [0, 1] 2 2 0 ParSt.init
      ([.begin, .main .ok, .main .ok, .main .ok, .take 0, .take 0, .work 0 .ok, .work 1 .ok, .work 0 (.err "bad"), .work 0 .ok,
        .main .ok, .main .ok, .main .ok] ++ [.begin, .main .ok])
    Any [0, 1] 2 0 s ∧ s.nrun = 2 ∧ s.main ≠ .idle ∧ PJob.body 1 ∈ s.jobs := ⟨any_run Any.init _, by decide, by decide, by decide⟩

end
end CGraph
