import Verif.Lemmas.Pipeline

/-! # C52, C58, C59, C73, C74: the life cycle and the runs of a pipeline -/
namespace CGraph.Pipe

/-! ## C58: guards -/

/-- Whether a call of the interface wants an initialised pipeline. -/
def wants : Op → Option Bool
  | .run | .destroy | .control _ => some true
  | .init | .process _ | .register _ | .addEvent _ | .addStage _ | .addDaemon _ | .setShared _ => some false
  | .addParam _ => none

/-- Success: a status that is no error.  An error status and an exception are failures. -/
def works : Res CStatus → Bool
  | .ret st => !st.isErr
  | .throw _ => false

theorem works_iff {r : Res CStatus} : works r = true ↔ ∃ st, r = .ret st ∧ st.isErr = false := by
  cases r <;> simp [works]

/-- A call in the wrong phase fails, calls no component and changes nothing. -/
theorem C58_refused (env : PEnv) (s : Pipe) (op : Op) (b : Bool) (h : wants op = some b) (hs : s.isInit ≠ b) :
    (step env s op).1 = s ∧ works (step env s op).2 = false := by
  cases op with
  | process n =>
    simp only [wants, Option.some.injEq] at h
    subst h
    simp only [ne_eq, Bool.not_eq_false] at hs
    simp only [step, process, init, hs, if_true, refused, andThen]
    rw [checked_eq]
    exact ⟨rfl, rfl⟩
  | addParam i => simp [wants] at h
  | _ =>
    simp only [wants, Option.some.injEq] at h
    subst h
    simp only [ne_eq, Bool.not_eq_true, Bool.not_eq_false] at hs
    simp only [step, init, run, destroy, register, hs, if_true, Bool.not_false]
    exact ⟨trivial, rfl⟩

/-- What the results of the calls say about the phase. -/
def phase (b : Bool) (op : Op) (r : Res CStatus) : Bool :=
  match op with
  | .init => b || works r
  | .destroy => b && !works r
  | _ => b

/-- The phase is what the results of `init` and `destroy` say: a failed `init` leaves the pipeline uninitialised, a failed
`destroy` leaves it initialised, and no other call changes the phase.  (`process` is `C58_process`.) -/
theorem C58_phase (env : PEnv) (s : Pipe) (op : Op) (hp : ∀ n, op ≠ .process n) :
    (step env s op).1.isInit = phase s.isInit op (step env s op).2 := by
  cases op with
  | process n => exact absurd rfl (hp n)
  | init =>
    simp only [step, phase]
    cases hs : s.isInit with
    | true => simp [init, hs]
    | false =>
      rcases init_body env s hs with ⟨hf, he⟩ | ⟨s', r, hf, h, hr⟩
      · have : works (init env s).2 = false := by
          cases hw : works (init env s).2 with
          | false => rfl
          | true => obtain ⟨st, h, h2⟩ := works_iff.mp hw; rw [he st h] at h2; simp at h2
        rw [this, hf.isInit, hs]; rfl
      · rw [h]; simp [works, hr]
  | destroy =>
    simp only [step, phase]
    cases hs : s.isInit with
    | false => simp [destroy, hs]
    | true =>
      rcases destroy_body env s hs with ⟨hf, he⟩ | ⟨s', r, hf, h, hr⟩
      · have : works (destroy env s).2 = false := by
          cases hw : works (destroy env s).2 with
          | false => rfl
          | true => obtain ⟨st, h, h2⟩ := works_iff.mp hw; rw [he st h] at h2; simp at h2
        rw [this, hf.isInit, hs]; rfl
      · rw [h]; simp [works, hr]
  | run => exact (run_frame env s).isInit
  | control st => simp only [step, phase]; split <;> simp [push]
  | register e =>
    simp only [step, phase, register]
    split
    · rfl
    · split
      · rfl
      · refine andThen_keep (fun t => t.isInit = s.isInit) rfl fun t r h => ?_
        exact checked_keep (fun t => t.isInit = s.isInit) h h
  | addEvent i =>
    simp only [step, phase]
    split
    · rfl
    · split <;> rfl
  | addStage i => simp only [step, phase]; split <;> rfl
  | addDaemon i => simp only [step, phase]; split <;> rfl
  | addParam i => simp only [step, phase]
  | setShared on => simp only [step, phase]; split <;> rfl

/-- `process` that reports success leaves the pipeline uninitialised. -/
theorem C58_process (env : PEnv) (s : Pipe) (n : Nat) (h : works (process env n s).2 = true) :
    (process env n s).1.isInit = false := by
  obtain ⟨st, h, hst⟩ := works_iff.mp h
  obtain ⟨t, ht⟩ : ∃ t, process env n s = (t, .ret st) := ⟨_, Prod.ext rfl h⟩
  rw [ht]
  obtain ⟨s₁, r₁, h1, h2⟩ := andThen_ret.mp ht
  obtain ⟨_, h3⟩ := checked_ret h2 hst
  obtain ⟨s₂, r₂, h4, h5⟩ := andThen_ret.mp h3
  obtain ⟨s₃, r₃, h6, h7⟩ := plus_ret.mp h5
  simp only [Prod.mk.injEq, Res.ret.injEq] at h7
  obtain ⟨rfl, rfl⟩ := h7
  have hr₃ := (add_of_add_ok hst).2
  have := C58_phase env s₂ .destroy (by simp)
  simp only [step, h6, phase, works, hr₃] at this
  simpa using this

/-- Everything answers without error. -/
def Good (env : PEnv) : Prop := ∀ h c, ∃ r, env.answer h c = .ret r ∧ r.isErr = false

theorem sumAll_good {env} (g : Good env) (c : Nat → PCall) (l : List Nat) (st : CStatus) (s : Pipe)
    (h : st.isErr = false) : ∃ s', sumAll env c l st s = (s', .ret st) := by
  induction l generalizing s with
  | nil => exact ⟨s, rfl⟩
  | cons i l ih =>
    obtain ⟨r, hr, he⟩ := g s.calls (c i)
    have : st.add r = st := CStatus.add_not_err_right he
    simp only [sumAll, call, hr, andThen, this]
    exact ih _

theorem untilErr_good {env} (g : Good env) (c : Nat → PCall) (l : List Nat) (st : CStatus) (s : Pipe)
    (h : st.isErr = false) : ∃ s' r, untilErr env c l st s = (s', .ret r) ∧ r.isErr = false := by
  induction l generalizing s st with
  | nil => exact ⟨s, st, rfl, h⟩
  | cons i l ih =>
    obtain ⟨r, hr, he⟩ := g s.calls (c i)
    have ha : (st.assign r).isErr = false := by rw [assign_isErr]; exact he
    simp only [untilErr, call, hr, andThen, checked_ok ha]
    exact ih _ _ ha

/-- From any uninitialised state - new, after a failed `init` or after `destroy` - `init` works if all components do. -/
theorem C58_init_again (env : PEnv) (g : Good env) (s : Pipe) (h : s.isInit = false) :
    works (init env s).2 = true ∧ (init env s).1.isInit = true := by
  obtain ⟨r₁, hr₁, he₁⟩ := g ({ s with poolUp := false } : Pipe).calls .pool
  have ok := CStatus.ok_isErr
  obtain ⟨s₁, hs₁⟩ : ∃ s₁, scheduleInit env s = (s₁, .ret CStatus.ok) := by
    refine ⟨(scheduleInit env s).1, Prod.ext rfl ?_⟩
    simp only [scheduleInit, call, hr₁, andThen, checked_ok he₁]
  obtain ⟨s₂, r₂, hs₂, he₂⟩ := untilErr_good g .suit s₁.elems CStatus.ok s₁ ok
  obtain ⟨s₃, hs₃⟩ : ∃ s₃, initEnv env s = (s₃, .ret CStatus.ok) := by
    refine ⟨(initEnv env s).1, Prod.ext rfl ?_⟩
    simp only [initEnv, hs₁, andThen, checked_ok ok, repoInit, hs₂, checked_ok he₂]
    rw [CStatus.add_not_err_right]
    rw [assign_isErr]; exact ok
  obtain ⟨s₄, hs₄⟩ := sumAll_good g (.init .param) s₃.params CStatus.ok s₃ ok
  obtain ⟨s₅, hs₅⟩ := sumAll_good g (.init .event) s₄.events CStatus.ok s₄ ok
  obtain ⟨s₆, r₆, hs₆, he₆⟩ : ∃ s₆ r, elemInit env s₅ = (s₆, .ret r) ∧ r.isErr = false := by
    obtain ⟨r, hr, he⟩ := g ({ s₅ with engineUp := true } : Pipe).calls .engine
    obtain ⟨s₆, r₆, h6, he6⟩ := untilErr_good g (.init .elem) s₅.elems r
      { s₅ with engineUp := true, calls := s₅.calls ++ [.engine] } he
    exact ⟨s₆, r₆, by simp only [elemInit, call, hr, andThen, checked_ok he]; exact h6, he6⟩
  obtain ⟨s₇, hs₇⟩ := sumAll_good g (.init .stage) s₆.stages CStatus.ok s₆ ok
  obtain ⟨s₈, hs₈⟩ := sumAll_good g (.init .daemon) s₇.daemons CStatus.ok s₇ ok
  have hadd : CStatus.ok.add CStatus.ok = CStatus.ok := rfl
  have : init env s = ({ s₈ with isInit := true }, .ret CStatus.ok) := by
    simp only [init, h, Bool.false_eq_true, if_false, plus, hs₃, andThen, hadd, checked_ok ok, hs₄, hs₅, hs₆,
      CStatus.add_not_err_right he₆, hs₇, hs₈]
  rw [this]
  exact ⟨rfl, rfl⟩

end CGraph.Pipe
