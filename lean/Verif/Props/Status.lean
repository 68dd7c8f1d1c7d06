import Verif.Lemmas.Status

/-! # C01, C02: status accumulation and copying -/
namespace CGraph
open CStatus

/-- Accumulate a sequence of statuses with `+=` starting from `s`. -/
def accumulate (s : CStatus) (l : List CStatus) : CStatus := l.foldl CStatus.add s

/-- Independent specification: the first status whose code is negative, if any. -/
def firstError : List CStatus → Option CStatus
  | [] => none
  | s :: l => if s.code < 0 then some s else firstError l

theorem accumulate_start {s : CStatus} (hs : s.code ≥ 0) (l : List CStatus) :
    accumulate s l = (firstError l).getD s := by
  induction l with
  | nil => rfl
  | cons a l ih =>
    have hs' : s.isErr = false := by
      have : ¬ (s.isErr = true) := by rw [isErr_iff]; omega
      simpa using this
    by_cases ha : a.code < 0
    · have ha' : a.isErr = true := (isErr_iff a).2 ha
      have hfix : ∀ l : List CStatus, accumulate a l = a := by
        intro l
        induction l with
        | nil => rfl
        | cons b l ih => simp only [accumulate, List.foldl_cons, add_of_err b ha'] at ih ⊢; exact ih
      simp only [accumulate, List.foldl_cons, add_of_not_err hs' ha', firstError, ha, if_true,
        Option.getD_some]
      exact hfix l
    · have ha' : a.isErr = false := by
        have : ¬ (a.isErr = true) := by rw [isErr_iff]; exact ha
        simpa using this
      simp only [accumulate, List.foldl_cons, add_not_err_right ha', firstError, ha, if_false]
      exact ih

/-- **C01** (first error wins): accumulation from a fresh status is exactly the first error of the
sequence, or the untouched OK status when there is none. -/
theorem C01_first_error_wins (l : List CStatus) :
    accumulate CStatus.ok l = (firstError l).getD CStatus.ok :=
  accumulate_start (by decide) l

/-- **C01** (OK iff no error). -/
theorem C01_ok_iff_no_error (l : List CStatus) :
    (accumulate CStatus.ok l).isOK = true ↔ ∀ s ∈ l, ¬ s.code < 0 := by
  rw [C01_first_error_wins]
  induction l with
  | nil => simp [firstError]
  | cons a l ih =>
    by_cases ha : a.code < 0
    · simp only [firstError, ha, if_true, Option.getD_some, isOK_iff, List.mem_cons]
      constructor
      · intro h; omega
      · intro h; exact absurd ha (h a (Or.inl rfl))
    · simp only [firstError, ha, if_false, ih, List.mem_cons, forall_eq_or_imp, not_false_eq_true,
        true_and]

/-- **C01** (grouping does not matter): accumulating the parts separately and then combining gives the
same as accumulating the concatenation. -/
theorem C01_grouping (l₁ l₂ : List CStatus) :
    accumulate CStatus.ok (l₁ ++ l₂) =
      CStatus.add (accumulate CStatus.ok l₁) (accumulate CStatus.ok l₂) := by
  have gen : ∀ (s : CStatus) (l : List CStatus),
      accumulate s l = s.add (accumulate CStatus.ok l) := by
    intro s l
    induction l generalizing s with
    | nil => simp [accumulate, add]
    | cons a l ih =>
      simp only [accumulate, List.foldl_cons] at ih ⊢
      rw [ih (s.add a), ih (CStatus.ok.add a), add_assoc]
      generalize List.foldl CStatus.add CStatus.ok l = X
      cases ha : a.isErr
      · rw [add_not_err_right (a := CStatus.ok) ha]
        cases hX : X.isErr
        · rw [add_not_err_right hX, add_not_err_right hX, add_not_err_right ha,
            add_not_err_right ok_isErr]
        · rw [add_of_not_err ha hX, add_of_not_err ok_isErr hX]
      · rw [add_of_not_err ok_isErr ha]
  rw [show accumulate CStatus.ok (l₁ ++ l₂) = accumulate (accumulate CStatus.ok l₁) l₂ by
    simp [accumulate, List.foldl_append]]
  exact gen _ _

example : accumulate CStatus.ok
    [⟨0, ""⟩, ⟨5, "warn"⟩, ⟨-3, "first"⟩, ⟨-996, "second"⟩] = ⟨-3, "first"⟩ := by decide

/-- **C02** is false in the code: assignment keeps the old message when the codes agree. -/
theorem C02_assign_violated :
    ∃ a b : CStatus, (a.assign b).info ≠ b.info :=
  ⟨⟨-1, "old"⟩, ⟨-1, "new"⟩, by decide⟩

/-- **C02** is false for the copy constructor too: a status with code 0 loses its message. -/
theorem C02_copy_violated : ∃ s : CStatus, s.copyCtor ≠ s := ⟨⟨0, "note"⟩, by decide⟩

/-- **C02** (what holds): the code is always transferred; the message is transferred whenever the codes
differ; and when the codes agree the destination keeps its own message.
Missing from the full property: the message when the codes agree. -/
theorem C02_assign_partial (a b : CStatus) :
    (a.assign b).code = b.code ∧ (a.code ≠ b.code → a.assign b = b) ∧
      (a.code = b.code → a.assign b = a) := by
  by_cases h : a.code = b.code <;> simp [assign, h]

/-- **C02** (what holds, copy): errors and warnings are copied exactly, an OK status becomes the plain
OK status.  Missing: the message of a code-0 status. -/
theorem C02_copy_partial (s : CStatus) :
    s.copyCtor.code = s.code ∧ (s.code ≠ 0 → s.copyCtor = s) := by
  by_cases h : s.code = 0
  · simp [copyCtor, ok, STATUS_OK, h]
  · simp [copyCtor, ok, STATUS_OK, h]

example : (CStatus.assign ⟨-1, "old"⟩ ⟨-996, "boom"⟩) = ⟨-996, "boom"⟩ := by decide

end CGraph
