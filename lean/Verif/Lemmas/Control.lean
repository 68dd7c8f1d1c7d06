import Verif.Model.Control

/-! # Facts about cancel, suspend and resume -/
namespace CGraph
namespace CtlSt

@[simp] theorem setPc_self (s : CtlSt) (e : Nat) (p : RunPc) : (s.setPc e p).pc e = p := by simp [setPc]

theorem setPc_ne (s : CtlSt) {e k : Nat} (p : RunPc) (h : k ≠ e) : (s.setPc e p).pc k = s.pc k := by
  simp [setPc, h]

/-! ## After a cancel -/

/-- Bodies an element may still begin. -/
def owed (p : RunPc) : Nat :=
  match p with
  | .passed _ => 1
  | _ => 0

/-- State after `cancel` has returned during a run. -/
structure Off (n : Nat) (S s : CtlSt) (new : List CtlEv) : Prop where
  hist : s.hist = S.hist ++ new
  st : ∀ e < n, s.st e = .cancel
  repo : s.repo = .cancel
  push : s.push = none
  main : (∃ r, s.main = .running r) ∨ (∃ r, s.main = .check r) ∨ s.main = .over
  count : ∀ e < n, new.count (.enter e) + owed (s.pc e) ≤ owed (S.pc e)
  noRun : CtlEv.run ∉ new

theorem Off.step {n : Nat} {loops : Nat → Nat} {S s s' : CtlSt} {new : List CtlEv} (I : Off n S s new) {a : CtlAct}
    (h1 : ∀ q, a ≠ .ctl q) (h2 : ∀ e, a ≠ .elem e true) (h : s.step n loops a = some s') :
    ∃ new', Off n S s' new' := by
  cases a with
  | ctl q => exact absurd rfl (h1 q)
  | push => simp [CtlSt.step, I.push] at h
  | main =>
    simp only [CtlSt.step, mainStep] at h
    rcases I.main with ⟨r, hr⟩ | ⟨r, hr⟩ | hr
    · simp only [hr] at h
      split at h
      · next hall =>
        simp at h; subst h
        refine ⟨new, I.hist, I.st, I.repo, I.push, .inr (.inl ⟨r, rfl⟩), ?_, I.noRun⟩
        intro e he
        have := I.count e he
        simp [owed] at this ⊢; omega
      · simp at h
    · simp [hr, I.repo] at h; subst h
      exact ⟨new, I.hist, I.st, rfl, I.push, .inr (.inr rfl), I.count, I.noRun⟩
    · simp [hr] at h
  | call e =>
    simp only [CtlSt.step] at h
    split at h
    · next r hm ho =>
      split at h
      · next he =>
        simp at h; subst h
        refine ⟨new, I.hist, I.st, I.repo, I.push, I.main, ?_, I.noRun⟩
        intro k hk
        have := I.count k hk
        by_cases hke : k = e
        · subst hke; simp [owed] at this ⊢; omega
        · rw [setPc_ne _ _ hke]; exact this
      · simp at h
    · simp at h
  | elem e hb =>
    have hb' : hb = false := by
      cases hb with
      | true => exact absurd rfl (h2 e)
      | false => rfl
    subst hb'
    simp only [CtlSt.step, elemStep] at h
    -- moves that are not seen and owe nothing afterwards
    have quiet : ∀ (p : RunPc) (s1 : CtlSt), owed p = 0 ∨ owed p ≤ owed (s.pc e) → s1 = s.setPc e p →
        ∃ new', Off n S s1 new' := by
      intro p s1 hp hs1
      subst hs1
      refine ⟨new, I.hist, I.st, I.repo, I.push, I.main, ?_, I.noRun⟩
      intro k hk
      have := I.count k hk
      by_cases hke : k = e
      · subst hke; simp; omega
      · rw [setPc_ne _ _ hke]; exact this
    have seen : ∀ (p : RunPc) (v : CtlEv), owed p = 0 → v ≠ .run → (∀ k, v ≠ .enter k) →
        ∃ new', Off n S { s.setPc e p with hist := s.hist ++ [v] } new' := by
      intro p v hp hv hv2
      refine ⟨new ++ [v], by simp [I.hist], I.st, I.repo, I.push, I.main, ?_, ?_⟩
      · intro k hk
        have := I.count k hk
        have hc : (new ++ [v]).count (.enter k) = new.count (.enter k) := by
          rw [List.count_append, List.count_singleton, if_neg (by simpa using hv2 k)]; rfl
        rw [hc]
        by_cases hke : k = e
        · subst hke; simp [hp]; omega
        · show _ + owed ((s.setPc e p).pc k) ≤ _
          rw [setPc_ne _ _ hke]; exact this
      · simp [I.noRun]; exact fun h => hv h.symm
    cases hp : s.pc e with
    | out => simp [hp] at h
    | asleep l => simp [hp] at h
    | fin => simp [hp] at h
    | test l =>
      simp only [hp] at h
      split at h
      · next hc =>
        -- impossible for the elements of the pipeline
        simp at h; subst h
        refine ⟨new, I.hist, I.st, I.repo, I.push, I.main, ?_, I.noRun⟩
        intro k hk
        have := I.count k hk
        by_cases hke : k = e
        · subst hke
          have := I.st k hk
          rw [this] at hc; simp at hc
        · rw [setPc_ne _ _ hke]; exact this
      · simp at h; subst h
        exact seen _ _ rfl (by simp) (by simp)
    | passed l =>
      simp only [hp, Option.some.injEq] at h; subst h
      refine ⟨new ++ [.enter e], by simp [I.hist], I.st, I.repo, I.push, I.main, ?_, ?_⟩
      · intro k hk
        have := I.count k hk
        by_cases hke : k = e
        · subst hke; rw [hp] at this; simp [owed] at this ⊢; omega
        · show List.count _ _ + owed ((s.setPc e (.body l)).pc k) ≤ _
          rw [setPc_ne _ _ hke, List.count_append, List.count_singleton, if_neg (by simp; omega)]
          exact this
      · simp [I.noRun]
    | body l =>
      simp only [hp, Option.some.injEq] at h; subst h
      exact seen _ _ rfl (by simp) (by simp)
    | check l =>
      simp only [hp, Option.some.injEq] at h
      exact quiet _ _ (by left; split <;> rfl) h.symm
    | checkLocked l =>
      simp only [hp, Option.some.injEq] at h
      exact quiet _ _ (by left; split <;> rfl) h.symm
    | drowsy l =>
      simp only [hp, Option.some.injEq] at h
      exact quiet _ _ (.inl rfl) h.symm
    | hold l =>
      simp only [hp, Option.some.injEq, Bool.false_eq_true, if_false] at h
      exact quiet _ _ (.inl rfl) h.symm
  | spurious e =>
    simp only [CtlSt.step] at h
    split at h
    · next l hp =>
      simp at h; subst h
      refine ⟨new, I.hist, I.st, I.repo, I.push, I.main, ?_, I.noRun⟩
      intro k hk
      have := I.count k hk
      by_cases hke : k = e
      · subst hke; simp [owed] at this ⊢; omega
      · rw [setPc_ne _ _ hke]; exact this
    · simp at h

theorem Off.exec {n : Nat} {loops : Nat → Nat} {S : CtlSt} : ∀ (acts : List CtlAct),
    (∀ a ∈ acts, (∀ q, a ≠ .ctl q) ∧ ∀ e, a ≠ .elem e true) → ∀ (s : CtlSt) (new : List CtlEv), Off n S s new →
    ∃ new', Off n S (s.exec n loops acts) new'
  | [], _, _, new, I => ⟨new, I⟩
  | a :: as, ha, s, new, I => by
    rw [CtlSt.exec]
    have h1 := ha a (by simp)
    have h2 : ∀ b ∈ as, (∀ q, b ≠ .ctl q) ∧ ∀ e, b ≠ .elem e true := fun b hb => ha b (by simp [hb])
    cases hs : s.step n loops a with
    | none => exact Off.exec as h2 s new I
    | some s' =>
      obtain ⟨new', I'⟩ := I.step h1.1 h1.2 hs
      exact Off.exec as h2 s' new' I'

/-- Steps of elements leave the states, the repository and the other threads alone. -/
theorem elem_frame {n : Nat} {loops : Nat → Nat} {s s' : CtlSt} {a : CtlAct} (h1 : ∀ q, a ≠ .ctl q) (h2 : a ≠ .main)
    (h3 : a ≠ .push) (h : s.step n loops a = some s') :
    s'.st = s.st ∧ s'.repo = s.repo ∧ s'.push = s.push ∧ s'.main = s.main := by
  cases a with
  | ctl q => exact absurd rfl (h1 q)
  | main => exact absurd rfl h2
  | push => exact absurd rfl h3
  | call e =>
    simp only [CtlSt.step] at h
    split at h
    · split at h
      · simp at h; subst h; exact ⟨rfl, rfl, rfl, rfl⟩
      · simp at h
    · simp at h
  | elem e b =>
    simp only [CtlSt.step, elemStep] at h
    split at h
    · simp at h
    · split at h <;> (simp only [Option.some.injEq] at h; subst h; exact ⟨rfl, rfl, rfl, rfl⟩)
    · simp only [Option.some.injEq] at h; subst h; exact ⟨rfl, rfl, rfl, rfl⟩
    · simp only [Option.some.injEq] at h; subst h; exact ⟨rfl, rfl, rfl, rfl⟩
    · simp only [Option.some.injEq] at h; subst h; exact ⟨rfl, rfl, rfl, rfl⟩
    · simp only [Option.some.injEq] at h; subst h; exact ⟨rfl, rfl, rfl, rfl⟩
    · simp only [Option.some.injEq] at h; subst h; exact ⟨rfl, rfl, rfl, rfl⟩
    · simp at h
    · simp only [Option.some.injEq] at h; subst h; exact ⟨rfl, rfl, rfl, rfl⟩
    · simp at h
  | spurious e =>
    simp only [CtlSt.step] at h
    split at h
    · simp at h; subst h; exact ⟨rfl, rfl, rfl, rfl⟩
    · simp at h

/-- A control call towards `q` is in progress or has returned. -/
structure Pushing (n : Nat) (q : EState) (r : Nat) (s : CtlSt) : Prop where
  main : s.main = .running r
  push : (∃ i, s.push = some (q, i) ∧ ∀ e < i, e < n → s.st e = q) ∨
    (s.push = none ∧ s.repo = q ∧ ∀ e < n, s.st e = q)

theorem Pushing.step {n r : Nat} {q : EState} {loops : Nat → Nat} {s s' : CtlSt} {a : CtlAct} (I : Pushing n q r s)
    (h1 : ∀ q, a ≠ .ctl q) (h2 : a ≠ .main) (h : s.step n loops a = some s') : Pushing n q r s' := by
  by_cases h3 : a = .push
  · subst h3
    simp only [CtlSt.step] at h
    rcases I.push with ⟨i, hp, hs⟩ | ⟨hp, _⟩
    · simp only [hp] at h
      split at h
      · simp at h; subst h
        refine ⟨I.main, .inl ⟨i + 1, rfl, ?_⟩⟩
        intro e he hn
        show (s.store i q).st e = q
        simp only [store]
        split
        · rfl
        · exact hs e (by omega) hn
      · next hi =>
        simp at h; subst h
        exact ⟨I.main, .inr ⟨rfl, rfl, fun e he => hs e (by omega) he⟩⟩
    · simp [hp] at h
  · obtain ⟨e1, e2, e3, e4⟩ := elem_frame h1 h2 h3 h
    exact ⟨by rw [e4]; exact I.main, by rw [e1, e2, e3]; exact I.push⟩

theorem Pushing.exec {n r : Nat} {q : EState} {loops : Nat → Nat} : ∀ (acts : List CtlAct),
    (∀ a ∈ acts, (∀ q, a ≠ .ctl q) ∧ a ≠ .main) → ∀ s : CtlSt, Pushing n q r s → Pushing n q r (s.exec n loops acts)
  | [], _, _, I => I
  | a :: as, ha, s, I => by
    rw [CtlSt.exec]
    have h1 := ha a (by simp)
    have h2 := fun b (hb : b ∈ as) => ha b (by simp [hb])
    cases hs : s.step n loops a with
    | none => exact Pushing.exec as h2 s I
    | some s' => exact Pushing.exec as h2 s' (I.step h1.1 h1.2 hs)

/-! ## Suspended in the body -/

/-- Bodies an element has still to begin. -/
def todo : RunPc → Nat
  | .out => 0
  | .test l => l
  | .passed l => l
  | .body l => l - 1
  | .check l => l - 1
  | .checkLocked l => l - 1
  | .drowsy l => l - 1
  | .asleep l => l - 1
  | .hold l => l - 1
  | .fin => 0

/-- The element is between the beginning of its body and the end of `checkSuspend`. -/
def stoppable : RunPc → Bool
  | .body _ => true
  | .check _ => true
  | .checkLocked _ => true
  | .drowsy _ => true
  | .asleep _ => true
  | _ => false

/-- No work of element `e` is lost. -/
structure Keep (e t : Nat) (S s : CtlSt) (new : List CtlEv) : Prop where
  hist : s.hist = S.hist ++ new
  push : s.push = none ∨ ∃ i, s.push = some (.normal, i)
  st : s.st e = .normal ∨ (s.st e = .suspend ∧ stoppable (s.pc e) = true)
  count : new.count (.enter e) + todo (s.pc e) = t
  pos : ∀ l, s.pc e = .passed l → 0 < l
  called : s.pc e ≠ .out

theorem Keep.step {e t n : Nat} {loops : Nat → Nat} {S s s' : CtlSt} {new : List CtlEv} (I : Keep e t S s new)
    {a : CtlAct} (h1 : ∀ q, a = .ctl q → q = .normal) (h2 : a ≠ .elem e true) (h3 : a ≠ .main)
    (h : s.step n loops a = some s') : ∃ new', Keep e t S s' new' := by
  cases a with
  | ctl q =>
    have := h1 q rfl
    subst this
    simp only [CtlSt.step] at h
    split at h
    · simp at h
    · split at h
      · simp at h; subst h
        refine ⟨new ++ [.ctl .normal, .ctlDone .normal], by simp [I.hist], I.push, I.st, ?_, I.pos, I.called⟩
        simpa using I.count
      · simp at h; subst h
        refine ⟨new ++ [.ctl .normal], by simp [I.hist], .inr ⟨0, rfl⟩, I.st, ?_, I.pos, I.called⟩
        simpa using I.count
  | push =>
    simp only [CtlSt.step] at h
    rcases I.push with hp | ⟨i, hp⟩
    · simp [hp] at h
    · simp only [hp] at h
      split at h
      · simp at h; subst h
        have hpc : (s.store i .normal).pc e = s.pc e ∨
            ∃ l, s.pc e = .asleep l ∧ (s.store i .normal).pc e = .checkLocked l := by
          simp only [store]
          split
          · next hei =>
            subst hei
            cases hh : s.pc e with
            | asleep l => right; exact ⟨l, rfl, rfl⟩
            | _ => left; rfl
          · left; rfl
        have hst : (s.store i .normal).st e = .normal ∨ (s.store i .normal).st e = s.st e := by
          simp only [store]; split
          · left; rfl
          · right; rfl
        refine ⟨new, I.hist, .inr ⟨i + 1, rfl⟩, ?_, ?_, ?_, ?_⟩
        · rcases hst with h | h
          · exact .inl h
          · rcases I.st with h' | ⟨h', h''⟩
            · left; exact h.trans h'
            · right
              refine ⟨h.trans h', ?_⟩
              rcases hpc with hx | ⟨l, hx, hy⟩
              · show stoppable ((s.store i .normal).pc e) = true
                rw [hx]; exact h''
              · show stoppable ((s.store i .normal).pc e) = true
                rw [hy]; rfl
        · show new.count _ + todo ((s.store i .normal).pc e) = t
          rcases hpc with hx | ⟨l, hx, hy⟩
          · rw [hx]; exact I.count
          · rw [hy]; have := I.count; rw [hx] at this; exact this
        · intro l hl
          have hl : (s.store i .normal).pc e = .passed l := hl
          rcases hpc with hx | ⟨l', hx, hy⟩
          · rw [hx] at hl; exact I.pos l hl
          · rw [hy] at hl; simp at hl
        · intro hl
          have hl : (s.store i .normal).pc e = .out := hl
          rcases hpc with hx | ⟨l', hx, hy⟩
          · rw [hx] at hl; exact I.called hl
          · rw [hy] at hl; simp at hl
      · simp at h; subst h
        refine ⟨new ++ [.ctlDone .normal], by simp [I.hist], .inl rfl, I.st, ?_, I.pos, I.called⟩
        simpa using I.count
  | main => exact absurd rfl h3
  | call k =>
    simp only [CtlSt.step] at h
    split at h
    · next r hm ho =>
      split at h
      · simp at h; subst h
        have hne : e ≠ k := by intro hk; subst hk; exact I.called ho
        have hpc := setPc_ne s (.test (loops k)) hne
        exact ⟨new, I.hist, I.push, by rw [hpc]; exact I.st, by rw [hpc]; exact I.count,
          by rw [hpc]; exact I.pos, by rw [hpc]; exact I.called⟩
      · simp at h
    · simp at h
  | elem k hb =>
    simp only [CtlSt.step] at h
    by_cases hke : k = e
    · subst hke
      have hb' : hb = false := by
        cases hb with
        | true => exact absurd rfl h2
        | false => rfl
      subst hb'
      simp only [elemStep] at h
      have hcnt := I.count
      have hst := I.st
      have hpos := I.pos
      cases hp : s.pc k with
      | out => simp [hp] at h
      | asleep l => simp [hp] at h
      | fin => simp [hp] at h
      | test l =>
        rw [hp] at hcnt hst
        simp [stoppable] at hst
        simp only [hp, hst, and_true] at h
        split at h
        · next hl =>
          simp at h; subst h
          refine ⟨new, I.hist, I.push, .inl hst, by simpa [todo] using hcnt, ?_, by simp⟩
          intro l' hl'; simp at hl'; omega
        · simp at h; subst h
          refine ⟨new ++ [.fin k], by simp [I.hist], I.push, .inl hst, ?_, by simp, by simp⟩
          simp [todo] at hcnt ⊢; omega
      | passed l =>
        have := hpos l hp
        rw [hp] at hcnt hst
        simp [stoppable] at hst
        simp only [hp, Option.some.injEq] at h; subst h
        refine ⟨new ++ [.enter k], by simp [I.hist], I.push, .inl hst, ?_, by simp, by simp⟩
        simp [todo] at hcnt ⊢; omega
      | body l =>
        rw [hp] at hcnt hst
        simp only [hp, Option.some.injEq] at h; subst h
        refine ⟨new ++ [.leave k], by simp [I.hist], I.push, ?_, ?_, by simp, by simp⟩
        · simpa [stoppable, setPc] using hst
        · simpa [todo] using hcnt
      | check l =>
        rw [hp] at hcnt hst
        simp only [hp, Option.some.injEq] at h; subst h
        rcases hst with hst | ⟨hst, _⟩
        · simp only [hst]
          exact ⟨new, I.hist, I.push, .inl hst, by simpa [todo] using hcnt, by simp, by simp⟩
        · simp only [hst, if_true]
          exact ⟨new, I.hist, I.push, .inr ⟨hst, by simp [stoppable]⟩, by simpa [todo] using hcnt, by simp, by simp⟩
      | checkLocked l =>
        rw [hp] at hcnt hst
        simp only [hp, Option.some.injEq] at h; subst h
        rcases hst with hst | ⟨hst, _⟩
        · simp only [hst]
          exact ⟨new, I.hist, I.push, .inl hst, by simpa [todo] using hcnt, by simp, by simp⟩
        · simp only [hst, if_true]
          exact ⟨new, I.hist, I.push, .inr ⟨hst, by simp [stoppable]⟩, by simpa [todo] using hcnt, by simp, by simp⟩
      | drowsy l =>
        rw [hp] at hcnt hst
        simp only [hp, Option.some.injEq] at h; subst h
        refine ⟨new, I.hist, I.push, ?_, by simpa [todo] using hcnt, by simp, by simp⟩
        simpa [stoppable, setPc] using hst
      | hold l =>
        rw [hp] at hcnt hst
        simp [stoppable] at hst
        simp only [hp, Option.some.injEq, Bool.false_eq_true, if_false] at h; subst h
        exact ⟨new, I.hist, I.push, .inl hst, by simpa [todo] using hcnt, by simp, by simp⟩
    · -- another element
      have hne : e ≠ k := fun h => hke h.symm
      have frame : ∀ p, ∃ new', Keep e t S (s.setPc k p) new' := fun p =>
        ⟨new, I.hist, I.push, by rw [setPc_ne _ _ hne]; exact I.st, by rw [setPc_ne _ _ hne]; exact I.count,
          by rw [setPc_ne _ _ hne]; exact I.pos, by rw [setPc_ne _ _ hne]; exact I.called⟩
      have frame2 : ∀ p v, (v ≠ .enter e) → ∃ new', Keep e t S { s.setPc k p with hist := s.hist ++ [v] } new' := by
        intro p v hv
        refine ⟨new ++ [v], by simp [I.hist], I.push, ?_, ?_, ?_, ?_⟩
        · show _ ∨ (_ ∧ stoppable ((s.setPc k p).pc e) = true)
          rw [setPc_ne _ _ hne]; exact I.st
        · show List.count _ _ + todo ((s.setPc k p).pc e) = t
          rw [setPc_ne _ _ hne, List.count_append, List.count_singleton, if_neg (by simpa using hv)]
          exact I.count
        · show ∀ l, (s.setPc k p).pc e = _ → _
          rw [setPc_ne _ _ hne]; exact I.pos
        · show (s.setPc k p).pc e ≠ _
          rw [setPc_ne _ _ hne]; exact I.called
      simp only [elemStep] at h
      cases hp : s.pc k with
      | out => simp [hp] at h
      | asleep l => simp [hp] at h
      | fin => simp [hp] at h
      | test l =>
        simp only [hp] at h
        split at h
        · simp only [Option.some.injEq] at h; subst h; exact frame _
        · simp only [Option.some.injEq] at h; subst h; exact frame2 _ _ (by simp)
      | passed l => simp only [hp, Option.some.injEq] at h; subst h; exact frame2 _ _ (by simp; omega)
      | body l => simp only [hp, Option.some.injEq] at h; subst h; exact frame2 _ _ (by simp)
      | check l => simp only [hp, Option.some.injEq] at h; subst h; exact frame _
      | checkLocked l => simp only [hp, Option.some.injEq] at h; subst h; exact frame _
      | drowsy l => simp only [hp, Option.some.injEq] at h; subst h; exact frame _
      | hold l => simp only [hp, Option.some.injEq] at h; subst h; exact frame _
  | spurious k =>
    simp only [CtlSt.step] at h
    split at h
    · next l hp =>
      simp at h; subst h
      by_cases hke : k = e
      · subst hke
        have hcnt := I.count
        have hst := I.st
        rw [hp] at hcnt hst
        refine ⟨new, I.hist, I.push, ?_, by simpa [todo] using hcnt, by simp, by simp⟩
        simpa [stoppable, setPc] using hst
      · have hne : e ≠ k := fun h => hke h.symm
        exact ⟨new, I.hist, I.push, by rw [setPc_ne _ _ hne]; exact I.st, by rw [setPc_ne _ _ hne]; exact I.count,
          by rw [setPc_ne _ _ hne]; exact I.pos, by rw [setPc_ne _ _ hne]; exact I.called⟩
    · simp at h

theorem Keep.exec {e t n : Nat} {loops : Nat → Nat} {S : CtlSt} : ∀ (acts : List CtlAct),
    (∀ a ∈ acts, (∀ q, a = .ctl q → q = .normal) ∧ a ≠ .elem e true ∧ a ≠ .main) →
    ∀ (s : CtlSt) (new : List CtlEv), Keep e t S s new → ∃ new', Keep e t S (s.exec n loops acts) new'
  | [], _, _, new, I => ⟨new, I⟩
  | a :: as, ha, s, new, I => by
    rw [CtlSt.exec]
    have h1 := ha a (by simp)
    have h2 := fun b (hb : b ∈ as) => ha b (by simp [hb])
    cases hs : s.step n loops a with
    | none => exact Keep.exec as h2 s new I
    | some s' =>
      obtain ⟨new', I'⟩ := I.step h1.1 h1.2.1 h1.2.2 hs
      exact Keep.exec as h2 s' new' I'

/-- An element that is asleep although its state is normal again. -/
structure Forgotten (s : CtlSt) : Prop where
  asleep : ∃ l, s.pc 0 = .asleep l
  push : s.push = none
  repo : s.repo = .normal
  main : ∃ r, s.main = .running r

theorem Forgotten.step {n : Nat} (hn : 0 < n) {loops : Nat → Nat} {s s' : CtlSt} {a : CtlAct} (I : Forgotten s)
    (h1 : ∀ q, a = .ctl q → q = .normal) (h2 : a ≠ .spurious 0) (h : s.step n loops a = some s') : Forgotten s' := by
  obtain ⟨l, hl⟩ := I.asleep
  cases a with
  | ctl q =>
    have := h1 q rfl
    subst this
    simp only [CtlSt.step, I.repo] at h
    split at h
    · simp at h
    · simp at h; subst h
      exact ⟨I.asleep, I.push, rfl, I.main⟩
  | push => simp [CtlSt.step, I.push] at h
  | main =>
    obtain ⟨r, hr⟩ := I.main
    simp only [CtlSt.step, mainStep, hr] at h
    split at h
    · next hall =>
      rw [List.all_eq_true] at hall
      have := hall 0 (by simpa using hn)
      simp [hl] at this
    · simp at h
  | call e =>
    simp only [CtlSt.step] at h
    split at h
    · next r hm ho =>
      split at h
      · simp at h; subst h
        have hne : 0 ≠ e := by intro hk; subst hk; rw [hl] at ho; simp at ho
        exact ⟨⟨l, by rw [setPc_ne _ _ hne]; exact hl⟩, I.push, I.repo, I.main⟩
      · simp at h
    · simp at h
  | elem e b =>
    have hne : 0 ≠ e := by
      intro hk; subst hk
      simp [CtlSt.step, elemStep, hl] at h
    obtain ⟨e1, e2, e3, e4⟩ := elem_frame (by simp) (by simp) (by simp) h
    have hpc : s'.pc 0 = s.pc 0 := by
      simp only [CtlSt.step, elemStep] at h
      split at h
      · simp at h
      · split at h <;> (simp only [Option.some.injEq] at h; subst h; exact setPc_ne _ _ hne)
      · simp only [Option.some.injEq] at h; subst h; exact setPc_ne _ _ hne
      · simp only [Option.some.injEq] at h; subst h; exact setPc_ne _ _ hne
      · simp only [Option.some.injEq] at h; subst h; exact setPc_ne _ _ hne
      · simp only [Option.some.injEq] at h; subst h; exact setPc_ne _ _ hne
      · simp only [Option.some.injEq] at h; subst h; exact setPc_ne _ _ hne
      · simp at h
      · simp only [Option.some.injEq] at h; subst h; exact setPc_ne _ _ hne
      · simp at h
    exact ⟨⟨l, by rw [hpc]; exact hl⟩, by rw [e3]; exact I.push, by rw [e2]; exact I.repo, by rw [e4]; exact I.main⟩
  | spurious e =>
    have hne : 0 ≠ e := by intro hk; subst hk; exact h2 rfl
    simp only [CtlSt.step] at h
    split at h
    · simp at h; subst h
      exact ⟨⟨l, by rw [setPc_ne _ _ hne]; exact hl⟩, I.push, I.repo, I.main⟩
    · simp at h

theorem Forgotten.exec {n : Nat} (hn : 0 < n) {loops : Nat → Nat} : ∀ (acts : List CtlAct),
    (∀ a ∈ acts, (∀ q, a = .ctl q → q = .normal) ∧ a ≠ .spurious 0) →
    ∀ s : CtlSt, Forgotten s → Forgotten (s.exec n loops acts)
  | [], _, _, I => I
  | a :: as, ha, s, I => by
    rw [CtlSt.exec]
    have h1 := ha a (by simp)
    have h2 := fun b (hb : b ∈ as) => ha b (by simp [hb])
    cases hs : s.step n loops a with
    | none => exact Forgotten.exec hn as h2 s I
    | some s' => exact Forgotten.exec hn as h2 s' (I.step hn h1.1 h1.2 hs)

theorem exec_append {n : Nat} {loops : Nat → Nat} : ∀ (a b : List CtlAct) (s : CtlSt),
    s.exec n loops (a ++ b) = (s.exec n loops a).exec n loops b
  | [], _, _ => rfl
  | x :: a, b, s => by
    simp only [List.cons_append, CtlSt.exec]
    exact exec_append a b _

end CtlSt
end CGraph
