import Verif.Lemmas.Element

/-! # Repetition by `isHold` -/
namespace CGraph
open Spec M CStatus

theorem holdLoop_shape {U : User} {e : Elem} {body : M CStatus} (hb : Quiet e.id body) : ∀ (F : Nat) (st : CStatus)
    (w w' : World) (o : Out CStatus), st.isOK = true → holdLoop U e body F st w = some (o, w') →
    ∃ rs last, own e.id w'.tr = own e.id w.tr ++ (repeats e.id rs ++ last) ∧ LastRun e.id last := by
  intro F
  induction F with
  | zero => intro st w w' o _ h; simp [holdLoop, diverge] at h
  | succ F ih =>
    intro st w w' o hst h
    simp only [holdLoop] at h
    have hq := theBody_quiet (U := U) hb
    unfold theBody at hq
    rcases bind_some h with ⟨r, w1, h1, h2⟩ | ⟨x, h1, rfl⟩
    · obtain ⟨a1, a2⟩ := bracket_adds hq h1
      rcases bind_some h2 with ⟨b, w2, h3, h4⟩ | ⟨x, h3, rfl⟩
      · rw [emit_eq] at h3
        simp only [Option.some.injEq, Prod.mk.injEq] at h3
        obtain ⟨hr, rfl⟩ := h3
        have hown : own e.id (w1.tr ++ [.hold e.id (U.hold e.id w1.tr)]) =
            own e.id w.tr ++ [.enter e.id .run, .leave e.id .run (.ret r), .hold e.id (.ret b)] := by
          rw [own_append, a1, hr]; simp [own, isNote, Act.id]
        split at h4
        · rename_i hcond
          simp only [Bool.and_eq_true] at hcond
          have hrne : r.isErr = false := by have := add_isOK (r := r) hst; rw [hcond.2] at this; simpa using this.symm
          obtain ⟨rs, last, q2, q3⟩ := ih _ _ _ _ hcond.2 h4
          refine ⟨⟨r, hrne⟩ :: rs, last, ?_, q3⟩
          rw [q2]; show own e.id (w1.tr ++ _) ++ _ = _
          rw [hown, hcond.1]
          simp [repeats]
        · rename_i hcond
          simp only [M.pure, Option.some.injEq, Prod.mk.injEq] at h4
          obtain ⟨rfl, rfl⟩ := h4
          refine ⟨[], _, by simpa [repeats] using hown, .stop r b ?_⟩
          cases hbb : b
          · exact .inl rfl
          · right
            rw [hbb, Bool.true_and, add_isOK hst] at hcond
            simpa using hcond
      · rw [emit_eq] at h3
        simp only [Option.some.injEq, Prod.mk.injEq] at h3
        obtain ⟨hr, rfl⟩ := h3
        have hown : own e.id (w1.tr ++ [.hold e.id (U.hold e.id w1.tr)]) =
            own e.id w.tr ++ [.enter e.id .run, .leave e.id .run (.ret r), .hold e.id (.thr x)] := by
          rw [own_append, a1, hr]; simp [own, isNote, Act.id]
        exact ⟨[], _, by simpa [repeats] using hown, .holdThrows r x⟩
    · obtain ⟨a1, a2⟩ := bracket_adds hq h1
      exact ⟨[], _, by simpa [repeats] using a1, .runThrows x⟩

/-- No body is entered among the events. -/
def NoEnter (l : Trace) : Prop := ∀ a ∈ l, isEnter a = false

theorem NoEnter.append {a b : Trace} (h1 : NoEnter a) (h2 : NoEnter b) : NoEnter (a ++ b) := by
  intro x hx
  rcases List.mem_append.1 hx with h | h
  · exact h1 x h
  · exact h2 x h

theorem noEnter_nil : NoEnter [] := by intro a ha; simp at ha

theorem noEnter_single {a : Act} (h : isEnter a = false) : NoEnter [a] := by
  intro b hb; simp at hb; rw [hb]; exact h

theorem doBegin_noEnter {U : User} {e : Nat} {p : Phase} {as : List Nat} {st : CStatus} {w w' : World} {o : Out CStatus}
    (hst : st.isErr = false) (h : doBegin U e p as st w = some (o, w')) :
    ∃ l, own e w'.tr = own e w.tr ++ l ∧ NoEnter l := by
  obtain ⟨_, rs, _, h1⟩ := doBegin_adds U e p as st w w' o hst h
  have h0 : NoEnter (rs.map fun r => Act.beginA e r.1 p (.ret r.2)) := by
    intro a ha
    obtain ⟨r, _, rfl⟩ := List.mem_map.1 ha
    rfl
  rcases h1 with ⟨_, _, h3⟩ | ⟨a, r, more, _, _, h3, _⟩
  · exact ⟨_, h3, h0⟩
  · exact ⟨_, by rw [h3, List.append_assoc], h0.append (noEnter_single rfl)⟩

theorem doFinish_noEnter {U : User} {e : Nat} {p : Phase} {st : CStatus} {as : List Nat} {w w' : World} {o : Out Unit}
    (h : doFinish U e p st as w = some (o, w')) : ∃ l, own e w'.tr = own e w.tr ++ l ∧ NoEnter l := by
  obtain ⟨_, h1⟩ := doFinish_adds U e p st as w w' o h
  have h0 : ∀ l : List Nat, NoEnter (l.map fun a => Act.finishA e a p st (.ret ())) := by
    intro l a ha
    obtain ⟨r, _, rfl⟩ := List.mem_map.1 ha
    rfl
  rcases h1 with ⟨_, h3⟩ | ⟨done, a, more, x, _, _, h3⟩
  · exact ⟨_, h3, h0 _⟩
  · exact ⟨_, by rw [h3, List.append_assoc], (h0 _).append (noEnter_single rfl)⟩

/-- The runs of an element with loop count 1. -/
def OneRound (e : Nat) (l : Trace) : Prop :=
  NoEnter l ∨ ∃ pre rs last post, l = pre ++ (repeats e rs ++ last) ++ post ∧ NoEnter pre ∧ NoEnter post ∧
    LastRun e last

theorem OneRound.before {e : Nat} {a l : Trace} (ha : NoEnter a) (h : OneRound e l) : OneRound e (a ++ l) := by
  rcases h with h | ⟨pre, rs, last, post, rfl, h1, h2, h3⟩
  · exact .inl (ha.append h)
  · exact .inr ⟨a ++ pre, rs, last, post, by simp only [List.append_assoc], ha.append h1, h2, h3⟩

theorem OneRound.after {e : Nat} {a l : Trace} (ha : NoEnter a) (h : OneRound e l) : OneRound e (l ++ a) := by
  rcases h with h | ⟨pre, rs, last, post, rfl, h1, h2, h3⟩
  · exact .inl (h.append ha)
  · exact .inr ⟨pre, rs, last, post ++ a, by simp only [List.append_assoc], h1, h2.append ha, h3⟩

theorem rounds_one {U : User} {F : Nat} {e : Elem} {body : M CStatus} (hb : Quiet e.id body)
    {st : CStatus} {w w' : World} {o : Out (CStatus × Bool)} (hst : st.isErr = false)
    (h : rounds U F e body 1 st w = some (o, w')) :
    ∃ l, own e.id w'.tr = own e.id w.tr ++ l ∧ OneRound e.id l := by
  simp only [rounds] at h
  split at h
  rotate_left
  · simp only [M.pure, Option.some.injEq, Prod.mk.injEq] at h
    obtain ⟨rfl, rfl⟩ := h
    exact ⟨[], by simp, .inl noEnter_nil⟩
  rename_i hok
  rcases bind_some h with ⟨s, w1, h1, h2⟩ | ⟨x, h1, rfl⟩
  rotate_left
  · rw [emit_eq] at h1; simp at h1
  rw [emit_eq] at h1
  simp only [Option.some.injEq, Prod.mk.injEq, Out.ret.injEq] at h1
  obtain ⟨hs, rfl⟩ := h1
  have hown : own e.id (w.tr ++ [.state e.id (U.state e.id w.tr)]) = own e.id w.tr ++ [.state e.id s] := by
    rw [own_append, hs]; simp [own, isNote, Act.id]
  have n0 : NoEnter [.state e.id s] := noEnter_single rfl
  split at h2
  rotate_left
  · simp only [M.pure, Option.some.injEq, Prod.mk.injEq] at h2
    obtain ⟨rfl, rfl⟩ := h2
    exact ⟨_, hown, .inl n0⟩
  rcases bind_some h2 with ⟨b, w2, h3, h4⟩ | ⟨x, h3, rfl⟩
  rotate_left
  · obtain ⟨l1, e1, g1⟩ := doBegin_noEnter ok_not_err h3
    refine ⟨[.state e.id s] ++ l1, ?_, .inl (n0.append g1)⟩
    rw [e1]; show own e.id (w.tr ++ _) ++ _ = _; rw [hown, List.append_assoc]
  obtain ⟨l1, e1, g1⟩ := doBegin_noEnter ok_not_err h3
  have e1' : own e.id w2.tr = own e.id w.tr ++ ([.state e.id s] ++ l1) := by
    rw [e1]; show own e.id (w.tr ++ _) ++ _ = _; rw [hown, List.append_assoc]
  split at h4
  · obtain ⟨rfl, h5⟩ := failM_some h4
    exact ⟨_, e1', .inl (n0.append g1)⟩
  rename_i hne
  have hbe : b.isErr = false := by
    cases hb' : b.isErr
    · rfl
    · rw [add_of_not_err hst hb'] at hne; rw [hb'] at hne; simp at hne
  rw [add_not_err_right hbe] at h4
  rcases bind_some h4 with ⟨st', w3, h5, h6⟩ | ⟨x, h5, rfl⟩
  rotate_left
  · obtain ⟨rs, last, e2, g2⟩ := holdLoop_shape hb _ _ _ _ _ hok h5
    refine ⟨[.state e.id s] ++ l1 ++ (repeats e.id rs ++ last), ?_,
      OneRound.before (n0.append g1) (.inr ⟨[], rs, last, [], by simp, noEnter_nil, noEnter_nil, g2⟩)⟩
    rw [e2, e1']
    simp only [List.append_assoc]
  obtain ⟨rs, last, e2, g2⟩ := holdLoop_shape hb _ _ _ _ _ hok h5
  have hw4 : ∃ l, own e.id w'.tr = own e.id w3.tr ++ l ∧ NoEnter l := by
    rcases bind_some h6 with ⟨u, w4, h7, h8⟩ | ⟨x, h7, rfl⟩
    · obtain ⟨l, e3, g3⟩ := doFinish_noEnter h7
      simp only [M.pure, Option.some.injEq, Prod.mk.injEq] at h8
      obtain ⟨_, rfl⟩ := h8
      exact ⟨l, e3, g3⟩
    · exact doFinish_noEnter h7
  obtain ⟨l3, e3, g3⟩ := hw4
  refine ⟨[.state e.id s] ++ l1 ++ ((repeats e.id rs ++ last) ++ l3), ?_,
      OneRound.before (n0.append g1) (.inr ⟨[], rs, last, l3, by simp, noEnter_nil, g3, g2⟩)⟩
  rw [e3, e2, e1']
  simp only [List.append_assoc]

theorem prepare_noEnter {U : User} {e : Elem} {w w' : World} {o : Out (CStatus × Bool)}
    (h : prepare U e w = some (o, w')) : ∃ l, own e.id w'.tr = own e.id w.tr ++ l ∧ NoEnter l := by
  unfold prepare at h
  rcases bind_some h with ⟨p, w1, h1, h2⟩ | ⟨x, h1, rfl⟩
  rotate_left
  · simp [getPrepared] at h1
  simp only [getPrepared, Option.some.injEq, Prod.mk.injEq, Out.ret.injEq] at h1
  obtain ⟨hp, rfl⟩ := h1
  split at h2
  · simp only [M.pure, Option.some.injEq, Prod.mk.injEq] at h2
    obtain ⟨rfl, rfl⟩ := h2
    exact ⟨[], by simp, noEnter_nil⟩
  rcases bind_some h2 with ⟨r, w2, h3, h4⟩ | ⟨x, h3, rfl⟩
  · rw [emit_eq] at h3
    simp only [Option.some.injEq, Prod.mk.injEq] at h3
    obtain ⟨hr, rfl⟩ := h3
    have hown : own e.id (w.tr ++ [.prep e.id (U.prep e.id w.tr)]) = own e.id w.tr ++ [.prep e.id (.ret r)] := by
      rw [own_append, hr]; simp [own, isNote, Act.id]
    refine ⟨_, ?_, noEnter_single (a := .prep e.id (.ret r)) rfl⟩
    split at h4
    · obtain ⟨rfl, h5⟩ := failM_some h4
      exact hown
    · simp only [M.bind, setPrepared, M.pure, Option.some.injEq, Prod.mk.injEq] at h4
      obtain ⟨rfl, rfl⟩ := h4
      exact hown
  · rw [emit_eq] at h3
    simp only [Option.some.injEq, Prod.mk.injEq] at h3
    obtain ⟨hr, rfl⟩ := h3
    refine ⟨[.prep e.id (.thr x)], ?_, noEnter_single rfl⟩
    show own e.id (w.tr ++ _) = _
    rw [own_append, hr]; simp [own, isNote, Act.id]

theorem runBranch_one {U : User} {F : Nat} {e : Elem} {body : M CStatus} (hb : Quiet e.id body) (hl : e.loop = 1)
    {w w' : World} {o : Out CStatus} (h : runBranch U F e body w = some (o, w')) :
    ∃ l, own e.id w'.tr = own e.id w.tr ++ l ∧ OneRound e.id l := by
  unfold runBranch at h
  rw [hl] at h
  rcases bind_some h with ⟨p, w1, h1, h2⟩ | ⟨x, h1, rfl⟩
  rotate_left
  · obtain ⟨l, e1, g⟩ := prepare_noEnter h1
    exact ⟨l, e1, .inl g⟩
  obtain ⟨l1, e1, g1⟩ := prepare_noEnter h1
  obtain ⟨_, _, _, hne⟩ := prepare_good h1
  split at h2
  · simp only [M.pure, Option.some.injEq, Prod.mk.injEq] at h2
    obtain ⟨rfl, rfl⟩ := h2
    exact ⟨l1, e1, .inl g1⟩
  rename_i hp2
  have hp2' : p.2 = false := by simpa using hp2
  have hpe : p.1.isErr = false := hne p.1 (by rw [← hp2'])
  rcases bind_some h2 with ⟨r, w2, h3, h4⟩ | ⟨x, h3, rfl⟩
  rotate_left
  · obtain ⟨l, e2, g⟩ := rounds_one hb hpe h3
    exact ⟨l1 ++ l, by rw [e2, e1, List.append_assoc], g.before g1⟩
  obtain ⟨l2, e2, g2⟩ := rounds_one hb hpe h3
  split at h4
  · simp only [M.pure, Option.some.injEq, Prod.mk.injEq] at h4
    obtain ⟨rfl, rfl⟩ := h4
    exact ⟨l1 ++ l2, by rw [e2, e1, List.append_assoc], g2.before g1⟩
  have hw3 : own e.id w'.tr = own e.id w2.tr ++ [.check e.id (U.check e.id w2.tr)] := by
    rcases bind_some h4 with ⟨c, w3, h5, h6⟩ | ⟨x, h5, rfl⟩
    · rw [emit_eq] at h5
      simp only [Option.some.injEq, Prod.mk.injEq] at h5
      obtain ⟨hr, rfl⟩ := h5
      have : w' = { w2 with tr := w2.tr ++ [.check e.id (U.check e.id w2.tr)] } := by
        split at h6 <;> simp only [M.throw, M.pure, Option.some.injEq, Prod.mk.injEq] at h6 <;> exact h6.2.symm
      rw [this]
      show own e.id (w2.tr ++ _) = _
      rw [own_append]; simp [own, isNote, Act.id]
    · rw [emit_eq] at h5
      simp only [Option.some.injEq, Prod.mk.injEq] at h5
      obtain ⟨hr, rfl⟩ := h5
      show own e.id (w2.tr ++ _) = _
      rw [own_append]; simp [own, isNote, Act.id]
  refine ⟨l1 ++ (l2 ++ [.check e.id (U.check e.id w2.tr)]), by rw [hw3, e2, e1]; simp only [List.append_assoc],
    (g2.after (noEnter_single rfl)).before g1⟩

theorem fatRun_one {U : User} {F : Nat} {e : Elem} {body : M CStatus} (hb : Quiet e.id body) (hl : e.loop = 1)
    {w w' : World} {o : Out CStatus} (h : fatRun U F e body w = some (o, w')) :
    ∃ l, own e.id w'.tr = own e.id w.tr ++ l ∧ OneRound e.id l := by
  unfold fatRun at h
  split at h
  · rcases guarded_cases h with ⟨h1, _⟩ | ⟨msg, w1, h1, h2⟩
    · exact runBranch_one hb hl h1
    · obtain ⟨l, e1, g⟩ := runBranch_one hb hl h1
      have h0 : ∀ l : List Nat, NoEnter (l.map fun a => Act.crashA e.id a (.ret ())) := by
        intro l a ha
        obtain ⟨r, _, rfl⟩ := List.mem_map.1 ha
        rfl
      rcases onCrash_adds h2 with e2 | ⟨done, a, more, x, e2, e3, e4⟩
      · exact ⟨l ++ _, by rw [e2, e1, List.append_assoc], g.after ((h0 _).append (noEnter_single rfl))⟩
      · exact ⟨l ++ _, by rw [e4, e1, List.append_assoc], g.after ((h0 _).append (noEnter_single rfl))⟩
  · simp only [M.pure, Option.some.injEq, Prod.mk.injEq] at h
    obtain ⟨rfl, rfl⟩ := h
    exact ⟨[], by simp, .inl noEnter_nil⟩

end CGraph
