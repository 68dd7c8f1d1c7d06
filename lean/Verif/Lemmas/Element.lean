import Verif.Spec.Element
import Verif.Lemmas.Status

/-! # Lemmas about the element interpreter -/
namespace CGraph
open Spec M CStatus

theorem bind_some {α β : Type} {m : M α} {f : α → M β} {w w'' : World} {o : Out β}
    (h : M.bind m f w = some (o, w'')) :
    (∃ a w', m w = some (.ret a, w') ∧ f a w' = some (o, w'')) ∨
    (∃ x, m w = some (.thr x, w'') ∧ o = .thr x) := by
  unfold M.bind at h
  split at h
  · simp at h
  · rename_i a w' he
    exact .inl ⟨a, w', he, h⟩
  · rename_i x w' he
    simp only [Option.some.injEq, Prod.mk.injEq] at h
    obtain ⟨rfl, rfl⟩ := h
    exact .inr ⟨x, he, rfl⟩

theorem bind_ret {α β : Type} {m : M α} (f : α → M β) {w w' : World} {a : α} (h : m w = some (.ret a, w')) :
    M.bind m f w = f a w' := by
  simp [M.bind, h]

theorem own_append (e : Nat) (a b : Trace) : own e (a ++ b) = own e a ++ own e b := by simp [own]

theorem own_single {e : Nat} {ev : Act} (h1 : ev.id = e) (h2 : isNote ev = false) : own e [ev] = [ev] := by
  simp [own, h1, h2]

/-- The body does not make calls on behalf of `e` itself. -/
def Quiet (e : Nat) (m : M CStatus) : Prop :=
  ∀ w o w', m w = some (o, w') → own e w'.tr = own e w.tr ∧ w'.prepared e = w.prepared e

theorem Quiet.node (U : User) (e : Nat) (p : Phase) : Quiet e (nodeBody U e p) := by
  intro w o w' h
  simp only [nodeBody, Option.some.injEq, Prod.mk.injEq] at h
  obtain ⟨_, rfl⟩ := h
  exact ⟨rfl, rfl⟩

/-- `m`, started in `w`, adds the own events `l` and ends with `o`. -/
def Adds {α : Type} (e : Nat) (m : M α) (w : World) (o : Out α) (w' : World) (l : Trace) : Prop :=
  m w = some (o, w') ∧ own e w'.tr = own e w.tr ++ l

theorem emit_eq {α : Type} (f : Trace → Out α) (mk : Out α → Act) (w : World) :
    emit f mk w = some (f w.tr, { w with tr := w.tr ++ [mk (f w.tr)] }) := rfl

theorem failM_some {α : Type} {st : CStatus} {f : CStatus → α} {w w' : World} {o : Out α}
    (h : failM st f w = some (o, w')) : w' = w ∧
      ((st.isCrash = false ∧ o = .ret (f st)) ∨ (st.isCrash = true ∧ o = .thr (.c (" | " ++ st.info)))) := by
  unfold failM at h
  split at h
  · rename_i hc
    simp only [M.throw, Option.some.injEq, Prod.mk.injEq] at h
    exact ⟨h.2.symm, .inr ⟨hc, h.1.symm⟩⟩
  · rename_i hc
    simp only [M.pure, Option.some.injEq, Prod.mk.injEq] at h
    exact ⟨h.2.symm, .inl ⟨by simpa using hc, h.1.symm⟩⟩

theorem assign_isErr {st r : CStatus} (h : st.isErr = false) : (st.assign r).isErr = r.isErr := by
  unfold CStatus.assign
  split
  · rfl
  · rename_i hc
    have : st.code = r.code := by simpa using hc
    simp only [CStatus.isErr] at h ⊢
    rw [← this]

theorem assign_eq_of_err {st r : CStatus} (h : st.isErr = false) (hr : r.isErr = true) : st.assign r = r := by
  unfold CStatus.assign
  split
  · rfl
  · rename_i hc
    have hc : st.code = r.code := by simpa using hc
    simp only [CStatus.isErr] at h hr
    rw [hc] at h
    rw [h] at hr; simp at hr

theorem ok_not_err : CStatus.ok.isErr = false := by decide

/-! ## Aspects -/

/-- Begin aspects: an initial segment of the list is called; all answers but possibly the last are fine; the result
is the failing answer. -/
theorem doBegin_adds (U : User) (e : Nat) (p : Phase) (as : List Nat) : ∀ (st : CStatus) (w w' : World) (o : Out CStatus),
    st.isErr = false → doBegin U e p as st w = some (o, w') →
    w'.prepared = w.prepared ∧
    ∃ rs : List (Nat × CStatus), (∀ r ∈ rs, r.2.isErr = false) ∧
      ((rs.map Prod.fst = as ∧ (∃ s, o = .ret s ∧ s.isErr = false) ∧
          own e w'.tr = own e w.tr ++ rs.map (fun r => .beginA e r.1 p (.ret r.2))) ∨
       (∃ a r more, as = rs.map Prod.fst ++ a :: more ∧ failed r = true ∧
          own e w'.tr = own e w.tr ++ rs.map (fun r => .beginA e r.1 p (.ret r.2)) ++ [.beginA e a p r] ∧
          ((∃ s, r = .ret s ∧ s.isCrash = false ∧ o = .ret s) ∨
           (∃ s, r = .ret s ∧ s.isCrash = true ∧ o = .thr (.c (" | " ++ s.info))) ∨
           (∃ x, r = .thr x ∧ o = .thr x)))) := by
  induction as with
  | nil =>
    intro st w w' o hst h
    simp only [doBegin, M.pure, Option.some.injEq, Prod.mk.injEq] at h
    obtain ⟨rfl, rfl⟩ := h
    exact ⟨rfl, [], by simp, .inl ⟨rfl, ⟨st, rfl, hst⟩, by simp⟩⟩
  | cons a as ih =>
    intro st w w' o hst h
    simp only [doBegin] at h
    rcases bind_some h with ⟨r, w1, h1, h2⟩ | ⟨x, h1, rfl⟩
    · rw [emit_eq] at h1
      simp only [Option.some.injEq, Prod.mk.injEq] at h1
      obtain ⟨hr, rfl⟩ := h1
      have hown : own e (w.tr ++ [.beginA e a p (U.beginA e a p w.tr)]) = own e w.tr ++ [.beginA e a p (.ret r)] := by
        simp [hr, own, isNote, Act.id]
      split at h2
      · rename_i herr
        have hrerr : r.isErr = true := by rwa [assign_isErr hst] at herr
        rw [assign_eq_of_err hst hrerr] at h2
        obtain ⟨rfl, h3⟩ := failM_some h2
        refine ⟨rfl, [], by simp, .inr ⟨a, .ret r, as, by simp, hrerr, by simpa using hown, ?_⟩⟩
        rcases h3 with ⟨hc, rfl⟩ | ⟨hc, rfl⟩
        · exact .inl ⟨r, rfl, hc, rfl⟩
        · exact .inr (.inl ⟨r, rfl, hc, rfl⟩)
      · rename_i herr
        have herr' : (st.assign r).isErr = false := by simpa using herr
        have hrerr : r.isErr = false := by rwa [assign_isErr hst] at herr'
        obtain ⟨hp, rs, hrs, h3⟩ := ih _ _ _ _ herr' h2
        refine ⟨hp, (a, r) :: rs, ?_, ?_⟩
        · intro q hq
          rcases List.mem_cons.1 hq with rfl | hq
          · exact hrerr
          · exact hrs q hq
        · rcases h3 with ⟨e1, e2, e3⟩ | ⟨b, q, more, e1, e2, e3, e4⟩
          · exact .inl ⟨by simp [e1], e2, by rw [e3, hown]; simp⟩
          · exact .inr ⟨b, q, more, by simp [e1], e2, by rw [e3, hown]; simp, e4⟩
    · rw [emit_eq] at h1
      simp only [Option.some.injEq, Prod.mk.injEq] at h1
      obtain ⟨hr, rfl⟩ := h1
      refine ⟨rfl, [], by simp, .inr ⟨a, .thr x, as, by simp, rfl, ?_, .inr (.inr ⟨x, rfl, rfl⟩)⟩⟩
      show own e (w.tr ++ _) = _
      simp [hr, own, isNote, Act.id]

/-- Finish aspects: all are called in order unless one throws. -/
theorem doFinish_adds (U : User) (e : Nat) (p : Phase) (st : CStatus) (as : List Nat) : ∀ (w w' : World) (o : Out Unit),
    doFinish U e p st as w = some (o, w') → w'.prepared = w.prepared ∧
    ((o = .ret () ∧ own e w'.tr = own e w.tr ++ as.map (fun a => .finishA e a p st (.ret ()))) ∨
     (∃ done a more x, as = done ++ a :: more ∧ o = .thr x ∧
        own e w'.tr = own e w.tr ++ done.map (fun a => .finishA e a p st (.ret ())) ++ [.finishA e a p st (.thr x)])) := by
  induction as with
  | nil =>
    intro w w' o h
    simp only [doFinish, M.pure, Option.some.injEq, Prod.mk.injEq] at h
    obtain ⟨rfl, rfl⟩ := h
    exact ⟨rfl, .inl ⟨rfl, by simp⟩⟩
  | cons a as ih =>
    intro w w' o h
    simp only [doFinish] at h
    rcases bind_some h with ⟨r, w1, h1, h2⟩ | ⟨x, h1, rfl⟩
    · rw [emit_eq] at h1
      simp only [Option.some.injEq, Prod.mk.injEq] at h1
      obtain ⟨hr, rfl⟩ := h1
      have hown : own e (w.tr ++ [.finishA e a p st (U.finishA e a p st w.tr)]) =
          own e w.tr ++ [.finishA e a p st (.ret ())] := by
        simp [hr, own, isNote, Act.id]
      obtain ⟨hp, h3⟩ := ih _ _ _ h2
      refine ⟨hp, ?_⟩
      rcases h3 with ⟨e1, e2⟩ | ⟨done, b, more, x, e1, e2, e3⟩
      · exact .inl ⟨e1, by rw [e2, hown]; simp⟩
      · exact .inr ⟨a :: done, b, more, x, by simp [e1], e2, by rw [e3, hown]; simp⟩
    · rw [emit_eq] at h1
      simp only [Option.some.injEq, Prod.mk.injEq] at h1
      obtain ⟨hr, rfl⟩ := h1
      refine ⟨rfl, .inr ⟨[], a, as, x, by simp, rfl, ?_⟩⟩
      show own e (w.tr ++ _) = _
      simp [hr, own, isNote, Act.id]

theorem doCrash_adds (U : User) (e : Nat) (as : List Nat) : ∀ (w w' : World) (o : Out Unit),
    doCrash U e as w = some (o, w') → w'.prepared = w.prepared ∧
    ((o = .ret () ∧ own e w'.tr = own e w.tr ++ as.map (fun a => .crashA e a (.ret ()))) ∨
     (∃ done a more x, as = done ++ a :: more ∧ o = .thr x ∧
        own e w'.tr = own e w.tr ++ done.map (fun a => .crashA e a (.ret ())) ++ [.crashA e a (.thr x)])) := by
  induction as with
  | nil =>
    intro w w' o h
    simp only [doCrash, M.pure, Option.some.injEq, Prod.mk.injEq] at h
    obtain ⟨rfl, rfl⟩ := h
    exact ⟨rfl, .inl ⟨rfl, by simp⟩⟩
  | cons a as ih =>
    intro w w' o h
    simp only [doCrash] at h
    rcases bind_some h with ⟨r, w1, h1, h2⟩ | ⟨x, h1, rfl⟩
    · rw [emit_eq] at h1
      simp only [Option.some.injEq, Prod.mk.injEq] at h1
      obtain ⟨hr, rfl⟩ := h1
      have hown : own e (w.tr ++ [.crashA e a (U.crashA e a w.tr)]) = own e w.tr ++ [.crashA e a (.ret ())] := by
        simp [hr, own, isNote, Act.id]
      obtain ⟨hp, h3⟩ := ih _ _ _ h2
      refine ⟨hp, ?_⟩
      rcases h3 with ⟨e1, e2⟩ | ⟨done, b, more, x, e1, e2, e3⟩
      · exact .inl ⟨e1, by rw [e2, hown]; simp⟩
      · exact .inr ⟨a :: done, b, more, x, by simp [e1], e2, by rw [e3, hown]; simp⟩
    · rw [emit_eq] at h1
      simp only [Option.some.injEq, Prod.mk.injEq] at h1
      obtain ⟨hr, rfl⟩ := h1
      refine ⟨rfl, .inr ⟨[], a, as, x, by simp, rfl, ?_⟩⟩
      show own e (w.tr ++ _) = _
      simp [hr, own, isNote, Act.id]

theorem doTimeout_quiet (U : User) (e : Nat) (as : List Nat) : ∀ (w w' : World) (o : Out Unit),
    doTimeout U e as w = some (o, w') → w'.prepared = w.prepared ∧ own e w'.tr = own e w.tr := by
  induction as with
  | nil =>
    intro w w' o h
    simp only [doTimeout, M.pure, Option.some.injEq, Prod.mk.injEq] at h
    obtain ⟨rfl, rfl⟩ := h
    exact ⟨rfl, rfl⟩
  | cons a as ih =>
    intro w w' o h
    simp only [doTimeout] at h
    have hown : own e (w.tr ++ [.timeoutA e a (U.timeoutA e a w.tr)]) = own e w.tr := by
      rw [own_append]; simp [own, isNote]
    rcases bind_some h with ⟨r, w1, h1, h2⟩ | ⟨x, h1, rfl⟩
    · rw [emit_eq] at h1
      simp only [Option.some.injEq, Prod.mk.injEq] at h1
      obtain ⟨hr, rfl⟩ := h1
      obtain ⟨hp, h3⟩ := ih _ _ _ h2
      exact ⟨hp, by rw [h3, hown]⟩
    · rw [emit_eq] at h1
      simp only [Option.some.injEq, Prod.mk.injEq] at h1
      obtain ⟨hr, rfl⟩ := h1
      exact ⟨rfl, hown⟩

/-! ## The body -/

theorem asyncRun_quiet {U : User} {e : Elem} {body : M CStatus} (hb : Quiet e.id body) :
    Quiet e.id (asyncRun U e body) := by
  intro w o w' h
  unfold asyncRun at h
  have hready : ∀ (w : World) b, own e.id (w.tr ++ [.ready e.id b]) = own e.id w.tr := by
    intro w b; rw [own_append]; simp [own, isNote]
  rcases bind_some h with ⟨r, w1, h1, h2⟩ | ⟨x, h1, rfl⟩
  · have hw1 : own e.id w1.tr = own e.id w.tr ∧ w1.prepared e.id = w.prepared e.id := by
      unfold capture at h1
      split at h1
      · simp at h1
      · rename_i o' w'' he
        simp only [Option.some.injEq, Prod.mk.injEq] at h1
        obtain ⟨_, rfl⟩ := h1
        exact hb _ _ _ he
    rcases bind_some h2 with ⟨b, w2, h3, h4⟩ | ⟨x, h3, rfl⟩
    · rw [emit_eq] at h3
      simp only [Option.some.injEq, Prod.mk.injEq] at h3
      obtain ⟨_, rfl⟩ := h3
      split at h4
      · simp only [ofOut, Option.some.injEq, Prod.mk.injEq] at h4
        obtain ⟨_, rfl⟩ := h4
        exact ⟨by show own e.id (w1.tr ++ _) = _; rw [hready, hw1.1], hw1.2⟩
      · rcases bind_some h4 with ⟨u, w3, h5, h6⟩ | ⟨x, h5, rfl⟩
        · have hq := doTimeout_quiet U e.id e.aspects _ _ _ h5
          have : w' = w3 := by
            split at h6 <;> simp only [M.pure, Option.some.injEq, Prod.mk.injEq] at h6 <;> exact h6.2.symm
          subst this
          exact ⟨by rw [hq.2]; show own e.id (w1.tr ++ _) = _; rw [hready, hw1.1], by rw [hq.1]; exact hw1.2⟩
        · have hq := doTimeout_quiet U e.id e.aspects _ _ _ h5
          exact ⟨by rw [hq.2]; show own e.id (w1.tr ++ _) = _; rw [hready, hw1.1], by rw [hq.1]; exact hw1.2⟩
    · rw [emit_eq] at h3
      simp at h3
  · unfold capture at h1
    split at h1 <;> simp at h1

theorem bracket_adds {e : Nat} {p : Phase} {m : M CStatus} (hb : Quiet e m) {w w' : World} {o : Out CStatus}
    (h : bracket e p m w = some (o, w')) :
    own e w'.tr = own e w.tr ++ [.enter e p, .leave e p o] ∧ w'.prepared e = w.prepared e := by
  unfold bracket at h
  split at h
  · simp at h
  · rename_i o' w1 he
    simp only [Option.some.injEq, Prod.mk.injEq] at h
    obtain ⟨rfl, rfl⟩ := h
    obtain ⟨h1, h2⟩ := hb _ _ _ he
    refine ⟨?_, h2⟩
    show own e (w1.tr ++ _) = _
    rw [own_append, h1]
    show own e (w.tr ++ _) ++ _ = _
    simp [own, isNote, Act.id]

/-- The part of `holdLoop` and `rounds` that runs the body. -/
def theBody (U : User) (e : Elem) (body : M CStatus) : M CStatus := if e.isAsync then asyncRun U e body else body

theorem theBody_quiet {U : User} {e : Elem} {body : M CStatus} (hb : Quiet e.id body) :
    Quiet e.id (theBody U e body) := by
  unfold theBody
  split
  · exact asyncRun_quiet hb
  · exact hb

/-! ## What a computation leaves behind -/

/-- Nothing failed. -/
def Clean (l : Trace) : Prop := ∀ a ∈ l, failing a = false ∧ excOf a = none ∧ isCrashed a = false

/-- No body is entered and nothing throws. -/
def Still (l : Trace) : Prop := ∀ a ∈ l, isEnter a = false ∧ excOf a = none ∧ isCrashed a = false

/-- New own events `l` together with the outcome they led to. -/
structure Good (l : Trace) (o : Out CStatus) : Prop where
  pw : l.Pairwise (fun a b => failing a = true → isEnter b = false)
  noCrashed : ∀ a ∈ l, isCrashed a = false
  ret : ∀ s, o = .ret s → (∀ a ∈ l, excOf a = none) ∧
    ((s.isErr = true ∧ l.findSome? errOf = some s) ∨ (s.isErr = false ∧ ∀ a ∈ l, failing a = false))
  thr : ∀ x, o = .thr x → ∃ l0 a, l = l0 ++ [a] ∧ (∀ b ∈ l0, excOf b = none) ∧ causes a x

theorem pw_true (l : Trace) : l.Pairwise fun _ _ => True := by
  induction l with
  | nil => simp
  | cons a l ih => simp [ih]

theorem errOf_none {a : Act} (h : failing a = false) : errOf a = none := by
  cases a <;> simp_all [failing, errOf]
  all_goals (rename_i r; cases r <;> simp_all [failed])

theorem Clean.findSome {l : Trace} (h : Clean l) : l.findSome? errOf = none := by
  rw [List.findSome?_eq_none_iff]
  exact fun a ha => errOf_none (h a ha).1

theorem Clean.append {l1 l2 : Trace} (h1 : Clean l1) (h2 : Clean l2) : Clean (l1 ++ l2) := by
  intro a ha
  rcases List.mem_append.1 ha with h | h
  · exact h1 a h
  · exact h2 a h

theorem Still.append {l1 l2 : Trace} (h1 : Still l1) (h2 : Still l2) : Still (l1 ++ l2) := by
  intro a ha
  rcases List.mem_append.1 ha with h | h
  · exact h1 a h
  · exact h2 a h

theorem Clean.good {l : Trace} (h : Clean l) {s : CStatus} (hs : s.isErr = false) : Good l (.ret s) where
  pw := List.Pairwise.imp_of_mem (R := fun _ _ => True) (fun ha _ _ hf => by rw [(h _ ha).1] at hf; simp at hf)
    (pw_true _)
  noCrashed := fun a ha => (h a ha).2.2
  ret := by
    intro s' hs'
    cases hs'
    exact ⟨fun a ha => (h a ha).2.1, .inr ⟨hs, fun a ha => (h a ha).1⟩⟩
  thr := by intro x hx; simp at hx

theorem Good.clean {l : Trace} {s : CStatus} (h : Good l (.ret s)) (hs : s.isErr = false) : Clean l := by
  obtain ⟨h1, h2⟩ := h.ret s rfl
  rcases h2 with ⟨h2, _⟩ | ⟨_, h2⟩
  · rw [hs] at h2; simp at h2
  · exact fun a ha => ⟨h2 a ha, h1 a ha, h.noCrashed a ha⟩

/-- First a part without failures. -/
theorem Good.cleanAppend {l1 l2 : Trace} {o : Out CStatus} (h1 : Clean l1) (h2 : Good l2 o) : Good (l1 ++ l2) o where
  pw := by
    refine List.pairwise_append.2 ⟨(h1.good ok_not_err).pw, h2.pw, ?_⟩
    intro a ha b _ hf
    rw [(h1 a ha).1] at hf; simp at hf
  noCrashed := by
    intro a ha
    rcases List.mem_append.1 ha with h | h
    · exact (h1 a h).2.2
    · exact h2.noCrashed a h
  ret := by
    intro s hs
    obtain ⟨e1, e2⟩ := h2.ret s hs
    refine ⟨?_, ?_⟩
    · intro a ha
      rcases List.mem_append.1 ha with h | h
      · exact (h1 a h).2.1
      · exact e1 a h
    · rcases e2 with ⟨e2, e3⟩ | ⟨e2, e3⟩
      · left
        refine ⟨e2, ?_⟩
        rw [List.findSome?_append, h1.findSome]; simpa using e3
      · right
        refine ⟨e2, ?_⟩
        intro a ha
        rcases List.mem_append.1 ha with h | h
        · exact (h1 a h).1
        · exact e3 a h
  thr := by
    intro x hx
    obtain ⟨l0, a, e1, e2, e3⟩ := h2.thr x hx
    refine ⟨l1 ++ l0, a, by rw [e1]; simp, ?_, e3⟩
    intro b hb
    rcases List.mem_append.1 hb with h | h
    · exact (h1 b h).2.1
    · exact e2 b h

/-- After a failure only calls that do not enter the body. -/
theorem Good.appendStill {l1 l2 : Trace} {s : CStatus} (h1 : Good l1 (.ret s)) (hs : s.isErr = true) (h2 : Still l2) :
    Good (l1 ++ l2) (.ret s) where
  pw := by
    refine List.pairwise_append.2 ⟨h1.pw, ?_, fun a _ b hb _ => (h2 b hb).1⟩
    exact List.Pairwise.imp_of_mem (R := fun _ _ => True) (fun _ hb _ _ => (h2 _ hb).1)
      (pw_true _)
  noCrashed := by
    intro a ha
    rcases List.mem_append.1 ha with h | h
    · exact h1.noCrashed a h
    · exact (h2 a h).2.2
  ret := by
    intro s' hs'
    cases hs'
    obtain ⟨e1, e2⟩ := h1.ret s rfl
    refine ⟨?_, ?_⟩
    · intro a ha
      rcases List.mem_append.1 ha with h | h
      · exact e1 a h
      · exact (h2 a h).2.1
    · rcases e2 with ⟨e2, e3⟩ | ⟨e2, e3⟩
      · left
        refine ⟨e2, ?_⟩
        rw [List.findSome?_append, e3]; rfl
      · rw [hs] at e2; simp at e2
  thr := by intro x hx; simp at hx

/-- After a part that returned, calls that do not enter the body, the last of which throws. -/
theorem Good.appendThrow {l1 l2 : Trace} {s : CStatus} {a : Act} {x : Exc} (h1 : Good l1 (.ret s)) (h2 : Still l2)
    (ha : isEnter a = false) (ha' : isCrashed a = false) (hx : causes a x) : Good (l1 ++ l2 ++ [a]) (.thr x) where
  pw := by
    rw [List.append_assoc]
    have hn : ∀ b ∈ l2 ++ [a], isEnter b = false := by
      intro b hb
      rcases List.mem_append.1 hb with h | h
      · exact (h2 b h).1
      · simp at h; rw [h]; exact ha
    refine List.pairwise_append.2 ⟨h1.pw, ?_, fun a _ b hb _ => hn b hb⟩
    exact List.Pairwise.imp_of_mem (R := fun _ _ => True) (fun _ hb _ _ => hn _ hb)
      (pw_true _)
  noCrashed := by
    intro b hb
    rcases List.mem_append.1 hb with h | h
    · rcases List.mem_append.1 h with h | h
      · exact h1.noCrashed b h
      · exact (h2 b h).2.2
    · simp at h; rw [h]; exact ha'
  ret := by intro s hs; simp at hs
  thr := by
    intro y hy
    cases hy
    refine ⟨l1 ++ l2, a, rfl, ?_, hx⟩
    intro b hb
    rcases List.mem_append.1 hb with h | h
    · exact (h1.ret s rfl).1 b h
    · exact (h2 b h).2.1

theorem Good.throw {l2 : Trace} {a : Act} {x : Exc} (h2 : Still l2)
    (ha : isEnter a = false) (ha' : isCrashed a = false) (hx : causes a x) : Good (l2 ++ [a]) (.thr x) := by
  have := Good.appendThrow (l1 := []) (s := CStatus.ok) (Clean.good (by intro a ha; simp at ha) ok_not_err) h2 ha ha' hx
  simpa using this

theorem Good.err {l2 : Trace} {a : Act} {s : CStatus} (h2 : Clean l2) (ha : isEnter a = false) (ha' : isCrashed a = false)
    (hs : s.isErr = true) (hx : excOf a = none) (he : errOf a = some s) : Good (l2 ++ [a]) (.ret s) := by
  refine Good.cleanAppend h2 ⟨by simp, by simpa using ha', ?_, by intro x hx; simp at hx⟩
  intro s' hs'
  cases hs'
  exact ⟨by simpa using hx, .inl ⟨hs, by simp [he]⟩⟩

/-! ## The parts of a run -/

theorem clean_begins (e : Nat) (p : Phase) (rs : List (Nat × CStatus)) (h : ∀ r ∈ rs, r.2.isErr = false) :
    Clean (rs.map fun r => .beginA e r.1 p (.ret r.2)) := by
  intro a ha
  obtain ⟨r, hr, rfl⟩ := List.mem_map.1 ha
  exact ⟨h r hr, rfl, rfl⟩

theorem still_of_clean {l : Trace} (h : Clean l) (h' : ∀ a ∈ l, isEnter a = false) : Still l :=
  fun a ha => ⟨h' a ha, (h a ha).2⟩

theorem clean_finishes (e : Nat) (p : Phase) (st : CStatus) (as : List Nat) :
    Clean (as.map fun a => .finishA e a p st (.ret ())) := by
  intro a ha
  obtain ⟨r, hr, rfl⟩ := List.mem_map.1 ha
  exact ⟨rfl, rfl, rfl⟩

theorem still_finishes (e : Nat) (p : Phase) (st : CStatus) (as : List Nat) :
    Still (as.map fun a => .finishA e a p st (.ret ())) := by
  refine still_of_clean (clean_finishes e p st as) ?_
  intro a ha
  obtain ⟨r, hr, rfl⟩ := List.mem_map.1 ha
  rfl

theorem doBegin_good {U : User} {e : Nat} {p : Phase} {as : List Nat} {st : CStatus} {w w' : World} {o : Out CStatus}
    (hst : st.isErr = false) (h : doBegin U e p as st w = some (o, w')) :
    w'.prepared = w.prepared ∧ ∃ l, own e w'.tr = own e w.tr ++ l ∧ Good l o := by
  obtain ⟨hp, rs, hrs, h1⟩ := doBegin_adds U e p as st w w' o hst h
  refine ⟨hp, ?_⟩
  have hc := clean_begins e p rs hrs
  have hs : Still (rs.map fun r => Act.beginA e r.1 p (.ret r.2)) := by
    refine still_of_clean hc ?_
    intro a ha
    obtain ⟨r, hr, rfl⟩ := List.mem_map.1 ha
    rfl
  rcases h1 with ⟨_, ⟨s, rfl, hs⟩, h3⟩ | ⟨a, r, more, _, hf, h3, h4⟩
  · exact ⟨_, h3, hc.good hs⟩
  · refine ⟨_, by rw [h3, List.append_assoc], ?_⟩
    rcases h4 with ⟨s, rfl, hcr, rfl⟩ | ⟨s, rfl, hcr, rfl⟩ | ⟨x, rfl, rfl⟩
    · have hf : s.isErr = true := hf
      exact Good.err hc rfl rfl hf rfl (by simp [errOf, hf])
    · exact Good.throw hs rfl rfl (.crashBegin e a p s hcr)
    · exact Good.throw hs rfl rfl (.thrown (by rfl))

/-- A returned crash code has already been turned into an exception. -/
theorem doBegin_not_crash {U : User} {e : Nat} {p : Phase} {as : List Nat} {st s : CStatus} {w w' : World}
    (hst : st.isErr = false) (h : doBegin U e p as st w = some (.ret s, w')) : s.isCrash = true → False := by
  intro hc
  obtain ⟨_, rs, _, h1⟩ := doBegin_adds U e p as st w w' _ hst h
  have hce : s.isErr = true := by
    simp only [CStatus.isCrash, CStatus.isErr, decide_eq_true_iff, beq_iff_eq] at hc ⊢
    rw [← hc]; decide
  rcases h1 with ⟨_, ⟨s', hs', he⟩, _⟩ | ⟨_, _, _, _, _, _, h4⟩
  · cases hs'; rw [hce] at he; simp at he
  · rcases h4 with ⟨s', _, h5, h6⟩ | ⟨_, _, _, h6⟩ | ⟨_, _, h6⟩
    · cases h6; rw [hc] at h5; simp at h5
    · simp at h6
    · simp at h6

theorem add_isOK {st r : CStatus} (hst : st.isOK = true) : (st.add r).isOK = !r.isErr := by
  have hne := isOK_not_err hst
  cases hr : r.isErr
  · rw [add_not_err_right hr]; simpa using hst
  · rw [add_of_not_err hne hr]; simpa using isErr_not_ok hr

theorem holdLoop_good {U : User} {e : Elem} {body : M CStatus} (hb : Quiet e.id body) : ∀ (F : Nat) (st : CStatus)
    (w w' : World) (o : Out CStatus), st.isOK = true → holdLoop U e body F st w = some (o, w') →
    w'.prepared e.id = w.prepared e.id ∧ ∃ l, own e.id w'.tr = own e.id w.tr ++ l ∧ Good l o := by
  intro F
  induction F with
  | zero => intro st w w' o _ h; simp [holdLoop, diverge] at h
  | succ F ih =>
    intro st w w' o hst h
    simp only [holdLoop] at h
    have hq := theBody_quiet (U := U) hb
    unfold theBody at hq
    rcases bind_some h with ⟨r, w1, h1, h2⟩ | ⟨x, h1, rfl⟩
    · obtain ⟨a1, a2⟩ := bracket_adds hq h1
      rcases bind_some h2 with ⟨b, w2, h3, h4⟩ | ⟨x, h3, rfl⟩
      · rw [emit_eq] at h3
        simp only [Option.some.injEq, Prod.mk.injEq] at h3
        obtain ⟨hr, rfl⟩ := h3
        have hown : own e.id (w1.tr ++ [.hold e.id (U.hold e.id w1.tr)]) =
            own e.id w.tr ++ [.enter e.id .run, .leave e.id .run (.ret r), .hold e.id (.ret b)] := by
          rw [own_append, a1, hr]; simp [own, isNote, Act.id]
        split at h4
        · rename_i hcond
          simp only [Bool.and_eq_true] at hcond
          have hrne : r.isErr = false := by have := add_isOK (r := r) hst; rw [hcond.2] at this; simpa using this.symm
          obtain ⟨q1, l, q2, q3⟩ := ih _ _ _ _ hcond.2 h4
          refine ⟨q1.trans a2, _, by rw [q2]; show own e.id (w1.tr ++ _) ++ _ = _; rw [hown, List.append_assoc], ?_⟩
          refine Good.cleanAppend ?_ q3
          intro a ha
          simp at ha
          rcases ha with rfl | rfl | rfl
          · exact ⟨rfl, rfl, rfl⟩
          · exact ⟨hrne, rfl, rfl⟩
          · exact ⟨rfl, rfl, rfl⟩
        · simp only [M.pure, Option.some.injEq, Prod.mk.injEq] at h4
          obtain ⟨rfl, rfl⟩ := h4
          refine ⟨a2, _, hown, ?_⟩
          cases hre : r.isErr
          · rw [add_not_err_right hre]
            refine Clean.good ?_ (isOK_not_err hst)
            intro a ha
            simp at ha
            rcases ha with rfl | rfl | rfl
            · exact ⟨rfl, rfl, rfl⟩
            · exact ⟨hre, rfl, rfl⟩
            · exact ⟨rfl, rfl, rfl⟩
          · rw [add_of_not_err (isOK_not_err hst) hre]
            have g1 : Good ([.enter e.id .run] ++ [.leave e.id .run (.ret r)]) (.ret r) :=
              Good.err (by intro a ha; simp at ha; subst ha; exact ⟨rfl, rfl, rfl⟩) rfl rfl hre rfl (by simp [errOf, hre])
            exact Good.appendStill (l2 := [.hold e.id (.ret b)]) g1 hre
              (by intro a ha; simp at ha; subst ha; exact ⟨rfl, rfl, rfl⟩)
      · rw [emit_eq] at h3
        simp only [Option.some.injEq, Prod.mk.injEq] at h3
        obtain ⟨hr, rfl⟩ := h3
        have hown : own e.id (w1.tr ++ [.hold e.id (U.hold e.id w1.tr)]) =
            own e.id w.tr ++ [.enter e.id .run, .leave e.id .run (.ret r), .hold e.id (.thr x)] := by
          rw [own_append, a1, hr]; simp [own, isNote, Act.id]
        refine ⟨a2, _, hown, ?_⟩
        cases hre : r.isErr
        · have g1 : Good [.enter e.id .run, .leave e.id .run (.ret r)] (.ret CStatus.ok) := by
            refine Clean.good ?_ ok_not_err
            intro a ha
            simp at ha
            rcases ha with rfl | rfl
            · exact ⟨rfl, rfl, rfl⟩
            · exact ⟨hre, rfl, rfl⟩
          exact Good.appendThrow (l2 := []) g1 (by intro a ha; simp at ha) rfl rfl (.thrown (by rfl))
        · have g1 : Good ([.enter e.id .run] ++ [.leave e.id .run (.ret r)]) (.ret r) :=
              Good.err (by intro a ha; simp at ha; subst ha; exact ⟨rfl, rfl, rfl⟩) rfl rfl hre rfl (by simp [errOf, hre])
          exact Good.appendThrow (l2 := []) g1 (by intro a ha; simp at ha) rfl rfl (.thrown (by rfl))
    · obtain ⟨a1, a2⟩ := bracket_adds hq h1
      refine ⟨a2, _, a1, ?_⟩
      have g1 : Good [.enter e.id .run] (.ret CStatus.ok) :=
        Clean.good (by intro a ha; simp at ha; subst ha; exact ⟨rfl, rfl, rfl⟩) ok_not_err
      exact Good.appendThrow (l2 := []) g1 (by intro a ha; simp at ha) rfl rfl (.thrown (by rfl))

/-- Forget the flag that tells whether the function returned early. -/
def stOf : Out (CStatus × Bool) → Out CStatus
  | .ret s => .ret s.1
  | .thr x => .thr x

theorem clean_state (e : Nat) (s : EState) : Clean [.state e s] := by
  intro a ha; simp at ha; subst ha; exact ⟨rfl, rfl, rfl⟩

theorem rounds_good {U : User} {F : Nat} {e : Elem} {body : M CStatus} (hb : Quiet e.id body) : ∀ (n : Nat)
    (st : CStatus) (w w' : World) (o : Out (CStatus × Bool)), st.isErr = false →
    rounds U F e body n st w = some (o, w') →
    w'.prepared e.id = w.prepared e.id ∧ ∃ l, own e.id w'.tr = own e.id w.tr ++ l ∧ Good l (stOf o) := by
  intro n
  induction n with
  | zero =>
    intro st w w' o hst h
    simp only [rounds, M.pure, Option.some.injEq, Prod.mk.injEq] at h
    obtain ⟨rfl, rfl⟩ := h
    exact ⟨rfl, [], by simp, Clean.good (by intro a ha; simp at ha) hst⟩
  | succ n ih =>
    intro st w w' o hst h
    simp only [rounds] at h
    split at h
    rotate_left
    · simp only [M.pure, Option.some.injEq, Prod.mk.injEq] at h
      obtain ⟨rfl, rfl⟩ := h
      exact ⟨rfl, [], by simp, Clean.good (by intro a ha; simp at ha) hst⟩
    rename_i hok
    rcases bind_some h with ⟨s, w1, h1, h2⟩ | ⟨x, h1, rfl⟩
    rotate_left
    · rw [emit_eq] at h1; simp at h1
    rw [emit_eq] at h1
    simp only [Option.some.injEq, Prod.mk.injEq, Out.ret.injEq] at h1
    obtain ⟨hs, rfl⟩ := h1
    have hown : own e.id (w.tr ++ [.state e.id (U.state e.id w.tr)]) = own e.id w.tr ++ [.state e.id s] := by
      rw [own_append, hs]; simp [own, isNote, Act.id]
    split at h2
    rotate_left
    · simp only [M.pure, Option.some.injEq, Prod.mk.injEq] at h2
      obtain ⟨rfl, rfl⟩ := h2
      exact ⟨rfl, _, hown, (clean_state _ _).good hst⟩
    rcases bind_some h2 with ⟨b, w2, h3, h4⟩ | ⟨x, h3, rfl⟩
    · obtain ⟨p1, l1, e1, g1⟩ := doBegin_good ok_not_err h3
      have e1' : own e.id w2.tr = own e.id w.tr ++ ([.state e.id s] ++ l1) := by
        rw [e1]; show own e.id (w.tr ++ _) ++ _ = _; rw [hown, List.append_assoc]
      have p1' : w2.prepared e.id = w.prepared e.id := by rw [p1]
      cases hbe : b.isErr
      · rw [add_not_err_right hbe] at h4
        rw [if_neg (by simp [hst])] at h4
        have hc1 := g1.clean hbe
        rcases bind_some h4 with ⟨st', w3, h5, h6⟩ | ⟨x, h5, rfl⟩
        · obtain ⟨p2, l2, e2, g2⟩ := holdLoop_good hb _ _ _ _ _ hok h5
          rcases bind_some h6 with ⟨u, w4, h7, h8⟩ | ⟨x, h7, rfl⟩
          · obtain ⟨p3, h3'⟩ := doFinish_adds _ _ _ _ _ _ _ _ h7
            rcases h3' with ⟨_, e3⟩ | ⟨_, _, _, _, _, hbad, _⟩
            rotate_left
            · simp at hbad
            cases hse : st'.isErr
            · obtain ⟨p4, l4, e4, g4⟩ := ih _ _ _ _ hse h8
              refine ⟨by rw [p4, p3, p2, p1'], ([.state e.id s] ++ l1) ++ (l2 ++ (_ ++ l4)), ?_,
                Good.cleanAppend ((clean_state _ _).append hc1)
                  (Good.cleanAppend (g2.clean hse) (Good.cleanAppend (clean_finishes e.id .run st' e.aspects) g4))⟩
              rw [e4, e3, e2, e1']
              simp only [List.append_assoc]
            · have hno : rounds U F e body n st' w4 = some (.ret (st', false), w4) := by
                cases n with
                | zero => rfl
                | succ n => simp [rounds, isErr_not_ok hse, M.pure]
              rw [hno] at h8
              simp only [Option.some.injEq, Prod.mk.injEq] at h8
              obtain ⟨rfl, rfl⟩ := h8
              refine ⟨by rw [p3, p2, p1'], ([.state e.id s] ++ l1) ++ (l2 ++ _), ?_,
                Good.cleanAppend ((clean_state _ _).append hc1) (g2.appendStill hse (still_finishes e.id .run st' e.aspects))⟩
              rw [e3, e2, e1']
              simp only [List.append_assoc]
          · obtain ⟨p3, h3'⟩ := doFinish_adds _ _ _ _ _ _ _ _ h7
            rcases h3' with ⟨hbad, _⟩ | ⟨done, a, more, y, _, hy, e3⟩
            · simp at hbad
            simp only [Out.thr.injEq] at hy
            subst hy
            refine ⟨by rw [p3, p2, p1'], ([.state e.id s] ++ l1) ++ (l2 ++ _ ++ _), ?_,
                Good.cleanAppend ((clean_state _ _).append hc1)
                  (g2.appendThrow (a := .finishA e.id a .run st' (.thr x)) (still_finishes e.id .run st' done) rfl rfl (.thrown (by rfl)))⟩
            rw [e3, e2, e1']
            simp only [List.append_assoc]
        · obtain ⟨p2, l2, e2, g2⟩ := holdLoop_good hb _ _ _ _ _ hok h5
          refine ⟨by rw [p2, p1'], ([.state e.id s] ++ l1) ++ l2, ?_,
            Good.cleanAppend ((clean_state _ _).append hc1) g2⟩
          rw [e2, e1']
          simp only [List.append_assoc]
      · rw [add_of_not_err hst hbe, if_pos hbe] at h4
        obtain ⟨rfl, h5⟩ := failM_some h4
        refine ⟨p1', _, e1', ?_⟩
        refine Good.cleanAppend (clean_state _ _) ?_
        rcases h5 with ⟨_, rfl⟩ | ⟨hcr, rfl⟩
        · exact g1
        · exact (by
            exfalso
            exact doBegin_not_crash ok_not_err h3 hcr)
    · obtain ⟨p1, l1, e1, g1⟩ := doBegin_good ok_not_err h3
      refine ⟨by rw [p1], [.state e.id s] ++ l1, ?_, Good.cleanAppend (clean_state _ _) g1⟩
      rw [e1]; show own e.id (w.tr ++ _) ++ _ = _; rw [hown, List.append_assoc]

theorem isCrash_isErr {s : CStatus} (hc : s.isCrash = true) : s.isErr = true := by
  simp only [CStatus.isCrash, CStatus.isErr, decide_eq_true_iff, beq_iff_eq] at hc ⊢
  rw [← hc]; decide

theorem prepare_good {U : User} {e : Elem} {w w' : World} {o : Out (CStatus × Bool)}
    (h : prepare U e w = some (o, w')) :
    ∃ l, own e.id w'.tr = own e.id w.tr ++ l ∧ Good l (stOf o) ∧
      (∀ s, o = .ret (s, false) → s.isErr = false) := by
  unfold prepare at h
  rcases bind_some h with ⟨p, w1, h1, h2⟩ | ⟨x, h1, rfl⟩
  rotate_left
  · simp [getPrepared] at h1
  simp only [getPrepared, Option.some.injEq, Prod.mk.injEq, Out.ret.injEq] at h1
  obtain ⟨hp, rfl⟩ := h1
  split at h2
  · simp only [M.pure, Option.some.injEq, Prod.mk.injEq] at h2
    obtain ⟨rfl, rfl⟩ := h2
    refine ⟨[], by simp, Clean.good (by intro a ha; simp at ha) ok_not_err, ?_⟩
    intro s hs
    simp only [Out.ret.injEq, Prod.mk.injEq] at hs
    rw [← hs.1]; decide
  rcases bind_some h2 with ⟨r, w2, h3, h4⟩ | ⟨x, h3, rfl⟩
  · rw [emit_eq] at h3
    simp only [Option.some.injEq, Prod.mk.injEq] at h3
    obtain ⟨hr, rfl⟩ := h3
    have hown : own e.id (w.tr ++ [.prep e.id (U.prep e.id w.tr)]) = own e.id w.tr ++ [.prep e.id (.ret r)] := by
      rw [own_append, hr]; simp [own, isNote, Act.id]
    cases hre : r.isErr
    · rw [assign_isErr ok_not_err, hre, if_neg (by simp)] at h4
      simp only [M.bind, setPrepared, M.pure, Option.some.injEq, Prod.mk.injEq] at h4
      obtain ⟨rfl, rfl⟩ := h4
      have hne : (CStatus.ok.assign r).isErr = false := by rw [assign_isErr ok_not_err, hre]
      refine ⟨_, hown, Clean.good ?_ hne, ?_⟩
      · intro a ha; simp at ha; subst ha; exact ⟨hre, rfl, rfl⟩
      · intro s hs
        simp only [Out.ret.injEq, Prod.mk.injEq, and_true] at hs
        rw [← hs]; exact hne
    · rw [assign_isErr ok_not_err, hre, if_pos rfl, assign_eq_of_err ok_not_err hre] at h4
      obtain ⟨rfl, h5⟩ := failM_some h4
      refine ⟨_, hown, ?_, ?_⟩
      · rcases h5 with ⟨_, rfl⟩ | ⟨hcr, rfl⟩
        · exact Good.err (l2 := []) (by intro a ha; simp at ha) rfl rfl hre rfl (by simp [errOf, hre])
        · exact Good.throw (l2 := []) (by intro a ha; simp at ha) rfl rfl (.crashPrep _ _ hcr)
      · intro s hs
        rcases h5 with ⟨_, rfl⟩ | ⟨hcr, rfl⟩ <;> simp at hs
  · rw [emit_eq] at h3
    simp only [Option.some.injEq, Prod.mk.injEq] at h3
    obtain ⟨hr, rfl⟩ := h3
    have hown : own e.id (w.tr ++ [.prep e.id (U.prep e.id w.tr)]) = own e.id w.tr ++ [.prep e.id (.thr x)] := by
      rw [own_append, hr]; simp [own, isNote, Act.id]
    exact ⟨_, hown, Good.throw (l2 := []) (by intro a ha; simp at ha) rfl rfl (.thrown (by rfl)),
      by intro s hs; simp at hs⟩

theorem runBranch_good {U : User} {F : Nat} {e : Elem} {body : M CStatus} (hb : Quiet e.id body) {w w' : World}
    {o : Out CStatus} (h : runBranch U F e body w = some (o, w')) :
    ∃ l, own e.id w'.tr = own e.id w.tr ++ l ∧ Good l o := by
  unfold runBranch at h
  rcases bind_some h with ⟨p, w1, h1, h2⟩ | ⟨x, h1, rfl⟩
  rotate_left
  · obtain ⟨l, e1, g, _⟩ := prepare_good h1
    exact ⟨l, e1, g⟩
  obtain ⟨l1, e1, g1, hne⟩ := prepare_good h1
  split at h2
  · simp only [M.pure, Option.some.injEq, Prod.mk.injEq] at h2
    obtain ⟨rfl, rfl⟩ := h2
    exact ⟨l1, e1, g1⟩
  rename_i hp2
  have hp2' : p.2 = false := by simpa using hp2
  have hpe : p.1.isErr = false := hne p.1 (by rw [← hp2'])
  have hc1 : Clean l1 := Good.clean (s := p.1) g1 hpe
  rcases bind_some h2 with ⟨r, w2, h3, h4⟩ | ⟨x, h3, rfl⟩
  rotate_left
  · obtain ⟨_, l, e2, g⟩ := rounds_good hb _ _ _ _ _ hpe h3
    exact ⟨l1 ++ l, by rw [e2, e1, List.append_assoc], Good.cleanAppend hc1 g⟩
  obtain ⟨_, l2, e2, g2⟩ := rounds_good hb _ _ _ _ _ hpe h3
  have g2 : Good l2 (.ret r.1) := g2
  split at h4
  · simp only [M.pure, Option.some.injEq, Prod.mk.injEq] at h4
    obtain ⟨rfl, rfl⟩ := h4
    exact ⟨l1 ++ l2, by rw [e2, e1, List.append_assoc], Good.cleanAppend hc1 g2⟩
  rcases bind_some h4 with ⟨c, w3, h5, h6⟩ | ⟨x, h5, rfl⟩
  · rw [emit_eq] at h5
    simp only [Option.some.injEq, Prod.mk.injEq] at h5
    obtain ⟨hr, rfl⟩ := h5
    have hown : own e.id (w2.tr ++ [.check e.id (U.check e.id w2.tr)]) =
        own e.id w.tr ++ (l1 ++ (l2 ++ [.check e.id (.ret c)])) := by
      rw [own_append, hr, e2, e1]; simp [own, isNote, Act.id]
    split at h6
    · rename_i hce
      simp only [M.throw, Option.some.injEq, Prod.mk.injEq] at h6
      obtain ⟨rfl, rfl⟩ := h6
      refine ⟨_, hown, Good.cleanAppend hc1 ?_⟩
      have := Good.appendThrow (l2 := []) g2 (by intro a ha; simp at ha) (a := .check e.id (.ret c)) rfl rfl
        (.badCheck e.id c locRun hce)
      simpa using this
    · simp only [M.pure, Option.some.injEq, Prod.mk.injEq] at h6
      obtain ⟨rfl, rfl⟩ := h6
      refine ⟨_, hown, Good.cleanAppend hc1 ?_⟩
      cases hre : r.1.isErr
      · refine Clean.good (Clean.append (g2.clean hre) ?_) hre
        intro a ha; simp at ha; subst ha; exact ⟨rfl, rfl, rfl⟩
      · refine g2.appendStill hre ?_
        intro a ha; simp at ha; subst ha; exact ⟨rfl, rfl, rfl⟩
  · rw [emit_eq] at h5
    simp only [Option.some.injEq, Prod.mk.injEq] at h5
    obtain ⟨hr, rfl⟩ := h5
    have hown : own e.id (w2.tr ++ [.check e.id (U.check e.id w2.tr)]) =
        own e.id w.tr ++ (l1 ++ (l2 ++ [.check e.id (.thr x)])) := by
      rw [own_append, hr, e2, e1]; simp [own, isNote, Act.id]
    refine ⟨_, hown, Good.cleanAppend hc1 ?_⟩
    have := Good.appendThrow (l2 := []) g2 (by intro a ha; simp at ha) (a := .check e.id (.thr x)) rfl rfl
      (.thrown (by rfl))
    simpa using this

theorem lifeBranch_good {U : User} {e : Elem} {p : Phase} {body : M CStatus} (hb : Quiet e.id body) {w w' : World}
    {o : Out CStatus} (h : lifeBranch U e p body w = some (o, w')) :
    ∃ l, own e.id w'.tr = own e.id w.tr ++ l ∧ Good l o := by
  unfold lifeBranch at h
  rcases bind_some h with ⟨u, w0, h0, h1⟩ | ⟨x, h1, rfl⟩
  rotate_left
  · split at h1
    · simp [setPrepared] at h1
    · simp [M.pure] at h1
  have hw0 : w0.tr = w.tr := by
    split at h0
    · simp only [setPrepared, Option.some.injEq, Prod.mk.injEq] at h0
      rw [← h0.2]
    · simp only [M.pure, Option.some.injEq, Prod.mk.injEq] at h0
      rw [← h0.2]
  rcases bind_some h1 with ⟨b, w1, h2, h3⟩ | ⟨x, h2, rfl⟩
  rotate_left
  · obtain ⟨_, l, e1, g⟩ := doBegin_good ok_not_err h2
    exact ⟨l, by rw [e1, hw0], g⟩
  obtain ⟨_, l1, e1, g1⟩ := doBegin_good ok_not_err h2
  rw [hw0] at e1
  split at h3
  · rename_i hbe
    obtain ⟨rfl, h5⟩ := failM_some h3
    rcases h5 with ⟨_, rfl⟩ | ⟨hcr, _⟩
    · exact ⟨l1, e1, g1⟩
    · exact (doBegin_not_crash ok_not_err h2 hcr).elim
  rename_i hbe
  have hbe : b.isErr = false := by simpa using hbe
  have hc1 := g1.clean hbe
  rcases bind_some h3 with ⟨r, w2, h4, h5⟩ | ⟨x, h4, rfl⟩
  rotate_left
  · obtain ⟨e2, _⟩ := bracket_adds hb h4
    refine ⟨l1 ++ _, by rw [e2, e1, List.append_assoc], Good.cleanAppend hc1 ?_⟩
    exact Good.appendThrow (l1 := [.enter e.id p]) (l2 := []) (s := CStatus.ok)
      (Clean.good (by intro a ha; simp at ha; subst ha; exact ⟨rfl, rfl, rfl⟩) ok_not_err)
      (by intro a ha; simp at ha) rfl rfl (.thrown (by rfl))
  obtain ⟨e2, _⟩ := bracket_adds hb h4
  have gb : Good [.enter e.id p, .leave e.id p (.ret r)] (.ret (b.assign r)) := by
    cases hre : r.isErr
    · refine Clean.good ?_ (by rw [assign_isErr hbe, hre])
      intro a ha
      simp at ha
      rcases ha with rfl | rfl
      · exact ⟨rfl, rfl, rfl⟩
      · exact ⟨hre, rfl, rfl⟩
    · rw [assign_eq_of_err hbe hre]
      exact Good.err (l2 := [.enter e.id p]) (by intro a ha; simp at ha; subst ha; exact ⟨rfl, rfl, rfl⟩) rfl rfl hre
        rfl (by simp [errOf, hre])
  rcases bind_some h5 with ⟨u, w3, h6, h7⟩ | ⟨x, h6, rfl⟩
  · obtain ⟨_, h8⟩ := doFinish_adds _ _ _ _ _ _ _ _ h6
    rcases h8 with ⟨_, e3⟩ | ⟨_, _, _, _, _, hbad, _⟩
    rotate_left
    · simp at hbad
    simp only [M.pure, Option.some.injEq, Prod.mk.injEq] at h7
    obtain ⟨rfl, rfl⟩ := h7
    refine ⟨l1 ++ ([.enter e.id p, .leave e.id p (.ret r)] ++ e.aspects.map (fun a => .finishA e.id a p (b.assign r) (.ret ()))),
      by rw [e3, e2, e1]; simp only [List.append_assoc], Good.cleanAppend hc1 ?_⟩
    cases hre : (b.assign r).isErr
    · exact Clean.good ((gb.clean hre).append (clean_finishes _ _ _ _)) hre
    · exact gb.appendStill hre (still_finishes _ _ _ _)
  · obtain ⟨_, h8⟩ := doFinish_adds _ _ _ _ _ _ _ _ h6
    rcases h8 with ⟨hbad, _⟩ | ⟨done, a, more, y, _, hy, e3⟩
    · simp at hbad
    simp only [Out.thr.injEq] at hy
    subst hy
    refine ⟨l1 ++ ([.enter e.id p, .leave e.id p (.ret r)] ++ done.map (fun a => .finishA e.id a p (b.assign r) (.ret ())) ++
      [.finishA e.id a p (b.assign r) (.thr x)]), by rw [e3, e2, e1]; simp only [List.append_assoc], Good.cleanAppend hc1 ?_⟩
    exact gb.appendThrow (still_finishes _ _ _ _) rfl rfl (.thrown (by rfl))

/-- The handler: all crash aspects, then `crashed`; an exception thrown by one of them escapes. -/
theorem onCrash_adds {U : User} {e : Elem} {msg : String} {w w' : World} {o : Out CStatus}
    (h : onCrash U e msg w = some (o, w')) :
    (own e.id w'.tr = own e.id w.tr ++ (e.aspects.map (fun a => .crashA e.id a (.ret ())) ++ [.crashed e.id msg o])) ∨
    (∃ done a more x, e.aspects = done ++ a :: more ∧ o = .thr x ∧
      own e.id w'.tr = own e.id w.tr ++ (done.map (fun a => .crashA e.id a (.ret ())) ++ [.crashA e.id a (.thr x)])) := by
  unfold onCrash at h
  rcases bind_some h with ⟨u, w1, h1, h2⟩ | ⟨x, h1, rfl⟩
  · left
    obtain ⟨_, h3⟩ := doCrash_adds _ _ _ _ _ _ h1
    rcases h3 with ⟨_, e3⟩ | ⟨_, _, _, _, _, hbad, _⟩
    rotate_left
    · simp at hbad
    rw [emit_eq] at h2
    simp only [Option.some.injEq, Prod.mk.injEq] at h2
    obtain ⟨hr, rfl⟩ := h2
    show own e.id (w1.tr ++ _) = _
    rw [own_append, e3, hr]; simp [own, isNote, Act.id]
  · right
    obtain ⟨_, h3⟩ := doCrash_adds _ _ _ _ _ _ h1
    rcases h3 with ⟨hbad, _⟩ | ⟨done, a, more, y, e1, hy, e3⟩
    · simp at hbad
    simp only [Out.thr.injEq] at hy
    exact ⟨done, a, more, y, e1, by rw [hy], by rw [e3, List.append_assoc]⟩

/-- `fatProcessor` in either form. -/
theorem guarded_cases {U : User} {e : Elem} {branch : M CStatus} {w w' : World} {o : Out CStatus}
    (h : catchC branch (onCrash U e) w = some (o, w')) :
    (branch w = some (o, w') ∧ ∀ msg, o ≠ .thr (.c msg)) ∨
    (∃ msg w1, branch w = some (.thr (.c msg), w1) ∧ onCrash U e msg w1 = some (o, w')) := by
  unfold catchC at h
  split at h
  · rename_i msg w1 he
    exact .inr ⟨msg, w1, he, h⟩
  · rename_i hno
    left
    refine ⟨h, ?_⟩
    intro msg ho
    subst ho
    exact hno _ _ h

/-- All outcomes of a guarded branch. -/
theorem guarded_good {U : User} {e : Elem} {branch : M CStatus} {w w' : World} {o : Out CStatus}
    (hg : ∀ o w', branch w = some (o, w') → ∃ l, own e.id w'.tr = own e.id w.tr ++ l ∧ Good l o)
    (h : catchC branch (onCrash U e) w = some (o, w')) :
    ∃ l, own e.id w'.tr = own e.id w.tr ++ l ∧
      ((Good l o ∧ ∀ msg, o ≠ .thr (.c msg)) ∨
       ∃ l0 msg, Good l0 (.thr (.c msg)) ∧
        ((l = l0 ++ (e.aspects.map (fun a => .crashA e.id a (.ret ())) ++ [.crashed e.id msg o])) ∨
         (∃ done a more x, e.aspects = done ++ a :: more ∧ o = .thr x ∧
          l = l0 ++ (done.map (fun a => .crashA e.id a (.ret ())) ++ [.crashA e.id a (.thr x)])))) := by
  rcases guarded_cases h with ⟨h1, h2⟩ | ⟨msg, w1, h1, h2⟩
  · obtain ⟨l, e1, g⟩ := hg _ _ h1
    exact ⟨l, e1, .inl ⟨g, h2⟩⟩
  · obtain ⟨l0, e1, g⟩ := hg _ _ h1
    rcases onCrash_adds h2 with e2 | ⟨done, a, more, x, e2, e3, e4⟩
    · exact ⟨_, by rw [e2, e1, List.append_assoc], .inr ⟨l0, msg, g, .inl rfl⟩⟩
    · exact ⟨_, by rw [e4, e1, List.append_assoc], .inr ⟨l0, msg, g, .inr ⟨done, a, more, x, e2, e3, rfl⟩⟩⟩

end CGraph
