import Verif.Model.Pipeline
import Verif.Lemmas.Status

namespace CGraph.Pipe

/-! ## Rules for the combinators -/

theorem checked_eq (s : Pipe) (st : CStatus) (f : Pipe → Pipe × Res CStatus) : checked s st f =
    if st.isErr then (s, if st.isCrash then .throw st.info else .ret st) else f s := by
  unfold checked checkStatus
  cases st.isErr with
  | false => rfl
  | true => cases st.isCrash <;> rfl

theorem andThen_post (P : Pipe → Prop) (Q : Pipe × Res CStatus → Prop) {x f} (hx : P x.1)
    (ht : ∀ s m, P s → Q (s, .throw m)) (hf : ∀ s r, P s → Q (f s r)) : Q (andThen x f) := by
  obtain ⟨s, r⟩ := x
  cases r with
  | ret r => exact hf s r hx
  | throw m => exact ht s m hx

theorem checked_post (P : Pipe → Prop) (Q : Pipe × Res CStatus → Prop) {s st f} (hx : P s)
    (he : ∀ r, st.isErr = true → Q (s, r)) (hf : st.isErr = false → Q (f s)) : Q (checked s st f) := by
  rw [checked_eq]
  cases h : st.isErr with
  | false => exact hf h
  | true => exact he _ h

theorem andThen_keep (P : Pipe → Prop) {x f} (hx : P x.1) (hf : ∀ s r, P s → P (f s r).1) : P (andThen x f).1 :=
  andThen_post P (fun y => P y.1) hx (fun _ _ h => h) hf

theorem plus_keep (P : Pipe → Prop) {st x f} (hx : P x.1) (hf : ∀ s r, P s → P (f s r).1) : P (plus st x f).1 :=
  andThen_keep P hx fun s r h => hf s _ h

theorem checked_keep (P : Pipe → Prop) {s st f} (hx : P s) (hf : P (f s).1) : P (checked s st f).1 :=
  checked_post P (fun y => P y.1) hx (fun _ _ => hx) (fun _ => hf)

theorem andThen_ret {x f s' r} : andThen x f = (s', .ret r) ↔ ∃ s₁ r₁, x = (s₁, .ret r₁) ∧ f s₁ r₁ = (s', .ret r) := by
  obtain ⟨s, q⟩ := x
  cases q with
  | ret q =>
    constructor
    · intro h; exact ⟨s, q, rfl, h⟩
    · rintro ⟨s₁, r₁, h, hf⟩
      simp only [Prod.mk.injEq, Res.ret.injEq] at h
      obtain ⟨rfl, rfl⟩ := h
      exact hf
  | throw m => simp [andThen]

theorem plus_ret {st x f s' r} :
    plus st x f = (s', .ret r) ↔ ∃ s₁ r₁, x = (s₁, .ret r₁) ∧ f s₁ (st.add r₁) = (s', .ret r) := andThen_ret

theorem checked_ret {s st f s' r} (h : checked s st f = (s', .ret r)) (hr : r.isErr = false) :
    st.isErr = false ∧ f s = (s', .ret r) := by
  rw [checked_eq] at h
  cases hs : st.isErr with
  | false => simp only [hs, Bool.false_eq_true, if_false] at h; exact ⟨rfl, h⟩
  | true =>
    simp only [hs, if_true, Prod.mk.injEq] at h
    split at h
    · simp at h
    · simp only [Res.ret.injEq] at h; rw [← h.2, hs] at hr; simp at hr

theorem checked_ok {s st f} (h : st.isErr = false) : checked s st f = f s := by
  simp [checked, checkStatus, h]

theorem checked_err {s st f} (h : st.isErr = true) (hc : st.isCrash = false) : checked s st f = (s, .ret st) := by
  simp [checked, checkStatus, h, hc]

/-! ## Frame -/

/-- The registered parts, the flag and the kind of the schedule are kept, calls are only added. -/
structure Frame (s s' : Pipe) : Prop where
  isInit : s'.isInit = s.isInit
  params : s'.params = s.params
  events : s'.events = s.events
  elems : s'.elems = s.elems
  stages : s'.stages = s.stages
  daemons : s'.daemons = s.daemons
  unique : s'.unique = s.unique
  calls : s.calls <+: s'.calls

theorem Frame.refl (s : Pipe) : Frame s s := ⟨rfl, rfl, rfl, rfl, rfl, rfl, rfl, List.prefix_rfl⟩

theorem Frame.trans {a b c : Pipe} (h : Frame a b) (g : Frame b c) : Frame a c :=
  ⟨g.isInit.trans h.isInit, g.params.trans h.params, g.events.trans h.events, g.elems.trans h.elems,
    g.stages.trans h.stages, g.daemons.trans h.daemons, g.unique.trans h.unique, h.calls.trans g.calls⟩

theorem call_frame (env : PEnv) (s : Pipe) (c : PCall) : Frame s (call env s c).1 :=
  ⟨rfl, rfl, rfl, rfl, rfl, rfl, rfl, List.prefix_append _ _⟩

theorem sumAll_frame (env : PEnv) (c : Nat → PCall) (l : List Nat) (st : CStatus) (s : Pipe) :
    Frame s (sumAll env c l st s).1 := by
  induction l generalizing st s with
  | nil => exact Frame.refl s
  | cons i l ih =>
    exact andThen_keep (Frame s) (call_frame env s (c i)) (fun s' r h => h.trans (ih _ s'))

theorem untilErr_frame (env : PEnv) (c : Nat → PCall) (l : List Nat) (st : CStatus) (s : Pipe) :
    Frame s (untilErr env c l st s).1 := by
  induction l generalizing st s with
  | nil => exact Frame.refl s
  | cons i l ih =>
    exact andThen_keep (Frame s) (call_frame env s (c i))
      (fun s' r h => checked_keep (Frame s) h (h.trans (ih _ s')))

theorem each_frame (env : PEnv) (c : Nat → PCall) (l : List Nat) (st : CStatus) (s : Pipe) :
    Frame s (each env c l st s).1 := by
  induction l generalizing st s with
  | nil => exact Frame.refl s
  | cons i l ih =>
    exact andThen_keep (Frame s) (call_frame env s (c i)) (fun s' r h => h.trans (ih _ s'))

/-- Changes of the pool, the engine and the pushed state are within the frame. -/
theorem Frame.soft {a s : Pipe} (h : Frame a s) (p e u : Bool) (st : EState) :
    Frame a { s with poolUp := p, engineUp := e, state := st, ub := u } :=
  ⟨h.isInit, h.params, h.events, h.elems, h.stages, h.daemons, h.unique, h.calls⟩

theorem scheduleInit_frame (env : PEnv) (s : Pipe) : Frame s (scheduleInit env s).1 :=
  andThen_keep (Frame s) (((Frame.refl s).soft _ _ _ _).trans (call_frame _ _ _))
    (fun _ _ h => checked_keep (Frame s) h (h.soft _ _ _ _))

theorem repoInit_frame (env : PEnv) (s : Pipe) : Frame s (repoInit env s).1 :=
  andThen_keep (Frame s) (untilErr_frame _ _ _ _ _) (fun _ _ h => checked_keep (Frame s) h (h.soft _ _ _ _))

theorem initEnv_frame (env : PEnv) (s : Pipe) : Frame s (initEnv env s).1 :=
  andThen_keep (Frame s) (scheduleInit_frame env s)
    (fun _ _ h => checked_keep (Frame s) h
      (andThen_keep (Frame s) (h.trans (repoInit_frame _ _)) (fun _ _ h => h)))

theorem elemInit_frame (env : PEnv) (s : Pipe) : Frame s (elemInit env s).1 :=
  andThen_keep (Frame s) (((Frame.refl s).soft _ _ _ _).trans (call_frame _ _ _))
    (fun _ _ h => checked_keep (Frame s) h (h.trans (untilErr_frame _ _ _ _ _)))

theorem elemDestroy_frame (env : PEnv) (s : Pipe) : Frame s (elemDestroy env s).1 :=
  andThen_keep (Frame s) (untilErr_frame _ _ _ _ _) (fun _ _ h => checked_keep (Frame s) h (h.soft _ _ _ _))

theorem engineRun_frame (env : PEnv) (s : Pipe) : Frame s (engineRun env s).1 :=
  ⟨rfl, rfl, rfl, rfl, rfl, rfl, rfl, List.prefix_append _ _⟩

/-- The frame of a function that may change the flag: everything but the flag. -/
structure Loose (s s' : Pipe) : Prop where
  params : s'.params = s.params
  events : s'.events = s.events
  elems : s'.elems = s.elems
  stages : s'.stages = s.stages
  daemons : s'.daemons = s.daemons
  unique : s'.unique = s.unique
  calls : s.calls <+: s'.calls

theorem Frame.loose {s s' : Pipe} (h : Frame s s') : Loose s s' :=
  ⟨h.params, h.events, h.elems, h.stages, h.daemons, h.unique, h.calls⟩

theorem Loose.trans {a b c : Pipe} (h : Loose a b) (g : Loose b c) : Loose a c :=
  ⟨g.params.trans h.params, g.events.trans h.events, g.elems.trans h.elems,
    g.stages.trans h.stages, g.daemons.trans h.daemons, g.unique.trans h.unique, h.calls.trans g.calls⟩

/-- `init` outside its guard: either it ended before the flag was set, or it returned without error. -/
theorem init_body (env : PEnv) (s : Pipe) (h : s.isInit = false) :
    (Frame s (init env s).1 ∧ ∀ r, (init env s).2 = .ret r → r.isErr = true) ∨
    (∃ s' r, Frame s s' ∧ init env s = ({ s' with isInit := true }, .ret r) ∧ r.isErr = false) := by
  let Q : Pipe × Res CStatus → Prop := fun y =>
    (Frame s y.1 ∧ ∀ r, y.2 = .ret r → r.isErr = true) ∨
    (∃ s' r, Frame s s' ∧ y = ({ s' with isInit := true }, .ret r) ∧ r.isErr = false)
  have thr : ∀ s' m, Frame s s' → Q (s', .throw m) := fun s' m h => .inl ⟨h, fun r hr => by simp at hr⟩
  -- an early return with an error
  have early : ∀ (s' : Pipe) (st : CStatus) (f : Pipe → Pipe × Res CStatus), Frame s s' → (st.isErr = false → Q (f s')) →
      Q (checked s' st f) := by
    intro s' st f hs hf
    rw [checked_eq]
    cases he : st.isErr with
    | false => exact hf he
    | true =>
      simp only [if_true]
      cases st.isCrash with
      | true => exact thr _ _ hs
      | false => exact .inl ⟨hs, fun r hr => by simp only [Bool.false_eq_true, if_false, Res.ret.injEq] at hr; rw [← hr]; exact he⟩
  show Q (init env s)
  unfold init
  simp only [h, Bool.false_eq_true, if_false]
  refine andThen_post (Frame s) Q (initEnv_frame env s) thr fun s st hs => ?_
  refine early s _ _ hs fun _ => ?_
  refine andThen_post (Frame _) Q (hs.trans (sumAll_frame _ _ _ _ _)) thr fun s st hs => ?_
  refine andThen_post (Frame _) Q (hs.trans (sumAll_frame _ _ _ _ _)) thr fun s st hs => ?_
  refine andThen_post (Frame _) Q (hs.trans (elemInit_frame _ _)) thr fun s st hs => ?_
  refine andThen_post (Frame _) Q (hs.trans (sumAll_frame _ _ _ _ _)) thr fun s st hs => ?_
  refine andThen_post (Frame _) Q (hs.trans (sumAll_frame _ _ _ _ _)) thr fun s st hs => ?_
  exact early s _ _ hs fun he => .inr ⟨s, _, hs, rfl, he⟩

/-- `destroy` outside its guard. -/
theorem destroy_body (env : PEnv) (s : Pipe) (h : s.isInit = true) :
    (Frame s (destroy env s).1 ∧ ∀ r, (destroy env s).2 = .ret r → r.isErr = true) ∨
    (∃ s' r, Frame s s' ∧ destroy env s = ({ s' with isInit := false }, .ret r) ∧ r.isErr = false) := by
  let Q : Pipe × Res CStatus → Prop := fun y =>
    (Frame s y.1 ∧ ∀ r, y.2 = .ret r → r.isErr = true) ∨
    (∃ s' r, Frame s s' ∧ y = ({ s' with isInit := false }, .ret r) ∧ r.isErr = false)
  have thr : ∀ s' m, Frame s s' → Q (s', .throw m) := fun s' m h => .inl ⟨h, fun r hr => by simp at hr⟩
  show Q (destroy env s)
  unfold destroy
  simp only [h, Bool.not_true, Bool.false_eq_true, if_false]
  refine andThen_post (Frame s) Q (((Frame.refl s).soft _ _ _ _).trans (sumAll_frame _ _ _ _ _)) thr
    fun s st hs => ?_
  refine andThen_post (Frame _) Q (hs.trans (sumAll_frame _ _ _ _ _)) thr fun s st hs => ?_
  refine andThen_post (Frame _) Q (hs.trans (elemDestroy_frame _ _)) thr fun s st hs => ?_
  refine andThen_post (Frame _) Q (hs.trans (sumAll_frame _ _ _ _ _)) thr fun s st hs => ?_
  refine andThen_post (Frame _) Q (hs.trans (sumAll_frame _ _ _ _ _)) thr fun s st hs => ?_
  show Q (checked _ _ _)
  rw [checked_eq]
  split
  · rename_i he
    split
    · exact thr _ _ hs
    · exact .inl ⟨hs, fun r hr => by simp only [Res.ret.injEq] at hr; rw [← hr]; exact he⟩
  · rename_i he; exact .inr ⟨s, _, hs, rfl, by simpa using he⟩

theorem run_frame (env : PEnv) (s : Pipe) : Frame s (run env s).1 := by
  unfold run
  split
  · exact Frame.refl s
  · refine plus_keep (Frame s) (((Frame.refl s).soft _ _ _ _).trans (sumAll_frame _ _ _ _ _)) fun s' st hs => ?_
    refine checked_keep (Frame s) hs ?_
    refine andThen_keep (Frame s) (hs.trans (engineRun_frame _ _)) fun s' r hs => ?_
    refine plus_keep (Frame s) (hs.trans (call_frame _ _ _)) fun s' st hs => ?_
    refine andThen_keep (Frame s) (hs.trans (each_frame _ _ _ _ _)) fun s' st hs => ?_
    exact hs.trans (each_frame _ _ _ _ _)

theorem loop_frame (env : PEnv) (n : Nat) (st : CStatus) (s : Pipe) : Frame s (loop env n st s).1 := by
  induction n generalizing st s with
  | zero => exact Frame.refl s
  | succ n ih =>
    unfold loop
    split
    · exact plus_keep (Frame s) (run_frame env s) fun s' st hs => hs.trans (ih _ _)
    · exact Frame.refl s

/-! ## Complete passes -/

theorem call_ret {env s c s' r} (h : call env s c = (s', .ret r)) :
    s' = { s with calls := s.calls ++ [c] } ∧ env.answer s.calls c = .ret r := by
  simp only [call, Prod.mk.injEq] at h
  exact ⟨h.1.symm, h.2⟩

theorem add_of_add_ok {a b : CStatus} (h : (a.add b).isErr = false) : a.isErr = false ∧ b.isErr = false := by
  rw [CStatus.add_isErr] at h
  simpa using h

theorem sumAll_ret {env c l st s s' r} (h : sumAll env c l st s = (s', .ret r)) :
    s' = { s with calls := s.calls ++ l.map c } ∧ (r.isErr = false → st.isErr = false) := by
  induction l generalizing st s with
  | nil =>
    simp only [sumAll, Prod.mk.injEq, Res.ret.injEq] at h
    obtain ⟨rfl, rfl⟩ := h
    simp
  | cons i l ih =>
    obtain ⟨s₁, r₁, h1, h2⟩ := andThen_ret.mp h
    obtain ⟨rfl, _⟩ := call_ret h1
    obtain ⟨rfl, h3⟩ := ih h2
    exact ⟨by simp, fun hr => (add_of_add_ok (h3 hr)).1⟩

theorem assign_isErr (a b : CStatus) : (a.assign b).isErr = b.isErr := by
  unfold CStatus.assign
  split
  · rfl
  · rename_i h
    simp only [ne_eq, Classical.not_not] at h
    simp [CStatus.isErr, h]

theorem untilErr_ret {env c l st s s' r} (h : untilErr env c l st s = (s', .ret r)) (hr : r.isErr = false) :
    s' = { s with calls := s.calls ++ l.map c } ∧ (st.isErr = true → l ≠ []) := by
  induction l generalizing st s with
  | nil =>
    simp only [untilErr, Prod.mk.injEq, Res.ret.injEq] at h
    obtain ⟨rfl, rfl⟩ := h
    simp [hr]
  | cons i l ih =>
    obtain ⟨s₁, r₁, h1, h2⟩ := andThen_ret.mp h
    obtain ⟨rfl, _⟩ := call_ret h1
    obtain ⟨_, h3⟩ := checked_ret h2 hr
    obtain ⟨rfl, _⟩ := ih h3
    exact ⟨by simp, by simp⟩

theorem each_ret {env c l st s s' r} (h : each env c l st s = (s', .ret r)) :
    s' = { s with calls := s.calls ++ l.map c } ∧ r = st := by
  induction l generalizing s with
  | nil =>
    simp only [each, Prod.mk.injEq, Res.ret.injEq] at h
    obtain ⟨rfl, rfl⟩ := h
    simp
  | cons i l ih =>
    obtain ⟨s₁, r₁, h1, h2⟩ := andThen_ret.mp h
    obtain ⟨rfl, _⟩ := call_ret h1
    obtain ⟨rfl, rfl⟩ := ih h2
    exact ⟨by simp, rfl⟩

end CGraph.Pipe
