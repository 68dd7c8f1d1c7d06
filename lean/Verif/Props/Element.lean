import Verif.Lemmas.ElementRun
import Verif.Lemmas.ElementHold

/-! # C39 to C43: running an element -/
namespace CGraph
open Spec M CStatus

/-! ## Example material -/

/-- Everything answers OK. -/
def exUser : User where
  prep := fun _ _ => .ret .ok
  beginA := fun _ _ _ _ => .ret .ok
  finishA := fun _ _ _ _ _ => .ret ()
  crashA := fun _ _ _ => .ret ()
  timeoutA := fun _ _ _ => .ret ()
  body := fun _ _ _ => .ret .ok
  hold := fun _ _ => .ret false
  check := fun _ _ => .ret .ok
  crashed := fun _ m _ => .ret (defaultCrashed m)
  state := fun _ _ => .normal
  ready := fun _ _ => true
  choose := fun _ _ => .ret 0
  isMatch := fun _ _ => .ret true
  order := fun _ _ => []

/-- An element with loop count 3 and two aspects. -/
def exElem : Elem := ⟨7, "n", true, 3, [1, 2], 0, .asError⟩

/-- Nothing happened yet. -/
def exW0 : World := ⟨[], fun _ => false⟩

/-- The body fails the second time. -/
def exUserFail : User := { exUser with
  body := fun _ _ t => if 2 ≤ t.countP isEnter then .ret (CStatus.err "x") else .ret .ok }

/-- The second begin aspect throws. -/
def exUserThrow : User := { exUser with beginA := fun _ a _ _ => if a = 2 then .thr (.c "boom") else .ret .ok }

/-- The body throws something that is no `CException`. -/
def exUserOther : User := { exUser with body := fun _ _ _ => .thr (.other "bad_alloc") }

/-- The crash handler itself throws. -/
def exUserHandler : User := { exUserThrow with crashed := fun _ _ _ => .thr (.c "again") }

/-- `isHold` answers yes three times. -/
def exUserHold : User := { exUser with hold := fun _ t => .ret (decide (t.countP isEnter < 4)) }

/-- `prepareRun` answers with a positive code. -/
def exUserWarn : User := { exUser with prep := fun _ _ => .ret ⟨1, "note"⟩ }

/-- Outcome of a run from the beginning, number of body calls, crash handler calls and events. -/
def exRun (U : User) (F : Nat) (e : Elem) : Option (Out CStatus × Nat × Nat × Nat) :=
  (fatRun U F e (nodeBody U e.id .run) exW0).map fun r =>
    (r.1, r.2.tr.countP isEnter, r.2.tr.countP isCrashed, r.2.tr.length)

theorem exRun_spec {U : User} {F : Nat} {e : Elem} {o : Out CStatus} {a b c : Nat} (h : exRun U F e = some (o, a, b, c)) :
    ∃ w', fatRun U F e (nodeBody U e.id .run) exW0 = some (o, w') ∧ w'.tr.countP isEnter = a ∧
      w'.tr.countP isCrashed = b := by
  unfold exRun at h
  cases hf : fatRun U F e (nodeBody U e.id .run) exW0 with
  | none => rw [hf] at h; simp at h
  | some r =>
    rw [hf] at h
    simp only [Option.map_some, Option.some.injEq, Prod.mk.injEq] at h
    exact ⟨r.2, by rw [← h.1], h.2.1, h.2.2.1⟩

theorem exFine : Fine exUser exElem (nodeBody exUser 7 .run) where
  visible := rfl
  prep := fun _ => ⟨_, rfl, rfl⟩
  beginA := fun _ _ => ⟨_, rfl, rfl⟩
  finishA := fun _ _ _ => rfl
  hold := fun _ => ⟨_, rfl⟩
  check := fun _ => ⟨_, rfl, rfl⟩
  normal := fun _ => rfl
  bodyFine := by
    intro w o w' h
    simp only [nodeBody, exUser, Option.some.injEq, Prod.mk.injEq] at h
    exact ⟨_, h.1.symm, rfl⟩
  quiet := Quiet.node _ _ _
  ready := fun _ _ => rfl

/-! ## C39 -/

/-- C39, the run without failures: whatever the element's user code, aspects and body are, if none of them fails and the
state stays normal, then a run that ends returns OK and the calls made for the element are exactly: `prepareRun` if it
was not called before; then as many rounds as the loop count says, each with all begin aspects in order, the body
(again as often as `isHold` asked for), all finish aspects in order; then `checkRunResult`.  Without hold the body is
run exactly once per round.  Missing: `prepareRun` returning a positive code, see `C39_violated`. -/
theorem C39_success_partial {U : User} {F : Nat} {e : Elem} {body : M CStatus} (hf : Fine U e body) {w w' : World}
    {o : Out CStatus} (h : fatRun U F e body w = some (o, w')) :
    o = .ret CStatus.ok ∧ ∃ ks : List Nat, ks.length = e.loop ∧
      calls e.id w'.tr = calls e.id w.tr ++ ((if w.prepared e.id then [] else [.prep e.id (.ret .ok)]) ++
        ks.flatMap (round e.id e.aspects) ++ [.check e.id (.ret .ok)]) ∧
      ((∀ t, U.hold e.id t = .ret false) → ∀ k ∈ ks, k = 0) :=
  fatRun_fine hf h

/-- C39: an element that is never held comes to an end, whatever its user code does. -/
theorem C39_ends {U : User} {e : Elem} {body : M CStatus} (hb : ∀ w, (body w).isSome)
    (hh : ∀ t, U.hold e.id t ≠ .ret true) (F : Nat) (w : World) : (fatRun U (F + 1) e body w).isSome :=
  fatRun_isSome hb hh F w

example : exRun exUser 1 exElem = some (.ret .ok, 3, 0, 26) := by decide +kernel
example : Fine exUser exElem (nodeBody exUser 7 .run) := exFine
example : (∀ w, (nodeBody exUser 7 .run w).isSome) ∧ ∀ t, exUser.hold exElem.id t ≠ .ret true :=
  ⟨fun _ => rfl, fun _ => by simp [exUser]⟩

/-- Everything a run of an element can leave behind. -/
theorem fatRun_good {U : User} {F : Nat} {e : Elem} {body : M CStatus} (hb : Quiet e.id body) {w w' : World}
    {o : Out CStatus} (h : fatRun U F e body w = some (o, w')) :
    ∃ l, own e.id w'.tr = own e.id w.tr ++ l ∧
      ((Good l o ∧ ∀ msg, o ≠ .thr (.c msg)) ∨
       ∃ l0 msg, Good l0 (.thr (.c msg)) ∧
        ((l = l0 ++ (e.aspects.map (fun a => .crashA e.id a (.ret ())) ++ [.crashed e.id msg o])) ∨
         (∃ done a more x, e.aspects = done ++ a :: more ∧ o = .thr x ∧
          l = l0 ++ (done.map (fun a => .crashA e.id a (.ret ())) ++ [.crashA e.id a (.thr x)])))) := by
  unfold fatRun at h
  split at h
  · exact guarded_good (fun o w' h => runBranch_good hb h) h
  · simp only [M.pure, Option.some.injEq, Prod.mk.injEq] at h
    obtain ⟨rfl, rfl⟩ := h
    exact ⟨[], by simp, .inl ⟨Clean.good (by intro a ha; simp at ha) ok_not_err, by simp⟩⟩

/-- The same for `init` and `destroy`. -/
theorem fatLife_good {U : User} {e : Elem} {p : Phase} {body : M CStatus} (hb : Quiet e.id body) {w w' : World}
    {o : Out CStatus} (h : fatLife U e p body w = some (o, w')) :
    ∃ l, own e.id w'.tr = own e.id w.tr ++ l ∧
      ((Good l o ∧ ∀ msg, o ≠ .thr (.c msg)) ∨
       ∃ l0 msg, Good l0 (.thr (.c msg)) ∧
        ((l = l0 ++ (e.aspects.map (fun a => .crashA e.id a (.ret ())) ++ [.crashed e.id msg o])) ∨
         (∃ done a more x, e.aspects = done ++ a :: more ∧ o = .thr x ∧
          l = l0 ++ (done.map (fun a => .crashA e.id a (.ret ())) ++ [.crashA e.id a (.thr x)])))) := by
  unfold fatLife at h
  split at h
  · exact guarded_good (fun o w' h => lifeBranch_good hb h) h
  · simp only [M.pure, Option.some.injEq, Prod.mk.injEq] at h
    obtain ⟨rfl, rfl⟩ := h
    exact ⟨[], by simp, .inl ⟨Clean.good (by intro a ha; simp at ha) ok_not_err, by simp⟩⟩

theorem stop_of_good {e : Elem} {o : Out CStatus} {l : Trace}
    (h : (Good l o ∧ ∀ msg, o ≠ .thr (.c msg)) ∨
       ∃ l0 msg, Good l0 (.thr (.c msg)) ∧
        ((l = l0 ++ (e.aspects.map (fun a => .crashA e.id a (.ret ())) ++ [.crashed e.id msg o])) ∨
         (∃ done a more x, e.aspects = done ++ a :: more ∧ o = .thr x ∧
          l = l0 ++ (done.map (fun a => .crashA e.id a (.ret ())) ++ [.crashA e.id a (.thr x)])))) :
    l.Pairwise (fun a b => failing a = true → isEnter b = false) := by
  have key : ∀ l0 m : Trace, l0.Pairwise (fun a b => failing a = true → isEnter b = false) → NoEnter m →
      (l0 ++ m).Pairwise (fun a b => failing a = true → isEnter b = false) := by
    intro l0 m h1 h2
    refine List.pairwise_append.2 ⟨h1, ?_, fun a _ b hb _ => h2 b hb⟩
    exact List.Pairwise.imp_of_mem (R := fun _ _ => True) (fun _ hb _ _ => h2 _ hb) (pw_true _)
  have h0 : ∀ l : List Nat, NoEnter (l.map fun a => Act.crashA e.id a (.ret ())) := by
    intro l a ha
    obtain ⟨r, _, rfl⟩ := List.mem_map.1 ha
    rfl
  rcases h with ⟨g, _⟩ | ⟨l0, msg, g, rfl | ⟨done, a, more, x, _, _, rfl⟩⟩
  · exact g.pw
  · exact key _ _ g.pw ((h0 _).append (noEnter_single rfl))
  · exact key _ _ g.pw ((h0 _).append (noEnter_single rfl))

/-- C39: after the first failing call of the element — `prepareRun`, a begin aspect or the body returning an error, or
anything of it throwing — its body is not entered again in this run.  For arbitrary user code. -/
theorem C39_stop {U : User} {F : Nat} {e : Elem} {body : M CStatus} (hb : Quiet e.id body) {w w' : World}
    {o : Out CStatus} (h : fatRun U F e body w = some (o, w')) :
    ∃ l, own e.id w'.tr = own e.id w.tr ++ l ∧ l.Pairwise (fun a b => failing a = true → isEnter b = false) := by
  obtain ⟨l, e1, g⟩ := fatRun_good hb h
  exact ⟨l, e1, stop_of_good g⟩

/-- C39: the status reported by a run without exceptions is the first error that `prepareRun`, a begin aspect or the body
returned; if there was none, it is no error. -/
theorem C39_status {U : User} {F : Nat} {e : Elem} {body : M CStatus} (hb : Quiet e.id body) {w w' : World}
    {s : CStatus} (h : fatRun U F e body w = some (.ret s, w')) :
    ∃ l, own e.id w'.tr = own e.id w.tr ++ l ∧ ((∀ a ∈ l, isCrashed a = false) →
      (s.isErr = true ∧ l.findSome? errOf = some s) ∨ (s.isErr = false ∧ l.findSome? errOf = none)) := by
  obtain ⟨l, e1, g⟩ := fatRun_good hb h
  refine ⟨l, e1, ?_⟩
  intro hn
  rcases g with ⟨g, _⟩ | ⟨l0, msg, _, rfl | ⟨_, _, _, _, _, hbad, _⟩⟩
  · obtain ⟨g1, g2⟩ := g.ret s rfl
    rcases g2 with g2 | ⟨g2, g3⟩
    · exact .inl g2
    · exact .inr ⟨g2, (g.clean g2).findSome⟩
  · have := hn (.crashed e.id msg (.ret s)) (by simp)
    simp [isCrashed] at this
  · simp at hbad

example : exRun exUserFail 1 exElem = some (.ret (CStatus.err "x"), 2, 0, 18) := by decide +kernel
example : Quiet exElem.id (nodeBody exUserFail 7 .run) := Quiet.node _ _ _

/-- C39 is violated when `prepareRun` returns a positive code: nothing is run, and no error is reported. -/
theorem C39_violated : ∃ (U : User) (e : Elem) (s : CStatus) (w' : World), e.loop = 3 ∧
    (∀ t, U.prep e.id t = .ret s ∧ s.isErr = false) ∧
    fatRun U 1 e (nodeBody U e.id .run) exW0 = some (.ret s, w') ∧ w'.tr.countP isEnter = 0 :=
  by
  obtain ⟨w', h1, h2, _⟩ := exRun_spec (U := exUserWarn) (F := 1) (e := exElem) (o := .ret ⟨1, "note"⟩) (a := 0) (b := 0)
    (c := 2) (by decide +kernel)
  exact ⟨exUserWarn, exElem, ⟨1, "note"⟩, w', rfl, fun _ => ⟨rfl, by decide⟩, h1, h2⟩

/-! ## C40 -/

/-- What C40 says about the events `l` of one element and the outcome of the call. -/
def Contained (e : Elem) (l : Trace) (o : Out CStatus) : Prop :=
  (∃ s, o = .ret s) ∧
  (((∀ a ∈ l, isCrashed a = false) ∧ ∀ a ∈ l, excOf a = none) ∨
   ∃ l0 a msg s, l = l0 ++ a :: (e.aspects.map (fun a => .crashA e.id a (.ret ())) ++ [.crashed e.id msg (.ret s)]) ∧
     causes a (.c msg) ∧ o = .ret s ∧ (∀ b ∈ l0 ++ [a], isCrashed b = false) ∧ ∀ b ∈ l0, excOf b = none)

theorem contained_of_good {e : Elem} {o : Out CStatus} {l : Trace}
    (h : (Good l o ∧ ∀ msg, o ≠ .thr (.c msg)) ∨
       ∃ l0 msg, Good l0 (.thr (.c msg)) ∧
        ((l = l0 ++ (e.aspects.map (fun a => .crashA e.id a (.ret ())) ++ [.crashed e.id msg o])) ∨
         (∃ done a more x, e.aspects = done ++ a :: more ∧ o = .thr x ∧
          l = l0 ++ (done.map (fun a => .crashA e.id a (.ret ())) ++ [.crashA e.id a (.thr x)]))))
    (hother : ∀ a ∈ l, ∀ t, excOf a ≠ some (.other t))
    (hhandler : ∀ a ∈ l, ∀ x k m, a ≠ .crashA e.id k (.thr x) ∧ a ≠ .crashed e.id m (.thr x)) :
    Contained e l o := by
  rcases h with ⟨g, hno⟩ | ⟨l0, msg, g, rfl | ⟨done, a, more, x, _, rfl, rfl⟩⟩
  · cases o with
    | ret s => exact ⟨⟨s, rfl⟩, .inl ⟨g.noCrashed, (g.ret s rfl).1⟩⟩
    | thr x =>
      cases x with
      | c m => exact absurd rfl (hno m)
      | other t =>
        obtain ⟨l0, a, rfl, _, hc⟩ := g.thr _ rfl
        cases hc with
        | thrown hx => exact absurd hx (hother a (by simp) t)
  · cases o with
    | ret s =>
      obtain ⟨l1, a, rfl, h1, h2⟩ := g.thr _ rfl
      exact ⟨⟨s, rfl⟩, .inr ⟨l1, a, msg, s, by simp, h2, rfl, g.noCrashed, h1⟩⟩
    | thr x => exact absurd rfl (hhandler (.crashed e.id msg (.thr x)) (by simp) x 0 msg).2
  · exact absurd rfl (hhandler (.crashA e.id a (.thr x)) (by simp) x a "").1

/-- C40, partial: if the exceptions thrown by the element's own code are `CException`s and the crash handler and crash
aspects do not throw, then a run never ends with an exception; if something threw (or the crash code was returned, or
`checkRunResult` failed) then the crash aspects are called in order, then `crashed` exactly once, with the text of that
exception, nothing is called afterwards, and its status is reported.  Missing: other exception types and throwing
handlers, see `C40_violated`. -/
theorem C40_run_partial {U : User} {F : Nat} {e : Elem} {body : M CStatus} (hb : Quiet e.id body) {w w' : World}
    {o : Out CStatus} (h : fatRun U F e body w = some (o, w')) :
    ∃ l, own e.id w'.tr = own e.id w.tr ++ l ∧
      ((∀ a ∈ l, ∀ t, excOf a ≠ some (.other t)) →
       (∀ a ∈ l, ∀ x k m, a ≠ .crashA e.id k (.thr x) ∧ a ≠ .crashed e.id m (.thr x)) → Contained e l o) := by
  obtain ⟨l, e1, g⟩ := fatRun_good hb h
  exact ⟨l, e1, contained_of_good g⟩

/-- C40, partial: the same for `init` and `destroy`. -/
theorem C40_life_partial {U : User} {e : Elem} {p : Phase} {body : M CStatus} (hb : Quiet e.id body) {w w' : World}
    {o : Out CStatus} (h : fatLife U e p body w = some (o, w')) :
    ∃ l, own e.id w'.tr = own e.id w.tr ++ l ∧
      ((∀ a ∈ l, ∀ t, excOf a ≠ some (.other t)) →
       (∀ a ∈ l, ∀ x k m, a ≠ .crashA e.id k (.thr x) ∧ a ≠ .crashed e.id m (.thr x)) → Contained e l o) := by
  obtain ⟨l, e1, g⟩ := fatLife_good hb h
  exact ⟨l, e1, contained_of_good g⟩

theorem crashed_status_run {U : User} {F : Nat} {e : Elem} {body : M CStatus}
    (hd : ∀ m t, U.crashed e.id m t = .ret (defaultCrashed m)) {w w' : World} {o : Out CStatus}
    {l : Trace} (h : fatRun U F e body w = some (o, w')) (msg : String) (r : Out CStatus)
    (hl : own e.id w'.tr = own e.id w.tr ++ l ∧ .crashed e.id msg r ∈ l) (hb : Quiet e.id body) :
    o = .ret ⟨STATUS_CRASH, msg⟩ := by
  unfold fatRun at h
  split at h
  · rcases guarded_cases h with ⟨h1, _⟩ | ⟨m, w1, h1, h2⟩
    · obtain ⟨l', e1, g⟩ := runBranch_good hb h1
      have : l' = l := List.append_cancel_left (e1.symm.trans hl.1)
      subst this
      have := g.noCrashed _ hl.2
      simp [isCrashed] at this
    · obtain ⟨l0, e1, g⟩ := runBranch_good hb h1
      have hso : ∀ o', onCrash U e m w1 = some (o', w') → o' = o := by
        intro o' ho'; rw [h2] at ho'; simp at ho'; exact ho'.symm
      unfold onCrash at h2
      rcases bind_some h2 with ⟨u, w2, h3, h4⟩ | ⟨x, h3, rfl⟩
      · rw [emit_eq, hd] at h4
        simp only [Option.some.injEq, Prod.mk.injEq] at h4
        obtain ⟨rfl, rfl⟩ := h4
        obtain ⟨_, h5⟩ := doCrash_adds _ _ _ _ _ _ h3
        rcases h5 with ⟨_, e3⟩ | ⟨_, _, _, _, _, hbad, _⟩
        rotate_left
        · simp at hbad
        have e4 : own e.id (w2.tr ++ [.crashed e.id m (.ret (defaultCrashed m))]) = own e.id w.tr ++
            (l0 ++ (e.aspects.map (fun a => .crashA e.id a (.ret ())) ++ [.crashed e.id m (.ret (defaultCrashed m))])) := by
          rw [own_append, e3, e1]; simp [own, isNote, Act.id]
        have hl1 : own e.id (w2.tr ++ [.crashed e.id m (.ret (defaultCrashed m))]) = own e.id w.tr ++ l := hl.1
        have hleq := List.append_cancel_left (e4.symm.trans hl1)
        have hin := hl.2
        rw [← hleq] at hin
        have hm : m = msg := by
          rcases List.mem_append.1 hin with hin | hin
          · have := g.noCrashed _ hin; simp [isCrashed] at this
          · rcases List.mem_append.1 hin with hin | hin
            · obtain ⟨_, _, hx⟩ := List.mem_map.1 hin; simp at hx
            · simp at hin; exact hin.1.symm
        rw [← hm]; rfl
      · exfalso
        obtain ⟨_, h5⟩ := doCrash_adds _ _ _ _ _ _ h3
        rcases h5 with ⟨hbad, _⟩ | ⟨done, a, more, y, _, hy, e3⟩
        · simp at hbad
        have e4 : own e.id w'.tr = own e.id w.tr ++
            (l0 ++ (done.map (fun a => .crashA e.id a (.ret ())) ++ [.crashA e.id a (.thr y)])) := by
          rw [e3, e1]; simp only [List.append_assoc]
        have hleq := List.append_cancel_left (e4.symm.trans hl.1)
        have hin := hl.2
        rw [← hleq] at hin
        rcases List.mem_append.1 hin with hin | hin
        · have := g.noCrashed _ hin; simp [isCrashed] at this
        · rcases List.mem_append.1 hin with hin | hin
          · obtain ⟨_, _, hx⟩ := List.mem_map.1 hin; simp at hx
          · simp at hin
  · simp only [M.pure, Option.some.injEq, Prod.mk.injEq] at h
    obtain ⟨rfl, rfl⟩ := h
    have : l = [] := by
      have := hl.1
      simpa using this
    rw [this] at hl
    simp at hl

/-- C40: with the default crash handler the reported status has the crash code and the text of the exception. -/
theorem C40_default {U : User} {F : Nat} {e : Elem} {body : M CStatus} (hb : Quiet e.id body)
    (hd : ∀ m t, U.crashed e.id m t = .ret (defaultCrashed m)) {w w' : World} {o : Out CStatus}
    (h : fatRun U F e body w = some (o, w')) :
    ∃ l, own e.id w'.tr = own e.id w.tr ++ l ∧
      ∀ msg r, .crashed e.id msg r ∈ l → o = .ret ⟨-996, msg⟩ := by
  obtain ⟨l, e1, _⟩ := fatRun_good hb h
  exact ⟨l, e1, fun msg r hin => crashed_status_run hd h msg r ⟨e1, hin⟩ hb⟩

example : exRun exUserThrow 1 exElem = some (.ret ⟨-996, "boom"⟩, 0, 1, 7) := by decide +kernel

/-- C40 is violated: an exception of another type, and an exception thrown by the crash handler, leave the element. -/
theorem C40_violated :
    (∃ (U : User) (e : Elem) (w' : World),
      fatRun U 1 e (nodeBody U e.id .run) exW0 = some (.thr (.other "bad_alloc"), w') ∧ w'.tr.countP isCrashed = 0) ∧
    (∃ (U : User) (e : Elem) (w' : World), fatRun U 1 e (nodeBody U e.id .run) exW0 = some (.thr (.c "again"), w')) :=
  by
  obtain ⟨w1, h1, _, h2⟩ := exRun_spec (U := exUserOther) (F := 1) (e := exElem) (o := .thr (.other "bad_alloc")) (a := 1)
    (b := 0) (c := 6) (by decide +kernel)
  obtain ⟨w2, h3, _, _⟩ := exRun_spec (U := exUserHandler) (F := 1) (e := exElem) (o := .thr (.c "again")) (a := 0)
    (b := 1) (c := 7) (by decide +kernel)
  exact ⟨⟨exUserOther, exElem, w1, h1, h2⟩, ⟨exUserHandler, exElem, w2, h3⟩⟩

/-! ## C41 -/

/-- C41: for an element with loop count 1 and arbitrary user code, the body is either not entered at all, or its calls
are: repetitions in each of which the body succeeded and `isHold` then said yes, followed by one last call after which
`isHold` said no, or the body had failed, or something threw.  Nothing enters the body before or after. -/
theorem C41_hold {U : User} {F : Nat} {e : Elem} {body : M CStatus} (hb : Quiet e.id body) (hl : e.loop = 1)
    {w w' : World} {o : Out CStatus} (h : fatRun U F e body w = some (o, w')) :
    ∃ l, own e.id w'.tr = own e.id w.tr ++ l ∧
      ((∀ a ∈ l, isEnter a = false) ∨
       ∃ pre rs last post, l = pre ++ (repeats e.id rs ++ last) ++ post ∧ (∀ a ∈ pre, isEnter a = false) ∧
        (∀ a ∈ post, isEnter a = false) ∧ LastRun e.id last) :=
  fatRun_one hb hl h

example : exRun exUserHold 9 { exElem with loop := 1 } = some (.ret .ok, 4, 0, 19) := by decide +kernel

/-! ## C42 -/

/-- C42: after any history of calls, accepted or refused, before or after initialisation, inside or outside a mutable
group, the element is not both repeated and asynchronous, and its timeout is not negative. -/
theorem C42_no_conflict (ops : List CfgOp) :
    let c := ops.foldl Cfg.step Cfg.fresh
    ¬(1 < c.loop ∧ c.timeout ≠ 0) ∧ 0 ≤ c.timeout := by
  have step : ∀ (c : Cfg) (op : CfgOp), (¬(1 < c.loop ∧ c.timeout ≠ 0) ∧ 0 ≤ c.timeout) →
      ¬(1 < (c.step op).loop ∧ (c.step op).timeout ≠ 0) ∧ 0 ≤ (c.step op).timeout := by
    intro c op hc
    cases op with
    | setLoop n =>
      simp only [Cfg.step, Cfg.setLoop]
      split
      · exact hc
      · split
        · exact hc
        · rename_i h
          simp only [Bool.and_eq_true, decide_eq_true_iff, bne_iff_ne, ne_eq, not_and, Classical.not_not, Option.getD_some] at h ⊢
          refine ⟨fun hl => ?_, hc.2⟩
          have := hc.2
          by_cases ht : c.timeout > 0
          · have := h ht
            omega
          · omega
    | setTimeout t s =>
      simp only [Cfg.step, Cfg.setTimeout]
      split
      · exact hc
      · split
        · exact hc
        · split
          · exact hc
          · rename_i h1 h2
            simp only [Bool.and_eq_true, decide_eq_true_iff, bne_iff_ne, ne_eq, not_and, Classical.not_not, Option.getD_some] at h2 ⊢
            exact ⟨fun hl => h2 hl, by omega⟩
    | init b => exact hc
    | join b => exact hc
  intro c
  have : ∀ (ops : List CfgOp) (c : Cfg), (¬(1 < c.loop ∧ c.timeout ≠ 0) ∧ 0 ≤ c.timeout) →
      ¬(1 < (ops.foldl Cfg.step c).loop ∧ (ops.foldl Cfg.step c).timeout ≠ 0) ∧ 0 ≤ (ops.foldl Cfg.step c).timeout := by
    intro ops
    induction ops with
    | nil => intro c hc; exact hc
    | cons op ops ih => intro c hc; exact ih _ (step c op hc)
  exact this ops Cfg.fresh (by decide)

/-- C42: exactly which calls are accepted, and what they write. -/
theorem C42_accept (c : Cfg) (n : Nat) (t : Int) (s : TimeoutStrategy) :
    ((c.setLoop n).isSome = true ↔ (c.isInit = false ∨ c.isMutable = true) ∧ (c.timeout ≤ 0 ∨ n = 1)) ∧
    ((c.setTimeout t s).isSome = true ↔ c.isInit = false ∧ 0 ≤ t ∧ (c.loop ≤ 1 ∨ t = 0)) ∧
    (∀ c', c.setLoop n = some c' → c' = { c with loop := n }) ∧
    (∀ c', c.setTimeout t s = some c' → c' = { c with timeout := t, strategy := s }) := by
  refine ⟨?_, ?_, ?_, ?_⟩
  · unfold Cfg.setLoop
    cases c.isInit <;> cases c.isMutable <;> simp <;> omega
  · unfold Cfg.setTimeout
    cases c.isInit
    · simp only [Bool.false_eq_true, if_false, true_and]
      split
      · simp; omega
      · split
        · rename_i h2; simp at h2; simp; omega
        · rename_i h2; simp at h2; simp; omega
    · simp
  · intro c' h
    unfold Cfg.setLoop at h
    split at h
    · simp at h
    · split at h
      · simp at h
      · simpa using h.symm
  · intro c' h
    unfold Cfg.setTimeout at h
    split at h
    · simp at h
    · split at h
      · simp at h
      · split at h
        · simp at h
        · simpa using h.symm

example : [CfgOp.setLoop 5, .setTimeout 10 .asError, .setLoop 1, .setTimeout 10 .noHold, .setLoop 3, .init true,
    .setLoop 2].foldl Cfg.step Cfg.fresh = ⟨1, 10, .noHold, true, false⟩ := by decide

/-! ## C43 -/

/-- C43: begin aspects.  They are called in the order of the list; all are called when none fails; otherwise the calls
stop right after the first that fails, and its error is the result (as an exception for the crash code). -/
theorem C43_begin {U : User} {e : Nat} {p : Phase} {as : List Nat} {w w' : World} {o : Out CStatus}
    (h : doBegin U e p as CStatus.ok w = some (o, w')) :
    ∃ rs : List (Nat × CStatus), (∀ r ∈ rs, r.2.isErr = false) ∧
      ((rs.map Prod.fst = as ∧ (∃ s, o = .ret s ∧ s.isErr = false) ∧
          own e w'.tr = own e w.tr ++ rs.map (fun r => .beginA e r.1 p (.ret r.2))) ∨
       (∃ a r more, as = rs.map Prod.fst ++ a :: more ∧ failed r = true ∧
          own e w'.tr = own e w.tr ++ rs.map (fun r => .beginA e r.1 p (.ret r.2)) ++ [.beginA e a p r] ∧
          ((∃ s, r = .ret s ∧ s.isCrash = false ∧ o = .ret s) ∨
           (∃ s, r = .ret s ∧ s.isCrash = true ∧ o = .thr (.c (" | " ++ s.info))) ∨
           (∃ x, r = .thr x ∧ o = .thr x)))) :=
  (doBegin_adds U e p as CStatus.ok w w' o ok_not_err h).2

/-- C43: finish aspects.  All are called in order with the status of the body, unless one throws. -/
theorem C43_finish {U : User} {e : Nat} {p : Phase} {st : CStatus} {as : List Nat} {w w' : World} {o : Out Unit}
    (h : doFinish U e p st as w = some (o, w')) :
    (o = .ret () ∧ own e w'.tr = own e w.tr ++ as.map (fun a => .finishA e a p st (.ret ()))) ∨
     (∃ done a more x, as = done ++ a :: more ∧ o = .thr x ∧
        own e w'.tr = own e w.tr ++ done.map (fun a => .finishA e a p st (.ret ())) ++ [.finishA e a p st (.thr x)]) :=
  (doFinish_adds U e p st as w w' o h).2

/-- A call on the list of aspects. -/
inductive AOp where
  | add (a : Nat)
  | pop
  | init (b : Bool)
deriving DecidableEq, Repr

/-- The calls on the model. -/
def AOp.run (m : Aspects) : AOp → Aspects
  | .add a => m.add a
  | .pop => m.pop.1
  | .init b => { m with isInit := b }

/-- What the calls mean: a plain list and the initialisation flag. -/
def AOp.spec (l : List Nat × Bool) : AOp → List Nat × Bool
  | .add a => (l.1 ++ [a], l.2)
  | .pop => if l.2 then l else (l.1.dropLast, l.2)
  | .init b => (l.1, b)

theorem aspects_pop_list (m : Aspects) : m.pop.1.list = if m.isInit then m.list else m.list.dropLast := by
  unfold Aspects.pop
  cases hi : m.isInit
  · cases hm : m.mgr with
    | none => simp [Aspects.list, hm]
    | some l =>
      cases l with
      | nil => simp [Aspects.list, hm]
      | cons a as =>
        simp only [Bool.false_eq_true, if_false]
        split
        · rename_i h0
          have : (a :: as).dropLast = [] := List.eq_nil_of_length_eq_zero h0
          simp [Aspects.list, hm, this]
        · simp [Aspects.list, hm]
  · simp

theorem aspects_pop_init (m : Aspects) : m.pop.1.isInit = m.isInit := by
  unfold Aspects.pop
  split
  · rfl
  · split
    · rfl
    · rfl
    · split <;> rfl

/-- C43: after any history of additions and removals the aspects that will be applied are the ones added and not
withdrawn, in the order of their addition; withdrawing takes the last one away. -/
theorem C43_history (ops : List AOp) :
    let m := ops.foldl AOp.run ⟨none, false⟩
    (m.list, m.isInit) = ops.foldl AOp.spec ([], false) := by
  have : ∀ (ops : List AOp) (m : Aspects), ((ops.foldl AOp.run m).list, (ops.foldl AOp.run m).isInit) =
      ops.foldl AOp.spec (m.list, m.isInit) := by
    intro ops
    induction ops with
    | nil => intro m; rfl
    | cons op ops ih =>
      intro m
      simp only [List.foldl_cons]
      rw [ih]
      congr 1
      cases op with
      | add a => simp [AOp.run, AOp.spec, Aspects.add, Aspects.list]
      | pop =>
        simp only [AOp.run, AOp.spec, aspects_pop_list, aspects_pop_init]
        cases m.isInit <;> simp
      | init b => rfl
  exact this ops ⟨none, false⟩

/-- C43: withdrawing reports success exactly when there was an aspect and the element is not initialised. -/
theorem C43_pop_status (m : Aspects) : m.pop.2 = true ↔ m.isInit = false ∧ m.list ≠ [] := by
  unfold Aspects.pop Aspects.list
  cases m.isInit
  · cases m.mgr with
    | none => simp
    | some l =>
      cases l with
      | nil => simp
      | cons a as => simp only [Bool.false_eq_true, if_false]; split <;> simp
  · simp

/-- C43: adding and withdrawing gives back the list of before. -/
theorem C43_add_pop (m : Aspects) (a : Nat) (h : m.isInit = false) :
    ((m.add a).pop).1.list = m.list ∧ ((m.add a).pop).2 = true := by
  constructor
  · rw [aspects_pop_list]
    simp [Aspects.add, Aspects.list, h]
  · rw [C43_pop_status]
    simp [Aspects.add, Aspects.list, h]

example : ([AOp.add 1, .add 2, .pop, .add 3, .init true, .pop, .add 4].foldl AOp.run ⟨none, false⟩).list = [1, 3, 4] := by
  decide

end CGraph
