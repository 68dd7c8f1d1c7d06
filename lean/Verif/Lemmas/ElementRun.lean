import Verif.Lemmas.Element

/-! # A run of an element in which nothing fails -/
namespace CGraph
open Spec M CStatus

/-- Nothing that belongs to `e` fails, throws or changes the state. -/
structure Fine (U : User) (e : Elem) (body : M CStatus) : Prop where
  visible : e.visible = true
  prep : ∀ t, ∃ s, U.prep e.id t = .ret s ∧ s.isOK = true
  beginA : ∀ a t, ∃ s, U.beginA e.id a .run t = .ret s ∧ s.isErr = false
  finishA : ∀ a st t, U.finishA e.id a .run st t = .ret ()
  hold : ∀ t, ∃ b, U.hold e.id t = .ret b
  check : ∀ t, ∃ s, U.check e.id t = .ret s ∧ s.isErr = false
  normal : ∀ t, U.state e.id t = .normal
  bodyFine : ∀ w o w', body w = some (o, w') → ∃ s, o = .ret s ∧ s.isErr = false
  quiet : Quiet e.id body
  ready : e.isAsync = true → ∀ t, U.ready e.id t = true

theorem calls_append (e : Nat) (a b : Trace) : calls e (a ++ b) = calls e a ++ calls e b := by simp [calls, own]

theorem calls_of_own {e : Nat} {a b l : Trace} (h : own e a = own e b ++ l) : calls e a = calls e b ++ l.map shape := by
  simp [calls, h]

theorem theBody_fine {U : User} {e : Elem} {body : M CStatus} (hf : Fine U e body) {w w' : World} {o : Out CStatus}
    (h : theBody U e body w = some (o, w')) : ∃ s, o = .ret s ∧ s.isErr = false := by
  unfold theBody at h
  split at h
  · rename_i ha
    unfold asyncRun at h
    rcases bind_some h with ⟨r, w1, h1, h2⟩ | ⟨x, h1, rfl⟩
    · unfold capture at h1
      split at h1
      · simp at h1
      · rename_i o' w'' he
        simp only [Option.some.injEq, Prod.mk.injEq, Out.ret.injEq] at h1
        obtain ⟨rfl, rfl⟩ := h1
        obtain ⟨s, rfl, hs⟩ := hf.bodyFine _ _ _ he
        rcases bind_some h2 with ⟨b, w2, h3, h4⟩ | ⟨x, h3, rfl⟩
        · rw [emit_eq] at h3
          simp only [Option.some.injEq, Prod.mk.injEq, Out.ret.injEq] at h3
          obtain ⟨hb, rfl⟩ := h3
          rw [hf.ready ha] at hb
          subst hb
          simp only [if_true, ofOut, Option.some.injEq, Prod.mk.injEq] at h4
          exact ⟨s, h4.1.symm, hs⟩
        · rw [emit_eq] at h3; simp at h3
    · unfold capture at h1
      split at h1 <;> simp at h1
  · exact hf.bodyFine _ _ _ h

theorem doBegin_fine {U : User} {e : Nat} {p : Phase} (h : ∀ a t, ∃ s, U.beginA e a p t = .ret s ∧ s.isErr = false)
    (as : List Nat) : ∀ (st : CStatus) (w : World), st.isErr = false →
    ∃ s w', doBegin U e p as st w = some (.ret s, w') ∧ s.isErr = false ∧ w'.prepared = w.prepared ∧
      calls e w'.tr = calls e w.tr ++ as.map (fun a => .beginA e a p (.ret .ok)) := by
  induction as with
  | nil => intro st w hst; exact ⟨st, w, rfl, hst, rfl, by simp⟩
  | cons a as ih =>
    intro st w hst
    obtain ⟨r, hr, hre⟩ := h a w.tr
    have hne : (st.assign r).isErr = false := by rw [assign_isErr hst, hre]
    obtain ⟨s, w', h1, h2, h3, h4⟩ := ih (st.assign r) { w with tr := w.tr ++ [.beginA e a p (.ret r)] } hne
    refine ⟨s, w', ?_, h2, h3, ?_⟩
    · simp only [doBegin]
      rw [bind_ret (a := r) (w' := { w with tr := w.tr ++ [.beginA e a p (.ret r)] })]
      · rw [if_neg (by simp [hne])]; exact h1
      · rw [emit_eq, hr]
    · rw [h4, calls_append]
      simp [calls, own, isNote, Act.id, shape]

theorem doFinish_fine {U : User} {e : Nat} {p : Phase} (h : ∀ a st t, U.finishA e a p st t = .ret ()) (st : CStatus)
    (as : List Nat) : ∀ (w : World), ∃ w', doFinish U e p st as w = some (.ret (), w') ∧ w'.prepared = w.prepared ∧
      calls e w'.tr = calls e w.tr ++ as.map (fun a => .finishA e a p .ok (.ret ())) := by
  induction as with
  | nil => intro w; exact ⟨w, rfl, rfl, by simp⟩
  | cons a as ih =>
    intro w
    obtain ⟨w', h1, h3, h4⟩ := ih { w with tr := w.tr ++ [.finishA e a p st (.ret ())] }
    refine ⟨w', ?_, h3, ?_⟩
    · simp only [doFinish]
      rw [bind_ret (a := ()) (w' := { w with tr := w.tr ++ [.finishA e a p st (.ret ())] })]
      · exact h1
      · rw [emit_eq, h]
    · rw [h4, calls_append]
      simp [calls, own, isNote, Act.id, shape]

theorem holdLoop_fine {U : User} {e : Elem} {body : M CStatus} (hf : Fine U e body) : ∀ (F : Nat) (st : CStatus)
    (w w' : World) (o : Out CStatus), st.isOK = true → holdLoop U e body F st w = some (o, w') →
    o = .ret st ∧ w'.prepared e.id = w.prepared e.id ∧ ∃ k, calls e.id w'.tr =
      calls e.id w.tr ++ ((List.replicate k (once e.id true)).flatten ++ once e.id false) ∧
      ((∀ t, U.hold e.id t = .ret false) → k = 0) := by
  intro F
  induction F with
  | zero => intro st w w' o _ h; simp [holdLoop, diverge] at h
  | succ F ih =>
    intro st w w' o hst h
    simp only [holdLoop] at h
    have hq := theBody_quiet (U := U) hf.quiet
    rcases bind_some h with ⟨r, w1, h1, h2⟩ | ⟨x, h1, rfl⟩
    rotate_left
    · exfalso
      have h1 : bracket e.id .run (theBody U e body) w = some (.thr x, w') := h1
      unfold bracket at h1
      split at h1
      · simp at h1
      · rename_i o' w1 he
        simp only [Option.some.injEq, Prod.mk.injEq] at h1
        obtain ⟨rfl, _⟩ := h1
        obtain ⟨s, hs, _⟩ := theBody_fine hf he
        simp at hs
    have h1 : bracket e.id .run (theBody U e body) w = some (.ret r, w1) := h1
    obtain ⟨a1, a2⟩ := bracket_adds hq h1
    have hre : r.isErr = false := by
      unfold bracket at h1
      split at h1
      · simp at h1
      · rename_i o' w1 he
        simp only [Option.some.injEq, Prod.mk.injEq] at h1
        obtain ⟨rfl, _⟩ := h1
        obtain ⟨s, hs, hs'⟩ := theBody_fine hf he
        cases hs
        exact hs'
    rcases bind_some h2 with ⟨b, w2, h3, h4⟩ | ⟨x, h3, rfl⟩
    rotate_left
    · obtain ⟨b, hb⟩ := hf.hold w1.tr
      rw [emit_eq, hb] at h3; simp at h3
    rw [emit_eq] at h3
    simp only [Option.some.injEq, Prod.mk.injEq] at h3
    obtain ⟨hr, rfl⟩ := h3
    have hcalls : calls e.id (w1.tr ++ [.hold e.id (U.hold e.id w1.tr)]) = calls e.id w.tr ++ once e.id b := by
      rw [calls_append, calls_of_own a1, hr]
      simp [calls, own, isNote, Act.id, shape, once]
    rw [add_not_err_right hre, hst] at h4
    cases b with
    | true =>
      simp only [Bool.and_self, if_true] at h4
      obtain ⟨q1, q2, k, q3, q4⟩ := ih _ _ _ _ hst h4
      refine ⟨q1, q2.trans a2, k + 1, ?_, ?_⟩
      · rw [q3]
        show calls e.id (w1.tr ++ _) ++ _ = _
        rw [hcalls]
        simp [List.replicate_succ]
      · intro hh; rw [hh] at hr; simp at hr
    | false =>
      simp only [Bool.false_and, Bool.and_true, Bool.false_eq_true, if_false, M.pure, Option.some.injEq, Prod.mk.injEq] at h4
      obtain ⟨rfl, rfl⟩ := h4
      exact ⟨rfl, a2, 0, by simpa using hcalls, fun _ => rfl⟩

theorem rounds_fine {U : User} {F : Nat} {e : Elem} {body : M CStatus} (hf : Fine U e body) : ∀ (n : Nat)
    (st : CStatus) (w w' : World) (o : Out (CStatus × Bool)), st.isOK = true →
    rounds U F e body n st w = some (o, w') →
    o = .ret (st, false) ∧ ∃ ks : List Nat, ks.length = n ∧
      calls e.id w'.tr = calls e.id w.tr ++ ks.flatMap (round e.id e.aspects) ∧
      ((∀ t, U.hold e.id t = .ret false) → ∀ k ∈ ks, k = 0) := by
  intro n
  induction n with
  | zero =>
    intro st w w' o hst h
    simp only [rounds, M.pure, Option.some.injEq, Prod.mk.injEq] at h
    obtain ⟨rfl, rfl⟩ := h
    exact ⟨rfl, [], rfl, by simp, by simp⟩
  | succ n ih =>
    intro st w w' o hst h
    simp only [rounds, hst, if_true] at h
    rw [bind_ret (a := EState.normal) (w' := { w with tr := w.tr ++ [.state e.id .normal] })
      _ (by rw [emit_eq, hf.normal])] at h
    rw [if_pos rfl] at h
    obtain ⟨b, w2, b1, b2, _, b4⟩ := doBegin_fine hf.beginA e.aspects CStatus.ok
      { w with tr := w.tr ++ [.state e.id .normal] } ok_not_err
    rw [bind_ret _ b1, add_not_err_right b2, if_neg (by simp [isOK_not_err hst])] at h
    rcases bind_some h with ⟨st', w3, h5, h6⟩ | ⟨x, h5, rfl⟩
    rotate_left
    · obtain ⟨q, _⟩ := holdLoop_fine hf _ _ _ _ _ hst h5
      simp at q
    obtain ⟨q1, _, k, q3, q4⟩ := holdLoop_fine hf _ _ _ _ _ hst h5
    cases q1
    obtain ⟨w4, f1, _, f3⟩ := doFinish_fine (p := .run) hf.finishA st e.aspects w3
    rw [bind_ret _ f1] at h6
    obtain ⟨r1, ks, r2, r3, r4⟩ := ih _ _ _ _ hst h6
    refine ⟨r1, k :: ks, by simp [r2], ?_, ?_⟩
    · rw [r3, f3, q3, b4]
      show calls e.id (w.tr ++ _) ++ _ ++ _ ++ _ ++ _ = _
      rw [calls_append]
      simp [round, calls, own, isNote, Act.id, shape]
    · intro hh j hj
      rcases List.mem_cons.1 hj with rfl | hj
      · exact q4 hh
      · exact r4 hh j hj

/-- A run in which nothing fails and which ends. -/
theorem fatRun_fine {U : User} {F : Nat} {e : Elem} {body : M CStatus} (hf : Fine U e body) {w w' : World}
    {o : Out CStatus} (h : fatRun U F e body w = some (o, w')) :
    o = .ret CStatus.ok ∧ ∃ ks : List Nat, ks.length = e.loop ∧
      calls e.id w'.tr = calls e.id w.tr ++ ((if w.prepared e.id then [] else [.prep e.id (.ret .ok)]) ++
        ks.flatMap (round e.id e.aspects) ++ [.check e.id (.ret .ok)]) ∧
      ((∀ t, U.hold e.id t = .ret false) → ∀ k ∈ ks, k = 0) := by
  unfold fatRun at h
  rw [if_pos hf.visible] at h
  suffices hs : ∀ o w', runBranch U F e body w = some (o, w') →
      o = .ret CStatus.ok ∧ ∃ ks : List Nat, ks.length = e.loop ∧
      calls e.id w'.tr = calls e.id w.tr ++ ((if w.prepared e.id then [] else [.prep e.id (.ret .ok)]) ++
        ks.flatMap (round e.id e.aspects) ++ [.check e.id (.ret .ok)]) ∧
      ((∀ t, U.hold e.id t = .ret false) → ∀ k ∈ ks, k = 0) by
    rcases guarded_cases h with ⟨h1, _⟩ | ⟨msg, w1, h1, _⟩
    · exact hs _ _ h1
    · have := (hs _ _ h1).1; simp at this
  intro o w' h
  unfold runBranch at h
  have hprep : ∃ w1, prepare U e w = some (.ret (CStatus.ok, false), w1) ∧
      calls e.id w1.tr = calls e.id w.tr ++ (if w.prepared e.id then [] else [.prep e.id (.ret .ok)]) := by
    unfold prepare
    cases hp : w.prepared e.id
    · obtain ⟨s, hs, hs'⟩ := hf.prep w.tr
      have hso : CStatus.ok.assign s = CStatus.ok := by
        unfold CStatus.assign
        rw [isOK_iff] at hs'
        simp [CStatus.ok, STATUS_OK, hs']
      refine ⟨({ tr := w.tr ++ [.prep e.id (.ret s)], prepared := fun k => if k = e.id then true else w.prepared k } : World),
        ?_, ?_⟩
      · rw [bind_ret (a := false) (w' := w) _ (by simp only [getPrepared, hp])]
        simp only [Bool.false_eq_true, if_false]
        rw [bind_ret (a := s) (w' := { w with tr := w.tr ++ [.prep e.id (.ret s)] }) _ (by rw [emit_eq, hs])]
        rw [hso, if_neg (by simp)]
        rfl
      · show calls e.id (w.tr ++ _) = _
        rw [calls_append]
        simp [calls, own, isNote, Act.id, shape]
    · refine ⟨w, ?_, by simp⟩
      rw [bind_ret (a := true) (w' := w) _ (by simp only [getPrepared, hp])]
      rfl
  obtain ⟨w1, p1, p2⟩ := hprep
  rw [bind_ret _ p1] at h
  simp only [Bool.false_eq_true, if_false] at h
  rcases bind_some h with ⟨r, w2, h3, h4⟩ | ⟨x, h3, rfl⟩
  rotate_left
  · obtain ⟨q, _⟩ := rounds_fine hf _ _ _ _ _ ok_isOK h3
    simp at q
  obtain ⟨q1, ks, q2, q3, q4⟩ := rounds_fine hf _ _ _ _ _ ok_isOK h3
  cases q1
  simp only [Bool.false_eq_true, if_false] at h4
  obtain ⟨c, c1, c2⟩ := hf.check w2.tr
  rw [bind_ret (a := c) (w' := { w2 with tr := w2.tr ++ [.check e.id (.ret c)] }) _ (by rw [emit_eq, c1])] at h4
  rw [if_neg (by simp [c2])] at h4
  simp only [M.pure, Option.some.injEq, Prod.mk.injEq] at h4
  obtain ⟨rfl, rfl⟩ := h4
  refine ⟨rfl, ks, q2, ?_, q4⟩
  show calls e.id (w2.tr ++ _) = _
  rw [calls_append, q3, p2]
  simp [calls, own, isNote, Act.id, shape]

/-! ## The run ends -/

theorem bind_isSome {α β : Type} {m : M α} {f : α → M β} (hm : ∀ w, (m w).isSome) (hf : ∀ a w, (f a w).isSome)
    (w : World) : (M.bind m f w).isSome := by
  have := hm w
  unfold M.bind
  split
  · rename_i h; rw [h] at this; simp at this
  · exact hf _ _
  · rfl

theorem emit_isSome {α : Type} (f : Trace → Out α) (mk : Out α → Act) (w : World) : (emit f mk w).isSome := rfl

theorem failM_isSome {α : Type} (st : CStatus) (f : CStatus → α) (w : World) : (failM st f w).isSome := by
  unfold failM; split <;> rfl

theorem doBegin_isSome (U : User) (e : Nat) (p : Phase) (as : List Nat) : ∀ st w, (doBegin U e p as st w).isSome := by
  induction as with
  | nil => intro st w; rfl
  | cons a as ih =>
    intro st w
    simp only [doBegin]
    refine bind_isSome (emit_isSome _ _) (fun r w => ?_) w
    split
    · exact failM_isSome _ _ _
    · exact ih _ _

theorem doFinish_isSome (U : User) (e : Nat) (p : Phase) (st : CStatus) (as : List Nat) :
    ∀ w, (doFinish U e p st as w).isSome := by
  induction as with
  | nil => intro w; rfl
  | cons a as ih => intro w; exact bind_isSome (emit_isSome _ _) (fun _ w => ih w) w

theorem doCrash_isSome (U : User) (e : Nat) (as : List Nat) : ∀ w, (doCrash U e as w).isSome := by
  induction as with
  | nil => intro w; rfl
  | cons a as ih => intro w; exact bind_isSome (emit_isSome _ _) (fun _ w => ih w) w

theorem doTimeout_isSome (U : User) (e : Nat) (as : List Nat) : ∀ w, (doTimeout U e as w).isSome := by
  induction as with
  | nil => intro w; rfl
  | cons a as ih => intro w; exact bind_isSome (emit_isSome _ _) (fun _ w => ih w) w

theorem asyncRun_isSome {U : User} {e : Elem} {body : M CStatus} (hb : ∀ w, (body w).isSome) (w : World) :
    (asyncRun U e body w).isSome := by
  unfold asyncRun
  refine bind_isSome ?_ (fun o w => bind_isSome (emit_isSome _ _) (fun b w => ?_) w) w
  · intro w
    have := hb w
    unfold capture
    split
    · rename_i h; rw [h] at this; simp at this
    · rfl
  · split
    · rfl
    · refine bind_isSome (doTimeout_isSome U e.id e.aspects) (fun _ w => ?_) w
      split <;> rfl

theorem bracket_isSome {e : Nat} {p : Phase} {m : M CStatus} (hb : ∀ w, (m w).isSome) (w : World) :
    (bracket e p m w).isSome := by
  unfold bracket
  have := hb { w with tr := w.tr ++ [.enter e p] }
  split
  · rename_i h; rw [h] at this; simp at this
  · rfl

theorem holdLoop_isSome {U : User} {e : Elem} {body : M CStatus} (hb : ∀ w, (body w).isSome)
    (hh : ∀ t, U.hold e.id t ≠ .ret true) (F : Nat) (st : CStatus) (w : World) :
    (holdLoop U e body (F + 1) st w).isSome := by
  simp only [holdLoop]
  refine bind_isSome (bracket_isSome ?_) (fun r w => ?_) w
  · intro w
    split
    · exact asyncRun_isSome hb w
    · exact hb w
  · simp only [M.bind, emit_eq]
    split
    · rename_i h; simp at h
    · rename_i b w' h
      simp only [Option.some.injEq, Prod.mk.injEq] at h
      have : b = false := by
        cases b
        · rfl
        · exact absurd h.1 (hh _)
      simp [this, M.pure]
    · rfl

theorem rounds_isSome {U : User} {e : Elem} {body : M CStatus} (hb : ∀ w, (body w).isSome)
    (hh : ∀ t, U.hold e.id t ≠ .ret true) (F : Nat) : ∀ (n : Nat) (st : CStatus) (w : World),
    (rounds U (F + 1) e body n st w).isSome := by
  intro n
  induction n with
  | zero => intro st w; rfl
  | succ n ih =>
    intro st w
    simp only [rounds]
    split
    · refine bind_isSome (emit_isSome _ _) (fun s w => ?_) w
      split
      · refine bind_isSome (doBegin_isSome _ _ _ _ _) (fun b w => ?_) w
        split
        · exact failM_isSome _ _ _
        · exact bind_isSome (holdLoop_isSome hb hh F _)
            (fun st' w => bind_isSome (doFinish_isSome _ _ _ _ _) (fun _ w => ih _ w) w) w
      · rfl
    · rfl

/-- An element that is not held ends, whatever else it does. -/
theorem fatRun_isSome {U : User} {e : Elem} {body : M CStatus} (hb : ∀ w, (body w).isSome)
    (hh : ∀ t, U.hold e.id t ≠ .ret true) (F : Nat) (w : World) : (fatRun U (F + 1) e body w).isSome := by
  unfold fatRun
  split
  · have hbr : (runBranch U (F + 1) e body w).isSome := by
      unfold runBranch
      refine bind_isSome ?_ (fun p w => ?_) w
      · intro w
        unfold prepare
        refine bind_isSome (fun _ => rfl) (fun p w => ?_) w
        split
        · rfl
        · refine bind_isSome (emit_isSome _ _) (fun r w => ?_) w
          split
          · exact failM_isSome _ _ _
          · rfl
      · split
        · rfl
        · refine bind_isSome (rounds_isSome hb hh F _ _) (fun r w => ?_) w
          split
          · rfl
          · refine bind_isSome (emit_isSome _ _) (fun c w => ?_) w
            split <;> rfl
    unfold catchC
    split
    · exact bind_isSome (doCrash_isSome _ _ _) (fun _ w => rfl) _
    · exact hbr
  · rfl

end CGraph
