import Verif.Model.Adapter

/-! # C98: elements that pass a call on execute exactly the function that was chosen -/
namespace CGraph
namespace Adapter
open Spec

theorem assign_code (x y : CStatus) : (x.assign y).code = y.code := by
  unfold CStatus.assign
  split
  · rfl
  · rename_i h; exact Classical.not_not.1 h

theorem table_chosen {t : Int} (h1 : 0 < t) (h2 : t < 9) : ∃ f, annTable[t.toNat]? = some (some f) ∧ Chosen t f := by
  obtain ⟨n, rfl⟩ := Int.eq_ofNat_of_zero_le (by omega : 0 ≤ t)
  have : n = 1 ∨ n = 2 ∨ n = 3 ∨ n = 4 ∨ n = 5 ∨ n = 6 ∨ n = 7 ∨ n = 8 := by omega
  rcases this with rfl | rfl | rfl | rfl | rfl | rfl | rfl | rfl <;>
    first
    | exact ⟨.train, rfl, trivial⟩ | exact ⟨.search, rfl, trivial⟩ | exact ⟨.insert, rfl, trivial⟩ | exact ⟨.update, rfl, trivial⟩
    | exact ⟨.remove, rfl, trivial⟩ | exact ⟨.loadModel, rfl, trivial⟩ | exact ⟨.saveModel, rfl, trivial⟩ | exact ⟨.edition, rfl, trivial⟩

theorem chosen_range {t : Int} {f : AnnFunc} (h : Chosen t f) : 0 < t ∧ t < 9 := by
  unfold Chosen at h
  split at h <;> first | exact ⟨by omega, by omega⟩ | exact h.elim

theorem chosen_unique {t : Int} {f g : AnnFunc} (h : Chosen t f) (h' : Chosen t g) : f = g := by
  unfold Chosen at h
  split at h <;> first | (exact h.elim) | skip
  all_goals (cases g <;> first | rfl | (simp [Chosen] at h'))

/-- **C98** (ann node): an execution never calls anything undefined; `prepareParam` is executed once and first; then the function that was
chosen and no other, once — none if nothing was chosen, which is reported as an error —; `refreshParam` is executed once, last, and
exactly if the chosen function returned without an error. -/
theorem C98_ann_calls (a : AnnNode) :
    ∃ tr r, a.run = some (tr, r) ∧ ∃ rest, tr = .prepared :: rest ∧
      (∀ f, .called f ∈ rest → ∃ t, a.prepare = .ret t ∧ Chosen t f) ∧
      (∀ t f, a.prepare = .ret t → Chosen t f →
        (rest = [.called f] ∨ rest = [.called f, .refreshed]) ∧
        (.refreshed ∈ rest ↔ ∃ st, a.own f = some (.ret st) ∧ 0 ≤ st.code)) ∧
      ((∀ t f, a.prepare = .ret t → ¬ Chosen t f) → rest = []) ∧
      (∀ t, a.prepare = .ret t → (∀ f, ¬ Chosen t f) → ∃ st, r = .ret st ∧ st.code < 0) := by
  cases hp : a.prepare with
  | throw m =>
    refine ⟨[.prepared], .throw m, by simp [AnnNode.run, hp], [], rfl, by simp, by simp, by simp, by simp⟩
  | ret t =>
    by_cases ht : t ≤ 0 ∨ t ≥ 9
    · have hno : ∀ f, ¬ Chosen t f := fun f hf => by have := chosen_range hf; omega
      refine ⟨[.prepared], .ret (CStatus.err "error ann function type"), by simp [AnnNode.run, hp, ht], [], rfl, by simp, ?_, by simp, ?_⟩
      · intro t' f h h'
        simp only [Res.ret.injEq] at h; subst h
        exact (hno f h').elim
      · intro _ _ _; exact ⟨_, rfl, by simp [CStatus.err, STATUS_ERR]⟩
    · obtain ⟨f, hf, hc⟩ := table_chosen (t := t) (by omega) (by omega)
      have hsome : ∀ rest : List AnnEv, (∀ g, AnnEv.called g ∈ rest → g = f) → ∀ g, AnnEv.called g ∈ rest → ∃ t', Res.ret t = .ret t' ∧ Chosen t' g :=
        fun rest h g hg => ⟨t, rfl, by rw [h g hg]; exact hc⟩
      have huse : ∀ (rest : List AnnEv) (P : AnnFunc → Prop), P f → ∀ t' g, Res.ret t = .ret t' → Chosen t' g → P g := by
        intro rest P hP t' g h h'
        simp only [Res.ret.injEq] at h; subst h
        rw [chosen_unique h' hc]; exact hP
      have hne : ¬ ∀ t' g, (Res.ret t : Res Int) = .ret t' → ¬ Chosen t' g := fun h => h t f rfl hc
      have hne' : ∀ t', (Res.ret t : Res Int) = .ret t' → ¬ ∀ g, ¬ Chosen t' g := by
        intro t' h h'
        simp only [Res.ret.injEq] at h; subst h
        exact h' f hc
      unfold AnnNode.run
      simp only [hp, if_neg ht, hf]
      cases hcall : a.call f with
      | throw m =>
        refine ⟨_, _, rfl, _, rfl, hsome _ (by simp), huse [] _ ⟨.inl rfl, ?_⟩, fun h => (hne h).elim, fun t' h h' => (hne' t' h h').elim⟩
        simp only [AnnNode.call] at hcall
        cases ho : a.own f with
        | none => simp [ho] at hcall
        | some x => simp only [ho, Option.getD_some] at hcall; simp [hcall]
      | ret st =>
        have hst : (CStatus.ok.assign st).code = st.code := assign_code _ _
        have hown : (∃ st', a.own f = some (.ret st') ∧ 0 ≤ st'.code) ↔ 0 ≤ st.code := by
          simp only [AnnNode.call] at hcall
          cases ho : a.own f with
          | none =>
            simp only [ho, Option.getD_none, Res.ret.injEq] at hcall
            subst hcall
            simp [noSupport, CStatus.err, STATUS_ERR]
          | some x =>
            simp only [ho, Option.getD_some] at hcall
            subst hcall
            simp
        by_cases he : st.code < 0
        · have hck : ∃ r, checkStatus (CStatus.ok.assign st) = some r := by
            unfold checkStatus CStatus.isErr
            rw [hst]
            have he' : decide (st.code < STATUS_OK) = true := decide_eq_true he
            rw [he', if_pos rfl]
            split <;> exact ⟨_, rfl⟩
          obtain ⟨r, hr⟩ := hck
          simp only [hr]
          refine ⟨_, _, rfl, _, rfl, hsome _ (by simp), huse [] _ ⟨.inl rfl, ?_⟩, fun h => (hne h).elim, fun t' h h' => (hne' t' h h').elim⟩
          rw [hown]
          simp only [List.mem_singleton, reduceCtorEq, false_iff]
          omega
        · have hck : checkStatus (CStatus.ok.assign st) = none := by
            unfold checkStatus CStatus.isErr
            rw [hst]
            simp [STATUS_OK, he]
          simp only [hck]
          have hw : (.refreshed ∈ [AnnEv.called f, .refreshed]) ↔ ∃ st', a.own f = some (.ret st') ∧ 0 ≤ st'.code := by
            rw [hown]
            simp only [List.mem_cons, List.mem_singleton, reduceCtorEq, false_or, true_iff, List.not_mem_nil, or_false]
            omega
          cases hr : a.doRefresh with
          | throw m =>
            exact ⟨_, _, rfl, _, rfl, hsome _ (by simp), huse [] _ ⟨.inr rfl, hw⟩, fun h => (hne h).elim, fun t' h h' => (hne' t' h h').elim⟩
          | ret st' =>
            exact ⟨_, _, rfl, _, rfl, hsome _ (by simp), huse [] _ ⟨.inr rfl, hw⟩, fun h => (hne h).elim, fun t' h h' => (hne' t' h h').elim⟩

/-- **C98** (ann node, status): a function that is not written is reported as an error; an exception of the functions, and a crash that the
chosen function reports, leave the node as an exception; an error of the chosen function, or else of `refreshParam`, is returned
unchanged; otherwise the code is that of `refreshParam`. -/
theorem C98_ann_status (a : AnnNode) (t : Int) (f : AnnFunc) (hp : a.prepare = .ret t) (hc : Chosen t f) :
    ∃ tr r, a.run = some (tr, r) ∧
      (a.own f = none → r = .ret ⟨-1, "function no support"⟩) ∧
      (∀ m, a.own f = some (.throw m) → r = .throw m) ∧
      (∀ st, a.own f = some (.ret st) → st.code < 0 → r = if st.code = -996 then .throw st.info else .ret st) ∧
      (∀ st, a.own f = some (.ret st) → 0 ≤ st.code →
        (a.refresh = none → r = .ret ⟨0, ""⟩) ∧
        (∀ m, a.refresh = some (.throw m) → r = .throw m) ∧
        (∀ st', a.refresh = some (.ret st') → st'.code < 0 → r = .ret st') ∧
        (∀ st', a.refresh = some (.ret st') → 0 ≤ st'.code → ∃ s, r = .ret s ∧ s.code = st'.code)) := by
  have hr := chosen_range hc
  have ht : ¬ (t ≤ 0 ∨ t ≥ 9) := by omega
  obtain ⟨f', hf', hc'⟩ := table_chosen hr.1 hr.2
  obtain rfl := chosen_unique hc' hc
  have hasg : ∀ st : CStatus, (CStatus.ok.assign st).code = st.code := assign_code _
  have hcp : ∀ st : CStatus, st.copyCtor.code = st.code := by
    intro st
    unfold CStatus.copyCtor
    split
    · rename_i h; exact h.symm
    · rfl
  have herr : ∀ st : CStatus, st.code < 0 →
      checkStatus (CStatus.ok.assign st) = some (if st.code = -996 then .throw st.info else .ret st) := by
    intro st h
    have h1 : CStatus.ok.assign st = st := by
      unfold CStatus.assign
      rw [if_pos]
      simp only [CStatus.ok, STATUS_OK]; omega
    rw [h1]
    unfold checkStatus CStatus.isErr CStatus.isCrash
    have he' : decide (st.code < STATUS_OK) = true := decide_eq_true h
    rw [he', if_pos rfl]
    by_cases h' : st.code = -996
    · simp [h', STATUS_CRASH]
    · have : (STATUS_CRASH == st.code) = false := by simp [STATUS_CRASH]; omega
      simp [h', this]
  have hok : ∀ st : CStatus, 0 ≤ st.code → checkStatus (CStatus.ok.assign st) = none := by
    intro st h
    unfold checkStatus CStatus.isErr
    rw [hasg]
    have : ¬ st.code < 0 := by omega
    simp [STATUS_OK, this]
  unfold AnnNode.run
  simp only [hp, if_neg ht, hf', AnnNode.call, AnnNode.doRefresh]
  cases ho : a.own f' with
  | none =>
    have := herr noSupport (by simp [noSupport, CStatus.err, STATUS_ERR])
    simp only [Option.getD_none, this]
    exact ⟨_, _, rfl, fun _ => rfl, by simp, by simp, by simp⟩
  | some x =>
    cases x with
    | throw m =>
      simp only [Option.getD_some]
      exact ⟨_, _, rfl, by simp, by simp, by simp, by simp⟩
    | ret st =>
      simp only [Option.getD_some]
      by_cases he : st.code < 0
      · simp only [herr st he]
        refine ⟨_, _, rfl, by simp, by simp, ?_, ?_⟩
        · intro st' h _
          simp only [Option.some.injEq, Res.ret.injEq] at h
          subst h; rfl
        · intro st' h h'
          simp only [Option.some.injEq, Res.ret.injEq] at h
          subst h; omega
      · simp only [hok st (by omega)]
        cases hrf : a.refresh with
        | none =>
          simp only [Option.getD_none]
          refine ⟨_, _, rfl, by simp, by simp, ?_, fun st' h h' => ⟨fun _ => ?_, by simp, by simp, by simp⟩⟩
          · intro st' h h'; simp only [Option.some.injEq, Res.ret.injEq] at h; subst h; omega
          · have : ((CStatus.ok.assign st).assign .ok).code = 0 := assign_code _ _
            simp only [Res.ret.injEq]
            unfold CStatus.copyCtor
            rw [if_pos (by rw [this]; rfl)]; rfl
        | some y =>
          cases y with
          | throw m =>
            simp only [Option.getD_some]
            refine ⟨_, _, rfl, by simp, by simp, ?_, fun st' h h' => ⟨by simp, by simp, by simp, by simp⟩⟩
            intro st' h h'; simp only [Option.some.injEq, Res.ret.injEq] at h; subst h; omega
          | ret st2 =>
            simp only [Option.getD_some]
            have hcode : ((CStatus.ok.assign st).assign st2).code = st2.code := assign_code _ _
            refine ⟨_, _, rfl, by simp, by simp, ?_, fun st' h h' => ⟨by simp, by simp, ?_, ?_⟩⟩
            · intro st' h h'; simp only [Option.some.injEq, Res.ret.injEq] at h; subst h; omega
            · intro s3 h3 h4
              simp only [Option.some.injEq, Res.ret.injEq] at h3 ⊢
              subst h3
              have h5 : (CStatus.ok.assign st).assign st2 = st2 := by
                have := hasg st
                generalize CStatus.ok.assign st = x at this
                unfold CStatus.assign
                rw [if_pos]
                omega
              rw [h5]
              unfold CStatus.copyCtor
              rw [if_neg]
              simp only [CStatus.ok, STATUS_OK]; omega
            · intro s3 h3 _
              simp only [Option.some.injEq, Res.ret.injEq] at h3
              subst h3
              exact ⟨_, rfl, by rw [hcp, hcode]⟩

/-! ### function elements -/

theorem pick_set {F : Type} {s s' : FnSt F} {p : Phase} {f : Option F} (h : s.set p f = some s') :
    ∃ g, f = some g ∧ s.isInit = false ∧ ∀ q, s'.pick q = if p = q then some g else s.pick q := by
  unfold FnSt.set at h
  split at h
  · simp at h
  · rename_i hi
    cases f with
    | none => simp at h
    | some g =>
      refine ⟨g, rfl, by simpa using hi, fun q => ?_⟩
      cases p <;> simp only [Option.some.injEq] at h <;> subst h <;> cases q <;> simp [FnSt.pick]

theorem fn_step {F : Type} (x : FnSt F × List (FnEv F)) (op : FnOp F) (h : (∀ p, x.1.pick p = lastGiven p x.2) ∧ CallsLast x.2) :
    (∀ p, (FnSt.step x op).1.pick p = lastGiven p (FnSt.step x op).2) ∧ CallsLast (FnSt.step x op).2 := by
  obtain ⟨h1, h2⟩ := h
  cases op with
  | set p f =>
    simp only [FnSt.step]
    cases hs : x.1.set p f with
    | none =>
      refine ⟨fun q => ?_, h2⟩
      simp only
      rw [h1 q]
      cases f <;> rfl
    | some s' =>
      obtain ⟨g, rfl, -, hq⟩ := pick_set hs
      refine ⟨fun q => ?_, h2⟩
      simp only [lastGiven]
      rw [hq q, h1 q]
  | phase p => exact ⟨fun q => h1 q, h1 p, h2⟩
  | flag b =>
    refine ⟨fun q => ?_, h2⟩
    simp only [FnSt.step]
    rw [← h1 q]
    cases q <;> rfl

/-- **C98** (function element): whatever happened before, `init`, `run` and `destroy` execute the function that was given last for that phase,
and none if none was given. -/
theorem C98_function_last {F : Type} (ops : List (FnOp F)) : CallsLast (FnSt.hist ops).2 := by
  have : ∀ (ops : List (FnOp F)) (x : FnSt F × List (FnEv F)), ((∀ p, x.1.pick p = lastGiven p x.2) ∧ CallsLast x.2) →
      CallsLast (ops.foldl FnSt.step x).2 := by
    intro ops
    induction ops with
    | nil => intro x h; exact h.2
    | cons op ops ih => intro x h; exact ih _ (fn_step x op h)
  exact this ops _ ⟨fun p => by cases p <;> rfl, trivial⟩

/-- **C98** (function element): giving a function is refused exactly while the element is initialised or if there is no function; a phase
without a function is a success. -/
theorem C98_function_refused {F : Type} (s : FnSt F) (p : Phase) (f : Option F) :
    (s.set p f = none ↔ s.isInit = true ∨ f = none) ∧
    ∀ (s' : FnSt (Res CStatus)) (q : Phase), s'.pick q = none → s'.answer q = .ret ⟨0, ""⟩ := by
  refine ⟨?_, fun s' q h => by simp [FnSt.answer, h, CStatus.ok, STATUS_OK]⟩
  unfold FnSt.set
  cases hi : s.isInit <;> cases f <;> cases p <;> simp

/-! ### examples -/

/-- A node that chooses `update`, which answers with a warning; `refreshParam` fails. -/
example : (AnnNode.run ⟨.ret 4, fun f => if f = .update then some (.ret ⟨3, "w"⟩) else none, some (.ret ⟨-7, "e"⟩)⟩) =
    some ([.prepared, .called .update, .refreshed], .ret ⟨-7, "e"⟩) := by decide +kernel

/-- A node that chooses a function that is not written, and one that chooses nothing. -/
example : (AnnNode.run ⟨.ret 8, fun _ => none, none⟩) = some ([.prepared, .called .edition], .ret ⟨-1, "function no support"⟩) ∧
    (AnnNode.run ⟨.ret 9, fun _ => none, none⟩) = some ([.prepared], .ret ⟨-1, "error ann function type"⟩) := by decide +kernel

/-- A history with a function that is replaced, one that is refused, and phases. -/
example : (FnSt.hist [.set .run (some 1), .set .run (some 2), .flag true, .set .run (some 3), .phase .run, .phase .init]).2 =
    [.call .init none, .call .run (some 2), .set .run (some 3) false, .set .run (some 2) true, .set .run (some 1) true] := rfl

end Adapter
end CGraph
