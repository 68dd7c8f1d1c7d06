import Verif.Lemmas.GroupRun

/-! # Counting the runs in a tree of elements -/
namespace CGraph
open Spec M CStatus

/-! ## Groups make no calls in the name of their own element -/

theorem quiet_of_emits {e : Nat} {P : Act → Prop} {Q : Nat → Prop} {m : M CStatus} (h : Emits P Q m)
    (hP : ∀ ev, P ev → isNote ev = true ∨ ev.id ≠ e) (hQ : ∀ k, Q k → k ≠ e) : Quiet e m := by
  intro w o w' hm
  obtain ⟨⟨l, e1, e2⟩, e3⟩ := h w o w' hm
  refine ⟨?_, e3 e (fun hq => hQ e hq rfl)⟩
  rw [e1, own_append]
  have : own e l = [] := by
    unfold own
    rw [List.filter_eq_nil_iff]
    intro ev hev
    rcases hP ev (e2 ev hev) with hn | hn
    · simp [hn]
    · simp [hn]
  rw [this, List.append_nil]

theorem Quiet.group {U : User} {F : Nat} {k : Kind} {e : Elem} {kids : List Tree}
    (hn : (Tree.group k e kids).ids.Nodup) : Quiet e.id (groupBody U k e.id (Tree.runs U F kids)) := by
  have hout : ∀ t ∈ kids, ∀ i ∈ t.ids, i ≠ e.id := by
    intro t ht i hi heq
    simp only [Tree.ids, tree_idsAll_eq, List.nodup_cons] at hn
    exact hn.1 (heq ▸ List.mem_flatMap.2 ⟨t, ht, hi⟩)
  refine quiet_of_emits (P := fun ev => isNote ev = true ∨ ev.id ≠ e.id) (Q := fun k => k ≠ e.id)
    (groupBody_emits ?_ ?_ ?_) (fun _ h => h) (fun _ h => h)
  · intro r; exact .inl rfl
  · intro b hb r; exact .inl rfl
  · intro b hb
    rw [tree_runs_eq] at hb
    obtain ⟨t, ht, rfl⟩ := List.mem_map.1 hb
    exact (tree_run_emits U F t).mono (fun ev h => .inr (hout t ht _ h)) (fun i h => hout t ht i h)

theorem Quiet.groupLife {U : User} {p : Phase} {k : Kind} {e : Elem} {kids : List Tree}
    (hn : (Tree.group k e kids).ids.Nodup) : Quiet e.id (lifeBody (Tree.lifes U p kids) .ok) := by
  have hout : ∀ t ∈ kids, ∀ i ∈ t.ids, i ≠ e.id := by
    intro t ht i hi heq
    simp only [Tree.ids, tree_idsAll_eq, List.nodup_cons] at hn
    exact hn.1 (heq ▸ List.mem_flatMap.2 ⟨t, ht, hi⟩)
  refine quiet_of_emits (P := fun ev => isNote ev = true ∨ ev.id ≠ e.id) (Q := fun k => k ≠ e.id)
    (lifeBody_emits ?_ _) (fun _ h => h) (fun _ h => h)
  intro b hb
  rw [tree_lifes_eq] at hb
  obtain ⟨t, ht, rfl⟩ := List.mem_map.1 hb
  exact (tree_life_emits U p t).mono (fun ev h => .inr (hout t ht _ h)) (fun i h => hout t ht i h)

/-! ## Runs in which nothing fails -/

/-- The computation ends without error and adds `c` executions of `run` of element `x`. -/
def Does (x c : Nat) (m : M CStatus) : Prop :=
  ∀ w, ∃ s w', m w = some (.ret s, w') ∧ s.isErr = false ∧ runsOf x w'.tr = runsOf x w.tr + c

theorem runsOf_append (x : Nat) (a b : Trace) : runsOf x (a ++ b) = runsOf x a + runsOf x b := by
  simp [runsOf, List.countP_append]

theorem called_does {x c e : Nat} {m : M CStatus} (h : Does x c m) : Does x c (called e .run m) := by
  intro w
  obtain ⟨s, w', h1, h2, h3⟩ := h { w with tr := w.tr ++ [.call e .run] }
  refine ⟨s, { w' with tr := w'.tr ++ [.back e .run (.ret s)] }, ?_, h2, ?_⟩
  · unfold called; rw [h1]
  · show runsOf x (w'.tr ++ _) = _
    rw [runsOf_append, h3, runsOf_append]
    simp [runsOf]

theorem doBegin_does {U : User} {e : Nat} (x : Nat) (h : ∀ a t, ∃ s, U.beginA e a .run t = .ret s ∧ s.isErr = false)
    (as : List Nat) : ∀ (st : CStatus), st.isErr = false → Does x 0 (doBegin U e .run as st) := by
  induction as with
  | nil => intro st hst w; exact ⟨st, w, rfl, hst, rfl⟩
  | cons a as ih =>
    intro st hst w
    obtain ⟨r, hr, hre⟩ := h a w.tr
    have hne : (st.assign r).isErr = false := by rw [assign_isErr hst, hre]
    obtain ⟨s, w', h1, h2, h3⟩ := ih (st.assign r) hne { w with tr := w.tr ++ [.beginA e a .run (.ret r)] }
    refine ⟨s, w', ?_, h2, ?_⟩
    · simp only [doBegin]
      rw [bind_ret (a := r) (w' := { w with tr := w.tr ++ [.beginA e a .run (.ret r)] })]
      · rw [if_neg (by simp [hne])]; exact h1
      · rw [emit_eq, hr]
    · rw [h3, runsOf_append]; simp [runsOf]

theorem doFinish_does {U : User} {e : Nat} (x : Nat) (h : ∀ a st t, U.finishA e a .run st t = .ret ()) (st : CStatus)
    (as : List Nat) : ∀ w, ∃ w', doFinish U e .run st as w = some (.ret (), w') ∧ runsOf x w'.tr = runsOf x w.tr := by
  induction as with
  | nil => intro w; exact ⟨w, rfl, rfl⟩
  | cons a as ih =>
    intro w
    obtain ⟨w', h1, h3⟩ := ih { w with tr := w.tr ++ [.finishA e a .run st (.ret ())] }
    refine ⟨w', ?_, ?_⟩
    · simp only [doFinish]
      rw [bind_ret (a := ()) (w' := { w with tr := w.tr ++ [.finishA e a .run st (.ret ())] })]
      · exact h1
      · rw [emit_eq, h]
    · rw [h3, runsOf_append]; simp [runsOf]

theorem theBody_does {U : User} {e : Elem} {x c : Nat} {body : M CStatus} (hr : ∀ t, U.ready e.id t = true)
    (hb : Does x c body) : Does x c (if e.isAsync then asyncRun U e body else body) := by
  split
  · intro w
    obtain ⟨s, w', h1, h2, h3⟩ := hb w
    refine ⟨s, { w' with tr := w'.tr ++ [.ready e.id true] }, ?_, h2, ?_⟩
    · unfold asyncRun
      rw [bind_ret (a := .ret s) (w' := w') _ (by unfold capture; rw [h1])]
      rw [bind_ret (a := true) (w' := { w' with tr := w'.tr ++ [.ready e.id true] }) _ (by rw [emit_eq, hr])]
      rfl
    · show runsOf x (w'.tr ++ _) = _
      rw [runsOf_append, h3]; simp [runsOf]
  · exact hb

theorem holdLoop_does {U : User} {e : Elem} {x c : Nat} {body : M CStatus} (hr : ∀ t, U.ready e.id t = true)
    (hh : ∀ t, U.hold e.id t = .ret false) (hb : Does x c body) (F : Nat) (st : CStatus) (hst : st.isOK = true) (w : World) :
    ∃ w', holdLoop U e body (F + 1) st w = some (.ret st, w') ∧
      runsOf x w'.tr = runsOf x w.tr + ((if e.id = x then 1 else 0) + c) := by
  obtain ⟨s, w', h1, h2, h3⟩ := theBody_does hr hb { w with tr := w.tr ++ [.enter e.id .run] }
  refine ⟨{ w' with tr := w'.tr ++ [.leave e.id .run (.ret s)] ++ [.hold e.id (.ret false)] }, ?_, ?_⟩
  · simp only [holdLoop]
    rw [bind_ret (a := s) (w' := { w' with tr := w'.tr ++ [.leave e.id .run (.ret s)] }) _ (by unfold bracket; rw [h1])]
    rw [bind_ret (a := false) (w' := { w' with tr := w'.tr ++ [.leave e.id .run (.ret s)] ++ [.hold e.id (.ret false)] }) _
      (by rw [emit_eq, hh])]
    rw [if_neg (by simp), add_not_err_right h2]
    rfl
  · show runsOf x (w'.tr ++ _ ++ _) = _
    rw [runsOf_append, runsOf_append, h3, runsOf_append]
    by_cases hx : e.id = x
    · simp [runsOf, hx]; omega
    · simp [runsOf, hx]

/-- Nothing fails, whoever is asked; `ch` and `mt` are the answers of `choose` and `isMatch`. -/
structure AllFine (U : User) (ch : Nat → Int) (mt : Nat → Bool) : Prop where
  prep : ∀ e t, ∃ s, U.prep e t = .ret s ∧ s.isOK = true
  beginA : ∀ e a t, ∃ s, U.beginA e a .run t = .ret s ∧ s.isErr = false
  finishA : ∀ e a st t, U.finishA e a .run st t = .ret ()
  hold : ∀ e t, U.hold e t = .ret false
  check : ∀ e t, ∃ s, U.check e t = .ret s ∧ s.isErr = false
  normal : ∀ e t, U.state e t = .normal
  ready : ∀ e t, U.ready e t = true
  body : ∀ e t, ∃ s, U.body e .run t = .ret s ∧ s.isErr = false
  choose : ∀ e t, U.choose e t = .ret (ch e)
  isMatch : ∀ e t, U.isMatch e t = .ret (mt e)

theorem rounds_does {U : User} {ch : Nat → Int} {mt : Nat → Bool} {F : Nat} {e : Elem} {x c : Nat} {body : M CStatus}
    (hf : AllFine U ch mt) (hb : Does x c body) : ∀ (n : Nat) (st : CStatus) (w : World), st.isOK = true →
    ∃ w', rounds U (F + 1) e body n st w = some (.ret (st, false), w') ∧
      runsOf x w'.tr = runsOf x w.tr + n * ((if e.id = x then 1 else 0) + c) := by
  intro n
  induction n with
  | zero => intro st w _; exact ⟨w, rfl, by simp⟩
  | succ n ih =>
    intro st w hst
    obtain ⟨b, w2, b1, b2, b3⟩ := doBegin_does x (hf.beginA e.id) e.aspects CStatus.ok ok_not_err
      { w with tr := w.tr ++ [.state e.id .normal] }
    obtain ⟨w3, c1, c2⟩ := holdLoop_does (hf.ready e.id) (hf.hold e.id) hb F st hst w2
    obtain ⟨w4, d1, d2⟩ := doFinish_does x (hf.finishA e.id) st e.aspects w3
    obtain ⟨w5, e1, e2⟩ := ih st w4 hst
    refine ⟨w5, ?_, ?_⟩
    · simp only [rounds, hst, if_true]
      rw [bind_ret (a := EState.normal) (w' := { w with tr := w.tr ++ [.state e.id .normal] })
        _ (by rw [emit_eq, hf.normal])]
      rw [if_pos rfl, bind_ret _ b1, add_not_err_right b2, if_neg (by simp [isOK_not_err hst]), bind_ret _ c1,
        bind_ret _ d1]
      exact e1
    · rw [e2, d2, c2, b3, runsOf_append, Nat.succ_mul]
      simp [runsOf]; omega

theorem fatRun_does {U : User} {ch : Nat → Int} {mt : Nat → Bool} {F : Nat} {e : Elem} {x c : Nat} {body : M CStatus}
    (hf : AllFine U ch mt) (hb : Does x c body) :
    Does x (if e.visible then e.loop * ((if e.id = x then 1 else 0) + c) else 0) (fatRun U (F + 1) e body) := by
  intro w
  unfold fatRun
  split
  rotate_left
  · exact ⟨CStatus.ok, w, rfl, ok_isErr, rfl⟩
  have hprep : ∃ w1, prepare U e w = some (.ret (CStatus.ok, false), w1) ∧ runsOf x w1.tr = runsOf x w.tr := by
    unfold prepare
    cases hp : w.prepared e.id
    · obtain ⟨s, hs, hs'⟩ := hf.prep e.id w.tr
      have hso : CStatus.ok.assign s = CStatus.ok := by
        unfold CStatus.assign
        rw [isOK_iff] at hs'
        simp [CStatus.ok, STATUS_OK, hs']
      refine ⟨({ tr := w.tr ++ [.prep e.id (.ret s)], prepared := fun k => if k = e.id then true else w.prepared k } : World),
        ?_, ?_⟩
      · rw [bind_ret (a := false) (w' := w) _ (by simp only [getPrepared, hp])]
        simp only [Bool.false_eq_true, if_false]
        rw [bind_ret (a := s) (w' := { w with tr := w.tr ++ [.prep e.id (.ret s)] }) _ (by rw [emit_eq, hs])]
        rw [hso, if_neg (by simp)]
        rfl
      · show runsOf x (w.tr ++ _) = _
        rw [runsOf_append]
        simp [runsOf]
    · refine ⟨w, ?_, rfl⟩
      rw [bind_ret (a := true) (w' := w) _ (by simp only [getPrepared, hp])]
      rfl
  obtain ⟨w1, p1, p2⟩ := hprep
  obtain ⟨w2, q1, q2⟩ := rounds_does (F := F) (e := e) hf hb e.loop CStatus.ok w1 ok_isOK
  obtain ⟨s, s1, s2⟩ := hf.check e.id w2.tr
  have hrun : runBranch U (F + 1) e body w = some (.ret CStatus.ok, { w2 with tr := w2.tr ++ [.check e.id (.ret s)] }) := by
    unfold runBranch
    rw [bind_ret _ p1]
    simp only [Bool.false_eq_true, if_false]
    rw [bind_ret _ q1]
    simp only [Bool.false_eq_true, if_false]
    rw [bind_ret (a := s) (w' := { w2 with tr := w2.tr ++ [.check e.id (.ret s)] }) _ (by rw [emit_eq, s1])]
    rw [if_neg (by simp [s2])]
    rfl
  refine ⟨CStatus.ok, { w2 with tr := w2.tr ++ [.check e.id (.ret s)] }, ?_, ok_isErr, ?_⟩
  · unfold catchC; rw [hrun]
  · show runsOf x (w2.tr ++ _) = _
    rw [runsOf_append, q2, p2]
    simp [runsOf]

/-! ## The groups -/

theorem clusterBody_does {x : Nat} {g : Tree → M CStatus} {T : Tree → Nat} (kids : List Tree)
    (h : ∀ t ∈ kids, Does x (T t) (g t)) : ∀ st : CStatus, st.isErr = false →
    Does x ((kids.map T).sum) (clusterBody (kids.map fun t => (t.id, g t)) st) := by
  induction kids with
  | nil => intro st hst w; exact ⟨st, w, rfl, hst, rfl⟩
  | cons t kids ih =>
    intro st hst w
    obtain ⟨r, w1, h1, h2, h3⟩ := h t (by simp) w
    have hne : (st.assign r).isErr = false := by rw [assign_isErr hst, h2]
    obtain ⟨s, w2, k1, k2, k3⟩ := ih (fun t ht => h t (by simp [ht])) (st.assign r) hne w1
    refine ⟨s, w2, ?_, k2, ?_⟩
    · simp only [List.map_cons, clusterBody]
      rw [bind_ret _ h1, if_neg (by simp [hne])]
      exact k1
    · rw [k3, h3]; simp; omega

theorem serialBody_does {U : User} {ch : Nat → Int} {mt : Nat → Bool} {x : Nat} {g : Tree → M CStatus} {T : Tree → Nat}
    (hf : AllFine U ch mt) (kids : List Tree) (h : ∀ t ∈ kids, Does x (T t) (g t)) :
    ∀ st : CStatus, st.isErr = false →
    Does x (((kids.filter fun t => mt t.id).map T).sum) (serialBody U (kids.map fun t => (t.id, g t)) st) := by
  induction kids with
  | nil => intro st hst w; exact ⟨st, w, rfl, hst, rfl⟩
  | cons t kids ih =>
    intro st hst w
    have hm : emit (U.isMatch t.id) (.isMatch t.id) w =
        some (.ret (mt t.id), { w with tr := w.tr ++ [.isMatch t.id (.ret (mt t.id))] }) := by
      rw [emit_eq, hf.isMatch]
    have hw : ∀ b, runsOf x (w.tr ++ [.isMatch t.id (.ret b)]) = runsOf x w.tr := by
      intro b; rw [runsOf_append]; simp [runsOf]
    cases hmt : mt t.id with
    | false =>
      obtain ⟨s, w2, k1, k2, k3⟩ := ih (fun t ht => h t (by simp [ht])) st hst
        { w with tr := w.tr ++ [.isMatch t.id (.ret (mt t.id))] }
      refine ⟨s, w2, ?_, k2, ?_⟩
      · simp only [List.map_cons, serialBody]
        rw [bind_ret _ hm, hmt]
        simp only [Bool.false_eq_true, if_false]
        rw [← hmt]
        exact k1
      · rw [k3, List.filter_cons_of_neg (by simp [hmt])]
        show runsOf x (w.tr ++ _) + _ = _
        rw [hw]
    | true =>
      obtain ⟨r, w1, h1, h2, h3⟩ := h t (by simp) { w with tr := w.tr ++ [.isMatch t.id (.ret (mt t.id))] }
      have hne : (st.assign r).isErr = false := by rw [assign_isErr hst, h2]
      obtain ⟨s, w2, k1, k2, k3⟩ := ih (fun t ht => h t (by simp [ht])) (st.assign r) hne w1
      refine ⟨s, w2, ?_, k2, ?_⟩
      · simp only [List.map_cons, serialBody]
        rw [bind_ret _ hm, hmt]
        simp only [if_true]
        rw [hmt] at h1
        rw [bind_ret _ h1, if_neg (by simp [hne])]
        exact k1
      · rw [k3, h3, List.filter_cons_of_pos (by simp [hmt])]
        show runsOf x (w.tr ++ _) + _ + _ = _
        rw [hw]; simp; omega

theorem conditionBody_does {U : User} {ch : Nat → Int} {mt : Nat → Bool} {e x : Nat} {g : Tree → M CStatus}
    {T : Tree → Nat} (hf : AllFine U ch mt) (kids : List Tree) (h : ∀ t ∈ kids, Does x (T t) (g t)) :
    Does x (((pick (ch e) kids).map T).getD 0) (conditionBody U e (kids.map fun t => (t.id, g t))) := by
  intro w
  have hw : runsOf x (w.tr ++ [.choose e (.ret (ch e))]) = runsOf x w.tr := by
    rw [runsOf_append]; simp [runsOf]
  have hone : ∀ t ∈ kids, ∃ s w', M.bind (g t) (fun r => M.pure (CStatus.ok.assign r))
      { w with tr := w.tr ++ [.choose e (.ret (ch e))] } = some (.ret s, w') ∧ s.isErr = false ∧
      runsOf x w'.tr = runsOf x w.tr + T t := by
    intro t ht
    obtain ⟨r, w1, h1, h2, h3⟩ := h t ht { w with tr := w.tr ++ [.choose e (.ret (ch e))] }
    refine ⟨CStatus.ok.assign r, w1, ?_, by rw [assign_isErr ok_isErr, h2], ?_⟩
    · rw [bind_ret _ h1]; rfl
    · rw [h3]; show runsOf x (w.tr ++ _) + _ = _; rw [hw]
  unfold conditionBody
  rw [bind_ret (a := ch e) (w' := { w with tr := w.tr ++ [.choose e (.ret (ch e))] }) _ (by rw [emit_eq, hf.choose])]
  have hnone : ∃ s w', M.pure CStatus.ok { w with tr := w.tr ++ [.choose e (.ret (ch e))] } = some (.ret s, w') ∧
      s.isErr = false ∧ runsOf x w'.tr = runsOf x w.tr + 0 := ⟨CStatus.ok, _, rfl, ok_isErr, hw⟩
  unfold pick
  by_cases hm : ch e = -1
  · rw [if_pos hm]
    cases hl : kids.getLast? with
    | none =>
      rw [List.getLast?_eq_none_iff] at hl
      subst hl
      simp [hm] at hnone ⊢
      exact hnone
    | some t =>
      have hne : (kids.map fun t => (t.id, g t)) ≠ [] := by
        intro hn
        rw [List.map_eq_nil_iff] at hn
        subst hn; simp at hl
      rw [if_pos ⟨hm, hne⟩, List.getLast?_map, hl]
      exact hone t (List.mem_of_getLast? hl)
  · rw [if_neg hm, if_neg (fun hc => hm hc.1)]
    by_cases hneg : ch e < 0
    · rw [if_pos hneg, if_neg (by omega)]
      exact hnone
    · rw [if_neg hneg]
      by_cases hlt : ch e < (kids.map fun t => (t.id, g t)).length
      · rw [if_pos ⟨by omega, hlt⟩]
        rw [List.length_map] at hlt
        have hnl : (ch e).toNat < kids.length := by omega
        rw [List.getElem?_map, List.getElem?_eq_getElem hnl]
        exact hone _ (List.getElem_mem hnl)
      · rw [if_neg (by omega)]
        rw [List.length_map] at hlt
        rw [List.getElem?_eq_none (by omega)]
        exact hnone

theorem matching_does {U : User} {ch : Nat → Int} {mt : Nat → Bool} {x : Nat} {g : Tree → M CStatus}
    (hf : AllFine U ch mt) (kids : List Tree) : ∀ w, ∃ w', matching U (kids.map fun t => (t.id, g t)) w =
      some (.ret ((kids.filter fun t => mt t.id).map fun t => (t.id, g t)), w') ∧ runsOf x w'.tr = runsOf x w.tr := by
  induction kids with
  | nil => intro w; exact ⟨w, rfl, rfl⟩
  | cons t kids ih =>
    intro w
    obtain ⟨w', h1, h2⟩ := ih { w with tr := w.tr ++ [.isMatch t.id (.ret (mt t.id))] }
    refine ⟨w', ?_, ?_⟩
    · simp only [List.map_cons, matching]
      rw [bind_ret (a := mt t.id) (w' := { w with tr := w.tr ++ [.isMatch t.id (.ret (mt t.id))] }) _
        (by rw [emit_eq, hf.isMatch]), bind_ret _ h1]
      cases hmt : mt t.id with
      | false => rw [List.filter_cons_of_neg (by simp [hmt])]; rfl
      | true => rw [List.filter_cons_of_pos (by simp [hmt])]; rfl
    · rw [h2, runsOf_append]; simp [runsOf]

theorem runTasks_does {x : Nat} {g : Tree → M CStatus} {T : Tree → Nat} (kids : List Tree)
    (h : ∀ t ∈ kids, Does x (T t) (g t)) (is : List Nat) (hi : ∀ i ∈ is, i < kids.length) :
    ∀ w, ∃ rs w', runTasks (kids.map fun t => (t.id, g t)) is w = some (.ret rs, w') ∧
      (∀ r ∈ rs, ∃ s, r.2 = .ret s ∧ s.isErr = false) ∧
      runsOf x w'.tr = runsOf x w.tr + (is.map fun i => (kids.map T).getD i 0).sum := by
  induction is with
  | nil => intro w; exact ⟨[], w, rfl, by simp, rfl⟩
  | cons i is ih =>
    intro w
    have hil := hi i (by simp)
    obtain ⟨s, w1, h1, h2, h3⟩ := h kids[i] (List.getElem_mem hil) w
    obtain ⟨rs, w2, k1, k2, k3⟩ := ih (fun j hj => hi j (by simp [hj])) w1
    refine ⟨(i, .ret s) :: rs, w2, ?_, ?_, ?_⟩
    · simp only [runTasks, List.getElem?_map, List.getElem?_eq_getElem hil, Option.map_some]
      rw [bind_ret (a := .ret s) (w' := w1) _ (by unfold capture; rw [h1]), bind_ret _ k1]
      rfl
    · intro r hr
      rcases List.mem_cons.1 hr with rfl | hr
      · exact ⟨s, rfl, h2⟩
      · exact k2 r hr
    · rw [k3, h3]
      simp [List.getD_eq_getElem?_getD, List.getElem?_map, List.getElem?_eq_getElem hil]
      omega

theorem collect_does (os : List (Option (Out CStatus))) :
    (∀ r, some r ∈ os → ∃ s, r = .ret s ∧ s.isErr = false) → ∀ st w, st.isErr = false →
    ∃ s, collect os st w = some (.ret s, w) ∧ s.isErr = false := by
  induction os with
  | nil => intro _ st w hst; exact ⟨st, rfl, hst⟩
  | cons o os ih =>
    intro h st w hst
    cases o with
    | none => exact ih (fun r hr => h r (by simp [hr])) st w hst
    | some r =>
      obtain ⟨s, rfl, hs⟩ := h r (by simp)
      have : collect (some (.ret s) :: os) st w = collect os (st.add s) w := rfl
      rw [this, add_not_err_right hs]
      exact ih (fun r hr => h r (by simp [hr])) st w hst

theorem parallelBody_does {U : User} {ch : Nat → Int} {mt : Nat → Bool} {e x : Nat} {g : Tree → M CStatus}
    {T : Tree → Nat} (hf : AllFine U ch mt) (kids : List Tree) (h : ∀ t ∈ kids, Does x (T t) (g t)) :
    Does x (((kids.filter fun t => mt t.id).map T).sum) (parallelBody U e (kids.map fun t => (t.id, g t))) := by
  intro w
  obtain ⟨w1, a1, a2⟩ := matching_does (x := x) (g := g) hf kids w
  set ms := kids.filter fun t => mt t.id with hms
  have hperm := orderOf_perm (U.order e w1.tr) ms.length
  obtain ⟨rs, w2, b1, b2, b3⟩ := runTasks_does ms (fun t ht => h t (List.mem_of_mem_filter ht))
    (orderOf (U.order e w1.tr) ms.length) (fun i hi => by simpa using hperm.subset hi) w1
  obtain ⟨s, c1, c2⟩ := collect_does
    ((List.range ms.length).map fun i => (rs.find? fun r => r.1 == i).map (·.2)) (by
      intro r hr
      obtain ⟨i, _, hi⟩ := List.mem_map.1 hr
      obtain ⟨q, hq, rfl⟩ := Option.map_eq_some_iff.1 hi
      exact b2 q (List.mem_of_find?_eq_some hq)) CStatus.ok w2 ok_isErr
  refine ⟨s, w2, ?_, c2, ?_⟩
  · unfold parallelBody
    rw [bind_ret _ a1]
    show M.bind (runTasks (ms.map fun t => (t.id, g t))
      (orderOf (U.order e w1.tr) (ms.map fun t => (t.id, g t)).length)) _ w1 = _
    rw [List.length_map, bind_ret _ b1]
    exact c1
  · rw [b3, a2]
    congr 1
    have h1 := (hperm.map fun i => (ms.map T).getD i 0).sum_nat
    rw [h1]
    congr 1
    refine List.ext_getElem (by simp) ?_
    intro i hi hj
    simp only [List.getElem_map, List.getElem_range]
    simp only [List.length_map, List.length_range] at hi
    simp [List.getD_eq_getElem?_getD, List.getElem?_map, List.getElem?_eq_getElem hi]

theorem nodeBody_does {U : User} {ch : Nat → Int} {mt : Nat → Bool} (hf : AllFine U ch mt) (x e : Nat) :
    Does x 0 (nodeBody U e .run) := by
  intro w
  obtain ⟨s, h1, h2⟩ := hf.body e w.tr
  exact ⟨s, w, by simp [nodeBody, h1], h2, rfl⟩

theorem timesAll_eq (ch : Nat → Int) (mt : Nat → Bool) (x : Nat) (kids : List Tree) :
    timesAll ch mt x kids = kids.map fun t => (t.id, times ch mt x t) := by
  induction kids with
  | nil => simp [timesAll]
  | cons t kids ih => simp only [timesAll, ih, List.map_cons]

theorem tree_does {U : User} {ch : Nat → Int} {mt : Nat → Bool} (hf : AllFine U ch mt) (F x : Nat) (t : Tree) :
    Does x (times ch mt x t) (t.run U (F + 1)) := by
  induction t using Tree.ind with
  | node e =>
    simp only [Tree.run, times]
    have := fatRun_does (F := F) (e := e) (x := x) hf (nodeBody_does hf x e.id)
    exact called_does (by simpa using this)
  | group k e kids ih =>
    simp only [Tree.run, times, timesAll_eq]
    refine called_does (fatRun_does hf ?_)
    rw [tree_runs_eq]
    have hsum : (((kids.map fun t => (t.id, times ch mt x t)).filter fun p => mt p.1).map Prod.snd) =
        (kids.filter fun t => mt t.id).map (times ch mt x) := by
      rw [List.filter_map, List.map_map]; rfl
    cases k with
    | cluster =>
      have := clusterBody_does kids ih _ ok_isErr
      simp only [groupBody, List.map_map]
      exact this
    | condition =>
      have := conditionBody_does (e := e.id) hf kids ih
      simp only [groupBody]
      have hp : (pick (ch e.id) (kids.map fun t => (t.id, times ch mt x t))).map Prod.snd =
          (pick (ch e.id) kids).map (times ch mt x) := by
        unfold pick
        split
        · rw [List.getLast?_map, Option.map_map]; rfl
        · split
          · rfl
          · rw [List.getElem?_map, Option.map_map]; rfl
      rw [hp]
      exact this
    | multiSerial =>
      have := serialBody_does hf kids ih _ ok_isErr
      simp only [groupBody, hsum]
      exact this
    | multiParallel =>
      have := parallelBody_does (e := e.id) hf kids ih
      simp only [groupBody, hsum]
      exact this

end CGraph
