import Verif.Spec.Group
import Verif.Lemmas.ElementRun

/-! # Which events a computation adds -/
namespace CGraph
open Spec M CStatus

/-- `m` only adds events with property `P` and only touches the flags `prepared k` with `Q k`. -/
def Emits {α : Type} (P : Act → Prop) (Q : Nat → Prop) (m : M α) : Prop :=
  ∀ w o w', m w = some (o, w') → (∃ l, w'.tr = w.tr ++ l ∧ ∀ ev ∈ l, P ev) ∧ ∀ k, ¬ Q k → w'.prepared k = w.prepared k

section
variable {α β : Type} {P P' : Act → Prop} {Q Q' : Nat → Prop}

theorem Emits.mono {m : M α} (h : Emits P Q m) (hP : ∀ ev, P ev → P' ev) (hQ : ∀ k, Q k → Q' k) : Emits P' Q' m := by
  intro w o w' hm
  obtain ⟨⟨l, e1, e2⟩, e3⟩ := h w o w' hm
  exact ⟨⟨l, e1, fun ev hev => hP ev (e2 ev hev)⟩, fun k hk => e3 k (fun hq => hk (hQ k hq))⟩

theorem Emits.stay {m : M α} (h : ∀ w o w', m w = some (o, w') → w' = w) : Emits P Q m := by
  intro w o w' hm
  rw [h w o w' hm]
  exact ⟨⟨[], by simp, by simp⟩, fun _ _ => rfl⟩

theorem Emits.pure (a : α) : Emits P Q (M.pure a) := by
  apply Emits.stay
  intro w o w' h
  simp only [M.pure, Option.some.injEq, Prod.mk.injEq] at h
  exact h.2.symm

theorem Emits.throw (x : Exc) : Emits P Q (M.throw x : M α) := by
  apply Emits.stay
  intro w o w' h
  simp only [M.throw, Option.some.injEq, Prod.mk.injEq] at h
  exact h.2.symm

theorem Emits.ofOut (x : Out α) : Emits P Q (M.ofOut x : M α) := by
  apply Emits.stay
  intro w o w' h
  simp only [M.ofOut, Option.some.injEq, Prod.mk.injEq] at h
  exact h.2.symm

theorem Emits.diverge : Emits P Q (M.diverge : M α) := by
  intro w o w' h; simp [M.diverge] at h

theorem Emits.failM (st : CStatus) (f : CStatus → α) : Emits P Q (failM st f) := by
  apply Emits.stay
  intro w o w' h
  exact (failM_some h).1

theorem Emits.bind {m : M α} {f : α → M β} (hm : Emits P Q m) (hf : ∀ a, Emits P Q (f a)) : Emits P Q (M.bind m f) := by
  intro w o w'' h
  rcases bind_some h with ⟨a, w', h1, h2⟩ | ⟨x, h1, rfl⟩
  · obtain ⟨⟨l1, a1, a2⟩, a3⟩ := hm w _ w' h1
    obtain ⟨⟨l2, b1, b2⟩, b3⟩ := hf a w' _ w'' h2
    refine ⟨⟨l1 ++ l2, by rw [b1, a1, List.append_assoc], ?_⟩, fun k hk => (b3 k hk).trans (a3 k hk)⟩
    intro ev hev
    rcases List.mem_append.1 hev with hh | hh
    · exact a2 ev hh
    · exact b2 ev hh
  · exact hm w _ w'' h1

theorem Emits.emit {f : Trace → Out α} {mk : Out α → Act} (h : ∀ r, P (mk r)) : Emits P Q (M.emit f mk) := by
  intro w o w' hm
  rw [emit_eq] at hm
  simp only [Option.some.injEq, Prod.mk.injEq] at hm
  obtain ⟨rfl, rfl⟩ := hm
  exact ⟨⟨_, rfl, by intro ev hev; simp at hev; rw [hev]; exact h _⟩, fun _ _ => rfl⟩

theorem Emits.capture {m : M α} (hm : Emits P Q m) : Emits P Q (M.capture m) := by
  intro w o w' h
  unfold M.capture at h
  split at h
  · simp at h
  · rename_i o' w1 he
    simp only [Option.some.injEq, Prod.mk.injEq] at h
    obtain ⟨_, rfl⟩ := h
    exact hm _ _ _ he

theorem Emits.catchC {m : M α} {hd : String → M α} (hm : Emits P Q m) (hh : ∀ s, Emits P Q (hd s)) :
    Emits P Q (M.catchC m hd) := by
  intro w o w' h
  unfold M.catchC at h
  split at h
  · rename_i msg w1 he
    obtain ⟨⟨l1, a1, a2⟩, a3⟩ := hm _ _ _ he
    obtain ⟨⟨l2, b1, b2⟩, b3⟩ := hh msg _ _ _ h
    refine ⟨⟨l1 ++ l2, by rw [b1, a1, List.append_assoc], ?_⟩, fun k hk => (b3 k hk).trans (a3 k hk)⟩
    intro ev hev
    rcases List.mem_append.1 hev with hh | hh
    · exact a2 ev hh
    · exact b2 ev hh
  · exact hm _ _ _ h

theorem Emits.bracket {e : Nat} {p : Phase} {m : M CStatus} (h1 : P (.enter e p)) (h2 : ∀ r, P (.leave e p r))
    (hm : Emits P Q m) : Emits P Q (M.bracket e p m) := by
  intro w o w' h
  unfold M.bracket at h
  split at h
  · simp at h
  · rename_i o' w1 he
    simp only [Option.some.injEq, Prod.mk.injEq] at h
    obtain ⟨rfl, rfl⟩ := h
    obtain ⟨⟨l1, a1, a2⟩, a3⟩ := hm _ _ _ he
    refine ⟨⟨[.enter e p] ++ l1 ++ [.leave e p o'], ?_, ?_⟩, fun k hk => (a3 k hk)⟩
    · show w1.tr ++ _ = _
      rw [a1]; simp
    · intro ev hev
      simp only [List.append_assoc, List.mem_append, List.mem_singleton, List.mem_cons, List.not_mem_nil, or_false] at hev
      rcases hev with rfl | hev | rfl
      · exact h1
      · exact a2 ev hev
      · exact h2 _

theorem Emits.called {e : Nat} {p : Phase} {m : M CStatus} (h1 : P (.call e p)) (h2 : ∀ r, P (.back e p r))
    (hm : Emits P Q m) : Emits P Q (CGraph.called e p m) := by
  intro w o w' h
  unfold CGraph.called at h
  split at h
  · simp at h
  · rename_i o' w1 he
    simp only [Option.some.injEq, Prod.mk.injEq] at h
    obtain ⟨rfl, rfl⟩ := h
    obtain ⟨⟨l1, a1, a2⟩, a3⟩ := hm _ _ _ he
    refine ⟨⟨[.call e p] ++ l1 ++ [.back e p o'], ?_, ?_⟩, fun k hk => (a3 k hk)⟩
    · show w1.tr ++ _ = _
      rw [a1]; simp
    · intro ev hev
      simp only [List.append_assoc, List.mem_append, List.mem_singleton, List.mem_cons, List.not_mem_nil, or_false] at hev
      rcases hev with rfl | hev | rfl
      · exact h1
      · exact a2 ev hev
      · exact h2 _

theorem Emits.getPrepared (e : Nat) : Emits P Q (M.getPrepared e) := by
  apply Emits.stay
  intro w o w' h
  simp only [M.getPrepared, Option.some.injEq, Prod.mk.injEq] at h
  exact h.2.symm

theorem Emits.setPrepared {e : Nat} (b : Bool) (he : Q e) : Emits P Q (M.setPrepared e b) := by
  intro w o w' h
  simp only [M.setPrepared, Option.some.injEq, Prod.mk.injEq] at h
  obtain ⟨_, rfl⟩ := h
  refine ⟨⟨[], by simp, by simp⟩, ?_⟩
  intro k hk
  have : k ≠ e := fun h => hk (h ▸ he)
  simp [this]

end

section
variable {P : Act → Prop} {Q : Nat → Prop} {U : User} {e : Nat}

theorem doBegin_emits (h : ∀ ev, ev.id = e → isKidAct ev = false → P ev) (p : Phase) (as : List Nat) :
    ∀ st, Emits P Q (doBegin U e p as st) := by
  induction as with
  | nil => intro st; exact .pure _
  | cons a as ih =>
    intro st
    refine .bind (.emit fun r => h _ rfl rfl) fun r => ?_
    split
    · exact .failM _ _
    · exact ih _

theorem doFinish_emits (h : ∀ ev, ev.id = e → isKidAct ev = false → P ev) (p : Phase) (st : CStatus) (as : List Nat) :
    Emits P Q (doFinish U e p st as) := by
  induction as with
  | nil => exact .pure _
  | cons a as ih => exact .bind (.emit fun r => h _ rfl rfl) fun _ => ih

theorem doCrash_emits (h : ∀ ev, ev.id = e → isKidAct ev = false → P ev) (as : List Nat) : Emits P Q (doCrash U e as) := by
  induction as with
  | nil => exact .pure _
  | cons a as ih => exact .bind (.emit fun r => h _ rfl rfl) fun _ => ih

theorem doTimeout_emits (h : ∀ ev, ev.id = e → isKidAct ev = false → P ev) (as : List Nat) : Emits P Q (doTimeout U e as) := by
  induction as with
  | nil => exact .pure _
  | cons a as ih => exact .bind (.emit fun r => h _ rfl rfl) fun _ => ih
end

section
variable {P : Act → Prop} {Q : Nat → Prop} {U : User} {e : Elem} {body : M CStatus}

theorem theBody_emits (h : ∀ ev, ev.id = e.id → isKidAct ev = false → P ev) (hb : Emits P Q body) :
    Emits P Q (if e.isAsync then asyncRun U e body else body) := by
  split
  · unfold asyncRun
    refine .bind (.capture hb) fun o => .bind (.emit fun r => h _ rfl rfl) fun b => ?_
    split
    · exact .ofOut _
    · refine .bind (doTimeout_emits h _) fun _ => ?_
      split <;> exact .pure _
  · exact hb

theorem holdLoop_emits (h : ∀ ev, ev.id = e.id → isKidAct ev = false → P ev) (hb : Emits P Q body) (F : Nat) :
    ∀ st, Emits P Q (holdLoop U e body F st) := by
  induction F with
  | zero => intro st; exact .diverge
  | succ F ih =>
    intro st
    refine .bind (.bracket (h _ rfl rfl) (fun r => h _ rfl rfl) (theBody_emits h hb)) fun r =>
      .bind (.emit fun r => h _ rfl rfl) fun b => ?_
    split
    · exact ih _
    · exact .pure _

theorem rounds_emits (h : ∀ ev, ev.id = e.id → isKidAct ev = false → P ev) (hb : Emits P Q body) (F n : Nat) :
    ∀ st, Emits P Q (rounds U F e body n st) := by
  induction n with
  | zero => intro st; exact .pure _
  | succ n ih =>
    intro st
    simp only [rounds]
    split
    · refine .bind (.emit fun r => h _ rfl rfl) fun s => ?_
      split
      · refine .bind (doBegin_emits h _ _ _) fun b => ?_
        split
        · exact .failM _ _
        · exact .bind (holdLoop_emits h hb _ _) fun st' => .bind (doFinish_emits h _ _ _) fun _ => ih _
      · exact .pure _
    · exact .pure _

theorem fatRun_emits (h : ∀ ev, ev.id = e.id → isKidAct ev = false → P ev) (hq : Q e.id) (hb : Emits P Q body) (F : Nat) :
    Emits P Q (fatRun U F e body) := by
  unfold fatRun
  split
  · refine .catchC ?_ fun s => .bind (doCrash_emits h _) fun _ => .emit fun r => h _ rfl rfl
    unfold runBranch
    refine .bind ?_ fun p => ?_
    · unfold prepare
      refine .bind (.getPrepared _) fun p => ?_
      split
      · exact .pure _
      · refine .bind (.emit fun r => h _ rfl rfl) fun r => ?_
        split
        · exact .failM _ _
        · exact .bind (.setPrepared _ hq) fun _ => .pure _
    · split
      · exact .pure _
      · refine .bind (rounds_emits h hb _ _ _) fun r => ?_
        split
        · exact .pure _
        · refine .bind (.emit fun r => h _ rfl rfl) fun c => ?_
          split
          · exact .throw _
          · exact .pure _
  · exact .pure _

theorem fatLife_emits (h : ∀ ev, ev.id = e.id → isKidAct ev = false → P ev) (hq : Q e.id) (hb : Emits P Q body) (p : Phase) :
    Emits P Q (fatLife U e p body) := by
  unfold fatLife
  split
  · refine .catchC ?_ fun s => .bind (doCrash_emits h _) fun _ => .emit fun r => h _ rfl rfl
    unfold lifeBranch
    refine .bind ?_ fun _ => .bind (doBegin_emits h _ _ _) fun b => ?_
    · split
      · exact .setPrepared _ hq
      · exact .pure _
    · split
      · exact .failM _ _
      · exact .bind (.bracket (h _ rfl rfl) (fun r => h _ rfl rfl) hb) fun r =>
          .bind (doFinish_emits h _ _ _) fun _ => .pure _
  · exact .pure _

theorem nodeBody_emits (e : Nat) (p : Phase) : Emits P Q (nodeBody U e p) := by
  apply Emits.stay
  intro w o w' h
  simp only [nodeBody, Option.some.injEq, Prod.mk.injEq] at h
  exact h.2.symm
end

section
variable {P : Act → Prop} {Q : Nat → Prop} {U : User}

theorem clusterBody_emits {bs : List (Nat × M CStatus)} (hb : ∀ b ∈ bs, Emits P Q b.2) :
    ∀ st, Emits P Q (clusterBody bs st) := by
  induction bs with
  | nil => intro st; exact .pure _
  | cons b bs ih =>
    intro st
    refine .bind (hb b (by simp)) fun r => ?_
    split
    · exact .failM _ _
    · exact ih (fun c hc => hb c (by simp [hc])) _

theorem conditionBody_emits {e : Nat} {bs : List (Nat × M CStatus)} (h : ∀ r, P (.choose e r))
    (hb : ∀ b ∈ bs, Emits P Q b.2) : Emits P Q (conditionBody U e bs) := by
  refine .bind (.emit h) fun i => ?_
  split
  · split
    · rename_i b hl
      exact .bind (hb b (List.mem_of_getLast? hl)) fun r => .pure _
    · exact .pure _
  · split
    · split
      · rename_i b hl
        exact .bind (hb b (List.mem_of_getElem? hl)) fun r => .pure _
      · exact .pure _
    · exact .pure _

theorem serialBody_emits {bs : List (Nat × M CStatus)} (h : ∀ b ∈ bs, ∀ r, P (.isMatch b.1 r))
    (hb : ∀ b ∈ bs, Emits P Q b.2) : ∀ st, Emits P Q (serialBody U bs st) := by
  induction bs with
  | nil => intro st; exact .pure _
  | cons b bs ih =>
    intro st
    have ih := ih (fun c hc => h c (by simp [hc])) (fun c hc => hb c (by simp [hc]))
    refine .bind (.emit (h b (by simp))) fun m => ?_
    split
    · refine .bind (hb b (by simp)) fun r => ?_
      split
      · exact .failM _ _
      · exact ih _
    · exact ih _

theorem matching_emits {bs : List (Nat × M CStatus)} (h : ∀ b ∈ bs, ∀ r, P (.isMatch b.1 r)) :
    Emits P Q (matching U bs) := by
  induction bs with
  | nil => exact .pure _
  | cons b bs ih =>
    exact .bind (.emit (h b (by simp))) fun m => .bind (ih fun c hc => h c (by simp [hc])) fun rest => .pure _

theorem runTasks_emits {ms : List (Nat × M CStatus)} (hb : ∀ b ∈ ms, Emits P Q b.2) (is : List Nat) :
    Emits P Q (runTasks ms is) := by
  induction is with
  | nil => exact .pure _
  | cons i is ih =>
    simp only [runTasks]
    split
    · exact ih
    · rename_i b hl
      exact .bind (.capture (hb b (List.mem_of_getElem? hl))) fun o => .bind ih fun rest => .pure _

theorem collect_emits (os : List (Option (Out CStatus))) : ∀ st, Emits P Q (collect os st) := by
  induction os with
  | nil => intro st; exact .pure _
  | cons o os ih =>
    intro st
    cases o with
    | none => exact ih st
    | some o => exact .bind (.ofOut _) fun r => ih _

/-- `matching` only gives back members of the list. -/
theorem matching_sub {bs : List (Nat × M CStatus)} : ∀ {w w' : World} {ms : List (Nat × M CStatus)},
    matching U bs w = some (.ret ms, w') → ms.Sublist bs := by
  induction bs with
  | nil =>
    intro w w' ms h
    simp only [matching, M.pure, Option.some.injEq, Prod.mk.injEq, Out.ret.injEq] at h
    rw [← h.1]
  | cons b bs ih =>
    intro w w' ms h
    simp only [matching] at h
    rcases bind_some h with ⟨m, w1, h1, h2⟩ | ⟨x, h1, hbad⟩
    · rcases bind_some h2 with ⟨rest, w2, h3, h4⟩ | ⟨x, h3, hbad⟩
      · simp only [M.pure, Option.some.injEq, Prod.mk.injEq, Out.ret.injEq] at h4
        have := ih h3
        rw [← h4.1]
        split
        · exact this.cons_cons b
        · exact this.cons b
      · simp at hbad
    · simp at hbad

theorem parallelBody_emits {e : Nat} {bs : List (Nat × M CStatus)} (h : ∀ b ∈ bs, ∀ r, P (.isMatch b.1 r))
    (hb : ∀ b ∈ bs, Emits P Q b.2) : Emits P Q (parallelBody U e bs) := by
  intro w o w' hm
  unfold parallelBody at hm
  rcases bind_some hm with ⟨ms, w1, h1, h2⟩ | ⟨x, h1, rfl⟩
  · have hsub := matching_sub h1
    have : Emits P Q (M.bind (fun w => some (.ret (U.order e w.tr), w)) fun prop =>
        M.bind (runTasks ms (orderOf prop ms.length)) fun rs =>
        collect ((List.range ms.length).map fun i => (rs.find? fun r => r.1 == i).map (·.2)) CStatus.ok) := by
      refine .bind (.stay ?_) fun prop => .bind (runTasks_emits (fun b hb' => hb b (hsub.subset hb')) _) fun rs =>
        collect_emits _ _
      intro w o w' h
      simp only [Option.some.injEq, Prod.mk.injEq] at h
      exact h.2.symm
    obtain ⟨⟨l1, a1, a2⟩, a3⟩ := matching_emits (Q := Q) h _ _ _ h1
    obtain ⟨⟨l2, b1, b2⟩, b3⟩ := this _ _ _ h2
    refine ⟨⟨l1 ++ l2, by rw [b1, a1, List.append_assoc], ?_⟩, fun k hk => (b3 k hk).trans (a3 k hk)⟩
    intro ev hev
    rcases List.mem_append.1 hev with hh | hh
    · exact a2 ev hh
    · exact b2 ev hh
  · exact matching_emits h _ _ _ h1

theorem lifeBody_emits {bs : List (Nat × M CStatus)} (hb : ∀ b ∈ bs, Emits P Q b.2) :
    ∀ st, Emits P Q (lifeBody bs st) := by
  induction bs with
  | nil =>
    intro st
    simp only [lifeBody]
    split
    · exact .failM _ _
    · exact .pure _
  | cons b bs ih =>
    intro st
    exact .bind (hb b (by simp)) fun r => ih (fun c hc => hb c (by simp [hc])) _

theorem groupBody_emits {k : Kind} {e : Nat} {bs : List (Nat × M CStatus)} (h0 : ∀ r, P (.choose e r))
    (h : ∀ b ∈ bs, ∀ r, P (.isMatch b.1 r)) (hb : ∀ b ∈ bs, Emits P Q b.2) : Emits P Q (groupBody U k e bs) := by
  cases k with
  | cluster => exact clusterBody_emits hb _
  | condition => exact conditionBody_emits h0 hb
  | multiSerial => exact serialBody_emits h hb _
  | multiParallel => exact parallelBody_emits h hb
end

/-! ## Trees -/

theorem tree_runs_eq (U : User) (F : Nat) (ts : List Tree) : Tree.runs U F ts = ts.map fun t => (t.id, t.run U F) := by
  induction ts with
  | nil => simp [Tree.runs]
  | cons t ts ih => simp [Tree.runs, ih]

theorem tree_lifes_eq (U : User) (p : Phase) (ts : List Tree) :
    Tree.lifes U p ts = ts.map fun t => (t.id, t.life U p) := by
  induction ts with
  | nil => simp [Tree.lifes]
  | cons t ts ih => simp [Tree.lifes, ih]

theorem tree_idsAll_eq (ts : List Tree) : Tree.idsAll ts = ts.flatMap Tree.ids := by
  induction ts with
  | nil => simp [Tree.idsAll]
  | cons t ts ih => simp [Tree.idsAll, ih]

theorem Tree.id_mem (t : Tree) : t.id ∈ t.ids := by
  cases t <;> simp [Tree.id, Tree.elem, Tree.ids]

/-- Induction over trees. -/
theorem Tree.ind {motive : Tree → Prop} (node : ∀ e, motive (.node e))
    (group : ∀ k e kids, (∀ t ∈ kids, motive t) → motive (.group k e kids)) (t : Tree) : motive t :=
  Tree.rec (motive_1 := motive) (motive_2 := fun ts => ∀ t ∈ ts, motive t) node (fun k e kids ih => group k e kids ih)
    (by simp) (fun t ts h1 h2 x hx => by
      rcases List.mem_cons.1 hx with rfl | hx
      · exact h1
      · exact h2 x hx) t

/-- Running an element of the tree only touches the tree. -/
theorem tree_run_emits (U : User) (F : Nat) (t : Tree) :
    Emits (fun ev => ev.id ∈ t.ids) (· ∈ t.ids) (t.run U F) := by
  induction t using Tree.ind with
  | node e =>
    simp only [Tree.run]
    refine .called (by simp [Act.id, Tree.ids]) (by simp [Act.id, Tree.ids]) (fatRun_emits ?_ (by simp [Tree.ids]) (nodeBody_emits _ _) _)
    intro ev h _; simp [Tree.ids, h]
  | group k e kids ih =>
    simp only [Tree.run]
    have hsub : ∀ t ∈ kids, ∀ i ∈ t.ids, i ∈ (Tree.group k e kids).ids := by
      intro t ht i hi
      simp only [Tree.ids, tree_idsAll_eq, List.mem_cons, List.mem_flatMap]
      exact .inr ⟨t, ht, hi⟩
    refine .called (by simp [Act.id, Tree.ids]) (by simp [Act.id, Tree.ids])
      (fatRun_emits ?_ (by simp [Tree.ids]) (groupBody_emits ?_ ?_ ?_) _)
    · intro ev h _; simp [Tree.ids, h]
    · intro r; simp [Act.id, Tree.ids]
    · intro b hb r
      rw [tree_runs_eq] at hb
      obtain ⟨t, ht, rfl⟩ := List.mem_map.1 hb
      exact hsub t ht _ t.id_mem
    · intro b hb
      rw [tree_runs_eq] at hb
      obtain ⟨t, ht, rfl⟩ := List.mem_map.1 hb
      exact (ih t ht).mono (fun ev h => hsub t ht _ h) (fun i h => hsub t ht _ h)

theorem tree_life_emits (U : User) (p : Phase) (t : Tree) :
    Emits (fun ev => ev.id ∈ t.ids) (· ∈ t.ids) (t.life U p) := by
  induction t using Tree.ind with
  | node e =>
    simp only [Tree.life]
    refine .called (by simp [Act.id, Tree.ids]) (by simp [Act.id, Tree.ids]) (fatLife_emits ?_ (by simp [Tree.ids]) (nodeBody_emits _ _) _)
    intro ev h _; simp [Tree.ids, h]
  | group k e kids ih =>
    simp only [Tree.life]
    have hsub : ∀ t ∈ kids, ∀ i ∈ t.ids, i ∈ (Tree.group k e kids).ids := by
      intro t ht i hi
      simp only [Tree.ids, tree_idsAll_eq, List.mem_cons, List.mem_flatMap]
      exact .inr ⟨t, ht, hi⟩
    refine .called (by simp [Act.id, Tree.ids]) (by simp [Act.id, Tree.ids])
      (fatLife_emits ?_ (by simp [Tree.ids]) (lifeBody_emits ?_ _) _)
    · intro ev h _; simp [Tree.ids, h]
    · intro b hb
      rw [tree_lifes_eq] at hb
      obtain ⟨t, ht, rfl⟩ := List.mem_map.1 hb
      exact (ih t ht).mono (fun ev h => hsub t ht _ h) (fun i h => hsub t ht _ h)

end CGraph
