import Verif.Lemmas.GroupCount
import Verif.Props.Element

/-! # C46 to C48, C50, C69: groups

Every statement is about one execution of the virtual function of a group, in a tree of elements with distinct
numbers, from any state of the world and with any user code. -/
namespace CGraph
open Spec M CStatus

/-! ## Example material -/

/-- A node without aspects. -/
def exNode (i : Nat) : Tree := .node ⟨i, "n", true, 1, [], 0, .asError⟩

/-- The element of a group. -/
def exGroupElem (i loop : Nat) : Elem := ⟨i, "g", true, loop, [], 0, .asError⟩

/-- Three children, one of them a cluster of its own. -/
def exKids : List Tree := [exNode 2, .group .cluster (exGroupElem 3 2) [exNode 5, exNode 6], exNode 4]

/-- Element `i` fails. -/
def exUserBad (i : Nat) : User := { exUser with body := fun e _ _ => if e = i then .ret (CStatus.err "x") else .ret .ok }

/-- Elements 2 and 4 match and both fail; 4 runs first. -/
def exUserMatch : User := { exUser with
  isMatch := fun e _ => .ret (decide (e ≠ 3))
  body := fun e _ _ => if e = 2 then .ret (CStatus.err "two") else .ret (CStatus.err "four")
  order := fun _ _ => [1, 0] }

/-- `choose` answers `i`. -/
def exUserChoose (i : Int) : User := { exUser with choose := fun _ _ => .ret i }

/-- Numbers of the processed children, and the outcome. -/
def exGroup (U : User) (k : Kind) : Option (Out CStatus × List Nat) :=
  (groupBody U k 1 (Tree.runs U 5 exKids) exW0).map fun r =>
    (r.1, r.2.tr.filterMap fun ev => match ev with | .call i _ => some i | _ => none)

example : (Tree.group .cluster (exGroupElem 1 1) exKids).ids.Nodup := by decide

/-! ## C46 -/

/-- The children of a cluster are processed in order, each exactly once, up to the first failing one; its status (or
exception) is the outcome.  When none fails all are processed and the outcome is no error. -/
theorem C46_cluster (U : User) (F : Nat) (e : Elem) (kids : List Tree) (w w' : World) (o : Out CStatus)
    (hn : (Tree.group .cluster e kids).ids.Nodup)
    (h : groupBody U .cluster e.id (Tree.runs U F kids) w = some (o, w')) :
    ∃ rs : List (Nat × CStatus), (∀ r ∈ rs, r.2.isErr = false) ∧
      ((rs.map Prod.fst = kids.map Tree.id ∧ (∃ s, o = .ret s ∧ s.isErr = false) ∧
          acts (kids.map Tree.id) w'.tr =
            acts (kids.map Tree.id) w.tr ++ rs.flatMap (fun r => did .run r.1 (.ret r.2))) ∨
       (∃ a r more, kids.map Tree.id = rs.map Prod.fst ++ a :: more ∧ failed r = true ∧
          acts (kids.map Tree.id) w'.tr =
            acts (kids.map Tree.id) w.tr ++ rs.flatMap (fun r => did .run r.1 (.ret r.2)) ++ did .run a r ∧
          EndsWith r o)) := by
  have := clusterBody_shape _ _ _ _ _ (tree_kidOK (U := U) (F := F) hn) ok_isErr h
  rwa [show (Tree.runs U F kids).map Prod.fst = kids.map Tree.id by
    rw [tree_runs_eq, List.map_map]; rfl] at this

example : exGroup exUser .cluster = some (.ret .ok, [2, 3, 5, 6, 5, 6, 4]) := by decide +kernel
example : exGroup (exUserBad 5) .cluster = some (.ret (CStatus.err "x"), [2, 3, 5]) := by decide +kernel

/-! ## C47 -/

/-- When `choose` throws no child is processed. -/
theorem C47_throw (U : User) (F : Nat) (e : Elem) (kids : List Tree) (w : World) (x : Exc)
    (hx : U.choose e.id w.tr = .thr x) :
    ∃ w', groupBody U .condition e.id (Tree.runs U F kids) w = some (.thr x, w') ∧ w'.tr = w.tr ++ [.choose e.id (.thr x)] := by
  refine ⟨⟨w.tr ++ [.choose e.id (.thr x)], w.prepared⟩, ?_, rfl⟩
  show conditionBody U e.id _ w = _
  unfold conditionBody M.bind
  rw [emit_eq, hx]

/-- Exactly the chosen child is processed, once; when the answer selects none nothing is processed and the outcome is
OK.  The outcome is the error or exception of the chosen child, and no error when it succeeded. -/
theorem C47_choice (U : User) (F : Nat) (e : Elem) (kids : List Tree) (w w' : World) (o : Out CStatus) (i : Int)
    (hn : (Tree.group .condition e kids).ids.Nodup) (hi : U.choose e.id w.tr = .ret i)
    (h : groupBody U .condition e.id (Tree.runs U F kids) w = some (o, w')) :
    match pick i (kids.map Tree.id) with
    | none => o = .ret .ok ∧ acts (kids.map Tree.id) w'.tr = acts (kids.map Tree.id) w.tr
    | some k => ∃ r, acts (kids.map Tree.id) w'.tr = acts (kids.map Tree.id) w.tr ++ did .run k r ∧
        (failed r = true → o = r) ∧ (failed r = false → ∃ s, o = .ret s ∧ s.isErr = false) := by
  have hk := tree_kidOK (U := U) (F := F) hn
  have hids : (Tree.runs U F kids).map Prod.fst = kids.map Tree.id := by
    rw [tree_runs_eq, List.map_map]; rfl
  have h : conditionBody U e.id (Tree.runs U F kids) w = some (o, w') := h
  unfold conditionBody at h
  rw [← hids]
  rw [← hids] at hk
  generalize Tree.runs U F kids = bs at *
  have hw1 : acts (bs.map Prod.fst) (w.tr ++ [.choose e.id (.ret i)]) = acts (bs.map Prod.fst) w.tr := by
    rw [acts_append]
    simp [acts, isKidAct]
  have hone : ∀ b ∈ bs, M.bind b.2 (fun r => M.pure (CStatus.ok.assign r)) ⟨w.tr ++ [.choose e.id (.ret i)], w.prepared⟩ =
      some (o, w') → ∃ r, acts (bs.map Prod.fst) w'.tr = acts (bs.map Prod.fst) w.tr ++ did .run b.1 r ∧
        (failed r = true → o = r) ∧ (failed r = false → ∃ s, o = .ret s ∧ s.isErr = false) := by
    intro b hb h2
    rcases bind_some h2 with ⟨r, w2, h3, h4⟩ | ⟨x, h3, rfl⟩
    · have e1 := (hk b hb).2 _ _ _ h3
      simp only [M.pure, Option.some.injEq, Prod.mk.injEq] at h4
      obtain ⟨rfl, rfl⟩ := h4
      refine ⟨.ret r, by rw [e1]; show acts _ (w.tr ++ _) ++ _ = _; rw [hw1], ?_, ?_⟩
      · intro hf
        rw [assign_eq_of_err ok_isErr hf]
      · intro hf
        exact ⟨_, rfl, by rw [assign_isErr ok_isErr]; exact hf⟩
    · have e1 := (hk b hb).2 _ _ _ h3
      exact ⟨.thr x, by rw [e1]; show acts _ (w.tr ++ _) ++ _ = _; rw [hw1], fun _ => rfl, fun hf => by simp [failed] at hf⟩
  have hnone : some (Out.ret CStatus.ok, (⟨w.tr ++ [.choose e.id (.ret i)], w.prepared⟩ : World)) = some (o, w') →
      o = .ret .ok ∧ acts (bs.map Prod.fst) w'.tr = acts (bs.map Prod.fst) w.tr := by
    intro h2
    simp only [Option.some.injEq, Prod.mk.injEq] at h2
    obtain ⟨rfl, rfl⟩ := h2
    exact ⟨rfl, hw1⟩
  rcases bind_some h with ⟨i', w1, h1, h2⟩ | ⟨x, h1, _⟩
  rotate_left
  · rw [emit_eq, hi] at h1; simp at h1
  rw [emit_eq, hi] at h1
  simp only [Option.some.injEq, Prod.mk.injEq, Out.ret.injEq] at h1
  obtain ⟨rfl, rfl⟩ := h1
  unfold pick
  by_cases hm : i = -1
  · subst hm
    simp only [if_true]
    rw [List.getLast?_map]
    cases hl : bs.getLast? with
    | none =>
      rw [List.getLast?_eq_none_iff] at hl
      subst hl
      simp only [Option.map_none]
      simp at h2
      exact hnone h2
    | some b =>
      have hne : bs ≠ [] := by rintro rfl; simp at hl
      rw [if_pos ⟨rfl, hne⟩, hl] at h2
      exact hone b (List.mem_of_getLast? hl) h2
  · rw [if_neg hm]
    rw [if_neg (fun hc => hm hc.1)] at h2
    by_cases hneg : i < 0
    · rw [if_pos hneg]
      rw [if_neg (by omega)] at h2
      exact hnone h2
    · rw [if_neg hneg, List.getElem?_map]
      by_cases hlt : i < bs.length
      · rw [if_pos ⟨by omega, hlt⟩] at h2
        have hnl : i.toNat < bs.length := by omega
        rw [List.getElem?_eq_getElem hnl] at h2 ⊢
        exact hone _ (List.getElem_mem hnl) h2
      · rw [if_neg (by omega)] at h2
        rw [List.getElem?_eq_none (by omega)]
        exact hnone h2

example : exGroup (exUserChoose 1) .condition = some (.ret .ok, [3, 5, 6, 5, 6]) := by decide +kernel
example : exGroup (exUserChoose (-1)) .condition = some (.ret .ok, [4]) := by decide +kernel
example : exGroup (exUserChoose 3) .condition = some (.ret .ok, []) := by decide +kernel
example : exGroup (exUserChoose (-2)) .condition = some (.ret .ok, []) := by decide +kernel

/-! ## C48 -/

/-- A serial multi-condition asks its children in order and processes exactly the matching ones, each right after it was
asked; the first failure ends it and is the outcome.  Without failure all children are asked. -/
theorem C48_serial (U : User) (F : Nat) (e : Elem) (kids : List Tree) (w w' : World) (o : Out CStatus)
    (hn : (Tree.group .multiSerial e kids).ids.Nodup)
    (h : groupBody U .multiSerial e.id (Tree.runs U F kids) w = some (o, w')) :
    ∃ vs : List (Nat × Option CStatus), (∀ v ∈ vs, ∀ s, v.2 = some s → s.isErr = false) ∧
      ((vs.map Prod.fst = kids.map Tree.id ∧ (∃ s, o = .ret s ∧ s.isErr = false) ∧
          acts (kids.map Tree.id) w'.tr = acts (kids.map Tree.id) w.tr ++ vs.flatMap visit) ∨
       (∃ a r more, kids.map Tree.id = vs.map Prod.fst ++ a :: more ∧ failed r = true ∧
          acts (kids.map Tree.id) w'.tr =
            acts (kids.map Tree.id) w.tr ++ vs.flatMap visit ++ (.isMatch a (.ret true) :: did .run a r) ∧ EndsWith r o) ∨
       (∃ a x more, kids.map Tree.id = vs.map Prod.fst ++ a :: more ∧
          acts (kids.map Tree.id) w'.tr = acts (kids.map Tree.id) w.tr ++ vs.flatMap visit ++ [.isMatch a (.thr x)] ∧
          o = .thr x)) := by
  have := serialBody_shape _ _ _ _ _ (tree_kidOK (U := U) (F := F) hn) ok_isErr h
  rwa [show (Tree.runs U F kids).map Prod.fst = kids.map Tree.id by
    rw [tree_runs_eq, List.map_map]; rfl] at this

/-- A parallel multi-condition asks all children in order, then processes exactly the matching ones, each once, in some
order.  The outcome is the first exception in the order of the children, otherwise their first error, otherwise OK.
When asking throws nothing is processed. -/
theorem C48_parallel (U : User) (F : Nat) (e : Elem) (kids : List Tree) (w w' : World) (o : Out CStatus)
    (hn : (Tree.group .multiParallel e kids).ids.Nodup)
    (h : groupBody U .multiParallel e.id (Tree.runs U F kids) w = some (o, w')) :
    (∃ (as : List (Nat × Bool)) (done : List Nat) (f : Nat → Out CStatus), as.map Prod.fst = kids.map Tree.id ∧
      done.Perm ((as.filter (·.2)).map Prod.fst) ∧
      acts (kids.map Tree.id) w'.tr = acts (kids.map Tree.id) w.tr ++ as.map (fun a => .isMatch a.1 (.ret a.2)) ++
        done.flatMap (fun k => did .run k (f k)) ∧
      o = outcome (((as.filter (·.2)).map Prod.fst).map f)) ∨
    (∃ (as : List (Nat × Bool)) (b : Nat) (x : Exc) (more : List Nat),
      kids.map Tree.id = as.map Prod.fst ++ b :: more ∧ o = .thr x ∧
      acts (kids.map Tree.id) w'.tr =
        acts (kids.map Tree.id) w.tr ++ as.map (fun a => .isMatch a.1 (.ret a.2)) ++ [.isMatch b (.thr x)]) := by
  have hsh := parallelBody_shape _ _ _ _ (tree_kidOK (U := U) (F := F) hn) h
  rw [show (Tree.runs U F kids).map Prod.fst = kids.map Tree.id by rw [tree_runs_eq, List.map_map]; rfl] at hsh
  rcases hsh with ⟨as, idx, f, h1, h2, h3, h4⟩ | h1
  rotate_left
  · exact .inr h1
  left
  have hkn : (kids.map Tree.id).Nodup := by
    have hn' : (kids.flatMap Tree.ids).Nodup := by
      simp only [Tree.ids, tree_idsAll_eq, List.nodup_cons] at hn
      exact hn.2
    clear h h1 h2 h3 h4 hn
    induction kids with
    | nil => simp
    | cons t kids ih =>
      simp only [List.flatMap_cons, List.nodup_append] at hn'
      rw [List.map_cons, List.nodup_cons]
      refine ⟨?_, ih hn'.2.1⟩
      intro hin
      obtain ⟨t', ht', heq⟩ := List.mem_map.1 hin
      exact hn'.2.2 _ t.id_mem _ (List.mem_flatMap.2 ⟨t', ht', t'.id_mem⟩) heq.symm
  set ms := (as.filter (·.2)).map Prod.fst with hms
  have hlen : (as.filter (·.2)).length = ms.length := by simp [hms]
  have hmn : ms.Nodup := by
    have : ms.Sublist (as.map Prod.fst) := List.filter_sublist.map _
    exact this.nodup (h1 ▸ hkn)
  rw [hlen] at h2 h4
  have hget : (List.range ms.length).map (fun i => ms.getD i 0) = ms := by
    refine List.ext_getElem (by simp) ?_
    intro i hi _
    simp only [List.getElem_map, List.getElem_range]
    simp only [List.length_map, List.length_range] at hi
    simp [List.getD_eq_getElem?_getD, List.getElem?_eq_getElem hi]
  have hidx : ∀ i, i < ms.length → f (ms.idxOf (ms.getD i 0)) = f i := by
    intro i hi
    have : ms.getD i 0 = ms[i] := by simp [List.getD_eq_getElem?_getD, List.getElem?_eq_getElem hi]
    rw [this, List.Nodup.idxOf_getElem hmn i hi]
  refine ⟨as, idx.map (fun i => ms.getD i 0), fun k => f (ms.idxOf k), h1, ?_, ?_, ?_⟩
  · have := h2.map (fun i => ms.getD i 0)
    rwa [hget] at this
  · rw [h3, List.flatMap_map]
    congr 1
    refine List.flatMap_congr ?_
    intro i hi
    have hi' : i < ms.length := by simpa using h2.subset hi
    show did .run (ms.getD i 0) (f i) = did .run (ms.getD i 0) (f (ms.idxOf (ms.getD i 0)))
    rw [hidx i hi']
  · rw [h4]
    congr 1
    have : (List.range ms.length).map f = ((List.range ms.length).map (fun i => ms.getD i 0)).map (fun k => f (ms.idxOf k)) := by
      rw [List.map_map]
      refine List.map_congr_left ?_
      intro i hi
      exact (hidx i (by simpa using hi)).symm
    rw [this, hget]

example : exGroup exUserMatch .multiSerial = some (.ret (CStatus.err "two"), [2]) := by decide +kernel
example : exGroup exUserMatch .multiParallel = some (.ret (CStatus.err "two"), [4, 2]) := by decide +kernel
example : exGroup exUser .multiSerial = some (.ret .ok, [2, 3, 5, 6, 5, 6, 4]) := by decide +kernel

/-! ## C50 -/

/-- Initialising (destroying) a group processes every child exactly once, in order, whether or not some fail; the
outcome is the first error, or OK; a crash status is thrown.  Only an exception of a child ends it early. -/
theorem C50_life (U : User) (p : Phase) (k : Kind) (e : Elem) (kids : List Tree) (w w' : World) (o : Out CStatus)
    (hn : (Tree.group k e kids).ids.Nodup) (h : lifeBody (Tree.lifes U p kids) .ok w = some (o, w')) :
    ∃ rs : List (Nat × CStatus),
      (rs.map Prod.fst = kids.map Tree.id ∧
        acts (kids.map Tree.id) w'.tr = acts (kids.map Tree.id) w.tr ++ rs.flatMap (fun r => did p r.1 (.ret r.2)) ∧
        o = (if (firstError (rs.map Prod.snd)).isCrash then .thr (.c (" | " ++ (firstError (rs.map Prod.snd)).info))
             else .ret (firstError (rs.map Prod.snd)))) ∨
      (∃ a x more, kids.map Tree.id = rs.map Prod.fst ++ a :: more ∧ o = .thr x ∧
        acts (kids.map Tree.id) w'.tr =
          acts (kids.map Tree.id) w.tr ++ rs.flatMap (fun r => did p r.1 (.ret r.2)) ++ did p a (.thr x)) := by
  have hk := tree_kidOK_life (U := U) (p := p) hn
  obtain ⟨rs, h1⟩ := lifeBody_shape _ _ _ _ _ hk h
  rw [show (Tree.lifes U p kids).map Prod.fst = kids.map Tree.id by rw [tree_lifes_eq, List.map_map]; rfl] at h1
  rw [add_firstError _ _ ok_isErr rfl] at h1
  exact ⟨rs, h1⟩

/-- Numbers of the initialised elements, and the outcome. -/
def exLife (U : User) (p : Phase) : Option (Out CStatus × List Nat) :=
  (lifeBody (Tree.lifes U p exKids) .ok exW0).map fun r =>
    (r.1, r.2.tr.filterMap fun ev => match ev with | .call i _ => some i | _ => none)

example : exLife exUser .init = some (.ret .ok, [2, 3, 5, 6, 4]) := by decide +kernel
example : exLife (exUserBad 2) .init = some (.ret (CStatus.err "x"), [2, 3, 5, 6, 4]) := by decide +kernel

/-! ## C39, C40 for groups -/

/-- C39 for groups: after a failure in a run of the group, its `run` is not entered again. -/
theorem C39_group_stop (U : User) (F : Nat) (k : Kind) (e : Elem) (kids : List Tree) (w w' : World) (o : Out CStatus)
    (hn : (Tree.group k e kids).ids.Nodup)
    (h : fatRun U F e (groupBody U k e.id (Tree.runs U F kids)) w = some (o, w')) :
    ∃ l, own e.id w'.tr = own e.id w.tr ++ l ∧ l.Pairwise (fun a b => failing a = true → isEnter b = false) :=
  C39_stop (Quiet.group hn) h

/-- C40 for groups: exceptions thrown below a group stay inside it. -/
theorem C40_group_partial (U : User) (F : Nat) (k : Kind) (e : Elem) (kids : List Tree) (w w' : World) (o : Out CStatus)
    (hn : (Tree.group k e kids).ids.Nodup)
    (h : fatRun U F e (groupBody U k e.id (Tree.runs U F kids)) w = some (o, w')) :
    ∃ l, own e.id w'.tr = own e.id w.tr ++ l ∧
      ((∀ a ∈ l, ∀ t, excOf a ≠ some (.other t)) →
       (∀ a ∈ l, ∀ x k m, a ≠ .crashA e.id k (.thr x) ∧ a ≠ .crashed e.id m (.thr x)) → Contained e l o) :=
  C40_run_partial (Quiet.group hn) h

/-- C40 for `init` and `destroy` of groups. -/
theorem C40_group_life_partial (U : User) (p : Phase) (k : Kind) (e : Elem) (kids : List Tree) (w w' : World)
    (o : Out CStatus) (hn : (Tree.group k e kids).ids.Nodup)
    (h : fatLife U e p (lifeBody (Tree.lifes U p kids) .ok) w = some (o, w')) :
    ∃ l, own e.id w'.tr = own e.id w.tr ++ l ∧
      ((∀ a ∈ l, ∀ t, excOf a ≠ some (.other t)) →
       (∀ a ∈ l, ∀ x k m, a ≠ .crashA e.id k (.thr x) ∧ a ≠ .crashed e.id m (.thr x)) → Contained e l o) :=
  C40_life_partial (Quiet.groupLife hn) h

/-! ## C69 -/

/-- When nothing fails and nothing is held, running a tree of clusters, conditions and multi-conditions ends without
error and executes `run` of every element `x` exactly as often as `times` says: loop counts multiply along the way from
the root, a condition passes on to the chosen child only, a multi-condition to the matching ones only. -/
theorem C69_times {U : User} {ch : Nat → Int} {mt : Nat → Bool} (hf : AllFine U ch mt) (F : Nat) (t : Tree) (w : World) :
    ∃ s w', t.run U (F + 1) w = some (.ret s, w') ∧ s.isErr = false ∧
      ∀ x, runsOf x w'.tr = runsOf x w.tr + times ch mt x t := by
  obtain ⟨s, w', h1, h2, _⟩ := tree_does hf F 0 t w
  refine ⟨s, w', h1, h2, ?_⟩
  intro x
  obtain ⟨s2, w2, k1, _, k3⟩ := tree_does hf F x t w
  rw [h1] at k1
  simp only [Option.some.injEq, Prod.mk.injEq] at k1
  rw [k1.2]
  exact k3

theorem exUser_allFine : AllFine exUser (fun _ => 0) (fun _ => true) where
  prep := fun _ _ => ⟨_, rfl, rfl⟩
  beginA := fun _ _ _ => ⟨_, rfl, rfl⟩
  finishA := fun _ _ _ _ => rfl
  hold := fun _ _ => rfl
  check := fun _ _ => ⟨_, rfl, rfl⟩
  normal := fun _ _ => rfl
  ready := fun _ _ => rfl
  body := fun _ _ => ⟨_, rfl, rfl⟩
  choose := fun _ _ => rfl
  isMatch := fun _ _ => rfl

/-- A loop of 3 around a loop of 2: six runs of element 5. -/
example : times (fun _ => 0) (fun _ => true) 5 (.group .cluster (exGroupElem 1 3) exKids) = 6 := by decide +kernel
/-- The condition chooses element 2. -/
example : times (fun _ => 0) (fun _ => true) 2 (.group .condition (exGroupElem 1 3) exKids) = 3 ∧
    times (fun _ => 0) (fun _ => true) 5 (.group .condition (exGroupElem 1 3) exKids) = 0 := by decide +kernel

end CGraph
