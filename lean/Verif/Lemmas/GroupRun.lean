import Verif.Lemmas.Group

/-! # What the groups do with their children -/
namespace CGraph
open Spec M CStatus

/-- Processing the child leaves exactly one call on it among the calls on `K`. -/
def KidOK (K : List Nat) (p : Phase) (b : Nat × M CStatus) : Prop :=
  b.1 ∈ K ∧ ∀ w o w', b.2 w = some (o, w') → acts K w'.tr = acts K w.tr ++ did p b.1 o

theorem acts_append (K : List Nat) (a b : Trace) : acts K (a ++ b) = acts K a ++ acts K b := by simp [acts]

theorem acts_nil_of {K : List Nat} {l : Trace} (h : ∀ ev ∈ l, isKidAct ev = false ∨ ev.id ∉ K) : acts K l = [] := by
  unfold acts
  rw [List.filter_eq_nil_iff]
  intro ev hev
  rcases h ev hev with h | h <;> simp [h]

theorem called_kidOK {K : List Nat} {e : Nat} {p : Phase} {m : M CStatus} {Q : Nat → Prop} (he : e ∈ K)
    (hm : Emits (fun ev => isKidAct ev = false ∨ ev.id ∉ K) Q m) : KidOK K p (e, called e p m) := by
  refine ⟨he, ?_⟩
  intro w o w' h
  have h : called e p m w = some (o, w') := h
  unfold called at h
  split at h
  · simp at h
  · rename_i o' w1 hw
    simp only [Option.some.injEq, Prod.mk.injEq] at h
    obtain ⟨rfl, rfl⟩ := h
    obtain ⟨⟨l, a1, a2⟩, _⟩ := hm _ _ _ hw
    show acts K (w1.tr ++ _) = _
    rw [a1, acts_append, acts_append, acts_nil_of a2]
    show acts K (w.tr ++ _) ++ _ ++ _ = _
    rw [acts_append]
    simp [acts, did, isKidAct, Act.id, he]

theorem ids_unique {kids : List Tree} (hn : (kids.flatMap Tree.ids).Nodup) {t : Tree} (ht : t ∈ kids) :
    ∀ t' ∈ kids, t'.id ∈ t.ids → t' = t := by
  intro t' ht' hin
  induction kids with
  | nil => simp at ht
  | cons a kids ih =>
    rw [List.flatMap_cons, List.nodup_append] at hn
    have hno : ∀ x ∈ kids, ∀ i ∈ x.ids, i ∉ a.ids := by
      intro x hx i hi hia
      exact hn.2.2 i hia i (List.mem_flatMap.2 ⟨x, hx, hi⟩) rfl
    rcases List.mem_cons.1 ht with h1 | h1
    · rcases List.mem_cons.1 ht' with h2 | h2
      · rw [h1, h2]
      · subst h1
        exact absurd hin (hno _ h2 _ t'.id_mem)
    · rcases List.mem_cons.1 ht' with h2 | h2
      · subst h2
        exact absurd t'.id_mem (hno _ h1 _ hin)
      · exact ih hn.2.1 h1 h2

/-- In a tree without repeated numbers every child of a group is such a child. -/
theorem tree_kidOK {U : User} {F : Nat} {k : Kind} {e : Elem} {kids : List Tree} (hn : (Tree.group k e kids).ids.Nodup) :
    ∀ b ∈ Tree.runs U F kids, KidOK (kids.map Tree.id) .run b := by
  intro b hb
  rw [tree_runs_eq] at hb
  obtain ⟨t, ht, rfl⟩ := List.mem_map.1 hb
  have hn' : (kids.flatMap Tree.ids).Nodup := by
    simp only [Tree.ids, tree_idsAll_eq, List.nodup_cons] at hn
    exact hn.2
  have huniq := ids_unique hn' ht
  have hmem : t.id ∈ kids.map Tree.id := List.mem_map_of_mem ht
  have hnt : t.ids.Nodup := (List.nodup_flatMap.1 hn').1 t ht
  cases t with
  | node e' =>
    simp only [Tree.run]
    refine called_kidOK hmem (Q := fun _ => True) (fatRun_emits ?_ trivial (nodeBody_emits _ _) _)
    intro ev _ h; exact .inl h
  | group k' e' kids' =>
    simp only [Tree.run]
    have hout : ∀ i ∈ Tree.idsAll kids', i ∉ kids.map Tree.id := by
      intro i hi hin
      obtain ⟨t', ht', rfl⟩ := List.mem_map.1 hin
      have heq := huniq t' ht' (by simp [Tree.ids, hi])
      rw [heq] at hi
      simp only [Tree.ids, List.nodup_cons] at hnt
      exact hnt.1 hi
    have hout' : ∀ t'' ∈ kids', ∀ i ∈ t''.ids, i ∉ kids.map Tree.id := by
      intro t'' ht'' i hi
      refine hout i ?_
      rw [tree_idsAll_eq]
      exact List.mem_flatMap.2 ⟨t'', ht'', hi⟩
    refine called_kidOK hmem (Q := fun _ => True) (fatRun_emits ?_ trivial (groupBody_emits ?_ ?_ ?_) _)
    · intro ev _ h; exact .inl h
    · intro r; exact .inl rfl
    · intro b hb r
      rw [tree_runs_eq] at hb
      obtain ⟨t'', ht'', rfl⟩ := List.mem_map.1 hb
      exact .inr (hout' t'' ht'' _ t''.id_mem)
    · intro b hb
      rw [tree_runs_eq] at hb
      obtain ⟨t'', ht'', rfl⟩ := List.mem_map.1 hb
      exact (tree_run_emits U F t'').mono (fun ev h => .inr (hout' t'' ht'' _ h)) (fun _ _ => trivial)

theorem tree_kidOK_life {U : User} {p : Phase} {k : Kind} {e : Elem} {kids : List Tree}
    (hn : (Tree.group k e kids).ids.Nodup) : ∀ b ∈ Tree.lifes U p kids, KidOK (kids.map Tree.id) p b := by
  intro b hb
  rw [tree_lifes_eq] at hb
  obtain ⟨t, ht, rfl⟩ := List.mem_map.1 hb
  have hn' : (kids.flatMap Tree.ids).Nodup := by
    simp only [Tree.ids, tree_idsAll_eq, List.nodup_cons] at hn
    exact hn.2
  have huniq := ids_unique hn' ht
  have hmem : t.id ∈ kids.map Tree.id := List.mem_map_of_mem ht
  have hnt : t.ids.Nodup := (List.nodup_flatMap.1 hn').1 t ht
  cases t with
  | node e' =>
    simp only [Tree.life]
    refine called_kidOK hmem (Q := fun _ => True) (fatLife_emits ?_ trivial (nodeBody_emits _ _) _)
    intro ev _ h; exact .inl h
  | group k' e' kids' =>
    simp only [Tree.life]
    have hout : ∀ i ∈ Tree.idsAll kids', i ∉ kids.map Tree.id := by
      intro i hi hin
      obtain ⟨t', ht', rfl⟩ := List.mem_map.1 hin
      have heq := huniq t' ht' (by simp [Tree.ids, hi])
      rw [heq] at hi
      simp only [Tree.ids, List.nodup_cons] at hnt
      exact hnt.1 hi
    have hout' : ∀ t'' ∈ kids', ∀ i ∈ t''.ids, i ∉ kids.map Tree.id := by
      intro t'' ht'' i hi
      refine hout i ?_
      rw [tree_idsAll_eq]
      exact List.mem_flatMap.2 ⟨t'', ht'', hi⟩
    refine called_kidOK hmem (Q := fun _ => True) (fatLife_emits ?_ trivial (lifeBody_emits ?_ _) _)
    · intro ev _ h; exact .inl h
    · intro b hb
      rw [tree_lifes_eq] at hb
      obtain ⟨t'', ht'', rfl⟩ := List.mem_map.1 hb
      exact (tree_life_emits U p t'').mono (fun ev h => .inr (hout' t'' ht'' _ h)) (fun _ _ => trivial)

theorem clusterBody_shape {K : List Nat} (bs : List (Nat × M CStatus)) : ∀ (st : CStatus) (w w' : World) (o : Out CStatus),
    (∀ b ∈ bs, KidOK K .run b) → st.isErr = false → clusterBody bs st w = some (o, w') →
    ∃ rs : List (Nat × CStatus), (∀ r ∈ rs, r.2.isErr = false) ∧
      ((rs.map Prod.fst = bs.map Prod.fst ∧ (∃ s, o = .ret s ∧ s.isErr = false) ∧
          acts K w'.tr = acts K w.tr ++ rs.flatMap (fun r => did .run r.1 (.ret r.2))) ∨
       (∃ a r more, bs.map Prod.fst = rs.map Prod.fst ++ a :: more ∧ failed r = true ∧
          acts K w'.tr = acts K w.tr ++ rs.flatMap (fun r => did .run r.1 (.ret r.2)) ++ did .run a r ∧
          EndsWith r o)) := by
  induction bs with
  | nil =>
    intro st w w' o _ hst h
    simp only [clusterBody, M.pure, Option.some.injEq, Prod.mk.injEq] at h
    obtain ⟨rfl, rfl⟩ := h
    exact ⟨[], by simp, .inl ⟨rfl, ⟨st, rfl, hst⟩, by simp⟩⟩
  | cons b bs ih =>
    intro st w w' o hk hst h
    simp only [clusterBody] at h
    have hkb := (hk b (by simp)).2
    rcases bind_some h with ⟨r, w1, h1, h2⟩ | ⟨x, h1, rfl⟩
    · have e1 := hkb _ _ _ h1
      split at h2
      · rename_i herr
        have hre : r.isErr = true := by rwa [assign_isErr hst] at herr
        rw [assign_eq_of_err hst hre] at h2
        obtain ⟨rfl, h3⟩ := failM_some h2
        refine ⟨[], by simp, .inr ⟨b.1, .ret r, bs.map Prod.fst, by simp, hre, by simpa using e1, ?_⟩⟩
        rcases h3 with ⟨hc, rfl⟩ | ⟨hc, rfl⟩
        · exact .inl ⟨r, rfl, hc, rfl⟩
        · exact .inr (.inl ⟨r, rfl, hc, rfl⟩)
      · rename_i herr
        have herr' : (st.assign r).isErr = false := by simpa using herr
        have hrerr : r.isErr = false := by rwa [assign_isErr hst] at herr'
        obtain ⟨rs, hrs, h3⟩ := ih _ _ _ _ (fun c hc => hk c (by simp [hc])) herr' h2
        refine ⟨(b.1, r) :: rs, ?_, ?_⟩
        · intro q hq
          rcases List.mem_cons.1 hq with rfl | hq
          · exact hrerr
          · exact hrs q hq
        · rcases h3 with ⟨f1, f2, f3⟩ | ⟨a, q, more, f1, f2, f3, f4⟩
          · exact .inl ⟨by simp [f1], f2, by rw [f3, e1]; simp⟩
          · exact .inr ⟨a, q, more, by simp [f1], f2, by rw [f3, e1]; simp, f4⟩
    · have e1 := hkb _ _ _ h1
      exact ⟨[], by simp, .inr ⟨b.1, .thr x, bs.map Prod.fst, by simp, rfl, by simpa using e1, .inr (.inr ⟨x, rfl, rfl⟩)⟩⟩

theorem serialBody_shape {U : User} {K : List Nat} (bs : List (Nat × M CStatus)) :
    ∀ (st : CStatus) (w w' : World) (o : Out CStatus),
    (∀ b ∈ bs, KidOK K .run b) → st.isErr = false → serialBody U bs st w = some (o, w') →
    ∃ vs : List (Nat × Option CStatus), (∀ v ∈ vs, ∀ s, v.2 = some s → s.isErr = false) ∧
      ((vs.map Prod.fst = bs.map Prod.fst ∧ (∃ s, o = .ret s ∧ s.isErr = false) ∧
          acts K w'.tr = acts K w.tr ++ vs.flatMap visit) ∨
       (∃ a r more, bs.map Prod.fst = vs.map Prod.fst ++ a :: more ∧ failed r = true ∧
          acts K w'.tr = acts K w.tr ++ vs.flatMap visit ++ (.isMatch a (.ret true) :: did .run a r) ∧ EndsWith r o) ∨
       (∃ a x more, bs.map Prod.fst = vs.map Prod.fst ++ a :: more ∧
          acts K w'.tr = acts K w.tr ++ vs.flatMap visit ++ [.isMatch a (.thr x)] ∧ o = .thr x)) := by
  induction bs with
  | nil =>
    intro st w w' o _ hst h
    simp only [serialBody, M.pure, Option.some.injEq, Prod.mk.injEq] at h
    obtain ⟨rfl, rfl⟩ := h
    exact ⟨[], by simp, .inl ⟨rfl, ⟨st, rfl, hst⟩, by simp⟩⟩
  | cons b bs ih =>
    intro st w w' o hk hst h
    simp only [serialBody] at h
    have hkb := (hk b (by simp))
    rcases bind_some h with ⟨m, w1, h1, h2⟩ | ⟨x, h1, rfl⟩
    rotate_left
    · rw [emit_eq] at h1
      simp only [Option.some.injEq, Prod.mk.injEq] at h1
      obtain ⟨hm, rfl⟩ := h1
      refine ⟨[], by simp, .inr (.inr ⟨b.1, x, bs.map Prod.fst, by simp, ?_, rfl⟩)⟩
      show acts K (w.tr ++ _) = _
      rw [acts_append, hm]
      simp [acts, isKidAct, Act.id, hkb.1]
    rw [emit_eq] at h1
    simp only [Option.some.injEq, Prod.mk.injEq] at h1
    obtain ⟨hm, rfl⟩ := h1
    have hw1 : acts K (w.tr ++ [.isMatch b.1 (U.isMatch b.1 w.tr)]) = acts K w.tr ++ [.isMatch b.1 (.ret m)] := by
      rw [acts_append, hm]
      simp [acts, isKidAct, Act.id, hkb.1]
    cases m with
    | false =>
      simp only [Bool.false_eq_true, if_false] at h2
      obtain ⟨vs, hvs, h3⟩ := ih _ _ _ _ (fun c hc => hk c (by simp [hc])) hst h2
      refine ⟨(b.1, none) :: vs, ?_, ?_⟩
      · intro v hv s hs
        rcases List.mem_cons.1 hv with rfl | hv
        · simp at hs
        · exact hvs v hv s hs
      · have hw1' : ∀ l, acts K (w.tr ++ [.isMatch b.1 (U.isMatch b.1 w.tr)]) ++ vs.flatMap visit ++ l =
            acts K w.tr ++ ((b.1, none) :: vs).flatMap visit ++ l := by
          intro l; rw [hw1]; simp [visit]
        rcases h3 with ⟨f1, f2, f3⟩ | ⟨a, q, more, f1, f2, f3, f4⟩ | ⟨a, q, more, f1, f2, f3⟩
        · exact .inl ⟨by simp [f1], f2, by rw [f3]; simpa using hw1' []⟩
        · exact .inr (.inl ⟨a, q, more, by simp [f1], f2, by rw [f3]; exact hw1' _, f4⟩)
        · exact .inr (.inr ⟨a, q, more, by simp [f1], by rw [f2]; exact hw1' _, f3⟩)
    | true =>
      simp only [if_true] at h2
      rcases bind_some h2 with ⟨r, w2, h3, h4⟩ | ⟨x, h3, rfl⟩
      · have e1 := hkb.2 _ _ _ h3
        have e1' : acts K w2.tr = acts K w.tr ++ (.isMatch b.1 (.ret true) :: did .run b.1 (.ret r)) := by
          rw [e1]; show acts K (w.tr ++ _) ++ _ = _; rw [hw1]; simp
        split at h4
        · rename_i herr
          have hre : r.isErr = true := by rwa [assign_isErr hst] at herr
          rw [assign_eq_of_err hst hre] at h4
          obtain ⟨rfl, h5⟩ := failM_some h4
          refine ⟨[], by simp, .inr (.inl ⟨b.1, .ret r, bs.map Prod.fst, by simp, hre, by simpa using e1', ?_⟩)⟩
          rcases h5 with ⟨hc, rfl⟩ | ⟨hc, rfl⟩
          · exact .inl ⟨r, rfl, hc, rfl⟩
          · exact .inr (.inl ⟨r, rfl, hc, rfl⟩)
        · rename_i herr
          have herr' : (st.assign r).isErr = false := by simpa using herr
          have hrerr : r.isErr = false := by rwa [assign_isErr hst] at herr'
          obtain ⟨vs, hvs, h5⟩ := ih _ _ _ _ (fun c hc => hk c (by simp [hc])) herr' h4
          refine ⟨(b.1, some r) :: vs, ?_, ?_⟩
          · intro v hv s hs
            rcases List.mem_cons.1 hv with rfl | hv
            · simp at hs; rw [← hs]; exact hrerr
            · exact hvs v hv s hs
          · have hw1' : ∀ l, acts K w2.tr ++ vs.flatMap visit ++ l =
                acts K w.tr ++ ((b.1, some r) :: vs).flatMap visit ++ l := by
              intro l; rw [e1']; simp [visit]
            rcases h5 with ⟨f1, f2, f3⟩ | ⟨a, q, more, f1, f2, f3, f4⟩ | ⟨a, q, more, f1, f2, f3⟩
            · exact .inl ⟨by simp [f1], f2, by rw [f3]; simpa using hw1' []⟩
            · exact .inr (.inl ⟨a, q, more, by simp [f1], f2, by rw [f3]; exact hw1' _, f4⟩)
            · exact .inr (.inr ⟨a, q, more, by simp [f1], by rw [f2]; exact hw1' _, f3⟩)
      · have e1 := hkb.2 _ _ _ h3
        refine ⟨[], by simp, .inr (.inl ⟨b.1, .thr x, bs.map Prod.fst, by simp, rfl, ?_, .inr (.inr ⟨x, rfl, rfl⟩)⟩)⟩
        rw [e1]; show acts K (w.tr ++ _) ++ _ = _; rw [hw1]; simp

theorem add_firstError (st : CStatus) (ss : List CStatus) (hst : st.isErr = false) (hok : st = .ok) :
    ss.foldl CStatus.add st = firstError ss := by
  subst hok
  induction ss with
  | nil => rfl
  | cons s ss ih =>
    simp only [List.foldl_cons, firstError]
    split
    · rename_i he
      rw [add_of_not_err ok_isErr he]
      have : ∀ (ss : List CStatus), ss.foldl CStatus.add s = s := by
        intro ss
        induction ss with
        | nil => rfl
        | cons a ss ih' => simp only [List.foldl_cons, add_of_err a he, ih']
      exact this ss
    · rename_i he
      rw [add_not_err_right (by simpa using he)]
      exact ih

theorem lifeBody_shape {K : List Nat} {p : Phase} (bs : List (Nat × M CStatus)) :
    ∀ (st : CStatus) (w w' : World) (o : Out CStatus), (∀ b ∈ bs, KidOK K p b) → lifeBody bs st w = some (o, w') →
    ∃ rs : List (Nat × CStatus),
      ((rs.map Prod.fst = bs.map Prod.fst ∧
          acts K w'.tr = acts K w.tr ++ rs.flatMap (fun r => did p r.1 (.ret r.2)) ∧
          o = (if ((rs.map Prod.snd).foldl CStatus.add st).isCrash
               then .thr (.c (" | " ++ ((rs.map Prod.snd).foldl CStatus.add st).info))
               else .ret ((rs.map Prod.snd).foldl CStatus.add st))) ∨
       (∃ a x more, bs.map Prod.fst = rs.map Prod.fst ++ a :: more ∧ o = .thr x ∧
          acts K w'.tr = acts K w.tr ++ rs.flatMap (fun r => did p r.1 (.ret r.2)) ++ did p a (.thr x))) := by
  induction bs with
  | nil =>
    intro st w w' o _ h
    simp only [lifeBody] at h
    refine ⟨[], .inl ⟨rfl, ?_, ?_⟩⟩
    · split at h
      · obtain ⟨rfl, _⟩ := failM_some h; simp
      · simp only [M.pure, Option.some.injEq, Prod.mk.injEq] at h
        rw [h.2]; simp
    · simp only [List.map_nil, List.foldl_nil]
      split at h
      · obtain ⟨rfl, h3⟩ := failM_some h
        rcases h3 with ⟨hc, rfl⟩ | ⟨hc, rfl⟩
        · rw [if_neg (by simp [hc])]; rfl
        · rw [if_pos hc]
      · rename_i hne
        simp only [M.pure, Option.some.injEq, Prod.mk.injEq] at h
        rw [if_neg]
        · exact h.1.symm
        · intro hc; exact hne (isCrash_isErr hc)
  | cons b bs ih =>
    intro st w w' o hk h
    simp only [lifeBody] at h
    have hkb := (hk b (by simp)).2
    rcases bind_some h with ⟨r, w1, h1, h2⟩ | ⟨x, h1, rfl⟩
    · have e1 := hkb _ _ _ h1
      obtain ⟨rs, h3⟩ := ih _ _ _ _ (fun c hc => hk c (by simp [hc])) h2
      refine ⟨(b.1, r) :: rs, ?_⟩
      rcases h3 with ⟨f1, f2, f3⟩ | ⟨a, x, more, f1, f2, f3⟩
      · exact .inl ⟨by simp [f1], by rw [f2, e1]; simp, by simpa using f3⟩
      · exact .inr ⟨a, x, more, by simp [f1], f2, by rw [f3, e1]; simp⟩
    · have e1 := hkb _ _ _ h1
      exact ⟨[], .inr ⟨b.1, x, bs.map Prod.fst, by simp, rfl, by simpa using e1⟩⟩

/-! ## Parallel multi-condition -/

theorem orderOf_perm (prop : List Nat) (n : Nat) : (orderOf prop n).Perm (List.range n) := by
  unfold orderOf
  set l := (prop.filter fun i => decide (i < n)).dedup with hl
  have hln : l.Nodup := List.nodup_dedup _
  have hlt : ∀ i ∈ l, i < n := by
    intro i hi
    rw [hl, List.mem_dedup, List.mem_filter] at hi
    simpa using hi.2
  rw [List.perm_ext_iff_of_nodup]
  · intro i
    simp only [List.mem_append, List.mem_filter, List.mem_range, Bool.not_eq_true', List.contains_eq_mem,
      decide_eq_false_iff_not]
    constructor
    · rintro (h | h)
      · exact hlt i h
      · exact h.1
    · intro h
      by_cases hi : i ∈ l
      · exact .inl hi
      · exact .inr ⟨h, hi⟩
  · refine List.nodup_append.2 ⟨hln, List.Nodup.filter _ List.nodup_range, ?_⟩
    intro a ha b hb hab
    subst hab
    simp only [List.mem_filter, Bool.not_eq_true', List.contains_eq_mem, decide_eq_false_iff_not] at hb
    exact hb.2 ha
  · exact List.nodup_range

theorem matching_shape {U : User} {K : List Nat} (bs : List (Nat × M CStatus)) :
    ∀ (w w' : World) (o : Out (List (Nat × M CStatus))), (∀ b ∈ bs, b.1 ∈ K) → matching U bs w = some (o, w') →
    (∃ as : List ((Nat × M CStatus) × Bool), as.map Prod.fst = bs ∧ o = .ret ((as.filter (·.2)).map Prod.fst) ∧
      acts K w'.tr = acts K w.tr ++ as.map (fun a => .isMatch a.1.1 (.ret a.2))) ∨
    (∃ (as : List ((Nat × M CStatus) × Bool)) (b : Nat × M CStatus) (x : Exc) (more : List (Nat × M CStatus)),
      bs = as.map Prod.fst ++ b :: more ∧ o = .thr x ∧
      acts K w'.tr = acts K w.tr ++ as.map (fun a => .isMatch a.1.1 (.ret a.2)) ++ [.isMatch b.1 (.thr x)]) := by
  induction bs with
  | nil =>
    intro w w' o _ h
    simp only [matching, M.pure, Option.some.injEq, Prod.mk.injEq] at h
    obtain ⟨rfl, rfl⟩ := h
    exact .inl ⟨[], rfl, rfl, by simp⟩
  | cons b bs ih =>
    intro w w' o hk h
    simp only [matching] at h
    rcases bind_some h with ⟨m, w1, h1, h2⟩ | ⟨x, h1, rfl⟩
    · rw [emit_eq] at h1
      simp only [Option.some.injEq, Prod.mk.injEq] at h1
      obtain ⟨hm, rfl⟩ := h1
      have hw1 : acts K (w.tr ++ [.isMatch b.1 (U.isMatch b.1 w.tr)]) = acts K w.tr ++ [.isMatch b.1 (.ret m)] := by
        rw [acts_append, hm]
        have := hk b (by simp)
        simp [acts, isKidAct, Act.id, this]
      rcases bind_some h2 with ⟨rest, w2, h3, h4⟩ | ⟨x, h3, rfl⟩
      · simp only [M.pure, Option.some.injEq, Prod.mk.injEq] at h4
        obtain ⟨rfl, rfl⟩ := h4
        rcases ih _ _ _ (fun c hc => hk c (by simp [hc])) h3 with ⟨as, e1, e2, e3⟩ | ⟨as, c, x, more, _, hbad, _⟩
        · left
          refine ⟨(b, m) :: as, by simp [e1], ?_, ?_⟩
          · simp only [Out.ret.injEq] at e2
            subst e2
            cases m <;> simp
          · rw [e3]; show acts K (w.tr ++ _) ++ _ = _; rw [hw1]; simp
        · simp at hbad
      · rcases ih _ _ _ (fun c hc => hk c (by simp [hc])) h3 with ⟨as, e1, e2, e3⟩ | ⟨as, c, y, more, e1, e2, e3⟩
        · simp at e2
        · right
          refine ⟨(b, m) :: as, c, x, more, by simp [e1], rfl, ?_⟩
          simp only [Out.thr.injEq] at e2
          rw [e3]; show acts K (w.tr ++ _) ++ _ ++ _ = _; rw [hw1, e2]; simp
    · rw [emit_eq] at h1
      simp only [Option.some.injEq, Prod.mk.injEq] at h1
      obtain ⟨hm, rfl⟩ := h1
      right
      refine ⟨[], b, x, bs, by simp, rfl, ?_⟩
      show acts K (w.tr ++ _) = _
      rw [acts_append, hm]
      have := hk b (by simp)
      simp [acts, isKidAct, Act.id, this]

theorem runTasks_shape {K : List Nat} {ms : List (Nat × M CStatus)} (hk : ∀ b ∈ ms, KidOK K .run b) (is : List Nat) :
    ∀ (w w' : World) (o : Out (List (Nat × Out CStatus))), (∀ i ∈ is, i < ms.length) →
    runTasks ms is w = some (o, w') →
    ∃ rs, o = .ret rs ∧ rs.map Prod.fst = is ∧
      acts K w'.tr = acts K w.tr ++ rs.flatMap (fun r => did .run ((ms.map Prod.fst).getD r.1 0) r.2) := by
  induction is with
  | nil =>
    intro w w' o _ h
    simp only [runTasks, M.pure, Option.some.injEq, Prod.mk.injEq] at h
    obtain ⟨rfl, rfl⟩ := h
    exact ⟨[], rfl, rfl, by simp⟩
  | cons i is ih =>
    intro w w' o hi h
    simp only [runTasks] at h
    cases hb : ms[i]? with
    | none =>
      rw [List.getElem?_eq_none_iff] at hb
      have := hi i (by simp)
      omega
    | some b =>
      simp only [hb] at h
      have hbm : b ∈ ms := List.mem_of_getElem? hb
      rcases bind_some h with ⟨r, w1, h1, h2⟩ | ⟨x, h1, rfl⟩
      · have e1 : acts K w1.tr = acts K w.tr ++ did .run b.1 r := by
          unfold capture at h1
          split at h1
          · simp at h1
          · rename_i o' w'' he
            simp only [Option.some.injEq, Prod.mk.injEq, Out.ret.injEq] at h1
            obtain ⟨rfl, rfl⟩ := h1
            exact (hk b hbm).2 _ _ _ he
        rcases bind_some h2 with ⟨rest, w2, h3, h4⟩ | ⟨x, h3, rfl⟩
        · obtain ⟨rs, f1, f2, f3⟩ := ih _ _ _ (fun j hj => hi j (by simp [hj])) h3
          simp only [M.pure, Option.some.injEq, Prod.mk.injEq] at h4
          obtain ⟨rfl, rfl⟩ := h4
          simp only [Out.ret.injEq] at f1
          subst f1
          refine ⟨(i, r) :: rest, rfl, by simp [f2], ?_⟩
          rw [f3, e1]
          have : (ms.map Prod.fst).getD i 0 = b.1 := by
            simp [List.getD_eq_getElem?_getD, List.getElem?_map, hb]
          rw [List.flatMap_cons, this, List.append_assoc]
        · obtain ⟨rs, f1, _⟩ := ih _ _ _ (fun j hj => hi j (by simp [hj])) h3
          simp at f1
      · unfold capture at h1
        split at h1 <;> simp at h1

theorem collect_shape (os : List (Out CStatus)) : ∀ (st : CStatus) (w w' : World) (o : Out CStatus),
    collect (os.map some) st w = some (o, w') → w' = w ∧
    o = match os.findSome? thrownBy with
      | some x => .thr x
      | none => .ret ((os.filterMap answered).foldl CStatus.add st) := by
  induction os with
  | nil =>
    intro st w w' o h
    simp only [List.map_nil, collect, M.pure, Option.some.injEq, Prod.mk.injEq] at h
    exact ⟨h.2.symm, by simp [h.1]⟩
  | cons a os ih =>
    intro st w w' o h
    simp only [List.map_cons, collect] at h
    cases a with
    | ret r =>
      have h : collect (os.map some) (st.add r) w = some (o, w') := h
      obtain ⟨h1, h2⟩ := ih _ _ _ _ h
      refine ⟨h1, ?_⟩
      rw [h2]
      simp only [List.findSome?_cons, thrownBy, List.filterMap_cons, answered, List.foldl_cons]
    | thr x =>
      have h : some (Out.thr x, w) = some (o, w') := h
      simp only [Option.some.injEq, Prod.mk.injEq] at h
      refine ⟨h.2.symm, ?_⟩
      rw [← h.1]
      rfl

theorem parallelBody_shape {U : User} {K : List Nat} {e : Nat} (bs : List (Nat × M CStatus)) (w w' : World) (o : Out CStatus)
    (hk : ∀ b ∈ bs, KidOK K .run b) (h : parallelBody U e bs w = some (o, w')) :
    (∃ (as : List (Nat × Bool)) (idx : List Nat) (f : Nat → Out CStatus), as.map Prod.fst = bs.map Prod.fst ∧
      idx.Perm (List.range ((as.filter (·.2)).length)) ∧
      acts K w'.tr = acts K w.tr ++ as.map (fun a => .isMatch a.1 (.ret a.2)) ++
        idx.flatMap (fun i => did .run (((as.filter (·.2)).map Prod.fst).getD i 0) (f i)) ∧
      o = outcome ((List.range ((as.filter (·.2)).length)).map f)) ∨
    (∃ (as : List (Nat × Bool)) (b : Nat) (x : Exc) (more : List Nat), bs.map Prod.fst = as.map Prod.fst ++ b :: more ∧ o = .thr x ∧
      acts K w'.tr = acts K w.tr ++ as.map (fun a => .isMatch a.1 (.ret a.2)) ++ [.isMatch b (.thr x)]) := by
  unfold parallelBody at h
  rcases bind_some h with ⟨ms, w1, h1, h2⟩ | ⟨x, h1, rfl⟩
  rotate_left
  · rcases matching_shape bs _ _ _ (fun b hb => (hk b hb).1) h1 with ⟨as, e1, e2, e3⟩ | ⟨as, b, y, more, e1, e2, e3⟩
    · simp at e2
    · right
      simp only [Out.thr.injEq] at e2
      subst e2
      exact ⟨as.map fun a => (a.1.1, a.2), b.1, x, more.map Prod.fst, by rw [e1]; simp [Function.comp_def], rfl,
        by rw [e3]; simp [Function.comp_def]⟩
  left
  rcases matching_shape bs _ _ _ (fun b hb => (hk b hb).1) h1 with ⟨as, e1, e2, e3⟩ | ⟨as, b, y, more, e1, e2, e3⟩
  rotate_left
  · simp at e2
  simp only [Out.ret.injEq] at e2
  have hms : ∀ b ∈ ms, KidOK K .run b := by
    intro b hb
    exact hk b ((matching_sub h1).subset hb)
  rcases bind_some h2 with ⟨prop, w2, h3, h4⟩ | ⟨x, h3, _⟩
  rotate_left
  · simp at h3
  simp only [Option.some.injEq, Prod.mk.injEq, Out.ret.injEq] at h3
  obtain ⟨hp, rfl⟩ := h3
  have hperm := orderOf_perm prop ms.length
  have hlt : ∀ i ∈ orderOf prop ms.length, i < ms.length := by
    intro i hi
    simpa using hperm.subset hi
  rcases bind_some h4 with ⟨rs, w3, h5, h6⟩ | ⟨x, h5, _⟩
  rotate_left
  · obtain ⟨rs, f1, _⟩ := runTasks_shape hms _ _ _ _ hlt h5
    simp at f1
  obtain ⟨rs', f1, f2, f3⟩ := runTasks_shape hms _ _ _ _ hlt h5
  simp only [Out.ret.injEq] at f1
  subst f1
  have hrn : (rs.map Prod.fst).Nodup := by rw [f2]; exact hperm.nodup_iff.2 List.nodup_range
  -- the result of a task
  let f : Nat → Out CStatus := fun i => ((rs.find? fun r => r.1 == i).map (·.2)).getD (.ret .ok)
  have hfind : ∀ r ∈ rs, rs.find? (fun q => q.1 == r.1) = some r := by
    intro r hr
    clear f f3 h6 h5 f2
    induction rs with
    | nil => simp at hr
    | cons a rs ih =>
      simp only [List.map_cons, List.nodup_cons] at hrn
      rcases List.mem_cons.1 hr with rfl | hr
      · simp
      · have hne : a.1 ≠ r.1 := by
          intro heq
          exact hrn.1 (heq ▸ List.mem_map_of_mem hr)
        rw [List.find?_cons_of_neg (by simpa using hne)]
        exact ih hrn.2 hr
  have hf : ∀ r ∈ rs, f r.1 = r.2 := by
    intro r hr
    simp [f, hfind r hr]
  have hsome : ∀ i, i < ms.length → (rs.find? fun r => r.1 == i).map (·.2) = some (f i) := by
    intro i hi
    have hmem : i ∈ rs.map Prod.fst := by rw [f2]; exact hperm.symm.subset (by simpa using hi)
    obtain ⟨r, hr, rfl⟩ := List.mem_map.1 hmem
    simp [f, hfind r hr]
  have hcol : ((List.range ms.length).map fun i => (rs.find? fun r => r.1 == i).map (·.2)) =
      ((List.range ms.length).map f).map some := by
    rw [List.map_map]
    refine List.map_congr_left ?_
    intro i hi
    exact hsome i (by simpa using hi)
  rw [hcol] at h6
  obtain ⟨g1, g2⟩ := collect_shape _ _ _ _ _ h6
  subst g1
  have hlen : ((as.map fun a => (a.1.1, a.2)).filter (·.2)).length = ms.length := by
    rw [e2, List.length_map, List.filter_map, List.length_map]; rfl
  have hids : ((as.map fun a => (a.1.1, a.2)).filter (·.2)).map Prod.fst = ms.map Prod.fst := by
    rw [e2, List.filter_map, List.map_map, List.map_map]; rfl
  refine ⟨as.map fun a => (a.1.1, a.2), orderOf prop ms.length, f, by rw [← e1]; simp [Function.comp_def], ?_, ?_, ?_⟩
  · rw [hlen]; exact hperm
  · rw [f3, e3, hids]
    have : rs.flatMap (fun r => did .run ((ms.map Prod.fst).getD r.1 0) r.2) =
        (orderOf prop ms.length).flatMap (fun i => did .run ((ms.map Prod.fst).getD i 0) (f i)) := by
      rw [← f2, List.flatMap_map]
      refine List.flatMap_congr ?_
      intro r hr
      rw [hf r hr]
    rw [this]
    simp [Function.comp_def]
  · rw [g2, hlen]
    unfold outcome
    cases (List.map f (List.range ms.length)).findSome? thrownBy with
    | some x => rfl
    | none => rw [add_firstError _ _ ok_isErr rfl]

end CGraph
