import Verif.Lemmas.Perf
import Verif.Props.Element

/-! # Performance analysis leaves no trace: C81 -/
namespace CGraph
namespace PfSt
open Spec M

/-! ## What `inject` and `recover` do -/

theorem inject_eq : ∀ (es : List Nat) (s : PfSt), es.Nodup → inject es s = { s with
    asp := fun x => if x ∈ es then s.asp x ++ [2 * (s.next + es.idxOf x) + 1] else s.asp x
    info := fun x => if x ∈ es then some (s.next + es.idxOf x) else s.info x
    live := (List.range' s.next es.length).reverse ++ s.live
    next := s.next + es.length } := by
  intro es
  induction es with
  | nil => intro s _; simp [inject]
  | cons e es ih =>
    intro s hn
    have hne := (List.nodup_cons.mp hn).1
    rw [inject, ih _ (List.nodup_cons.mp hn).2]
    simp only [PfSt.mk.injEq, true_and, and_true]
    refine ⟨?_, ?_, ?_, ?_⟩
    · funext x
      by_cases hx : x = e
      · subst hx; simp [hne]
      · by_cases hm : x ∈ es
        · simp [hx, hm, List.idxOf_cons_ne _ (Ne.symm hx)]; omega
        · simp [hx, hm]
    · funext x
      by_cases hx : x = e
      · subst hx; simp [hne]
      · by_cases hm : x ∈ es
        · simp [hx, hm, List.idxOf_cons_ne _ (Ne.symm hx)]; omega
        · simp [hx, hm]
    · simp [List.range'_succ]
    · simp; omega

theorem recover_keep : ∀ (es : List Nat) (s : PfSt), es.Nodup →
    (recover es s).trees = s.trees ∧ (recover es s).next = s.next ∧ (recover es s).ub = s.ub ∧
    (∀ x, (recover es s).asp x = if x ∈ es then (s.asp x).dropLast else s.asp x) ∧
    (∀ x, (recover es s).info x = if x ∈ es then none else s.info x) := by
  intro es
  induction es with
  | nil => intro s _; simp [recover]
  | cons e es ih =>
    intro s hn
    have hne := (List.nodup_cons.mp hn).1
    rw [recover]
    obtain ⟨h1, h2, h3, h4, h5⟩ := ih _ (List.nodup_cons.mp hn).2
    refine ⟨h1, h2, h3, ?_, ?_⟩
    · intro x
      rw [h4]
      by_cases hx : x = e
      · subst hx; simp [hne]
      · simp [hx]
    · intro x
      rw [h5]
      by_cases hx : x = e
      · subst hx; simp
      · simp [hx]

theorem recover_live : ∀ (es : List Nat) (s : PfSt) (n : Nat) (L : List Nat), es.Nodup →
    (∀ x ∈ es, s.info x = some (n + es.idxOf x)) → s.live = (List.range' n es.length).reverse ++ L →
    (recover es s).live = L := by
  intro es
  induction es with
  | nil => intro s n L _ _ h; simpa [recover] using h
  | cons e es ih =>
    intro s n L hn hi hl
    have hne := (List.nodup_cons.mp hn).1
    rw [recover]
    refine ih _ (n + 1) L (List.nodup_cons.mp hn).2 ?_ ?_
    · intro x hx
      have hxe : x ≠ e := fun h => hne (h ▸ hx)
      have := hi x (List.mem_cons_of_mem _ hx)
      rw [List.idxOf_cons_ne _ (Ne.symm hxe)] at this
      simp only [if_neg hxe, this]
      congr 1; omega
    · have h0 : s.info e = some n := by simpa using hi e (by simp)
      simp only [h0, hl, List.length_cons, List.range'_succ, List.reverse_cons]
      rw [List.append_assoc, List.erase_append_right]
      · simp
      · rw [List.mem_reverse, List.mem_range'_1]; omega

/-! ## User code does not notice -/

theorem users_eq (as : List Nat) : users as = as.filter (fun a => a % 2 = 0) := by
  unfold users
  congr 1
  funext a
  unfold perfRec
  rcases Nat.mod_two_eq_zero_or_one a with h | h <;> simp [h]

/-- The records whose aspects are attached to elements are allocated. -/
def Held (s : PfSt) : Prop := ∀ e, ∀ a ∈ s.asp e, ∀ p, perfRec a = some p → p ∈ s.live

/-- Outcomes and traces of `process`, and whether it writes deleted records. -/
theorem process_sim {E : PfEnv} (hU : NoWarn E.user) (s : PfSt) {w' w : World} (h1 : strip w'.tr = w.tr)
    (h2 : w'.prepared = w.prepared) :
    (s.process E w' = none ∧ processElems E.user E.next E.fuel (Tree.withAsps (userAsp s) s.trees) w = none) ∨
    ∃ o v' v s', s.process E w' = some (o, v', s') ∧
      processElems E.user E.next E.fuel (Tree.withAsps (userAsp s) s.trees) w = some (o, v) ∧
      strip v'.tr = v.tr ∧ v'.prepared = v.prepared ∧
      s'.trees = s.trees ∧ s'.info = s.info ∧ s'.live = s.live ∧ s'.next = s.next ∧
      (∀ e, s'.asp e = s.asp e ++ (E.added v.tr e).map (2 * ·)) ∧ (Held s → s'.ub = s.ub) := by
  have hasp : userAsp s = fun e => users (s.asp e) := by
    funext e; rw [users_eq]; rfl
  have hf : FitsAll (fun ev => ∃ e a, a ∈ s.asp e ∧ ev.aspect = some a) s.asp := by
    intro e a ha _
    exact ⟨fun _ _ => ⟨e, a, ha, rfl⟩, fun _ _ _ => ⟨e, a, ha, rfl⟩, fun _ => ⟨e, a, ha, rfl⟩, fun _ => ⟨e, a, ha, rfl⟩⟩
  have hs := sim_process hU E.next E.fuel s.asp hf s.trees w' w h1 h2
  rw [hasp]
  unfold process
  cases hx : processElems (withPerf E.user) (fun t => E.next (strip t)) E.fuel (Tree.withAsps s.asp s.trees) w' with
  | none =>
    cases hy : processElems E.user E.next E.fuel (Tree.withAsps (fun e => users (s.asp e)) s.trees) w with
    | none => exact .inl ⟨rfl, rfl⟩
    | some y => rw [hx, hy] at hs; exact hs.elim
  | some x =>
    cases hy : processElems E.user E.next E.fuel (Tree.withAsps (fun e => users (s.asp e)) s.trees) w with
    | none => rw [hx, hy] at hs; exact hs.elim
    | some y =>
      rw [hx, hy] at hs
      obtain ⟨o', v'⟩ := x
      obtain ⟨o, v⟩ := y
      obtain ⟨rfl, h3, h4, l, h5, h6⟩ := hs
      refine .inr ⟨o', v', v, _, rfl, rfl, h3, h4, rfl, rfl, rfl, rfl, fun e => by rw [← h3], fun hh => ?_⟩
      refine Eq.trans (congrArg (s.ub || ·) ?_) (Bool.or_false s.ub)
      · rw [h5, List.drop_left, List.any_eq_false]
        intro ev hev
        cases hp : perfWrites ev with
        | none => simp
        | some p =>
          have hasp' : ∃ a, ev.aspect = some a ∧ perfRec a = some p := by
            unfold perfWrites at hp
            split at hp
            · exact ⟨_, rfl, hp⟩
            · exact ⟨_, rfl, hp⟩
            · cases hp
          obtain ⟨a, ha1, ha2⟩ := hasp'
          obtain ⟨e, a', hm, ha3⟩ := h6 ev hev (by simp [Act.isPerf, ha1, ha2])
          rw [ha1] at ha3
          cases ha3
          have := hh e a hm p ha2
          simp [this]

theorem inject_user (es : List Nat) (s : PfSt) (hn : es.Nodup) : userAsp (inject es s) = userAsp s := by
  rw [inject_eq es s hn]
  funext e
  unfold userAsp
  by_cases he : e ∈ es
  · simp [he]
  · simp [he]

theorem perfRec_odd (p : Nat) : perfRec (2 * p + 1) = some p := by
  unfold perfRec
  rw [if_pos (by omega)]
  congr 1; omega

theorem perfRec_some {a p : Nat} (h : perfRec a = some p) : a = 2 * p + 1 := by
  unfold perfRec at h
  split_ifs at h with h1
  simp at h
  omega

theorem inject_held (s : PfSt) (hw : PfWF s) (hh : Held s) : Held (inject s.ids s) := by
  rw [inject_eq s.ids s hw.ids]
  intro e a ha p hp
  simp only at ha ⊢
  rw [List.mem_append, List.mem_reverse, List.mem_range'_1]
  by_cases he : e ∈ s.ids
  · rw [if_pos he, List.mem_append] at ha
    rcases ha with ha | ha
    · exact .inr (hh e a ha p hp)
    · rw [List.mem_singleton] at ha
      have := perfRec_some hp
      have hl := List.idxOf_lt_length_iff.mpr he
      left; omega
  · rw [if_neg he] at ha
    exact .inr (hh e a ha p hp)

theorem clean_held {s : PfSt} (h : PfClean s) : Held s := by
  intro e a ha p hp
  have := h.asp e a ha
  have := perfRec_some hp
  omega

/-- What `perf` has done, in all cases. -/
theorem perf_cases {E : PfEnv} (hU : NoWarn E.user) (s : PfSt) (hw : PfWF s) {w' w : World} (h1 : strip w'.tr = w.tr)
    (h2 : w'.prepared = w.prepared) :
    (s.perf E w' = none ∧ processElems E.user E.next E.fuel (Tree.withAsps (userAsp s) s.trees) w = none) ∨
    ∃ o o' v' v s', s.perf E w' = some (o', v', s') ∧
      processElems E.user E.next E.fuel (Tree.withAsps (userAsp s) s.trees) w = some (o, v) ∧
      strip v'.tr = v.tr ∧ v'.prepared = v.prepared ∧ s'.trees = s.trees ∧ (Held s → s'.ub = s.ub) ∧
      s'.next = s.next + s.ids.length ∧
      ((pfFailed o ∧ o' = o ∧
          (∀ e, s'.asp e = (if e ∈ s.ids then s.asp e ++ [2 * (s.next + s.ids.idxOf e) + 1] else s.asp e) ++
            (E.added v.tr e).map (2 * ·)) ∧
          (∀ e, s'.info e = if e ∈ s.ids then some (s.next + s.ids.idxOf e) else s.info e) ∧
          s'.live = (List.range' s.next s.ids.length).reverse ++ s.live) ∨
       (¬ pfFailed o ∧ o' = .ret .ok ∧
          (∀ e, s'.asp e = if e ∈ s.ids then (s.asp e ++ [2 * (s.next + s.ids.idxOf e) + 1] ++
              (E.added v.tr e).map (2 * ·)).dropLast
            else s.asp e ++ (E.added v.tr e).map (2 * ·)) ∧
          (∀ e, s'.info e = if e ∈ s.ids then none else s.info e) ∧ s'.live = s.live)) := by
  have hi := inject_eq s.ids s hw.ids
  have hp := process_sim hU (inject s.ids s) h1 h2
  rw [inject_user s.ids s hw.ids, show (inject s.ids s).trees = s.trees by rw [hi]] at hp
  unfold perf
  rcases hp with ⟨ha, hb⟩ | ⟨o, v', v, s', ha, hb, h3, h4, h5, h6, h7, h8, h9, h10⟩
  · rw [ha]; exact .inl ⟨rfl, hb⟩
  · right
    have hub : Held s → s'.ub = s.ub := fun hh => by
      rw [h10 (inject_held s hw hh), hi]
    have hasp : ∀ e, s'.asp e = (if e ∈ s.ids then s.asp e ++ [2 * (s.next + s.ids.idxOf e) + 1] else s.asp e) ++
            (E.added v.tr e).map (2 * ·) := fun e => by rw [h9 e, hi]
    have hinfo : ∀ e, s'.info e = if e ∈ s.ids then some (s.next + s.ids.idxOf e) else s.info e :=
      fun e => by rw [h6, hi]
    have hlive : s'.live = (List.range' s.next s.ids.length).reverse ++ s.live := by rw [h7, hi]
    have hnext : s'.next = s.next + s.ids.length := by rw [h8, hi]
    rw [ha]
    by_cases hf : pfFailed o
    · refine ⟨o, o, v', v, s', ?_, hb, h3, h4, h5, hub, hnext, .inl ⟨hf, rfl, hasp, hinfo, hlive⟩⟩
      cases o with
      | thr x => rfl
      | ret st =>
        have : st.isErr = true := decide_eq_true hf
        simp only [this, if_true]
    · cases o with
      | thr x => exact absurd trivial hf
      | ret st =>
        have : st.isErr = false := decide_eq_false hf
        obtain ⟨k1, k2, k3, k4, k5⟩ := recover_keep s.ids s' hw.ids
        refine ⟨.ret st, .ret .ok, v', v, recover s.ids s', ?_, hb, h3, h4, by rw [k1, h5], fun hh => by rw [k3, hub hh],
          by rw [k2, hnext], .inr ⟨hf, rfl, ?_, ?_, ?_⟩⟩
        · simp [this]
        · intro e
          rw [k4, hasp]
          by_cases he : e ∈ s.ids
          · simp only [if_pos he]
          · simp only [if_neg he]
        · intro e
          rw [k5, hinfo]
          by_cases he : e ∈ s.ids
          · simp only [if_pos he]
          · simp only [if_neg he]
        · refine recover_live s.ids s' s.next s.live hw.ids ?_ hlive
          intro x hx
          rw [hinfo, if_pos hx]

/-- **C81** (transparency).  `perf` does to user code what `process` of the same pipeline without perf aspects does: it ends
if and only if `process` ends, makes the same calls with the same answers in the same order, and reports the same error
(success is reported as OK).  Missing for the full property: begin aspects that answer with a positive code
(`C81_code_violated`). -/
theorem C81_same_partial (E : PfEnv) (hU : NoWarn E.user) (s : PfSt) (hw : PfWF s) (w' w : World)
    (h1 : strip w'.tr = w.tr) (h2 : w'.prepared = w.prepared) :
    (s.perf E w' = none ∧ processElems E.user E.next E.fuel (Tree.withAsps (userAsp s) s.trees) w = none) ∨
    ∃ o o' v' v s', s.perf E w' = some (o', v', s') ∧
      processElems E.user E.next E.fuel (Tree.withAsps (userAsp s) s.trees) w = some (o, v) ∧
      strip v'.tr = v.tr ∧ (pfFailed o ∧ o' = o ∨ ¬ pfFailed o ∧ o' = .ret .ok) := by
  rcases perf_cases hU s hw h1 h2 with h | ⟨o, o', v', v, s', a1, a2, a3, -, -, -, -, hh⟩
  · exact .inl h
  · refine .inr ⟨o, o', v', v, s', a1, a2, a3, ?_⟩
    rcases hh with ⟨b1, b2, -⟩ | ⟨b1, b2, -⟩
    · exact .inl ⟨b1, b2⟩
    · exact .inr ⟨b1, b2⟩

/-- **C81** (nothing is left).  After an analysis that succeeded and during which user code added no aspects, aspects and
records of all elements are what they were, no record is allocated any more, and no deleted record was written. -/
theorem C81_restore_partial (E : PfEnv) (hU : NoWarn E.user) (hA : AddsNone E) (s : PfSt) (hw : PfWF s) (hc : PfClean s)
    (w w' : World) (o : Out CStatus) (s' : PfSt) (h : s.perf E w = some (o, w', s')) (ho : ¬ pfFailed o) :
    s'.trees = s.trees ∧ s'.asp = s.asp ∧ s'.info = s.info ∧ s'.live = s.live ∧ s'.ub = s.ub := by
  rcases perf_cases hU s hw (w' := w) (w := ⟨strip w.tr, w.prepared⟩) rfl rfl with ⟨a, -⟩ |
    ⟨o1, o2, v', v, s1, a1, a2, a3, -, a4, a5, -, hh⟩
  · rw [a] at h; cases h
  · rw [a1] at h
    cases h
    rcases hh with ⟨b1, b2, -⟩ | ⟨b1, b2, b3, b4, b5⟩
    · exact absurd (b2 ▸ b1) ho
    · refine ⟨a4, ?_, ?_, b5, a5 (clean_held hc)⟩
      · funext e
        rw [b3 e, hA]
        by_cases he : e ∈ s.ids
        · rw [if_pos he, List.map_nil, List.append_nil, List.dropLast_concat]
        · rw [if_neg he]; simp
      · funext e
        rw [b4 e, hc.info]
        simp

/-- A history of calls, each with its own surroundings; the result says whether all analyses succeeded. -/
def hist : List (PfEnv × Op) → Bool → PfSt → World → Option (Bool × PfSt × World)
  | [], b, s, w => some (b, s, w)
  | (E, op) :: l, b, s, w =>
    match step E s w op with
    | none => none
    | some (ok, w', s') => hist l (b && (ok || match op with | .perf => false | _ => true)) s' w'

/-- **C81** (histories).  Whatever calls are made, if every analysis succeeded and no aspects were added during an analysis,
then nothing of an analysis is left, all records are deleted, and no deleted record was ever written. -/
theorem C81_history_partial (l : List (PfEnv × Op)) (hU : ∀ x ∈ l, NoWarn x.1.user)
    (hA : ∀ x ∈ l, x.2 = .perf → AddsNone x.1) (s : PfSt) (hw : PfWF s) (hc : PfClean s) (hl : s.live = []) (hub : s.ub = false)
    (w w' : World) (s' : PfSt) (h : hist l true s w = some (true, s', w')) :
    PfClean s' ∧ s'.live = [] ∧ s'.ub = false := by
  have hfalse : ∀ (l : List (PfEnv × Op)) s w s' w', hist l false s w ≠ some (true, s', w') := by
    intro l
    induction l with
    | nil => intro s w s' w' h; simp [hist] at h
    | cons x l ih =>
      intro s w s' w' h
      obtain ⟨E, op⟩ := x
      simp only [hist] at h
      cases hs : step E s w op with
      | none => rw [hs] at h; cases h
      | some r => rw [hs] at h; simp only [Bool.false_and] at h; exact ih _ _ _ _ h
  induction l generalizing s w with
  | nil => simp only [hist, Option.some.injEq, Prod.mk.injEq] at h; rw [← h.2.1]; exact ⟨hc, hl, hub⟩
  | cons x l ih =>
    obtain ⟨E, op⟩ := x
    simp only [hist] at h
    have hU' := hU (E, op) (by simp)
    have hrec := fun s1 => ih (fun x hx => hU x (List.mem_cons_of_mem _ hx))
      (fun x hx => hA x (List.mem_cons_of_mem _ hx)) s1
    cases op with
    | add e a =>
      simp only [step, Bool.true_or, Bool.and_self] at h
      refine hrec { s with asp := fun x => if x = e then s.asp e ++ [2 * a] else s.asp x } ⟨hw.ids, hw.live⟩ ⟨?_, hc.info⟩
        hl hub _ h
      intro x y hy
      simp only at hy
      split_ifs at hy with hx
      · rcases List.mem_append.mp hy with h' | h'
        · exact hc.asp e y h'
        · rw [List.mem_singleton] at h'; omega
      · exact hc.asp x y hy
    | process =>
      rcases process_sim hU' s (w' := w) (w := ⟨strip w.tr, w.prepared⟩) rfl rfl with ⟨a, -⟩ |
        ⟨o, v', v, s1, a1, -, -, -, a4, a5, a6, a7, a8, a9⟩
      · simp [step, a] at h
      · simp only [step, a1, Option.map_some, Bool.or_true, Bool.and_self] at h
        refine hrec s1 ⟨by rw [a4]; exact hw.ids, by rw [a6, a7]; exact hw.live⟩ ⟨?_, by rw [a5]; exact hc.info⟩
          (by rw [a6, hl]) (by rw [a9 (clean_held hc), hub]) _ h
        intro e y hy
        rw [a8] at hy
        rcases List.mem_append.mp hy with h' | h'
        · exact hc.asp e y h'
        · obtain ⟨z, -, rfl⟩ := List.mem_map.mp h'
          omega
    | perf =>
      cases hp : s.perf E w with
      | none => simp [step, hp] at h
      | some r =>
        obtain ⟨o, v', s1⟩ := r
        simp only [step, hp, Option.map_some, Bool.or_false, Bool.true_and] at h
        have hno : ¬ pfFailed o := by
          intro hf
          cases o with
          | thr x => exact hfalse _ _ _ _ _ h
          | ret st =>
            have : st.isErr = true := decide_eq_true hf
            simp only [this, Bool.not_true] at h
            exact hfalse _ _ _ _ _ h
        obtain ⟨b1, b2, b3, b4, b5⟩ := C81_restore_partial E hU' (hA (E, .perf) (by simp) rfl) s hw hc w v' o s1 hp hno
        have h : hist l true s1 v' = some (true, s', w') := by
          cases o with
          | thr x => exact absurd trivial hno
          | ret st =>
            have : st.isErr = false := decide_eq_false hno
            simpa only [this, Bool.not_false] using h
        exact hrec s1 ⟨by rw [b1]; exact hw.ids, by rw [b4, hl]; simp⟩ ⟨by rw [b2]; exact hc.asp, by rw [b3]; exact hc.info⟩
          (by rw [b4, hl]) (by rw [b5, hub]) _ h

/-! ## Where the code deviates -/

/-- **C81 is false of the code** after a failure: if the pipeline fails or throws during the analysis, every element keeps a
perf aspect and a record. -/
theorem C81_failed_violated (E : PfEnv) (hU : NoWarn E.user) (s : PfSt) (hw : PfWF s) (w w' : World) (o : Out CStatus)
    (s' : PfSt) (h : s.perf E w = some (o, w', s')) (ho : pfFailed o) :
    (∀ e ∈ Tree.idsAll s.trees, ∃ p, s'.info e = some p ∧ 2 * p + 1 ∈ s'.asp e ∧ p ∉ s.live) ∧
    s'.live.length = s.live.length + (Tree.idsAll s.trees).length := by
  rcases perf_cases hU s hw (w' := w) (w := ⟨strip w.tr, w.prepared⟩) rfl rfl with ⟨a, -⟩ |
    ⟨o1, o2, v', v, s1, a1, a2, a3, -, a4, a5, -, hh⟩
  · rw [a] at h; cases h
  · rw [a1] at h
    cases h
    rcases hh with ⟨b1, b2, b3, b4, b5⟩ | ⟨b1, b2, -⟩
    · refine ⟨?_, by rw [b5]; simp [ids]; omega⟩
      intro e he
      replace he : e ∈ s.ids := he
      refine ⟨s.next + s.ids.idxOf e, ?_, ?_, ?_⟩
      · rw [b4 e, if_pos he]
      · rw [b3 e, if_pos he]; simp
      · intro hm; have := hw.live _ hm; omega
    · subst b2; exact absurd ho (by simp [pfFailed, CStatus.ok, STATUS_OK])

/-- **C81 is false of the code**: after a failed analysis a successful one does not help.  No element refers to the records
of the failed one any more, but they stay allocated, and their aspects stay attached. -/
theorem C81_leak_violated (E E2 : PfEnv) (hU : NoWarn E.user) (hU2 : NoWarn E2.user) (hA : AddsNone E) (hA2 : AddsNone E2)
    (s : PfSt) (hw : PfWF s) (hc : PfClean s) (w w' w'' : World) (o o2 : Out CStatus) (s' s'' : PfSt)
    (h : s.perf E w = some (o, w', s')) (ho : pfFailed o) (h2 : s'.perf E2 w' = some (o2, w'', s'')) (ho2 : ¬ pfFailed o2) :
    (∀ e, s''.info e = none) ∧ s''.live.length = s.live.length + (Tree.idsAll s.trees).length ∧
    ∀ e ∈ Tree.idsAll s.trees, ∃ p, s''.asp e = s.asp e ++ [2 * p + 1] ∧ p ∈ s''.live := by
  rcases perf_cases hU s hw (w' := w) (w := ⟨strip w.tr, w.prepared⟩) rfl rfl with ⟨a, -⟩ |
    ⟨o1, o1', v', v, s1, a1, -, -, -, a4, -, a6, hh⟩
  · rw [a] at h; cases h
  · rw [a1] at h
    cases h
    rcases hh with ⟨-, -, b3, b4, b5⟩ | ⟨-, b2, -⟩
    swap
    · subst b2; exact absurd ho (by simp [pfFailed, CStatus.ok, STATUS_OK])
    have hw' : PfWF s' := ⟨by rw [a4]; exact hw.ids, by
      intro p hp
      rw [b5, List.mem_append, List.mem_reverse, List.mem_range'_1] at hp
      rw [a6]
      rcases hp with hp | hp
      · omega
      · have := hw.live p hp; omega⟩
    have hid : s'.ids = s.ids := by unfold ids; rw [a4]
    rcases perf_cases hU2 s' hw' (w' := w') (w := ⟨strip w'.tr, w'.prepared⟩) rfl rfl with ⟨a, -⟩ |
      ⟨o3, o3', u', u, s2, c1, -, -, -, -, -, -, hh⟩
    · rw [a] at h2; cases h2
    · rw [c1] at h2
      cases h2
      rcases hh with ⟨d1, d2, -⟩ | ⟨d1, d2, d3, d4, d5⟩
      · exact absurd (d2 ▸ d1) ho2
      · refine ⟨?_, by rw [d5, b5]; simp [ids]; omega, ?_⟩
        · intro e
          rw [d4, b4, hid, hc.info]
          split_ifs <;> rfl
        · intro e he
          replace he : e ∈ s.ids := he
          refine ⟨s.next + s.ids.idxOf e, ?_, ?_⟩
          · rw [d3, hid, if_pos he, hA2, List.map_nil, List.append_nil, List.dropLast_concat, b3, if_pos he, hA]
            simp
          · rw [d5, b5, List.mem_append, List.mem_reverse, List.mem_range'_1]
            have := List.idxOf_lt_length_iff.mpr he
            left; omega

/-- **C81 is false of the code** when an element gets an aspect during the analysis: the analysis takes this aspect away
instead of its own, which stays and keeps the address of a deleted record. -/
theorem C81_added_violated (E : PfEnv) (hU : NoWarn E.user) (s : PfSt) (hw : PfWF s) (w w' : World) (o : Out CStatus)
    (s' : PfSt) (h : s.perf E w = some (o, w', s')) (ho : ¬ pfFailed o) (e : Nat) (he : e ∈ Tree.idsAll s.trees)
    (l : List Nat) (a : Nat) (hadd : E.added (strip w'.tr) e = l ++ [a]) :
    ∃ p, s'.asp e = s.asp e ++ [2 * p + 1] ++ l.map (2 * ·) ∧ p ∉ s'.live := by
  rcases perf_cases hU s hw (w' := w) (w := ⟨strip w.tr, w.prepared⟩) rfl rfl with ⟨a, -⟩ |
    ⟨o1, o1', v', v, s1, a1, -, a3, -, -, -, -, hh⟩
  · rw [a] at h; cases h
  · rw [a1] at h
    cases h
    replace he : e ∈ s.ids := he
    rcases hh with ⟨d1, d2, -⟩ | ⟨d1, d2, d3, d4, d5⟩
    · exact absurd (d2 ▸ d1) ho
    · refine ⟨s.next + s.ids.idxOf e, ?_, ?_⟩
      · rw [d3, if_pos he, ← a3, hadd, List.map_append, ← List.append_assoc]
        exact List.dropLast_concat
      · rw [d5]
        intro hm
        have := hw.live _ hm
        omega

/-! ## Cases -/

/-- Everything succeeds, elements are executed in their order, nothing is added. -/
def exEnv : PfEnv where
  user := exUser
  next := fun t => let k := t.countP (fun ev => match ev with | .back _ .run _ => true | _ => false); if k < 2 then some k else none
  added := fun _ _ => []
  fuel := 5

/-- Node 0 with an aspect, executed twice, and a cluster of nodes 2 and 3. -/
def exPf : PfSt where
  trees := [.node ⟨0, "a", true, 2, [], 0, .asError⟩,
    .group .cluster ⟨1, "c", true, 1, [], 0, .asError⟩ [.node ⟨2, "x", true, 1, [], 0, .asError⟩,
      .node ⟨3, "y", true, 1, [], 0, .asError⟩]]
  asp := fun e => if e = 0 then [14] else []
  info := fun _ => none
  live := []
  next := 0
  ub := false

/-- Nothing has happened. -/
def exW : World := ⟨[], fun _ => false⟩

theorem exPf_wf : PfWF exPf := ⟨by decide, by intro p hp; cases hp⟩

theorem exPf_clean : PfClean exPf := ⟨by intro e a ha; simp only [exPf] at ha; split_ifs at ha <;> simp_all, fun _ => rfl⟩

theorem exUser_noWarn : NoWarn exUser := by
  intro e a p t s h
  have : s = CStatus.ok := by
    have h' : (Out.ret CStatus.ok : Out CStatus) = .ret s := h
    cases h'; rfl
  subst this
  exact Int.le_refl 0

/-- The analysis succeeds, the perf aspects were called 2 × (2 + 1 + 1 + 1) times during runs, and nothing is left. -/
example : (exPf.perf exEnv exW).map (fun r => (match r.1 with | .ret st => st.code | .thr _ => -9,
    (r.2.1.tr.filter (fun ev => (perfWrites ev).isSome)).length, (List.range 4).map r.2.2.asp, r.2.2.live, r.2.2.ub)) =
    some (0, 10, [[14], [], [], []], [], false) := by decide +kernel

/-- An element fails: the analysis leaves aspects behind. -/
example : (exPf.perf { exEnv with user := { exUser with body := fun e p _ => if e = 2 ∧ p = .run then .ret ⟨-1, ""⟩ else .ret .ok } }
    exW).map (fun r => (match r.1 with | .ret st => st.code | .thr _ => -9, (List.range 4).map r.2.2.asp, r.2.2.live)) =
    some (-1, [[14, 1], [3], [5], [7]], [3, 2, 1, 0]) := by decide +kernel

/-- Element 0 gets aspect 8 during the analysis; the next run writes into a deleted record. -/
example : (exPf.perf { exEnv with added := fun _ e => if e = 0 then [8] else [] } exW).map (fun r =>
      (r.2.2.asp 0, r.2.2.live, r.2.2.ub, (r.2.2.process { exEnv with next := fun t =>
        if (t.countP (fun ev => match ev with | .back _ .run _ => true | _ => false)) < 5 then some 0 else none } r.2.1).map
          (fun q => q.2.2.ub))) =
    some ([14, 1], [], false, some true) := by decide +kernel

/-- **C81 is false of the code** for positive codes: a begin aspect of `init` answers with code 1, and `init` itself with
code 1 and another text.  Without the analysis the status keeps the text of the aspect; under the analysis it is that of
`init`. -/
theorem C81_code_violated : ∃ (U : User) (e : Elem) (b1 b2 : CStatus), ¬ NoWarn U ∧ b1.info ≠ b2.info ∧
    (fatLife U e .init (nodeBody U e.id .init) exW).map (·.1) = some (.ret b1) ∧
    (fatLife (withPerf U) { e with aspects := e.aspects ++ [1] } .init (nodeBody (withPerf U) e.id .init) exW).map (·.1) =
      some (.ret b2) := by
  refine ⟨{ exUser with beginA := fun _ _ _ _ => .ret ⟨1, "a"⟩, body := fun _ _ _ => .ret ⟨1, "b"⟩ },
    ⟨0, "n", true, 1, [0], 0, .asError⟩, ⟨1, "a"⟩, ⟨1, "b"⟩, ?_, by decide, by decide +kernel, by decide +kernel⟩
  intro h
  have := h 0 0 .run [] ⟨1, "a"⟩ rfl
  exact absurd this (by decide)

end PfSt
end CGraph
