import Verif.Lemmas.AsyncStep

/-! # Every execution of elements with a timeout keeps the claims -/
namespace CGraph
open Spec
namespace ASt

/-- Everything that is kept. -/
structure AAll (c : ACfg) (s : ASt) : Prop where
  rel : Rel s
  inv : AClean s.hist → AInv c s
  post : AAlong (APost c) s.hist

theorem AAll.new (c : ACfg) : AAll c .new := ⟨Rel.new, fun _ => AInv.new c, AAlong.nil⟩

theorem countP_eq_of {l : List ATask} {p q : ATask → Bool} (h : ∀ t ∈ l, p t = q t) : l.countP p = l.countP q := by
  apply List.countP_congr
  intro t ht
  rw [h t ht]

theorem post_runRet {c : ACfg} {s : ASt} (hrel : Rel s) (h : AInv c s) (hr : s.run = .reset []) :
    (∀ e, c.hold e = true → s.hist.countP (isCommit e) = s.hist.countP (isBodyEnd e)) ∧
      (s.status.isErr = false → ∀ e id, .commit e id ∈ lastRun s.hist →
        ∃ r, .bodyEnd e id r ∈ s.hist ∧ r.status.isErr = false) := by
  have hnone : ∀ e, c.hold e = true → s.fut e = none := by
    intro e hh
    cases hf : s.fut e with
    | none => rfl
    | some id =>
      rcases h.live e id hh hf with ⟨h1, _⟩ | ⟨l, h1, h2⟩
      · simp [hr] at h1
      · rw [hr] at h1
        cases h1
        simp at h2
  have hne : s.run ≠ .engine := by simp [hr]
  constructor
  · intro e hh
    rw [hrel.nCom, hrel.nFin]
    apply countP_eq_of
    intro t ht
    obtain ⟨id, hid⟩ := List.mem_iff_getElem?.mp ht
    simp only [decide_eq_decide]
    constructor
    · intro he
      subst he
      refine ⟨rfl, ?_, ?_⟩
      · intro hk
        have := h.old t.elem id t.run hh (by rw [hid]) (by simp [hk])
        simp [hnone _ hh] at this
      · intro hk
        have := h.old t.elem id t.run hh (by rw [hid]) (by simp [hk])
        simp [hnone _ hh] at this
    · exact fun h => h.1
  · intro hst e id hy
    have hacc : ¬ s.Acc := by
      rintro (h1 | ⟨e', st', b', h1, h2⟩ | ⟨f, l, st', h1, _⟩ | ⟨f, e', id', l, st', h1, _⟩)
      · simp [hst] at h1
      · rcases h.quietE hne e' with h3 | h3 <;> simp [h1] at h3
      · rcases h.quietF hne f with h3 | h3 <;> simp [h1] at h3
      · rcases h.quietF hne f with h3 | h3 <;> simp [h1] at h3
    rcases h.this e id hy with ⟨h1, h2 | h2 | h2⟩ | ⟨r, h1, h2⟩
    · simp [hnone e h2] at h1
    · rcases h.quietE hne e with h3 | h3 <;> simp [h2] at h3
    · exact absurd h2 hacc
    · refine ⟨r, ?_, ?_⟩
      · obtain ⟨e', he'⟩ := result_eq.mp h1
        obtain ⟨k, hk⟩ := (hrel.com e id).mp (lastRun_sub hy)
        rw [he'] at hk
        simp at hk
        rw [hrel.fin, he', hk.1]
      · exact h2.resolve_right hacc

/-- A committed body with a result has ended. -/
theorem ended_of_result {s : ASt} (hrel : Rel s) {e id : Nat} {r : ARes} (hy : .commit e id ∈ lastRun s.hist)
    (h1 : s.result id = some r) : .bodyEnd e id r ∈ s.hist := by
  obtain ⟨e', he'⟩ := result_eq.mp h1
  obtain ⟨k, hk⟩ := (hrel.com e id).mp (lastRun_sub hy)
  rw [he'] at hk
  simp at hk
  rw [hrel.fin, he', hk.1]

theorem post_take {c : ACfg} {s : ASt} (hrel : Rel s) (h : AInv c s) {e id : Nat}
    (ht : s.tasks[id]? = some ⟨e, .queued⟩) (hh : c.hold e = true) :
    s.hist.countP (isBody e) = s.hist.countP (isBodyEnd e) := by
  rw [hrel.nBeg, hrel.nFin]
  apply countP_eq_of
  intro t htm
  obtain ⟨id', hid⟩ := List.mem_iff_getElem?.mp htm
  simp only [decide_eq_decide]
  constructor
  · rintro ⟨rfl, hk⟩
    refine ⟨rfl, hk, ?_⟩
    intro hk'
    have h1 := h.old t.elem id' t.run hh (by rw [hid]) (by simp [hk'])
    have h2 := h.old t.elem id .queued hh ht (by simp)
    rw [h1] at h2
    cases h2
    rw [hid] at ht
    simp at ht
    rw [ht] at hk
    simp at hk
  · exact fun h => ⟨h.1, h.2.1⟩

/-- Events that are neither a commit nor the beginning of a run. -/
def AEv.inert : AEv → Bool
  | .commit _ _ | .runBegin => false
  | _ => true

theorem AInv.emitB {c : ACfg} {s : ASt} (h : AInv c s) {x : AEv} (hx : AEv.inert x = true) : AInv c (s.emit x) := by
  have hr : x ≠ .runBegin := by rintro rfl; simp [AEv.inert] at hx
  have hm : ∀ y, y ∈ lastRun s.hist → y ∈ lastRun (s.emit x).hist := fun y hy => (mem_lastRun_snoc hr).mpr (.inl hy)
  have hc : ∀ e id, .commit e id ∈ lastRun (s.emit x).hist → .commit e id ∈ lastRun s.hist := by
    intro e id hy
    rcases (mem_lastRun_snoc hr).mp hy with hy | hy
    · exact hy
    · subst hy; simp [AEv.inert] at hx
  exact {
    futE := h.futE, out := h.out, fout := h.fout, quietE := h.quietE, quietF := h.quietF, wait := h.wait
    getlt := h.getlt, old := h.old, live := h.live, tmo := h.tmo
    this := fun e id hy => h.this e id (hc e id hy)
    rdy := fun e id hp hy => h.rdy e id hp (hc e id hy)
    endF := fun e st hp => by
      obtain ⟨h0, id, r, h1, h2⟩ := h.endF e st hp
      exact ⟨h0, id, r, hm _ h1, h2⟩
    endT := fun e st hp => by
      obtain ⟨h0, ⟨id, h1⟩, h2⟩ := h.endT e st hp
      exact ⟨hm _ h0, ⟨id, hm _ h1⟩, h2⟩
    wt := fun e id hp => hm _ (h.wt e id hp)
    fenA := h.fenA, fenG := h.fenG }

theorem crash_isErr {st : CStatus} (h : st.isCrash = true) : st.isErr = true := by
  simp only [CStatus.isCrash, beq_iff_eq] at h
  simp [CStatus.isErr, ← h, STATUS_CRASH, STATUS_OK]

theorem fence_live {c : ACfg} {s : ASt} (h : AInv c s) {f : Nat} (hp : s.fpc f ≠ .ready) (hb : s.fpc f ≠ .back) :
    f < c.m ∧ s.run = .engine := by
  constructor
  · by_cases hf : f < c.m
    · exact hf
    · exact absurd (h.fout f (by omega)) hp
  · by_cases hr : s.run = .engine
    · exact hr
    · rcases h.quietF hr f with h1 | h1
      · exact absurd h1 hp
      · exact absurd h1 hb

/-- What the fence `f` knows of errors is kept when its state changes to `x`. -/
theorem acc_fpc {s : ASt} {f : Nat} {x : FPc} {w : CStatus} (hw : s.status.isErr = true → w.isErr = true)
    (h1 : ∀ l st, s.fpc f = .at l st → st.isErr = true →
      ({ s with fpc := setAt s.fpc f x, status := w } : ASt).Acc)
    (h2 : ∀ e id l st, s.fpc f = .get e id l st → st.isErr = true →
      ({ s with fpc := setAt s.fpc f x, status := w } : ASt).Acc) (h : s.Acc) :
    ({ s with fpc := setAt s.fpc f x, status := w } : ASt).Acc := by
  rcases h with h | h | ⟨f', l, st, h, h'⟩ | ⟨f', e, id, l, st, h, h'⟩
  · exact .inl (hw h)
  · exact .inr (.inl h)
  · by_cases hf : f' = f
    · subst hf; exact h1 l st h h'
    · exact .inr (.inr (.inl ⟨f', l, st, by simpa [setAt_ne _ _ hf] using h, h'⟩))
  · by_cases hf : f' = f
    · subst hf; exact h2 e id l st h h'
    · exact .inr (.inr (.inr ⟨f', e, id, l, st, by simpa [setAt_ne _ _ hf] using h, h'⟩))

theorem fenceStep_all {c : ACfg} {s s' : ASt} {f : Nat} (h : AAll c s) (hs : s.step c (.fenceStep f) = some s') :
    AAll c s' := by
  obtain ⟨hrel, hinv, hpost⟩ := h
  simp only [step] at hs
  split at hs
  · rename_i st hp
    cases hs
    refine ⟨(hrel.emit (x := .fenceRet f st) (.inl rfl)).congr rfl rfl, fun hc => ?_, hpost.snoc fun hc hd hst => ?_⟩
    · have hi := hinv hc.of_append
      obtain ⟨hm, hr⟩ := fence_live hi (f := f) (by simp [hp]) (by simp [hp])
      refine AInv.emit (AInv.fpc hi hm hr (by simp) (acc_fpc ?_ ?_ ?_) (by simp) (by simp)) rfl
      · intro h; simp [CStatus.add_isErr, h]
      · intro l st' h h'
        rw [hp] at h
        cases h
        exact .inl (by simp [CStatus.add_isErr, h'])
      · intro e id l st' h
        simp [hp] at h
    · intro e he id hy
      have hi := hinv hc
      rcases (hi.fenA f [] st hd hp).2 hst e he with h1 | h1
      · simp at h1
      · rcases hi.this e id hy with ⟨h2, _⟩ | ⟨r, h2, _⟩
        · simp [h1] at h2
        · exact ⟨r, ended_of_result hrel hy h2⟩
  · rename_i e l st hp
    split at hs
    · rename_i hf
      cases hs
      refine ⟨hrel.congr rfl rfl, fun hc => ?_, hpost⟩
      have hi := hinv hc
      obtain ⟨hm, hr⟩ := fence_live hi (f := f) (by simp [hp]) (by simp [hp])
      refine AInv.fpc hi hm hr (by simp) (acc_fpc (fun h => h) ?_ ?_) ?_ (by simp)
      · intro l' st' h h'
        rw [hp] at h
        cases h
        exact .inr (.inr (.inl ⟨f, l, st, by simp, h'⟩))
      · intro e id l st' h
        simp [hp] at h
      · intro l' st' hd hx
        cases hx
        obtain ⟨h1, h2⟩ := hi.fenA f (e :: l) st hd hp
        refine ⟨h1, fun hst e' he' => ?_⟩
        rcases h2 hst e' he' with h3 | h3
        · rcases List.mem_cons.mp h3 with rfl | h3
          · exact .inr hf
          · exact .inl h3
        · exact .inr h3
    · rename_i id hf
      split at hs
      · cases hs
        refine ⟨(hrel.emit (x := .race e) (.inl rfl)).congr rfl rfl, fun hc => ?_, hpost.snoc trivial⟩
        exact absurd (by simp [emit]) (hc.1 e)
      · rename_i hpc
        cases hs
        refine ⟨hrel.congr rfl rfl, fun hc => ?_, hpost⟩
        have hi := hinv hc
        obtain ⟨hm, hr⟩ := fence_live hi (f := f) (by simp [hp]) (by simp [hp])
        refine AInv.fpc hi hm hr ?_ (acc_fpc (fun h => h) ?_ ?_) (by simp) ?_
        · intro e' id' l' st' hx
          cases hx
          obtain ⟨k, hk⟩ := hi.futE e id hf
          exact ⟨(List.getElem?_eq_some_iff.mp hk).1, fun h => hpc _ h⟩
        · intro l' st' h h'
          rw [hp] at h
          cases h
          exact .inr (.inr (.inr ⟨f, e, id, l, st, by simp, h'⟩))
        · intro e id l st' h
          simp [hp] at h
        · intro e' id' l' st' hd hx
          cases hx
          exact hi.fenA f (e :: l) st hd hp
  · rename_i e id l st hp
    split_ifs at hs with hf
    · split at hs
      · rename_i r hres
        cases hs
        refine ⟨hrel.congr rfl rfl, fun hc => ?_, hpost⟩
        have hi := hinv hc
        obtain ⟨hm, hr⟩ := fence_live hi (f := f) (by simp [hp]) (by simp [hp])
        have h1 : AInv c { s with fpc := setAt s.fpc f (.get e id l (st.add r)), status := s.status } := by
          refine AInv.fpc hi hm hr ?_ (acc_fpc (fun h => h) ?_ ?_) (by simp) ?_
          · intro e' id' l' st' hx
            cases hx
            exact hi.getlt f e id l st hp
          · intro l' st' h
            simp [hp] at h
          · intro e' id' l' st' h h'
            rw [hp] at h
            cases h
            exact .inr (.inr (.inr ⟨f, e, id, l, st.add r, by simp, by simp [CStatus.add_isErr, h']⟩))
          · intro e' id' l' st' hd hx
            cases hx
            obtain ⟨h1, h2⟩ := hi.fenG f e id l st hd hp
            refine ⟨h1, fun hst => h2 ?_⟩
            cases hcr : st.isCrash with
            | false => rfl
            | true =>
              rw [CStatus.add_of_err _ (crash_isErr hcr), hcr] at hst
              simp at hst
        have h2 : AInv c { s with fut := setAt s.fut e none, fpc := setAt s.fpc f (.get e id l (st.add r)) } :=
          AInv.dropFut h1 (e := e) (id := id) (r := .ret r) hf (hi.getlt f e id l st hp).2 hres
            (fun h => .inr (.inr (.inr ⟨f, e, id, l, st.add r, by simp, by
              simp only [ARes.status] at h; simp [CStatus.add_isErr, h]⟩)))
        have h3 := AInv.fpc h2 (f := f) (x := .at l (st.add r)) (w := s.status) hm hr (by simp)
          (acc_fpc (fun h => h) ?_ ?_) ?_ (by simp)
        · have he : setAt (setAt s.fpc f (.get e id l (st.add r))) f (.at l (st.add r)) = setAt s.fpc f (.at l (st.add r)) := by
            funext k
            by_cases hk : k = f <;> simp [setAt, hk]
          simp only [he] at h3
          exact h3
        · intro l' st' h
          simp at h
        · intro e' id' l' st' h h'
          simp only [setAt_same] at h
          cases h
          exact .inr (.inr (.inl ⟨f, l, st.add r, by simp, h'⟩))
        · intro l' st' hd hx
          cases hx
          obtain ⟨g1, g2⟩ := h2.fenG f e id l (st.add r) hd (by simp)
          refine ⟨g1, fun hst e' he' => ?_⟩
          rcases g2 hst e' he' with h4 | h4
          · rcases List.mem_cons.mp h4 with rfl | h4
            · exact .inr (by simp)
            · exact .inl h4
          · exact .inr h4
      · rename_i w hres
        cases hs
        refine ⟨hrel.congr rfl rfl, fun hc => ?_, hpost⟩
        have hi := hinv hc
        obtain ⟨hm, hr⟩ := fence_live hi (f := f) (by simp [hp]) (by simp [hp])
        have hgl := hi.getlt f e id l st hp
        have h1 : AInv c { s with fpc := setAt s.fpc f (.at [] ⟨STATUS_CRASH, w⟩), status := s.status } := by
          refine AInv.fpc hi hm hr (by simp) (acc_fpc (fun h => h) ?_ ?_) ?_ (by simp)
          · intro l' st' h
            simp [hp] at h
          · intro e' id' l' st' _ _
            exact .inr (.inr (.inl ⟨f, [], ⟨STATUS_CRASH, w⟩, by simp, rfl⟩))
          · intro l' st' hd hx
            cases hx
            exact ⟨(hi.fenG f e id l st hd hp).1, fun hst => by simp [CStatus.isCrash] at hst⟩
        exact AInv.dropFut h1 (e := e) (id := id) (r := .thrown w) hf hgl.2 hres
            (fun _ => .inr (.inr (.inl ⟨f, [], ⟨STATUS_CRASH, w⟩, by simp, rfl⟩)))
      · simp at hs
    · cases hs
      refine ⟨(hrel.emit (x := .race e) (.inl rfl)).congr rfl rfl, fun hc => ?_, hpost.snoc trivial⟩
      exact absurd (by simp [emit]) (hc.1 e)
  · simp at hs

theorem step_all {c : ACfg} {s s' : ASt} {a : AAct} (h : AAll c s) (hs : s.step c a = some s') : AAll c s' := by
  obtain ⟨hrel, hinv, hpost⟩ := h
  cases a with
  | run =>
    simp only [step] at hs
    split_ifs at hs with hr
    cases hs
    exact ⟨(hrel.emit (.inr rfl)).congr rfl rfl, fun hc => (hinv hc.of_append).begin hr, hpost.snoc trivial⟩
  | call e =>
    simp only [step] at hs
    split_ifs at hs with hr ht
    · cases hs
      refine ⟨hrel.congr rfl rfl, fun hc => ?_, hpost⟩
      have := ((hinv hc).tmo e ht).2
      rcases this with ⟨_, ⟨st, h1⟩ | h1⟩ | ⟨l, h1, _⟩
      · simp [hr.2.1] at h1
      · simp [hr.2.1] at h1
      · simp [hr.1] at h1
    · cases hs
      exact ⟨hrel.commit e, fun hc => (hinv hc.of_append).commit hr.1 hr.2.2 (.inl hr.2.1) (by simpa using ht),
        hpost.snoc trivial⟩
  | take id =>
    simp only [step] at hs
    split at hs
    · rename_i e ht
      cases hs
      refine ⟨hrel.take ht, fun hc => ?_, hpost.snoc fun hc hh => post_take hrel (hinv hc) ht hh⟩
      have h1 := (hinv hc.of_append).setTask (k' := .running) ht (by simp)
      exact AInv.emitB h1 (by simp [AEv.inert])
    · simp at hs
  | finish id r =>
    simp only [step] at hs
    split at hs
    · rename_i e ht
      cases hs
      refine ⟨hrel.finish ht, fun hc => ?_, hpost.snoc trivial⟩
      have h1 := (hinv hc.of_append).setTask (k' := .done r) ht (by simp)
      exact AInv.emitB h1 (by simp [AEv.inert])
    · simp at hs
  | inTime e =>
    simp only [step] at hs
    split at hs
    · rename_i id hp
      split_ifs at hs with hf
      · split at hs
        · rename_i r hres
          cases hs
          exact ⟨hrel.congr rfl rfl, fun hc => (hinv hc).inTime hp hres, hpost⟩
        · simp at hs
      · cases hs
        refine ⟨(hrel.emit (x := .race e) (.inl rfl)).congr rfl rfl, fun hc => ?_, hpost.snoc trivial⟩
        exact absurd (by simp [emit]) (hc.1 e)
    · simp at hs
  | late e =>
    simp only [step] at hs
    split at hs
    · rename_i id hp
      split_ifs at hs with hf hh
      · cases hs
        refine ⟨(hrel.emit (x := .late e) (.inl rfl)).congr rfl rfl, fun hc => ?_, hpost.snoc trivial⟩
        have h1 := (hinv hc.of_append).emit (x := .late e) rfl
        exact h1.late (id := id) hp ((mem_lastRun_snoc (by simp)).mpr (.inr rfl)) (by simp [hh]) (by simp [hh]; rfl)
      · cases hs
        refine ⟨(hrel.emit (x := .late e) (.inl rfl)).congr rfl rfl, fun hc => ?_, hpost.snoc trivial⟩
        have h1 := (hinv hc.of_append).emit (x := .late e) rfl
        exact h1.late (id := id) (st := .err "running time") hp ((mem_lastRun_snoc (by simp)).mpr (.inr rfl))
          (by simp [hh]; rfl) (by simp [hh]; rfl)
    · simp at hs
  | again e =>
    simp only [step] at hs
    split at hs
    · rename_i st late hp
      split_ifs at hs with hok
      cases hs
      refine ⟨(hrel.emit (.inl rfl)).commit e, fun hc => ?_, (hpost.snoc (x := .again e late) trivial).snoc trivial⟩
      have hc1 : AClean (s.hist ++ [.again e late]) := hc.of_append
      have hi := hinv hc1.of_append
      cases late with
      | true => exact absurd (by simp) (hc1.2.2 e)
      | false =>
        have hn : e < c.n := by
          by_cases hn : e < c.n
          · exact hn
          · have := hi.out e (by omega)
            simp [hp] at this
        have hr : s.run = .engine := by
          by_cases hr : s.run = .engine
          · exact hr
          · rcases hi.quietE hr e with h1 | h1 <;> simp [hp] at h1
        refine (hi.emit (x := .again e false) rfl).commit hr hn (.inr ⟨st, hp, CStatus.isOK_not_err hok⟩) ?_
        cases ht : s.tmo e with
        | false => exact ht
        | true =>
          rcases (hi.tmo e ht).2 with ⟨_, ⟨st, h1⟩ | h1⟩ | ⟨l, h1, _⟩
          · simp [hp] at h1
          · simp [hp] at h1
          · simp [hr] at h1
    · simp at hs
  | ret e =>
    simp only [step] at hs
    split at hs
    · rename_i st b hp
      cases hs
      refine ⟨(hrel.emit (x := .elemRet e st) (.inl rfl)).congr rfl rfl, fun hc => ?_, hpost.snoc fun hc => ?_⟩
      · exact AInv.emit ((hinv hc.of_append).ret hp) rfl
      · cases b with
        | false =>
          obtain ⟨_, id, r, h1, h2, h3⟩ := (hinv hc).endF e st hp
          exact .inl ⟨id, r, h1, ended_of_result hrel h1 h2, h3⟩
        | true => exact .inr ((hinv hc).endT e st hp)
    · simp at hs
  | fence f =>
    simp only [step] at hs
    split_ifs at hs with hr
    cases hs
    refine ⟨(hrel.emit (x := .fenceBegin f) (.inl rfl)).congr rfl rfl, fun hc => ?_, hpost.snoc trivial⟩
    have hi := hinv hc.of_append
    refine AInv.emit (AInv.fpc hi hr.2.2.1 hr.1 (by simp) ?_ ?_ (by simp)) rfl
    · rintro (h1 | h1 | ⟨f', l, st, h1, h2⟩ | ⟨f', e, id, l, st, h1, h2⟩)
      · exact .inl h1
      · exact .inr (.inl h1)
      · have hne : f' ≠ f := by rintro rfl; simp [hr.2.1] at h1
        exact .inr (.inr (.inl ⟨f', l, st, by simpa [setAt_ne _ _ hne] using h1, h2⟩))
      · have hne : f' ≠ f := by rintro rfl; simp [hr.2.1] at h1
        exact .inr (.inr (.inr ⟨f', e, id, l, st, by simpa [setAt_ne _ _ hne] using h1, h2⟩))
    · intro l st hd hx
      cases hx
      exact ⟨hr.2.2.2 hd, fun _ e he => .inl he⟩
  | fenceStep f => exact fenceStep_all ⟨hrel, hinv, hpost⟩ hs
  | engineEnd =>
    simp only [step] at hs
    split_ifs at hs with hr
    cases hs
    exact ⟨hrel.congr rfl rfl, fun hc => (hinv hc).engineEnd hr.1 hr.2, hpost⟩
  | resetStep =>
    simp only [step] at hs
    split at hs
    · rename_i hr
      cases hs
      refine ⟨(hrel.emit (x := .runRet s.status) (.inl rfl)).congr rfl rfl, fun hc => ?_,
        hpost.snoc fun hc => post_runRet hrel (hinv hc) hr⟩
      exact AInv.emit ((hinv hc.of_append).idle hr) rfl
    · rename_i e l hr
      split at hs
      · rename_i hf
        cases hs
        exact ⟨hrel.congr rfl rfl, fun hc => (hinv hc).reset hr hf, hpost⟩
      · rename_i id hf
        split at hs
        · rename_i r hres
          cases hs
          refine ⟨hrel.congr rfl rfl, fun hc => ?_, hpost⟩
          have hi := hinv hc
          have hpc : s.pc e ≠ .waiting id := by
            intro hp
            rcases hi.quietE (by simp [hr]) e with h1 | h1 <;> simp [hp] at h1
          have h1 := hi.status r
          have h2 := h1.dropFut (e := e) (id := id) (r := .ret r) hf hpc hres
            (fun h => .inl (by simp only [ARes.status] at h; simp [CStatus.add_isErr, h]))
          exact AInv.reset h2 hr (by simp)
        · cases hs
          refine ⟨(hrel.emit (x := .runThrow) (.inl rfl)).congr rfl rfl, fun hc => ?_, hpost.snoc trivial⟩
          exact absurd (by simp [emit]) hc.2.1
        · simp at hs
    · simp at hs

theorem exec_all {c : ACfg} {s : ASt} (h : AAll c s) (as : List AAct) : AAll c (s.exec c as) := by
  induction as generalizing s with
  | nil => exact h
  | cons a as ih =>
    simp only [exec]
    cases hs : s.step c a with
    | none => exact ih h
    | some s' => exact ih (step_all h hs)

end ASt
end CGraph
