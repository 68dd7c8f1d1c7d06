import Verif.Lemmas.Event

/-! # The invariant of events is kept by every step -/
namespace CGraph
namespace EvSt

theorem Inv.pcOnly {m : Nat} {unique : Bool} {s : EvSt} (h : Inv m unique s) {pc' : EvPc}
    (hc : Core unique s.hist s.runL s.desL pc' fun id => ∃ n : EvNote, s.notes[id]? = some n ∧ n.run = .dropped)
    (hu : normal pc' ∨ pc' = .poolDown → s.poolUp = true)
    (hw : ∀ e l, pc' = .wait e l ∨ pc' = .dwait e l → ∀ id ∈ l, ∃ n : EvNote, s.notes[id]? = some n ∧ n.kind ≠ .sync) :
    Inv m unique { s with pc := pc' } where
  note := h.note
  fresh := h.fresh
  core := hc
  up := hu
  shared := h.shared
  down := h.down
  listed := h.listed
  waited := hw

/-- In a normal state nothing is pending. -/
theorem Core.due_normal {unique : Bool} {hist : List EvEv} {runL desL : Nat → List Nat} {pc : EvPc} {D : Nat → Prop}
    (h : Core unique hist runL desL pc D) (hn : normal pc) : Due hist fun id _ => .handled id ∈ hist ∨ D id := by
  intro id e p0 p1 p2 a b c d
  rcases h.d id e p0 p1 p2 a b c d with h1 | h1 | h1
  · exact Or.inl h1
  · exact Or.inr h1
  · cases pc <;> first | exact h1.elim | exact hn.elim

theorem Inv.dropped_life {m : Nat} {unique : Bool} {s : EvSt} (h : Inv m unique s) {id e : Nat} {k : EvKind}
    {p0 p1 : List EvEv} (hn : normal s.pc) (hs : s.hist = p0 ++ .call id e k :: p1) (hl : Life p1) :
    ¬ ∃ n : EvNote, s.notes[id]? = some n ∧ n.run = .dropped := by
  intro hd
  exact h.core.l hn id hd p0 p1 e k hs hl

theorem setAt_ne {f : Nat → List Nat} {e k : Nat} {l : List Nat} (h : k ≠ e) : setAt f e l k = f k := by
  simp [setAt, h]

theorem mem_setAt_nil {f : Nat → List Nat} {e k x : Nat} (h : x ∈ setAt f e [] k) : x ∈ f k := by
  unfold setAt at h
  split at h
  · cases h
  · exact h

theorem Inv.engine {m : Nat} {unique : Bool} {s : EvSt} (h : Inv m unique s) (hp : s.pc = .engine) :
    Inv m unique (EvSt.waitFrom m { s with hist := s.hist ++ [.waitBegin] } 0) := by
  have hn : normal s.pc := by rw [hp]; trivial
  obtain ⟨h1, h2⟩ := h.notes_snoc (x := .waitBegin) rfl
  refine Inv.waitFrom h1 h2 (prefix_snoc h.core.r (fun x => by cases x)) (prefix_snoc h.core.e (fun x => by cases x))
    ((h.core.a hn).snoc (fun _ _ x => x) (fun _ _ x => by cases x))
    ((h.core.ad hn).snoc (fun _ _ x => x) (fun _ _ x => by cases x)) ?_ ?_
    ((h.core.l hn).snoc (fun _ x => x) (fun _ _ _ x => by cases x)) (h.up (Or.inl hn)) h.listed
  · intro id e' p0 pa pb _ _ _ h0; omega
  · refine Due.snoc (h.core.due_normal hn) ?_ (by simp)
    rintro id e (h3 | h3)
    · exact Or.inl (List.mem_append_left _ h3)
    · exact Or.inr h3

theorem Inv.waitNil {m : Nat} {unique : Bool} {s : EvSt} (h : Inv m unique s) {e : Nat} (hp : s.pc = .wait e []) :
    Inv m unique (EvSt.waitFrom m { s with runL := setAt s.runL e [] } (e + 1)) := by
  have hn : normal s.pc := by rw [hp]; trivial
  have hb := h.core.b e [] hp
  have hset : ∀ id ∈ s.runL e, ∀ e' k p0 p1, s.hist = p0 ++ .call id e' k :: p1 → Life p1 → .handled id ∈ s.hist := by
    intro id hid e' k p0 p1 hs hl
    rcases hb id hid with h1 | h1 | h1
    · cases h1
    · exact h1
    · exact absurd h1 (h.dropped_life hn hs hl)
  refine Inv.waitFrom h.note h.fresh h.core.r h.core.e ?_ (h.core.ad hn) ?_ (h.core.due_normal hn)
    (h.core.l hn) (h.up (Or.inl hn)) ?_
  · intro id e' p0 p1 hs hl hbk
    rcases h.core.a hn id e' p0 p1 hs hl hbk with h1 | h1
    · exact Or.inl h1
    · by_cases he : e' = e
      · subst he; exact Or.inl (hset id h1 e' _ p0 p1 hs hl)
      · refine Or.inr ?_
        show id ∈ setAt s.runL e [] e'
        rw [setAt_ne he]; exact h1
  · intro id e' p0 pa pb hs hl hbk he
    by_cases he' : e' < e
    · exact h.core.c e [] hp id e' p0 pa pb hs hl hbk he'
    · have : e' = e := by omega
      subst this
      have hl' : Life (pa ++ .waitBegin :: pb) := hl.of_mid (by simp) (by simp)
      rcases h.core.a hn id e' p0 _ hs hl' (List.mem_append_left _ hbk) with h1 | h1
      · exact h1
      · exact hset id h1 e' _ p0 _ hs hl'
  · intro e' id hid
    rcases hid with hid | hid
    · exact h.listed e' id (Or.inl (mem_setAt_nil hid))
    · exact h.listed e' id (Or.inr hid)

theorem Inv.waitCons {m : Nat} {unique : Bool} {s : EvSt} (h : Inv m unique s) {e id : Nat} {l : List Nat}
    (hp : s.pc = .wait e (id :: l)) (hr : s.ready id = true) : Inv m unique { s with pc := .wait e l } := by
  have hn : normal s.pc := by rw [hp]; trivial
  refine h.pcOnly ⟨h.core.r, h.core.e, fun _ => h.core.a hn, fun _ => h.core.ad hn, ?_, ?_, ?_, fun _ => h.core.l hn⟩
    (fun _ => h.up (Or.inl hn)) ?_
  · intro e' l' hp' k hk
    simp only [EvPc.wait.injEq] at hp'
    obtain ⟨rfl, rfl⟩ := hp'
    rcases h.core.b e (id :: l) hp k hk with h1 | h1
    · rcases List.mem_cons.mp h1 with rfl | h1
      · exact Or.inr (h.ready_iff hr)
      · exact Or.inl h1
    · exact Or.inr h1
  · intro e' l' hp'
    simp only [EvPc.wait.injEq] at hp'
    obtain ⟨rfl, rfl⟩ := hp'
    exact h.core.c e _ hp
  · intro k e' p0 p1 p2 a b c d
    exact (h.core.due_normal hn k e' p0 p1 p2 a b c d).imp_right Or.inl
  · intro e' l' hp' k hk
    simp only [EvPc.wait.injEq, reduceCtorEq, or_false] at hp'
    obtain ⟨rfl, rfl⟩ := hp'
    exact h.waited e (id :: l) (Or.inl hp) k (by simp [hk])

theorem Inv.dwaitNil {m : Nat} {unique : Bool} {s : EvSt} (h : Inv m unique s) {e : Nat} (hp : s.pc = .dwait e []) :
    Inv m unique (EvSt.dwaitFrom m { s with runL := setAt s.runL e [], desL := setAt s.desL e [] } (e + 1)) := by
  refine Inv.dwaitFrom h.note h.fresh h.core.r h.core.e ?_ h.shared h.down ?_
  · intro id e' p0 p1 p2 a b c d
    rcases h.core.d id e' p0 p1 p2 a b c d with h1 | h1 | h1
    · exact Or.inl h1
    · exact Or.inr (Or.inl h1)
    · rw [hp] at h1
      rcases h1 with ⟨h1, h2⟩ | ⟨_, h2⟩
      · refine Or.inr (Or.inr ⟨h1, ?_⟩)
        show id ∈ setAt s.desL e [] e'
        rw [setAt_ne (by omega)]; exact h2
      · cases h2
  · intro e' id hid
    exact h.listed e' id (hid.imp mem_setAt_nil mem_setAt_nil)

theorem Inv.dwaitCons {m : Nat} {unique : Bool} {s : EvSt} (h : Inv m unique s) {e id : Nat} {l : List Nat}
    (hp : s.pc = .dwait e (id :: l)) (hr : s.ready id = true) : Inv m unique { s with pc := .dwait e l } := by
  refine h.pcOnly ⟨h.core.r, h.core.e, fun x => x.elim, fun x => x.elim, (by intro _ _ x; cases x),
    (by intro _ _ x; cases x), ?_, fun x => x.elim⟩ (by simp [normal]) ?_
  · intro k e' p0 p1 p2 a b c d
    rcases h.core.d k e' p0 p1 p2 a b c d with h1 | h1 | h1
    · exact Or.inl h1
    · exact Or.inr (Or.inl h1)
    · rw [hp] at h1
      rcases h1 with h1 | ⟨h1, h2⟩
      · exact Or.inr (Or.inr (Or.inl h1))
      · rcases List.mem_cons.mp h2 with rfl | h2
        · rcases h.ready_iff hr with h3 | h3
          · exact Or.inl h3
          · exact Or.inr (Or.inl h3)
        · exact Or.inr (Or.inr (Or.inr ⟨h1, h2⟩))
  · intro e' l' hp' k hk
    simp only [EvPc.dwait.injEq, reduceCtorEq, false_or] at hp'
    obtain ⟨rfl, rfl⟩ := hp'
    exact h.waited e (id :: l) (Or.inr hp) k (by simp [hk])

theorem Inv.runCall {m : Nat} {unique : Bool} {s : EvSt} (h : Inv m unique s) (hp : s.pc = .idle) :
    Inv m unique { s with pc := .engine } := by
  have hn : normal s.pc := by rw [hp]; trivial
  refine h.pcOnly ⟨h.core.r, h.core.e, fun _ => h.core.a hn, fun _ => h.core.ad hn, (by intro _ _ x; cases x),
    (by intro _ _ x; cases x), ?_, fun _ => h.core.l hn⟩ (fun _ => h.up (Or.inl hn)) (by intro e l x; simp at x)
  intro k e' p0 p1 p2 a b c d
  exact (h.core.due_normal hn k e' p0 p1 p2 a b c d).imp_right Or.inl

theorem Inv.destroyCall {m : Nat} {unique : Bool} {s : EvSt} (h : Inv m unique s) (hp : s.pc = .idle) :
    Inv m unique { s with pc := .poolDown, hist := s.hist ++ [.destroyBegin] } := by
  have hn : normal s.pc := by rw [hp]; trivial
  obtain ⟨h1, h2⟩ := h.notes_snoc (x := .destroyBegin) rfl
  refine { note := h1, fresh := h2, core := ?_, up := fun _ => h.up (Or.inl hn), shared := h.shared, down := h.down,
           listed := h.listed, waited := by intro e l x; simp at x }
  refine ⟨prefix_snoc h.core.r (fun x => by cases x), prefix_snoc h.core.e (fun x => by cases x), fun x => x.elim,
    fun x => x.elim, (by intro _ _ x; cases x), (by intro _ _ x; cases x), ?_, fun x => x.elim⟩
  intro id e p0 p1 p2 a b c d
  rcases snoc_split a with ⟨h5, _, _⟩ | ⟨q, h5, hh⟩
  · simp at h5
  · rcases snoc_split h5.symm with ⟨rfl, _, rfl⟩ | ⟨p2', rfl, rfl⟩
    · rcases h.core.ad hn id e p0 q hh b c with h6 | h6
      · exact Or.inl (List.mem_append_left _ h6)
      · exact Or.inr (Or.inr h6)
    · rcases h.core.due_normal hn id e p0 p1 p2' hh b c (fun x => d (List.mem_append_left _ x)) with h6 | h6
      · exact Or.inl (List.mem_append_left _ h6)
      · exact Or.inr (Or.inl h6)

theorem Inv.initCall {m : Nat} {unique : Bool} {s : EvSt} (h : Inv m unique s) (hp : s.pc = .gone) :
    Inv m unique { s with pc := .idle, poolUp := true, runL := fun _ => [], desL := fun _ => [],
                          hist := s.hist ++ [.inited] } := by
  obtain ⟨h1, h2⟩ := h.notes_snoc (x := .inited) rfl
  refine { note := h1, fresh := h2, core := ?_, up := fun _ => rfl, shared := fun _ => rfl,
           down := by intro x; cases x
           listed := by intro e id x; simp at x
           waited := by intro e l x; simp at x }
  have hL : ∀ st, Listed (s.hist ++ [.inited]) (fun _ => []) st := by
    intro st id e p0 p1 a b c
    rcases snoc_split a with ⟨rfl, _, _⟩ | ⟨p1', rfl, _⟩
    · cases c
    · exact absurd (by simp) b.2
  refine ⟨prefix_snoc h.core.r (fun x => by cases x), prefix_snoc h.core.e (fun x => by cases x), fun _ => hL _,
    fun _ => hL _, (by intro _ _ x; cases x), (by intro _ _ x; cases x), ?_, ?_⟩
  rotate_left
  · intro _ id _ p0 p1 e k a b
    rcases snoc_split a with ⟨_, h5, _⟩ | ⟨p1', rfl, _⟩
    · cases h5
    · exact absurd (by simp) b.2
  refine Due.snoc h.core.d ?_ (by simp)
  rintro id e (h3 | h3 | h3)
  · exact Or.inl (List.mem_append_left _ h3)
  · exact Or.inr (Or.inl h3)
  · rw [hp] at h3; exact h3.elim

theorem dropTask_kind (n : EvNote) : (dropTask n).kind = n.kind := by
  unfold dropTask
  split
  · rfl
  · split <;> simp_all

theorem dropTask_ev (n : EvNote) : (dropTask n).ev = n.ev ∧ (dropTask n).back = n.back := by
  unfold dropTask
  split
  · exact ⟨rfl, rfl⟩
  · split <;> exact ⟨rfl, rfl⟩

theorem dropTask_run (n : EvNote) : (dropTask n).run = n.run ∨
    (n.kind ≠ .sync ∧ n.run = .queued ∧ (dropTask n).run = .dropped) := by
  unfold dropTask
  split
  · exact Or.inl rfl
  · rename_i st hk
    split
    · rename_i hq; exact Or.inr ⟨by simp [hk], hq, rfl⟩
    · exact Or.inl rfl

theorem NoteOK.dropTask {m : Nat} {hist : List EvEv} {id : Nat} {n : EvNote} (h : NoteOK m true hist id n) :
    NoteOK m true hist id (EvSt.dropTask n) := by
  have hk := dropTask_kind n
  obtain ⟨he, hb⟩ := dropTask_ev n
  refine ⟨?_, ?_, ?_, ?_, ?_, ?_, fun _ => rfl, ?_, ?_⟩
  · rw [hk, he]; exact h.calls
  · rw [hk, he]; exact h.called
  · rw [he]; exact h.lt
  · rw [h.handled]
    rcases dropTask_run n with h1 | ⟨_, h1, h2⟩
    · rw [h1]
    · rw [h1, h2]; simp
  · rw [h.start]
    rcases dropTask_run n with h1 | ⟨_, h1, h2⟩
    · rw [h1]
    · rw [h1, h2]; simp
  · rw [hb]; exact h.back
  · intro hs
    rw [hk] at hs
    rcases dropTask_run n with h1 | ⟨h1, _, _⟩
    · rw [h1]; exact h.sync hs
    · exact absurd hs h1
  · rw [hk]; exact h.syncBack

/-- The shared pool is left alone. -/
theorem Inv.poolShared {m : Nat} {unique : Bool} {s : EvSt} (h : Inv m unique s) (hp : s.pc = .poolDown) :
    Inv m unique (EvSt.dwaitFrom m s 0) := by
  refine Inv.dwaitFrom h.note h.fresh h.core.r h.core.e ?_ h.shared h.down h.listed
  intro id e p0 p1 p2 a b c d
  rcases h.core.d id e p0 p1 p2 a b c d with h1 | h1 | h1
  · exact Or.inl h1
  · exact Or.inr (Or.inl h1)
  · rw [hp] at h1; exact Or.inr (Or.inr ⟨Nat.zero_le _, h1⟩)

/-- The pool of the pipeline is deleted. -/
theorem Inv.poolDeleted {m : Nat} {s : EvSt} (h : Inv m true s) (hp : s.pc = .poolDown)
    (hb : s.notes.any busy = false) :
    Inv m true (EvSt.dwaitFrom m { s with poolUp := false, notes := s.notes.map EvSt.dropTask } 0) := by
  have hmap : ∀ (id : Nat) (n : EvNote), (s.notes.map EvSt.dropTask)[id]? = some n →
      ∃ a, s.notes[id]? = some a ∧ n = EvSt.dropTask a := by
    intro id n hn
    rw [List.getElem?_map] at hn
    cases ha : s.notes[id]? with
    | none => rw [ha] at hn; cases hn
    | some a => rw [ha] at hn; cases hn; exact ⟨a, rfl, rfl⟩
  have hmap' : ∀ (id : Nat) (a : EvNote), s.notes[id]? = some a →
      (s.notes.map EvSt.dropTask)[id]? = some (EvSt.dropTask a) := by
    intro id a ha; rw [List.getElem?_map, ha]; rfl
  refine Inv.dwaitFrom ?_ ?_ h.core.r h.core.e ?_ (fun x => by cases x) ?_ ?_
  · intro id n hn
    obtain ⟨a, ha, rfl⟩ := hmap id n hn
    exact (h.note id a ha).dropTask
  · intro id hid
    exact h.fresh id (by simpa using hid)
  · intro id e p0 p1 p2 a b c d
    rcases h.core.d id e p0 p1 p2 a b c d with h1 | ⟨n, hn, h1⟩ | h1
    · exact Or.inl h1
    · refine Or.inr (Or.inl ⟨_, hmap' id n hn, ?_⟩)
      rcases dropTask_run n with h2 | ⟨_, _, h2⟩
      · rw [h2]; exact h1
      · exact h2
    · rw [hp] at h1; exact Or.inr (Or.inr ⟨Nat.zero_le _, h1⟩)
  · intro _ id n hn hs
    obtain ⟨a, ha, rfl⟩ := hmap id n hn
    rw [dropTask_kind] at hs
    have hnb : busy a = false := by
      rw [List.any_eq_false] at hb
      simpa using hb a (List.mem_of_getElem? ha)
    unfold EvSt.dropTask
    unfold busy at hnb
    cases hk : a.kind with
    | sync => exact absurd hk hs
    | async st =>
      rw [hk] at hnb
      simp only [decide_eq_false_iff_not] at hnb
      cases hr : a.run <;> simp_all
  · intro e id hid
    obtain ⟨a, ha, hs⟩ := h.listed e id hid
    exact ⟨_, hmap' id a ha, by rw [dropTask_kind]; exact hs⟩

theorem Inv.main {m : Nat} {unique : Bool} {s s' : EvSt} (h : Inv m unique s) (hs : s.main m unique = some s') :
    Inv m unique s' := by
  unfold EvSt.main at hs
  split at hs
  · cases hs
  · rename_i hp; cases hs; exact h.engine hp
  · rename_i e hp; cases hs; exact h.waitNil hp
  · rename_i e id l hp
    split at hs
    · rename_i hr; cases hs; exact h.waitCons hp hr
    · cases hs
  · rename_i hp
    cases unique with
    | false => simp only [Bool.false_eq_true, if_false] at hs; cases hs; exact h.poolShared hp
    | true =>
      simp only [if_true] at hs
      split at hs
      · cases hs
      · rename_i hb
        cases hs
        exact h.poolDeleted hp (by simpa using hb)
  · rename_i e hp; cases hs; exact h.dwaitNil hp
  · rename_i e id l hp
    split at hs
    · rename_i hr; cases hs; exact h.dwaitCons hp hr
    · cases hs
  · cases hs

theorem Inv.step {m : Nat} {unique : Bool} {s s' : EvSt} (h : Inv m unique s) {a : EvAct}
    (hs : EvSt.step m unique s a = some s') : Inv m unique s' := by
  cases a with
  | notify e k =>
    simp only [EvSt.step, EvSt.notify] at hs
    split at hs
    · rename_i he
      cases k with
      | sync => cases hs; exact h.add he (by simp)
      | async st =>
        simp only at hs
        split at hs
        · rename_i hu; cases hs; exact h.add he (Or.inr hu)
        · cases hs
    · cases hs; exact h.refuse
  | take id =>
    simp only [EvSt.step] at hs
    split at hs
    · rename_i n hn
      split at hs
      · rename_i hq; cases hs; exact h.take hn hq
      · cases hs
    · cases hs
  | finish id =>
    simp only [EvSt.step] at hs
    split at hs
    · rename_i n hn
      split at hs
      · rename_i hq; cases hs; exact h.finish hn hq
      · cases hs
    · cases hs
  | ret id =>
    simp only [EvSt.step] at hs
    split at hs
    · rename_i n hn; exact h.ret hn hs
    · cases hs
  | run =>
    simp only [EvSt.step] at hs
    split at hs
    · rename_i hp; cases hs; exact h.runCall hp
    · cases hs
  | destroy =>
    simp only [EvSt.step] at hs
    split at hs
    · rename_i hp; cases hs; exact h.destroyCall hp
    · cases hs
  | init =>
    simp only [EvSt.step] at hs
    split at hs
    · rename_i hp; cases hs; exact h.initCall hp
    · cases hs
  | main => exact h.main hs

theorem Inv.exec {m : Nat} {unique : Bool} (as : List EvAct) {s : EvSt} (h : Inv m unique s) :
    Inv m unique (EvSt.exec m unique s as) := by
  induction as generalizing s with
  | nil => exact h
  | cons a as ih =>
    rw [EvSt.exec]
    apply ih
    cases hs : EvSt.step m unique s a with
    | none => exact h
    | some s' => exact h.step hs

end EvSt
end CGraph
