import Verif.Model.Event

/-! # Lemmas about events -/
namespace CGraph
namespace EvSt

/-- Splitting an extended list at an event. -/
theorem snoc_split {l p0 p1 : List EvEv} {x c : EvEv} (h : l ++ [x] = p0 ++ c :: p1) :
    (p1 = [] ∧ x = c ∧ l = p0) ∨ ∃ p1', p1 = p1' ++ [x] ∧ l = p0 ++ c :: p1' := by
  rcases List.eq_nil_or_concat p1 with rfl | ⟨p1', y, rfl⟩
  · left
    have := List.append_inj' h rfl
    simp only [List.cons.injEq, and_true] at this
    exact ⟨rfl, this.2, this.1⟩
  · right
    have h2 : l ++ [x] = (p0 ++ c :: p1') ++ [y] := by rw [h]; simp
    have := List.append_inj' h2 rfl
    simp only [List.cons.injEq, and_true] at this
    exact ⟨p1', by simp [this.2], this.1⟩

/-- The same for a first split of the rest. -/
theorem snoc_split2 {p1 pa pb : List EvEv} {x c : EvEv} (h : p1 ++ [x] = pa ++ c :: pb) (hx : x ≠ c) :
    ∃ pb', pb = pb' ++ [x] ∧ p1 = pa ++ c :: pb' := by
  rcases snoc_split h with ⟨_, h2, _⟩ | h2
  · exact absurd h2 hx
  · exact h2

/-- Neither destroyed nor initialised. -/
def Life (l : List EvEv) : Prop := EvEv.destroyBegin ∉ l ∧ EvEv.inited ∉ l

theorem Life.left {l m : List EvEv} (h : Life (l ++ m)) : Life l :=
  ⟨fun x => h.1 (List.mem_append_left _ x), fun x => h.2 (List.mem_append_left _ x)⟩

theorem Life.of_mid {l m : List EvEv} {x : EvEv} (h : Life (l ++ m)) (h1 : x ≠ .destroyBegin) (h2 : x ≠ .inited) :
    Life (l ++ x :: m) := by
  obtain ⟨a, b⟩ := h
  simp only [List.mem_append, not_or] at a b
  refine ⟨?_, ?_⟩
  · simp only [List.mem_append, List.mem_cons, not_or]; exact ⟨a.1, h1.symm, a.2⟩
  · simp only [List.mem_append, List.mem_cons, not_or]; exact ⟨b.1, h2.symm, b.2⟩

/-- What is guaranteed when `run` returns. -/
def RGood (P : List EvEv) : Prop := ∀ id e p0 pa pb,
  P = p0 ++ .call id e (.async .runFinish) :: (pa ++ .waitBegin :: pb) → Life (pa ++ pb) → .back id ∈ pa →
    .handled id ∈ P

/-- What is guaranteed when `destroy` returns. -/
def EGood (unique : Bool) (P : List EvEv) : Prop := ∀ id e p0 p1 p2,
  P = p0 ++ .call id e (.async .destroy) :: (p1 ++ .destroyBegin :: p2) → Life p1 → .back id ∈ p1 →
    .destroyEnd ∉ p2 → .handled id ∈ P ∨ (unique = true ∧ .start id ∉ P)

/-- No call of `destroy` is in progress. -/
def normal : EvPc → Prop
  | .idle | .engine | .wait _ _ => True
  | _ => False

/-- The future of notification `id` of event `e'` is still to be waited for by `destroy`. -/
def pend (pc : EvPc) (desL : Nat → List Nat) (id e' : Nat) : Prop :=
  match pc with
  | .poolDown => id ∈ desL e'
  | .dwait j l => (j < e' ∧ id ∈ desL e') ∨ (j = e' ∧ id ∈ l)
  | _ => False

/-- Everything noted before the wait for events below `e` is handled. -/
def CDone (hist : List EvEv) (e : Nat) : Prop := ∀ id e' p0 pa pb,
  hist = p0 ++ .call id e' (.async .runFinish) :: (pa ++ .waitBegin :: pb) → Life (pa ++ pb) → .back id ∈ pa →
    e' < e → .handled id ∈ hist

/-- The futures of the accepted notifications are in the lists. -/
def Listed (hist : List EvEv) (L : Nat → List Nat) (st : EvStrategy) : Prop := ∀ id e p0 p1,
  hist = p0 ++ .call id e (.async st) :: p1 → Life p1 → .back id ∈ p1 → .handled id ∈ hist ∨ id ∈ L e

/-- Every notification accepted before the call of `destroy` satisfies `Q`. -/
def Due (hist : List EvEv) (Q : Nat → Nat → Prop) : Prop := ∀ id e p0 p1 p2,
  hist = p0 ++ .call id e (.async .destroy) :: (p1 ++ .destroyBegin :: p2) → Life p1 → .back id ∈ p1 →
    .destroyEnd ∉ p2 → Q id e

/-- Dropped notifications belong to an earlier life. -/
def DL (hist : List EvEv) (D : Nat → Prop) : Prop :=
  ∀ id, D id → ∀ p0 p1 e k, hist = p0 ++ .call id e k :: p1 → ¬ Life p1

theorem DL.snoc {hist : List EvEv} {D D' : Nat → Prop} {x : EvEv} (h : DL hist D) (hD : ∀ id, D' id → D id)
    (hx : ∀ id e k, x = .call id e k → ¬ D' id) : DL (hist ++ [x]) D' := by
  intro id hd p0 p1 e k hs hl
  rcases snoc_split hs with ⟨_, h1, _⟩ | ⟨p1', rfl, hh⟩
  · exact hx id e k h1 hd
  · exact h id (hD id hd) p0 p1' e k hh hl.left

/-- The part of the invariant that does not look at the notifications; `D` are the dropped ones. -/
structure Core (unique : Bool) (hist : List EvEv) (runL desL : Nat → List Nat) (pc : EvPc) (D : Nat → Prop) : Prop where
  r : ∀ P q, hist = P ++ .runEnd :: q → RGood P
  e : ∀ P q, hist = P ++ .destroyEnd :: q → EGood unique P
  a : normal pc → Listed hist runL .runFinish
  ad : normal pc → Listed hist desL .destroy
  b : ∀ e l, pc = .wait e l → ∀ id ∈ runL e, id ∈ l ∨ .handled id ∈ hist ∨ D id
  c : ∀ e l, pc = .wait e l → CDone hist e
  d : Due hist fun id e => .handled id ∈ hist ∨ D id ∨ pend pc desL id e
  l : normal pc → DL hist D

/-- Events that do not mark a phase. -/
def Plain (x : EvEv) : Prop :=
  x ≠ .waitBegin ∧ x ≠ .runEnd ∧ x ≠ .destroyBegin ∧ x ≠ .destroyEnd ∧ x ≠ .inited

theorem prefix_snoc {l : List EvEv} {x y : EvEv} {G : List EvEv → Prop} (h : ∀ P q, l = P ++ y :: q → G P)
    (hx : x = y → G l) : ∀ P q, l ++ [x] = P ++ y :: q → G P := by
  intro P q hp
  rcases snoc_split hp with ⟨_, h1, rfl⟩ | ⟨q', _, h2⟩
  · exact hx h1
  · exact h P q' h2

theorem Listed.snoc {hist : List EvEv} {L L' : Nat → List Nat} {st : EvStrategy} {x : EvEv}
    (h : Listed hist L st) (hL : ∀ e, L e ⊆ L' e)
    (hb : ∀ id e, x = .back id → .call id e (.async st) ∈ hist → id ∈ L' e) : Listed (hist ++ [x]) L' st := by
  intro id e p0 p1 hs hl hbk
  rcases snoc_split hs with ⟨rfl, _, _⟩ | ⟨p1', rfl, hh⟩
  · cases hbk
  · rcases List.mem_append.mp hbk with hm | hm
    · rcases h id e p0 p1' hh hl.left hm with h1 | h1
      · exact Or.inl (List.mem_append_left _ h1)
      · exact Or.inr (hL e h1)
    · simp only [List.mem_singleton] at hm
      exact Or.inr (hb id e hm.symm (by rw [hh]; simp))

theorem CDone.snoc {hist : List EvEv} {e : Nat} {x : EvEv} (h : CDone hist e) (hx : x ≠ .waitBegin) :
    CDone (hist ++ [x]) e := by
  intro id e' p0 pa pb hs hl hbk he
  rcases snoc_split hs with ⟨h1, _, _⟩ | ⟨p1', h1, hh⟩
  · simp at h1
  · obtain ⟨pb', rfl, rfl⟩ := snoc_split2 h1.symm hx
    rw [← List.append_assoc] at hl
    exact List.mem_append_left _ (h id e' p0 pa pb' hh hl.left hbk he)

theorem Due.snoc {hist : List EvEv} {Q Q' : Nat → Nat → Prop} {x : EvEv} (h : Due hist Q)
    (hQ : ∀ id e, Q id e → Q' id e) (hx : x ≠ .destroyBegin) : Due (hist ++ [x]) Q' := by
  intro id e p0 p1 p2 hs hl hbk hd
  rcases snoc_split hs with ⟨h1, _, _⟩ | ⟨q, h1, hh⟩
  · simp at h1
  · obtain ⟨p2', rfl, rfl⟩ := snoc_split2 h1.symm hx
    exact hQ id e (h id e p0 p1 p2' hh hl hbk (fun hm => hd (List.mem_append_left _ hm)))

theorem pend_mono {pc : EvPc} {desL desL' : Nat → List Nat} (h : ∀ e, desL e ⊆ desL' e) {id e : Nat}
    (hp : pend pc desL id e) : pend pc desL' id e := by
  cases pc with
  | poolDown => exact h e hp
  | dwait j l => exact hp.imp (fun x => ⟨x.1, h e x.2⟩) (fun x => x)
  | _ => exact hp

/-- Steps of notifications and handlers. -/
theorem Core.plain {unique : Bool} {hist : List EvEv} {runL desL runL' desL' : Nat → List Nat} {pc : EvPc}
    {D D' : Nat → Prop} {x : EvEv} (h : Core unique hist runL desL pc D) (hx : Plain x)
    (h1 : ∀ e, runL e ⊆ runL' e) (h2 : ∀ e, desL e ⊆ desL' e) (hD : ∀ id, D id → D' id)
    (hD2 : ∀ id, D' id → D id) (hcl : ∀ id e k, x = .call id e k → ¬ D' id)
    (hb1 : ∀ id e, x = .back id → .call id e (.async .runFinish) ∈ hist → id ∈ runL' e)
    (hb2 : ∀ id e, x = .back id → .call id e (.async .destroy) ∈ hist → id ∈ desL' e)
    (hw : ∀ e l, pc = .wait e l → runL' e = runL e) : Core unique (hist ++ [x]) runL' desL' pc D' where
  r := prefix_snoc h.r (fun e => absurd e hx.2.1)
  e := prefix_snoc h.e (fun e => absurd e hx.2.2.2.1)
  a := fun hn => (h.a hn).snoc h1 hb1
  ad := fun hn => (h.ad hn).snoc h2 hb2
  b := by
    intro e l hp id hid
    rw [hw e l hp] at hid
    rcases h.b e l hp id hid with h3 | h3 | h3
    · exact Or.inl h3
    · exact Or.inr (Or.inl (List.mem_append_left _ h3))
    · exact Or.inr (Or.inr (hD id h3))
  c := fun e l hp => (h.c e l hp).snoc hx.1
  d := by
    refine Due.snoc h.d ?_ hx.2.2.1
    rintro id e (h3 | h3 | h3)
    · exact Or.inl (List.mem_append_left _ h3)
    · exact Or.inr (Or.inl (hD id h3))
    · exact Or.inr (Or.inr (pend_mono h2 h3))
  l := fun hn => (h.l hn).snoc hD2 hcl

/-- Going on to event `e` at the end of `run`. -/
theorem core_waitFrom {unique : Bool} {m : Nat} {s : EvSt} {D : Nat → Prop} {e : Nat}
    (hr : ∀ P q, s.hist = P ++ .runEnd :: q → RGood P) (he : ∀ P q, s.hist = P ++ .destroyEnd :: q → EGood unique P)
    (ha : Listed s.hist s.runL .runFinish) (had : Listed s.hist s.desL .destroy) (hc : CDone s.hist e)
    (hd : Due s.hist fun id _ => .handled id ∈ s.hist ∨ D id) (hdl : DL s.hist D)
    (hm : ∀ id e' k, .call id e' k ∈ s.hist → e' < m) :
    Core unique (waitFrom m s e).hist (waitFrom m s e).runL (waitFrom m s e).desL (waitFrom m s e).pc D := by
  unfold waitFrom
  by_cases h : e < m
  · rw [if_pos h]
    refine ⟨hr, he, fun _ => ha, fun _ => had, ?_, ?_, ?_, fun _ => hdl⟩
    · intro e' l hp id hid
      simp only [EvPc.wait.injEq] at hp
      obtain ⟨rfl, rfl⟩ := hp
      exact Or.inl hid
    · intro e' l hp
      simp only [EvPc.wait.injEq] at hp
      obtain ⟨rfl, rfl⟩ := hp
      exact hc
    · intro id e' p0 p1 p2 a b c d
      exact (hd id e' p0 p1 p2 a b c d).imp_right Or.inl
  · rw [if_neg h]
    refine ⟨?_, ?_, ?_, ?_, ?_, ?_, ?_, fun _ => hdl.snoc (fun _ x => x) (fun _ _ _ x => by cases x)⟩
    · refine prefix_snoc hr (fun _ => ?_)
      intro id e' p0 pa pb hs hl hbk
      exact hc id e' p0 pa pb hs hl hbk (by
        have := hm id e' (.async .runFinish) (by rw [hs]; simp)
        omega)
    · exact prefix_snoc he (fun x => by cases x)
    · exact fun _ => ha.snoc (fun _ _ h => h) (fun _ _ x => by cases x)
    · exact fun _ => had.snoc (fun _ _ h => h) (fun _ _ x => by cases x)
    · intro e' l hp; cases hp
    · intro e' l hp; cases hp
    · refine hd.snoc ?_ (by simp)
      rintro id e' (h | h)
      · exact Or.inl (List.mem_append_left _ h)
      · exact Or.inr (Or.inl h)

/-- Going on to event `e` in `destroy`. -/
theorem core_dwaitFrom {unique : Bool} {m : Nat} {s : EvSt} {D : Nat → Prop} {e : Nat}
    (hr : ∀ P q, s.hist = P ++ .runEnd :: q → RGood P) (he : ∀ P q, s.hist = P ++ .destroyEnd :: q → EGood unique P)
    (hd : Due s.hist fun id e' => .handled id ∈ s.hist ∨ D id ∨ (e ≤ e' ∧ id ∈ s.desL e'))
    (hm : ∀ id e' k, .call id e' k ∈ s.hist → e' < m) (hD : ∀ id, D id → unique = true ∧ .start id ∉ s.hist) :
    Core unique (dwaitFrom m s e).hist (dwaitFrom m s e).runL (dwaitFrom m s e).desL (dwaitFrom m s e).pc D := by
  unfold dwaitFrom
  by_cases h : e < m
  · rw [if_pos h]
    refine ⟨hr, he, fun x => x.elim, fun x => x.elim, (by intro _ _ hp; cases hp), (by intro _ _ hp; cases hp), ?_,
      fun x => x.elim⟩
    intro id e' p0 p1 p2 a b c d
    rcases hd id e' p0 p1 p2 a b c d with h1 | h1 | ⟨h1, h2⟩
    · exact Or.inl h1
    · exact Or.inr (Or.inl h1)
    · refine Or.inr (Or.inr ?_)
      by_cases he' : e = e'
      · subst he'; exact Or.inr ⟨rfl, h2⟩
      · exact Or.inl ⟨by omega, h2⟩
  · rw [if_neg h]
    refine ⟨prefix_snoc hr (fun x => by cases x), ?_, fun x => x.elim, fun x => x.elim,
      (by intro _ _ hp; cases hp), (by intro _ _ hp; cases hp), ?_, fun x => x.elim⟩
    · refine prefix_snoc he (fun _ => ?_)
      intro id e' p0 p1 p2 a b c d
      rcases hd id e' p0 p1 p2 a b c d with h1 | h1 | ⟨h1, h2⟩
      · exact Or.inl h1
      · exact Or.inr (hD id h1)
      · have := hm id e' (.async .destroy) (by rw [a]; simp)
        omega
    · intro id e' p0 p1 p2 a b c d
      rcases snoc_split a with ⟨h1, _, _⟩ | ⟨q, h1, hh⟩
      · simp at h1
      · obtain ⟨p2', rfl, rfl⟩ := snoc_split2 h1.symm (by simp)
        simp at d

/-- What is known of notification `id`. -/
structure NoteOK (m : Nat) (unique : Bool) (hist : List EvEv) (id : Nat) (n : EvNote) : Prop where
  calls : ∀ e k, .call id e k ∈ hist → e = n.ev ∧ k = n.kind
  called : .call id n.ev n.kind ∈ hist
  lt : n.ev < m
  handled : hist.count (.handled id) = if n.run = .done then 1 else 0
  start : hist.count (.start id) = if n.run = .done ∨ n.run = .running then 1 else 0
  back : hist.count (.back id) = if n.back then 1 else 0
  dropped : n.run = .dropped → unique = true
  sync : n.kind = .sync → n.run ≠ .dropped
  syncBack : ∀ p q, hist = p ++ .back id :: q → n.kind = .sync → .handled id ∈ p

/-- Nothing is known of notification `id`. -/
def Fresh (hist : List EvEv) (id : Nat) : Prop :=
  (∀ e k, .call id e k ∉ hist) ∧ .handled id ∉ hist ∧ .start id ∉ hist ∧ .back id ∉ hist

/-- The notification an event belongs to. -/
def idOf : EvEv → Option Nat
  | .call id _ _ | .start id | .handled id | .back id => some id
  | _ => none

theorem count_ne {l : List EvEv} {x y : EvEv} (h : x ≠ y) : (l ++ [x]).count y = l.count y := by
  rw [List.count_append, List.count_singleton, if_neg (by simpa using h), Nat.add_zero]

theorem count_eq (l : List EvEv) (y : EvEv) : (l ++ [y]).count y = l.count y + 1 := by
  rw [List.count_append, List.count_singleton, if_pos (by simp)]

theorem NoteOK.snoc {m : Nat} {unique : Bool} {hist : List EvEv} {id : Nat} {n : EvNote} {x : EvEv}
    (h : NoteOK m unique hist id n) (hx : idOf x ≠ some id) : NoteOK m unique (hist ++ [x]) id n := by
  have h1 : x ≠ .handled id := by rintro rfl; exact hx rfl
  have h2 : x ≠ .start id := by rintro rfl; exact hx rfl
  have h3 : x ≠ .back id := by rintro rfl; exact hx rfl
  have h4 : ∀ e k, x ≠ .call id e k := by rintro e k rfl; exact hx rfl
  refine ⟨?_, List.mem_append_left _ h.called, h.lt, ?_, ?_, ?_, h.dropped, h.sync, ?_⟩
  · intro e k hm
    rcases List.mem_append.mp hm with hm | hm
    · exact h.calls e k hm
    · simp only [List.mem_singleton] at hm; exact absurd hm.symm (h4 e k)
  · rw [count_ne h1, h.handled]
  · rw [count_ne h2, h.start]
  · rw [count_ne h3, h.back]
  · intro p q hs hk
    rcases snoc_split hs with ⟨_, h5, _⟩ | ⟨q', _, hh⟩
    · exact absurd h5 h3
    · exact h.syncBack p q' hh hk

theorem Fresh.snoc {hist : List EvEv} {id : Nat} {x : EvEv} (h : Fresh hist id) (hx : idOf x ≠ some id) :
    Fresh (hist ++ [x]) id := by
  obtain ⟨a, b, c, d⟩ := h
  refine ⟨?_, ?_, ?_, ?_⟩
  · intro e k hm
    rcases List.mem_append.mp hm with hm | hm
    · exact a e k hm
    · simp only [List.mem_singleton] at hm; subst hm; exact hx rfl
  all_goals
    intro hm
    rcases List.mem_append.mp hm with hm | hm
    · first | exact b hm | exact c hm | exact d hm
    · simp only [List.mem_singleton] at hm; subst hm; exact hx rfl

/-- The invariant. -/
structure Inv (m : Nat) (unique : Bool) (s : EvSt) : Prop where
  note : ∀ (id : Nat) (n : EvNote), s.notes[id]? = some n → NoteOK m unique s.hist id n
  fresh : ∀ id, s.notes.length ≤ id → Fresh s.hist id
  core : Core unique s.hist s.runL s.desL s.pc fun id => ∃ n : EvNote, s.notes[id]? = some n ∧ n.run = .dropped
  /-- the pool exists outside of `destroy` -/
  up : normal s.pc ∨ s.pc = .poolDown → s.poolUp = true
  shared : unique = false → s.poolUp = true
  /-- without a pool nothing is queued or running -/
  down : s.poolUp = false → ∀ (id : Nat) (n : EvNote), s.notes[id]? = some n → n.kind ≠ .sync → n.run = .done ∨ n.run = .dropped
  /-- the futures in the lists are those of asynchronous notifications -/
  listed : ∀ e, ∀ id, id ∈ s.runL e ∨ id ∈ s.desL e → ∃ n : EvNote, s.notes[id]? = some n ∧ n.kind ≠ .sync
  waited : ∀ e l, s.pc = .wait e l ∨ s.pc = .dwait e l → ∀ id ∈ l, ∃ n : EvNote, s.notes[id]? = some n ∧ n.kind ≠ .sync

theorem inv_new (m : Nat) (unique : Bool) : Inv m unique new where
  note := by intro id n h; simp [new] at h
  fresh := by intro id _; simp [new, Fresh]
  core := by
    refine ⟨?_, ?_, ?_, ?_, ?_, ?_, ?_, ?_⟩
    · intro P q h; simp [new] at h
    · intro P q h; simp [new] at h
    · intro _ id e p0 p1 h; simp [new] at h
    · intro _ id e p0 p1 h; simp [new] at h
    · intro e l h; simp [new] at h
    · intro e l h; simp [new] at h
    · intro id e p0 p1 p2 h; simp [new] at h
    · intro _ id h; simp [new] at h
  up := fun _ => rfl
  shared := fun _ => rfl
  down := by intro h; simp [new] at h
  listed := by intro e id h; simp [new] at h
  waited := by intro e l h; simp [new] at h

theorem Inv.call_lt {m : Nat} {unique : Bool} {s : EvSt} (h : Inv m unique s) {id e : Nat} {k : EvKind}
    (hc : .call id e k ∈ s.hist) : ∃ n, s.notes[id]? = some n ∧ n.ev = e ∧ n.kind = k ∧ e < m := by
  cases hn : s.notes[id]? with
  | none =>
    rw [List.getElem?_eq_none_iff] at hn
    exact absurd hc ((h.fresh id hn).1 e k)
  | some n =>
    obtain ⟨h1, h2⟩ := (h.note id n hn).calls e k hc
    exact ⟨n, rfl, h1.symm, h2.symm, by rw [h1]; exact (h.note id n hn).lt⟩

/-- A step of one notification. -/
theorem Inv.noteStep {m : Nat} {unique : Bool} {s : EvSt} (h : Inv m unique s) {id : Nat} {n n' : EvNote} {x : EvEv}
    {runL' desL' : Nat → List Nat} (hn : s.notes[id]? = some n) (hx : Plain x) (hid : idOf x = some id)
    (hok : NoteOK m unique (s.hist ++ [x]) id n') (hdr : n.run = .dropped ↔ n'.run = .dropped) (hcl : ∀ e k, x ≠ .call id e k) (hk : n'.kind = n.kind)
    (hdone : n.run = .done ∨ n.run = .dropped → n'.run = .done ∨ n'.run = .dropped)
    (h1 : ∀ e, s.runL e ⊆ runL' e) (h2 : ∀ e, s.desL e ⊆ desL' e)
    (h3 : ∀ e k, k ∈ runL' e → k ∈ s.runL e ∨ (k = id ∧ n.kind ≠ .sync))
    (h4 : ∀ e k, k ∈ desL' e → k ∈ s.desL e ∨ (k = id ∧ n.kind ≠ .sync))
    (hb1 : x = .back id → n.kind = .async .runFinish → id ∈ runL' n.ev)
    (hb2 : x = .back id → n.kind = .async .destroy → id ∈ desL' n.ev)
    (hw : ∀ e l, s.pc = .wait e l → runL' e = s.runL e) :
    Inv m unique { s.setNote id n' with hist := s.hist ++ [x], runL := runL', desL := desL' } := by
  have hlt : id < s.notes.length := (List.getElem?_eq_some_iff.mp hn).1
  have hself : (s.notes.set id n')[id]? = some n' := by simp [hlt]
  have hother : ∀ k : Nat, k ≠ id → (s.notes.set id n')[k]? = s.notes[k]? := by
    intro k hk; exact List.getElem?_set_ne (fun e => hk e.symm)
  have hkind : ∀ k : Nat, (∃ a : EvNote, s.notes[k]? = some a ∧ a.kind ≠ .sync) →
      ∃ a : EvNote, (s.notes.set id n')[k]? = some a ∧ a.kind ≠ .sync := by
    rintro k ⟨a, ha, hs⟩
    by_cases hkid : k = id
    · subst hkid
      rw [hn] at ha; cases ha
      exact ⟨n', hself, by rw [hk]; exact hs⟩
    · exact ⟨a, by rw [hother k hkid]; exact ha, hs⟩
  have hself2 : n.kind ≠ .sync → ∃ a : EvNote, (s.notes.set id n')[id]? = some a ∧ a.kind ≠ .sync :=
    fun h0 => ⟨n', hself, by rw [hk]; exact h0⟩
  refine { note := ?_, fresh := ?_, core := ?_, up := h.up, shared := h.shared, down := ?_, listed := ?_, waited := ?_ }
  · intro k a ha
    by_cases hkid : k = id
    · subst hkid
      have ha' : (s.notes.set k n')[k]? = some a := ha
      rw [hself] at ha'; cases ha'
      exact hok
    · have ha' : (s.notes.set id n')[k]? = some a := ha
      rw [hother k hkid] at ha'
      exact (h.note k a ha').snoc (by rw [hid]; simp; exact fun e => hkid e.symm)
  · intro k hk'
    have hk2 : s.notes.length ≤ k := by simpa [setNote] using hk'
    exact (h.fresh k hk2).snoc (by rw [hid]; simp; omega)
  · refine h.core.plain hx h1 h2 ?_ ?_ ?_ ?_ ?_ hw
    · rintro k ⟨a, ha, hr⟩
      by_cases hkid : k = id
      · subst hkid
        rw [hn] at ha; cases ha
        exact ⟨n', hself, hdr.mp hr⟩
      · exact ⟨a, by show (s.notes.set id n')[k]? = _; rw [hother k hkid]; exact ha, hr⟩
    · rintro k ⟨a, ha, hr⟩
      have ha' : (s.notes.set id n')[k]? = some a := ha
      by_cases hkid : k = id
      · subst hkid
        rw [hself] at ha'; cases ha'
        exact ⟨n, hn, hdr.mpr hr⟩
      · exact ⟨a, by rw [hother k hkid] at ha'; exact ha', hr⟩
    · rintro k e kd rfl
      simp only [idOf, Option.some.injEq] at hid
      subst hid
      exact absurd rfl (hcl e kd)
    · rintro k e rfl hc
      simp only [idOf, Option.some.injEq] at hid
      subst hid
      obtain ⟨a, ha, he, hka, _⟩ := h.call_lt hc
      rw [hn] at ha; cases ha
      rw [← he]
      exact hb1 rfl hka
    · rintro k e rfl hc
      simp only [idOf, Option.some.injEq] at hid
      subst hid
      obtain ⟨a, ha, he, hka, _⟩ := h.call_lt hc
      rw [hn] at ha; cases ha
      rw [← he]
      exact hb2 rfl hka
  · intro hp k a ha hs
    by_cases hkid : k = id
    · subst hkid
      have ha' : (s.notes.set k n')[k]? = some a := ha
      rw [hself] at ha'; cases ha'
      exact hdone (h.down hp k n hn (by rw [← hk]; exact hs))
    · have ha' : (s.notes.set id n')[k]? = some a := ha
      rw [hother k hkid] at ha'
      exact h.down hp k a ha' hs
  · intro e k hk'
    rcases hk' with hk' | hk'
    · rcases h3 e k hk' with h5 | ⟨rfl, h5⟩
      · exact hkind k (h.listed e k (Or.inl h5))
      · exact hself2 h5
    · rcases h4 e k hk' with h5 | ⟨rfl, h5⟩
      · exact hkind k (h.listed e k (Or.inr h5))
      · exact hself2 h5
  · intro e l hp k hk'
    exact hkind k (h.waited e l hp k hk')

theorem Inv.take {m : Nat} {unique : Bool} {s : EvSt} (h : Inv m unique s) {id : Nat} {n : EvNote}
    (hn : s.notes[id]? = some n) (hq : n.run = .queued) :
    Inv m unique { s.setNote id { n with run := .running } with hist := s.hist ++ [.start id] } := by
  have ho := h.note id n hn
  refine h.noteStep (runL' := s.runL) (desL' := s.desL) (x := .start id) hn (by simp [Plain]) rfl ?_ ?_ (by simp) rfl ?_
    (fun _ _ x => x) (fun _ _ x => x) (fun _ _ x => Or.inl x) (fun _ _ x => Or.inl x) (by simp) (by simp) (fun _ _ _ => rfl)
  · refine ⟨?_, List.mem_append_left _ ho.called, ho.lt, ?_, ?_, ?_, ?_, ?_, ?_⟩
    · intro e k hm; exact ho.calls e k (by simpa using hm)
    · rw [count_ne (by simp), ho.handled, hq]; rfl
    · rw [count_eq, ho.start, hq]; rfl
    · rw [count_ne (by simp), ho.back]
    · intro h0; cases h0
    · intro _ h0; cases h0
    · intro p q hs hk
      rcases snoc_split hs with ⟨_, h5, _⟩ | ⟨q', _, hh⟩
      · cases h5
      · exact ho.syncBack p q' hh hk
  · rw [hq]; simp
  · rintro (h0 | h0) <;> rw [hq] at h0 <;> cases h0

theorem Inv.finish {m : Nat} {unique : Bool} {s : EvSt} (h : Inv m unique s) {id : Nat} {n : EvNote}
    (hn : s.notes[id]? = some n) (hq : n.run = .running) :
    Inv m unique { s.setNote id { n with run := .done } with hist := s.hist ++ [.handled id] } := by
  have ho := h.note id n hn
  refine h.noteStep (runL' := s.runL) (desL' := s.desL) (x := .handled id) hn (by simp [Plain]) rfl ?_ ?_ (by simp) rfl ?_
    (fun _ _ x => x) (fun _ _ x => x) (fun _ _ x => Or.inl x) (fun _ _ x => Or.inl x) (by simp) (by simp) (fun _ _ _ => rfl)
  · refine ⟨?_, List.mem_append_left _ ho.called, ho.lt, ?_, ?_, ?_, ?_, ?_, ?_⟩
    · intro e k hm; exact ho.calls e k (by simpa using hm)
    · rw [count_eq, ho.handled, hq]; rfl
    · rw [count_ne (by simp), ho.start, hq]; rfl
    · rw [count_ne (by simp), ho.back]
    · intro h0; cases h0
    · intro _ h0; cases h0
    · intro p q hs hk
      rcases snoc_split hs with ⟨_, h5, _⟩ | ⟨q', _, hh⟩
      · cases h5
      · exact ho.syncBack p q' hh hk
  · rw [hq]; simp
  · exact fun _ => Or.inl rfl

/-- What is known of a notification whose call returns. -/
theorem NoteOK.back' {m : Nat} {unique : Bool} {hist : List EvEv} {id : Nat} {n : EvNote}
    (ho : NoteOK m unique hist id n) (hb : n.back = false) (hs : n.kind = .sync → n.run = .done) :
    NoteOK m unique (hist ++ [.back id]) id { n with back := true } := by
  refine ⟨?_, List.mem_append_left _ ho.called, ho.lt, ?_, ?_, ?_, ho.dropped, ho.sync, ?_⟩
  · intro e k hm; exact ho.calls e k (by simpa using hm)
  · rw [count_ne (by simp), ho.handled]
  · rw [count_ne (by simp), ho.start]
  · rw [count_eq, ho.back, hb]; rfl
  · intro p q hp hk
    rcases snoc_split hp with ⟨_, _, rfl⟩ | ⟨q', _, hh⟩
    · have := ho.handled
      rw [if_pos (hs hk)] at this
      exact List.count_pos_iff.mp (by omega)
    · exact ho.syncBack p q' hh hk

theorem mem_setAt {f : Nat → List Nat} {e id : Nat} : ∀ k, f k ⊆ setAt f e (f e ++ [id]) k := by
  intro k x hx
  unfold setAt
  split
  · rename_i h; subst h; exact List.mem_append_left _ hx
  · exact hx

theorem of_mem_setAt {f : Nat → List Nat} {e id k x : Nat} (h : x ∈ setAt f e (f e ++ [id]) k) : x ∈ f k ∨ x = id := by
  unfold setAt at h
  split at h
  · rename_i h'; subst h'
    rcases List.mem_append.mp h with h | h
    · exact Or.inl h
    · exact Or.inr (by simpa using h)
  · exact Or.inl h

theorem Inv.ret {m : Nat} {unique : Bool} {s s' : EvSt} (h : Inv m unique s) {id : Nat} {n : EvNote}
    (hn : s.notes[id]? = some n) (hs : s.ret id n = some s') : Inv m unique s' := by
  have ho := h.note id n hn
  unfold EvSt.ret at hs
  simp only at hs
  by_cases hb : n.back = true
  · rw [if_pos hb] at hs; cases hs
  · rw [if_neg hb] at hs
    have hb' : n.back = false := by simpa using hb
    cases hk : n.kind with
    | sync =>
      rw [hk] at hs
      simp only at hs
      split at hs
      · rename_i hd
        cases hs
        exact h.noteStep (runL' := s.runL) (desL' := s.desL) (x := .back id) hn (by simp [Plain]) rfl
          (by have := ho.back' hb' (fun _ => hd); rw [hk] at this; exact this) Iff.rfl (by simp) hk.symm (fun x => x) (fun _ _ x => x) (fun _ _ x => x) (fun _ _ x => Or.inl x)
          (fun _ _ x => Or.inl x) (by simp [hk]) (by simp [hk]) (fun _ _ _ => rfl)
      · cases hs
    | async st =>
      have hok := ho.back' hb' (by rw [hk]; intro h0; cases h0)
      rw [hk] at hs hok
      cases st with
      | noWait =>
        simp only [Option.some.injEq] at hs
        subst hs
        exact h.noteStep (runL' := s.runL) (desL' := s.desL) (x := .back id) hn (by simp [Plain]) rfl
          hok Iff.rfl (by simp) hk.symm (fun x => x) (fun _ _ x => x) (fun _ _ x => x) (fun _ _ x => Or.inl x)
          (fun _ _ x => Or.inl x) (by simp [hk]) (by simp [hk]) (fun _ _ _ => rfl)
      | runFinish =>
        simp only at hs
        split at hs
        · cases hs
        · rename_i hl
          cases hs
          refine h.noteStep (runL' := setAt s.runL n.ev (s.runL n.ev ++ [id])) (desL' := s.desL) (x := .back id) hn
            (by simp [Plain]) rfl hok Iff.rfl (by simp) hk.symm (fun x => x) mem_setAt (fun _ _ x => x) ?_
            (fun _ _ x => Or.inl x) (fun _ _ => by simp [setAt]) (by simp [hk]) ?_
          · intro e k hk'
            exact (of_mem_setAt hk').imp (fun x => x) (fun x => ⟨x, by simp [hk]⟩)
          · intro e l hp
            simp only [runLocked, hp, decide_eq_true_eq] at hl
            simp only [setAt]
            rw [if_neg hl]
      | destroy =>
        simp only at hs
        split at hs
        · cases hs
        · rename_i hl
          cases hs
          refine h.noteStep (runL' := s.runL) (desL' := setAt s.desL n.ev (s.desL n.ev ++ [id])) (x := .back id) hn
            (by simp [Plain]) rfl hok Iff.rfl (by simp) hk.symm (fun x => x) (fun _ _ x => x) mem_setAt (fun _ _ x => Or.inl x) ?_
            (by simp [hk]) (fun _ _ => by simp [setAt]) (fun _ _ _ => rfl)
          intro e k hk'
          exact (of_mem_setAt hk').imp (fun x => x) (fun x => ⟨x, by simp [hk]⟩)

/-- An event that belongs to no notification and marks no phase. -/
theorem Inv.refuse {m : Nat} {unique : Bool} {s : EvSt} (h : Inv m unique s) :
    Inv m unique { s with hist := s.hist ++ [.refused] } where
  note := fun id n hn => (h.note id n hn).snoc (by simp [idOf])
  fresh := fun id hn => (h.fresh id hn).snoc (by simp [idOf])
  core := h.core.plain (by simp [Plain]) (fun _ _ x => x) (fun _ _ x => x) (fun _ x => x) (fun _ x => x) (by simp)
    (by simp) (by simp)
    (fun _ _ _ => rfl)
  up := h.up
  shared := h.shared
  down := h.down
  listed := h.listed
  waited := h.waited

theorem Inv.add {m : Nat} {unique : Bool} {s : EvSt} (h : Inv m unique s) {e : Nat} {k : EvKind} (he : e < m)
    (hp : k = .sync ∨ s.poolUp = true) :
    Inv m unique { s with notes := s.notes ++ [⟨e, k, .queued, false⟩],
                          hist := s.hist ++ [.call s.notes.length e k] } := by
  have hold : ∀ (id : Nat) (n : EvNote), s.notes[id]? = some n → (s.notes ++ [⟨e, k, .queued, false⟩])[id]? = some n := by
    intro id n hn
    rw [List.getElem?_append_left (List.getElem?_eq_some_iff.mp hn).1]; exact hn
  have hcase : ∀ (id : Nat) (n : EvNote), (s.notes ++ [⟨e, k, .queued, false⟩])[id]? = some n →
      s.notes[id]? = some n ∨ (id = s.notes.length ∧ n = ⟨e, k, .queued, false⟩) := by
    intro id n hn
    by_cases hlt : id < s.notes.length
    · rw [List.getElem?_append_left hlt] at hn; exact Or.inl hn
    · have hl := (List.getElem?_eq_some_iff.mp hn).1
      simp only [List.length_append, List.length_cons, List.length_nil] at hl
      have : id = s.notes.length := by omega
      subst this
      rw [List.getElem?_append_right (Nat.le_refl _)] at hn
      simp at hn
      exact Or.inr ⟨rfl, hn.symm⟩
  have hkind : ∀ j : Nat, (∃ a : EvNote, s.notes[j]? = some a ∧ a.kind ≠ .sync) →
      ∃ a : EvNote, (s.notes ++ [⟨e, k, .queued, false⟩])[j]? = some a ∧ a.kind ≠ .sync :=
    fun j ⟨a, ha, hs⟩ => ⟨a, hold j a ha, hs⟩
  obtain ⟨f1, f2, f3, f4⟩ := h.fresh s.notes.length (Nat.le_refl _)
  refine { note := ?_, fresh := ?_, core := ?_, up := h.up, shared := h.shared, down := ?_, listed := ?_, waited := ?_ }
  · intro id n hn
    rcases hcase id n hn with hn' | ⟨rfl, rfl⟩
    · have hlt := (List.getElem?_eq_some_iff.mp hn').1
      exact (h.note id n hn').snoc (by simp [idOf]; omega)
    · refine ⟨?_, by simp, he, ?_, ?_, ?_, ?_, ?_, ?_⟩
      · intro e' k' hm
        rcases List.mem_append.mp hm with hm | hm
        · exact absurd hm (f1 e' k')
        · simp only [List.mem_singleton, EvEv.call.injEq] at hm
          exact ⟨hm.2.1, hm.2.2⟩
      · rw [count_ne (by simp), List.count_eq_zero.mpr f2]; rfl
      · rw [count_ne (by simp), List.count_eq_zero.mpr f3]; rfl
      · rw [count_ne (by simp), List.count_eq_zero.mpr f4]; rfl
      · intro h0; cases h0
      · intro _ h0; cases h0
      · intro p q hs _
        rcases snoc_split hs with ⟨_, h5, _⟩ | ⟨q', _, hh⟩
        · cases h5
        · exact absurd (by rw [hh]; simp) f4
  · intro id hid
    simp only [List.length_append, List.length_cons, List.length_nil] at hid
    exact (h.fresh id (by omega)).snoc (by simp [idOf]; omega)
  · refine h.core.plain (by simp [Plain]) (fun _ _ x => x) (fun _ _ x => x) ?_ ?_ ?_ (by simp) (by simp)
      (fun _ _ _ => rfl)
    · rintro id ⟨n, hn, hr⟩
      exact ⟨n, hold id n hn, hr⟩
    · rintro id ⟨n, hn, hr⟩
      rcases hcase id n hn with hn' | ⟨_, rfl⟩
      · exact ⟨n, hn', hr⟩
      · cases hr
    · rintro id e' k' hc ⟨n, hn, hr⟩
      simp only [EvEv.call.injEq] at hc
      obtain ⟨rfl, _⟩ := hc
      rcases hcase _ n hn with hn' | ⟨_, rfl⟩
      · have := (List.getElem?_eq_some_iff.mp hn').1
        omega
      · cases hr
  · intro hd id n hn hs
    rcases hcase id n hn with hn' | ⟨_, rfl⟩
    · exact h.down hd id n hn' hs
    · rcases hp with rfl | hp
      · exact absurd rfl hs
      · have hd' : s.poolUp = false := hd
        rw [hp] at hd'; cases hd'
  · exact fun e id hid => hkind id (h.listed e id hid)
  · exact fun e l hp id hid => hkind id (h.waited e l hp id hid)

/-- An event that belongs to no notification leaves what is known of the notifications. -/
theorem Inv.notes_snoc {m : Nat} {unique : Bool} {s : EvSt} (h : Inv m unique s) {x : EvEv} (hx : idOf x = none) :
    (∀ (id : Nat) (n : EvNote), s.notes[id]? = some n → NoteOK m unique (s.hist ++ [x]) id n) ∧
    ∀ id, s.notes.length ≤ id → Fresh (s.hist ++ [x]) id :=
  ⟨fun id n hn => (h.note id n hn).snoc (by simp [hx]), fun id hn => (h.fresh id hn).snoc (by simp [hx])⟩

theorem Inv.ready_iff {m : Nat} {unique : Bool} {s : EvSt} (h : Inv m unique s) {id : Nat} (hr : s.ready id = true) :
    .handled id ∈ s.hist ∨ ∃ n : EvNote, s.notes[id]? = some n ∧ n.run = .dropped := by
  unfold ready at hr
  cases hn : s.notes[id]? with
  | none => rw [hn] at hr; simp at hr
  | some n =>
    rw [hn] at hr
    simp only [Bool.or_eq_true, decide_eq_true_eq] at hr
    rcases hr with hr | hr
    · left
      have := (h.note id n hn).handled
      rw [if_pos hr] at this
      exact List.count_pos_iff.mp (by omega)
    · exact Or.inr ⟨n, rfl, hr⟩

theorem waitFrom_notes {m : Nat} {s : EvSt} {e : Nat} : (waitFrom m s e).notes = s.notes := by
  unfold waitFrom; split <;> rfl

theorem waitFrom_poolUp {m : Nat} {s : EvSt} {e : Nat} : (waitFrom m s e).poolUp = s.poolUp := by
  unfold waitFrom; split <;> rfl

theorem dwaitFrom_notes {m : Nat} {s : EvSt} {e : Nat} : (dwaitFrom m s e).notes = s.notes := by
  unfold dwaitFrom; split <;> rfl

theorem dwaitFrom_poolUp {m : Nat} {s : EvSt} {e : Nat} : (dwaitFrom m s e).poolUp = s.poolUp := by
  unfold dwaitFrom; split <;> rfl

/-- Going on to the next event at the end of `run`. -/
theorem Inv.waitFrom {m : Nat} {unique : Bool} {s : EvSt} {e : Nat}
    (hnote : ∀ (id : Nat) (n : EvNote), s.notes[id]? = some n → NoteOK m unique s.hist id n)
    (hfresh : ∀ id, s.notes.length ≤ id → Fresh s.hist id)
    (hr : ∀ P q, s.hist = P ++ .runEnd :: q → RGood P) (he : ∀ P q, s.hist = P ++ .destroyEnd :: q → EGood unique P)
    (ha : Listed s.hist s.runL .runFinish) (had : Listed s.hist s.desL .destroy) (hc : CDone s.hist e)
    (hd : Due s.hist fun id _ => .handled id ∈ s.hist ∨ ∃ n : EvNote, s.notes[id]? = some n ∧ n.run = .dropped)
    (hdl : DL s.hist fun id => ∃ n : EvNote, s.notes[id]? = some n ∧ n.run = .dropped) (hup : s.poolUp = true)
    (hl : ∀ e, ∀ id, id ∈ s.runL e ∨ id ∈ s.desL e → ∃ n : EvNote, s.notes[id]? = some n ∧ n.kind ≠ .sync) :
    Inv m unique (EvSt.waitFrom m s e) := by
  have hm : ∀ id e' k, .call id e' k ∈ s.hist → e' < m := by
    intro id e' k hcall
    cases hn : s.notes[id]? with
    | none =>
      rw [List.getElem?_eq_none_iff] at hn
      exact absurd hcall ((hfresh id hn).1 e' k)
    | some n => rw [((hnote id n hn).calls e' k hcall).1]; exact (hnote id n hn).lt
  have hcore := core_waitFrom (m := m) (e := e) hr he ha had hc hd hdl hm
  have hpu : (EvSt.waitFrom m s e).poolUp = true := by rw [waitFrom_poolUp]; exact hup
  refine { note := ?_, fresh := ?_, core := ?_, up := fun _ => hpu, shared := fun _ => hpu, down := ?_, listed := ?_,
           waited := ?_ }
  · intro id n hn
    rw [waitFrom_notes] at hn
    unfold EvSt.waitFrom
    split
    · exact hnote id n hn
    · exact (hnote id n hn).snoc (by simp [idOf])
  · intro id hn
    rw [waitFrom_notes] at hn
    unfold EvSt.waitFrom
    split
    · exact hfresh id hn
    · exact (hfresh id hn).snoc (by simp [idOf])
  · rw [waitFrom_notes]; exact hcore
  · intro h0; rw [hpu] at h0; cases h0
  · intro e' id hid
    rw [waitFrom_notes]
    apply hl e' id
    unfold EvSt.waitFrom at hid
    split at hid <;> exact hid
  · intro e' l hp id hid
    rw [waitFrom_notes]
    unfold EvSt.waitFrom at hp
    split at hp
    · simp only [EvPc.wait.injEq, reduceCtorEq, or_false] at hp
      obtain ⟨rfl, rfl⟩ := hp
      exact hl e id (Or.inl hid)
    · simp at hp

/-- Going on to the next event in `destroy`. -/
theorem Inv.dwaitFrom {m : Nat} {unique : Bool} {s : EvSt} {e : Nat}
    (hnote : ∀ (id : Nat) (n : EvNote), s.notes[id]? = some n → NoteOK m unique s.hist id n)
    (hfresh : ∀ id, s.notes.length ≤ id → Fresh s.hist id)
    (hr : ∀ P q, s.hist = P ++ .runEnd :: q → RGood P) (he : ∀ P q, s.hist = P ++ .destroyEnd :: q → EGood unique P)
    (hd : Due s.hist fun id e' => .handled id ∈ s.hist ∨ (∃ n : EvNote, s.notes[id]? = some n ∧ n.run = .dropped) ∨
      (e ≤ e' ∧ id ∈ s.desL e'))
    (hsh : unique = false → s.poolUp = true)
    (hdown : s.poolUp = false → ∀ (id : Nat) (n : EvNote), s.notes[id]? = some n → n.kind ≠ .sync →
      n.run = .done ∨ n.run = .dropped)
    (hl : ∀ e, ∀ id, id ∈ s.runL e ∨ id ∈ s.desL e → ∃ n : EvNote, s.notes[id]? = some n ∧ n.kind ≠ .sync) :
    Inv m unique (EvSt.dwaitFrom m s e) := by
  have hm : ∀ id e' k, .call id e' k ∈ s.hist → e' < m := by
    intro id e' k hcall
    cases hn : s.notes[id]? with
    | none =>
      rw [List.getElem?_eq_none_iff] at hn
      exact absurd hcall ((hfresh id hn).1 e' k)
    | some n => rw [((hnote id n hn).calls e' k hcall).1]; exact (hnote id n hn).lt
  have hcore := core_dwaitFrom (m := m) (e := e) hr he hd hm (by
    rintro id ⟨n, hn, hdr⟩
    refine ⟨(hnote id n hn).dropped hdr, ?_⟩
    have := (hnote id n hn).start
    rw [hdr] at this
    exact List.count_eq_zero.mp (by simpa using this))
  refine { note := ?_, fresh := ?_, core := ?_, up := ?_, shared := ?_, down := ?_, listed := ?_, waited := ?_ }
  · intro id n hn
    rw [dwaitFrom_notes] at hn
    unfold EvSt.dwaitFrom
    split
    · exact hnote id n hn
    · exact (hnote id n hn).snoc (by simp [idOf])
  · intro id hn
    rw [dwaitFrom_notes] at hn
    unfold EvSt.dwaitFrom
    split
    · exact hfresh id hn
    · exact (hfresh id hn).snoc (by simp [idOf])
  · rw [dwaitFrom_notes]; exact hcore
  · intro h0
    unfold EvSt.dwaitFrom at h0
    split at h0 <;> simp [normal] at h0
  · rw [dwaitFrom_poolUp]; exact hsh
  · rw [dwaitFrom_poolUp, dwaitFrom_notes]; exact hdown
  · intro e' id hid
    rw [dwaitFrom_notes]
    apply hl e' id
    unfold EvSt.dwaitFrom at hid
    split at hid <;> exact hid
  · intro e' l hp id hid
    rw [dwaitFrom_notes]
    unfold EvSt.dwaitFrom at hp
    split at hp
    · simp only [EvPc.dwait.injEq, reduceCtorEq, false_or] at hp
      obtain ⟨rfl, rfl⟩ := hp
      exact hl e id (Or.inr hid)
    · simp at hp

end EvSt
end CGraph
