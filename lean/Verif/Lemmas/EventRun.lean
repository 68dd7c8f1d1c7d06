import Verif.Lemmas.EventStep
import Verif.Spec.Event

/-! # Consequences of the invariant of events -/
namespace CGraph
namespace EvSt

/-- A handler begins after the call and ends after it began. -/
structure Ord (l : List EvEv) : Prop where
  called : ∀ id p q, l = p ++ .start id :: q → ∃ e k, .call id e k ∈ p
  started : ∀ id p q, l = p ++ .handled id :: q → .start id ∈ p

theorem Ord.snoc {l : List EvEv} (h : Ord l) {x : EvEv} (h1 : ∀ id, x = .start id → ∃ e k, .call id e k ∈ l)
    (h2 : ∀ id, x = .handled id → .start id ∈ l) : Ord (l ++ [x]) where
  called := fun id => prefix_snoc (h.called id) (h1 id)
  started := fun id => prefix_snoc (h.started id) (h2 id)

theorem Ord.waitFrom {m : Nat} {s : EvSt} (h : Ord s.hist) (e : Nat) : Ord (EvSt.waitFrom m s e).hist := by
  unfold EvSt.waitFrom
  split
  · exact h
  · exact h.snoc (by simp) (by simp)

theorem Ord.dwaitFrom {m : Nat} {s : EvSt} (h : Ord s.hist) (e : Nat) : Ord (EvSt.dwaitFrom m s e).hist := by
  unfold EvSt.dwaitFrom
  split
  · exact h
  · exact h.snoc (by simp) (by simp)

theorem Ord.step {m : Nat} {unique : Bool} {s s' : EvSt} (hi : Inv m unique s) (h : Ord s.hist) {a : EvAct}
    (hs : EvSt.step m unique s a = some s') : Ord s'.hist := by
  cases a with
  | notify e k =>
    simp only [EvSt.step, EvSt.notify] at hs
    split at hs
    · cases k with
      | sync => cases hs; exact h.snoc (by simp) (by simp)
      | async st =>
        simp only at hs
        split at hs
        · cases hs; exact h.snoc (by simp) (by simp)
        · cases hs
    · cases hs; exact h.snoc (by simp) (by simp)
  | take id =>
    simp only [EvSt.step] at hs
    split at hs
    · rename_i n hn
      split at hs
      · cases hs
        refine h.snoc ?_ (by simp)
        intro id' h0
        simp only [EvEv.start.injEq] at h0
        subst h0
        exact ⟨_, _, (hi.note id n hn).called⟩
      · cases hs
    · cases hs
  | finish id =>
    simp only [EvSt.step] at hs
    split at hs
    · rename_i n hn
      split at hs
      · rename_i hr
        cases hs
        refine h.snoc (by simp) ?_
        intro id' h0
        simp only [EvEv.handled.injEq] at h0
        subst h0
        have := (hi.note id n hn).start
        rw [hr] at this
        exact List.count_pos_iff.mp (by simp at this; omega)
      · cases hs
    · cases hs
  | ret id =>
    simp only [EvSt.step] at hs
    split at hs
    · rename_i n hn
      have hh : s'.hist = s.hist ++ [.back id] := by
        unfold EvSt.ret at hs
        simp only at hs
        split at hs
        · cases hs
        · split at hs
          · split at hs
            · cases hs; rfl
            · cases hs
          · cases hs; rfl
          · split at hs
            · cases hs
            · cases hs; rfl
          · split at hs
            · cases hs
            · cases hs; rfl
      rw [hh]
      exact h.snoc (by simp) (by simp)
    · cases hs
  | run =>
    simp only [EvSt.step] at hs
    split at hs
    · cases hs; exact h
    · cases hs
  | destroy =>
    simp only [EvSt.step] at hs
    split at hs
    · cases hs; exact h.snoc (by simp) (by simp)
    · cases hs
  | init =>
    simp only [EvSt.step] at hs
    split at hs
    · cases hs; exact h.snoc (by simp) (by simp)
    · cases hs
  | main =>
    simp only [EvSt.step, EvSt.main] at hs
    split at hs
    · cases hs
    · cases hs; exact Ord.waitFrom (h.snoc (x := .waitBegin) (by simp) (by simp)) _
    · rename_i e hp
      cases hs; exact Ord.waitFrom (s := { s with runL := setAt s.runL e [] }) h _
    · split at hs
      · cases hs; exact h
      · cases hs
    · split at hs
      · split at hs
        · cases hs
        · cases hs
          exact Ord.dwaitFrom (s := { s with poolUp := false, notes := s.notes.map EvSt.dropTask }) h _
      · cases hs; exact h.dwaitFrom _
    · rename_i e hp
      cases hs
      exact Ord.dwaitFrom (s := { s with runL := setAt s.runL e [], desL := setAt s.desL e [] }) h _
    · split at hs
      · cases hs; exact h
      · cases hs
    · cases hs

theorem ord_exec {m : Nat} {unique : Bool} (as : List EvAct) {s : EvSt} (hi : Inv m unique s) (h : Ord s.hist) :
    Ord (EvSt.exec m unique s as).hist := by
  induction as generalizing s with
  | nil => exact h
  | cons a as ih =>
    rw [EvSt.exec]
    cases hs : EvSt.step m unique s a with
    | none => exact ih hi h
    | some s' => exact ih (hi.step hs) (Ord.step hi h hs)

/-! ## A dropped task stays dropped -/

theorem dropped_set {notes : List EvNote} {id k : Nat} {n n' : EvNote} (hk : notes[k]? = some n)
    (hr : n'.run = .dropped ∨ n.run ≠ .dropped) (h : ∃ a : EvNote, notes[id]? = some a ∧ a.run = .dropped) :
    ∃ a : EvNote, (notes.set k n')[id]? = some a ∧ a.run = .dropped := by
  obtain ⟨a, ha, hd⟩ := h
  by_cases hid : id = k
  · subst hid
    rw [hk] at ha; cases ha
    have hlt := (List.getElem?_eq_some_iff.mp hk).1
    exact ⟨n', by simp [hlt], hr.resolve_right (fun x => x hd)⟩
  · exact ⟨a, by rw [List.getElem?_set_ne (fun e => hid e.symm)]; exact ha, hd⟩

theorem dropped_step {m : Nat} {unique : Bool} {s s' : EvSt} {a : EvAct} {id : Nat}
    (h : ∃ n : EvNote, s.notes[id]? = some n ∧ n.run = .dropped) (hs : EvSt.step m unique s a = some s') :
    ∃ n : EvNote, s'.notes[id]? = some n ∧ n.run = .dropped := by
  have hadd : ∀ b : EvNote, ∃ n : EvNote, (s.notes ++ [b])[id]? = some n ∧ n.run = .dropped := by
    intro b
    obtain ⟨n, hn, hd⟩ := h
    exact ⟨n, by rw [List.getElem?_append_left (List.getElem?_eq_some_iff.mp hn).1]; exact hn, hd⟩
  cases a with
  | notify e k =>
    simp only [EvSt.step, EvSt.notify] at hs
    split at hs
    · cases k with
      | sync => cases hs; exact hadd _
      | async st =>
        simp only at hs
        split at hs
        · cases hs; exact hadd _
        · cases hs
    · cases hs; exact h
  | take k =>
    simp only [EvSt.step] at hs
    split at hs
    · rename_i n hn
      split at hs
      · rename_i hq; cases hs; exact dropped_set hn (Or.inr (by rw [hq]; simp)) h
      · cases hs
    · cases hs
  | finish k =>
    simp only [EvSt.step] at hs
    split at hs
    · rename_i n hn
      split at hs
      · rename_i hq; cases hs; exact dropped_set hn (Or.inr (by rw [hq]; simp)) h
      · cases hs
    · cases hs
  | ret k =>
    simp only [EvSt.step] at hs
    split at hs
    · rename_i n hn
      have hh : s'.notes = s.notes.set k { n with back := true } := by
        unfold EvSt.ret at hs
        simp only at hs
        split at hs
        · cases hs
        · split at hs
          · split at hs
            · cases hs; rfl
            · cases hs
          · cases hs; rfl
          · split at hs
            · cases hs
            · cases hs; rfl
          · split at hs
            · cases hs
            · cases hs; rfl
      rw [hh]
      refine dropped_set hn ?_ h
      by_cases hr : n.run = .dropped
      · exact Or.inl hr
      · exact Or.inr hr
    · cases hs
  | run =>
    simp only [EvSt.step] at hs
    split at hs
    · cases hs; exact h
    · cases hs
  | destroy =>
    simp only [EvSt.step] at hs
    split at hs
    · cases hs; exact h
    · cases hs
  | init =>
    simp only [EvSt.step] at hs
    split at hs
    · cases hs; exact h
    · cases hs
  | main =>
    simp only [EvSt.step, EvSt.main] at hs
    split at hs
    · cases hs
    · cases hs; rw [waitFrom_notes]; exact h
    · cases hs; rw [waitFrom_notes]; exact h
    · split at hs
      · cases hs; exact h
      · cases hs
    · split at hs
      · split at hs
        · cases hs
        · cases hs
          rw [dwaitFrom_notes]
          obtain ⟨n, hn, hd⟩ := h
          refine ⟨EvSt.dropTask n, by simp [List.getElem?_map, hn], ?_⟩
          rcases dropTask_run n with h2 | ⟨_, _, h2⟩
          · rw [h2]; exact hd
          · exact h2
      · cases hs; rw [dwaitFrom_notes]; exact h
    · cases hs; rw [dwaitFrom_notes]; exact h
    · split at hs
      · cases hs; exact h
      · cases hs
    · cases hs

theorem dropped_exec {m : Nat} {unique : Bool} {id : Nat} (as : List EvAct) {s : EvSt}
    (h : ∃ n : EvNote, s.notes[id]? = some n ∧ n.run = .dropped) :
    ∃ n : EvNote, (EvSt.exec m unique s as).notes[id]? = some n ∧ n.run = .dropped := by
  induction as generalizing s with
  | nil => exact h
  | cons a as ih =>
    rw [EvSt.exec]
    cases hs : EvSt.step m unique s a with
    | none => exact ih h
    | some s' => exact ih (dropped_step h hs)

theorem exec_append (m : Nat) (unique : Bool) (as bs : List EvAct) (s : EvSt) :
    EvSt.exec m unique s (as ++ bs) = EvSt.exec m unique (EvSt.exec m unique s as) bs := by
  induction as generalizing s with
  | nil => rfl
  | cons a as ih => exact ih _

/-! ## The waits end -/

/-- Every asynchronous handler has been executed (or dropped). -/
def Drained (s : EvSt) : Prop :=
  ∀ (id : Nat) (n : EvNote), s.notes[id]? = some n → n.kind ≠ .sync → n.run = .done ∨ n.run = .dropped

/-- Let every handler be executed. -/
def drain (k : Nat) : List EvAct := (List.range k).flatMap fun id => [.take id, .finish id]

theorem exec_take_finish (m : Nat) (unique : Bool) (s : EvSt) (id : Nat) :
    (EvSt.exec m unique s [.take id, .finish id]).pc = s.pc ∧
    (EvSt.exec m unique s [.take id, .finish id]).notes.length = s.notes.length ∧
    (∀ n : EvNote, (EvSt.exec m unique s [.take id, .finish id]).notes[id]? = some n → n.run = .done ∨ n.run = .dropped) ∧
    (∀ k : Nat, k ≠ id → (EvSt.exec m unique s [.take id, .finish id]).notes[k]? = s.notes[k]?) := by
  have hfin : ∀ (s1 : EvSt) (n : EvNote), s1.notes[id]? = some n → n.run = .running →
      EvSt.step m unique s1 (.finish id) =
        some { s1.setNote id { n with run := .done } with hist := s1.hist ++ [.handled id] } := by
    intro s1 n hn hr; simp only [EvSt.step, hn, hr, if_true]
  have hset : ∀ (l : List EvNote) (n : EvNote), id < l.length →
      (∀ a : EvNote, (l.set id { n with run := .done })[id]? = some a → a.run = .done ∨ a.run = .dropped) := by
    intro l n hl a ha
    rw [List.getElem?_set_self hl] at ha
    cases ha; exact Or.inl rfl
  have he : EvSt.exec m unique s [.take id, .finish id] =
      (EvSt.step m unique ((EvSt.step m unique s (.take id)).getD s) (.finish id)).getD
        ((EvSt.step m unique s (.take id)).getD s) := rfl
  rw [he]
  cases hn : s.notes[id]? with
  | none =>
    have h1 : EvSt.step m unique s (.take id) = none := by simp only [EvSt.step, hn]
    have h2 : EvSt.step m unique s (.finish id) = none := by simp only [EvSt.step, hn]
    rw [h1, Option.getD_none, h2, Option.getD_none]
    exact ⟨rfl, rfl, fun n h => (by rw [hn] at h; cases h), fun _ _ => rfl⟩
  | some n =>
    have hlt := (List.getElem?_eq_some_iff.mp hn).1
    cases hr : n.run with
    | queued =>
      have h1 : EvSt.step m unique s (.take id) =
          some { s.setNote id { n with run := .running } with hist := s.hist ++ [.start id] } := by
        simp only [EvSt.step, hn, hr, if_true]
      rw [h1, Option.getD_some, hfin _ { n with run := .running } (List.getElem?_set_self hlt) rfl, Option.getD_some]
      refine ⟨rfl, by simp [setNote], hset (s.notes.set id _) { n with run := .running } (by simpa using hlt), ?_⟩
      intro k hk
      show ((s.notes.set id _).set id _)[k]? = _
      rw [List.getElem?_set_ne (fun e => hk e.symm), List.getElem?_set_ne (fun e => hk e.symm)]
    | running =>
      have h1 : EvSt.step m unique s (.take id) = none := by
        simp only [EvSt.step, hn, hr, reduceCtorEq, if_false]
      rw [h1, Option.getD_none, hfin _ n hn hr, Option.getD_some]
      refine ⟨rfl, by simp [setNote], hset s.notes n hlt, ?_⟩
      intro k hk
      show (s.notes.set id _)[k]? = _
      rw [List.getElem?_set_ne (fun e => hk e.symm)]
    | done =>
      have h1 : EvSt.step m unique s (.take id) = none := by
        simp only [EvSt.step, hn, hr, reduceCtorEq, if_false]
      have h2 : EvSt.step m unique s (.finish id) = none := by
        simp only [EvSt.step, hn, hr, reduceCtorEq, if_false]
      rw [h1, Option.getD_none, h2, Option.getD_none]
      exact ⟨rfl, rfl, fun a h => (by rw [hn] at h; cases h; exact Or.inl hr), fun _ _ => rfl⟩
    | dropped =>
      have h1 : EvSt.step m unique s (.take id) = none := by
        simp only [EvSt.step, hn, hr, reduceCtorEq, if_false]
      have h2 : EvSt.step m unique s (.finish id) = none := by
        simp only [EvSt.step, hn, hr, reduceCtorEq, if_false]
      rw [h1, Option.getD_none, h2, Option.getD_none]
      exact ⟨rfl, rfl, fun a h => (by rw [hn] at h; cases h; exact Or.inr hr), fun _ _ => rfl⟩

theorem exec_drain (m : Nat) (unique : Bool) (s : EvSt) (k : Nat) :
    (EvSt.exec m unique s (drain k)).pc = s.pc ∧
    (EvSt.exec m unique s (drain k)).notes.length = s.notes.length ∧
    (∀ (id : Nat) (n : EvNote), id < k → (EvSt.exec m unique s (drain k)).notes[id]? = some n →
      n.run = .done ∨ n.run = .dropped) := by
  induction k with
  | zero => exact ⟨rfl, rfl, by intro id n h; omega⟩
  | succ k ih =>
    have he : drain (k + 1) = drain k ++ [.take k, .finish k] := by simp [drain, List.range_succ]
    rw [he, exec_append]
    obtain ⟨h1, h2, h3, h4⟩ := exec_take_finish m unique (EvSt.exec m unique s (drain k)) k
    refine ⟨h1.trans ih.1, h2.trans ih.2.1, ?_⟩
    intro id n hid hn
    by_cases hk : id = k
    · subst hk; exact h3 n hn
    · rw [h4 id hk] at hn; exact ih.2.2 id n (by omega) hn

theorem drained_drain (m : Nat) (unique : Bool) (s : EvSt) :
    Drained (EvSt.exec m unique s (drain s.notes.length)) := by
  intro id n hn _
  obtain ⟨_, h2, h3⟩ := exec_drain m unique s s.notes.length
  exact h3 id n (by rw [← h2]; exact (List.getElem?_eq_some_iff.mp hn).1) hn

theorem Drained.ready {m : Nat} {unique : Bool} {s : EvSt} (h : Drained s) (_ : Inv m unique s) {id : Nat}
    (hn : ∃ n : EvNote, s.notes[id]? = some n ∧ n.kind ≠ .sync) : s.ready id = true := by
  obtain ⟨n, hn, hk⟩ := hn
  unfold EvSt.ready
  rw [hn]
  rcases h id n hn hk with h1 | h1 <;> simp [h1]

/-- No call of `run` or `destroy` is in progress. -/
def Over (pc : EvPc) : Prop := pc = .idle ∨ pc = .gone

theorem waitFrom_step {m : Nat} {s : EvSt} {e : Nat} (h : Drained s) : Drained (EvSt.waitFrom m s e) := by
  intro id n hn; rw [waitFrom_notes] at hn; exact h id n hn

theorem dwaitFrom_step {m : Nat} {s : EvSt} {e : Nat} (h : Drained s) : Drained (EvSt.dwaitFrom m s e) := by
  intro id n hn; rw [dwaitFrom_notes] at hn; exact h id n hn

/-- The waits at the end of `run` end. -/
theorem wait_ends {m : Nat} {unique : Bool} (d : Nat) : ∀ (l : List Nat) (e : Nat) (s : EvSt), m - e ≤ d →
    Inv m unique s → Drained s → s.pc = .wait e l →
    ∃ k, (EvSt.exec m unique s (List.replicate k .main)).pc = .idle := by
  induction d with
  | zero =>
    intro l
    induction l with
    | nil =>
      intro e s hd hi hdr hp
      refine ⟨1, ?_⟩
      have : ¬ e + 1 < m := by omega
      simp [EvSt.exec, EvSt.step, EvSt.main, hp, EvSt.waitFrom, this]
    | cons id l ih =>
      intro e s hd hi hdr hp
      have hr := hdr.ready hi (hi.waited e (id :: l) (Or.inl hp) id (by simp))
      have hs : EvSt.step m unique s .main = some { s with pc := .wait e l } := by
        simp only [EvSt.step, EvSt.main, hp, hr, if_true]
      obtain ⟨k, hk⟩ := ih e { s with pc := .wait e l } hd (hi.step hs) hdr rfl
      exact ⟨k + 1, by simpa [List.replicate_succ, EvSt.exec, hs] using hk⟩
  | succ d ihd =>
    intro l
    induction l with
    | nil =>
      intro e s hd hi hdr hp
      have hs : EvSt.step m unique s .main = some (EvSt.waitFrom m { s with runL := setAt s.runL e [] } (e + 1)) := by
        simp only [EvSt.step, EvSt.main, hp]
      have hi' := hi.step hs
      by_cases h : e + 1 < m
      · have hp' : (EvSt.waitFrom m { s with runL := setAt s.runL e [] } (e + 1)).pc =
            .wait (e + 1) (setAt s.runL e [] (e + 1)) := by simp [EvSt.waitFrom, h]
        obtain ⟨k, hk⟩ := ihd _ _ _ (by omega) hi' (waitFrom_step (s := { s with runL := setAt s.runL e [] }) hdr) hp'
        exact ⟨k + 1, by simpa [List.replicate_succ, EvSt.exec, hs] using hk⟩
      · exact ⟨1, by simp [EvSt.exec, hs, EvSt.waitFrom, h]⟩
    | cons id l ih =>
      intro e s hd hi hdr hp
      have hr := hdr.ready hi (hi.waited e (id :: l) (Or.inl hp) id (by simp))
      have hs : EvSt.step m unique s .main = some { s with pc := .wait e l } := by
        simp only [EvSt.step, EvSt.main, hp, hr, if_true]
      obtain ⟨k, hk⟩ := ih e { s with pc := .wait e l } hd (hi.step hs) hdr rfl
      exact ⟨k + 1, by simpa [List.replicate_succ, EvSt.exec, hs] using hk⟩

/-- The waits of `destroy` end. -/
theorem dwait_ends {m : Nat} {unique : Bool} (d : Nat) : ∀ (l : List Nat) (e : Nat) (s : EvSt), m - e ≤ d →
    Inv m unique s → Drained s → s.pc = .dwait e l →
    ∃ k, (EvSt.exec m unique s (List.replicate k .main)).pc = .gone := by
  induction d with
  | zero =>
    intro l
    induction l with
    | nil =>
      intro e s hd hi hdr hp
      refine ⟨1, ?_⟩
      have : ¬ e + 1 < m := by omega
      simp [EvSt.exec, EvSt.step, EvSt.main, hp, EvSt.dwaitFrom, this]
    | cons id l ih =>
      intro e s hd hi hdr hp
      have hr := hdr.ready hi (hi.waited e (id :: l) (Or.inr hp) id (by simp))
      have hs : EvSt.step m unique s .main = some { s with pc := .dwait e l } := by
        simp only [EvSt.step, EvSt.main, hp, hr, if_true]
      obtain ⟨k, hk⟩ := ih e { s with pc := .dwait e l } hd (hi.step hs) hdr rfl
      exact ⟨k + 1, by simpa [List.replicate_succ, EvSt.exec, hs] using hk⟩
  | succ d ihd =>
    intro l
    induction l with
    | nil =>
      intro e s hd hi hdr hp
      have hs : EvSt.step m unique s .main =
          some (EvSt.dwaitFrom m { s with runL := setAt s.runL e [], desL := setAt s.desL e [] } (e + 1)) := by
        simp only [EvSt.step, EvSt.main, hp]
      have hi' := hi.step hs
      by_cases h : e + 1 < m
      · have hp' : (EvSt.dwaitFrom m { s with runL := setAt s.runL e [], desL := setAt s.desL e [] } (e + 1)).pc =
            .dwait (e + 1) (setAt s.desL e [] (e + 1)) := by simp [EvSt.dwaitFrom, h]
        obtain ⟨k, hk⟩ := ihd _ _ _ (by omega) hi'
          (dwaitFrom_step (s := { s with runL := setAt s.runL e [], desL := setAt s.desL e [] }) hdr) hp'
        exact ⟨k + 1, by simpa [List.replicate_succ, EvSt.exec, hs] using hk⟩
      · exact ⟨1, by simp [EvSt.exec, hs, EvSt.dwaitFrom, h]⟩
    | cons id l ih =>
      intro e s hd hi hdr hp
      have hr := hdr.ready hi (hi.waited e (id :: l) (Or.inr hp) id (by simp))
      have hs : EvSt.step m unique s .main = some { s with pc := .dwait e l } := by
        simp only [EvSt.step, EvSt.main, hp, hr, if_true]
      obtain ⟨k, hk⟩ := ih e { s with pc := .dwait e l } hd (hi.step hs) hdr rfl
      exact ⟨k + 1, by simpa [List.replicate_succ, EvSt.exec, hs] using hk⟩

theorem drained_main {m : Nat} {unique : Bool} {s s' : EvSt} (h : Drained s)
    (hs : EvSt.step m unique s .main = some s') : Drained s' := by
  simp only [EvSt.step, EvSt.main] at hs
  split at hs
  · cases hs
  · cases hs; exact waitFrom_step (s := { s with hist := s.hist ++ [.waitBegin] }) h
  · rename_i e hp
    cases hs; exact waitFrom_step (s := { s with runL := setAt s.runL e [] }) h
  · split at hs
    · cases hs; exact h
    · cases hs
  · split at hs
    · split at hs
      · cases hs
      · cases hs
        refine dwaitFrom_step (s := { s with poolUp := false, notes := s.notes.map EvSt.dropTask }) ?_
        intro id n hn hk
        have hn' : (s.notes.map EvSt.dropTask)[id]? = some n := hn
        rw [List.getElem?_map] at hn'
        cases ha : s.notes[id]? with
        | none => rw [ha] at hn'; cases hn'
        | some a =>
          rw [ha] at hn'; cases hn'
          rw [dropTask_kind] at hk
          rcases dropTask_run a with h2 | ⟨_, _, h2⟩
          · rw [h2]; exact h id a ha hk
          · exact Or.inr h2
    · cases hs; exact dwaitFrom_step h
  · rename_i e hp
    cases hs; exact dwaitFrom_step (s := { s with runL := setAt s.runL e [], desL := setAt s.desL e [] }) h
  · split at hs
    · cases hs; exact h
    · cases hs
  · cases hs

/-- With every handler executed, the call in progress ends. -/
theorem drained_ends {m : Nat} {unique : Bool} {s : EvSt} (hi : Inv m unique s) (h : Drained s) :
    ∃ k, Over (EvSt.exec m unique s (List.replicate k .main)).pc := by
  have hone : ∀ s', EvSt.step m unique s .main = some s' →
      (∃ k, Over (EvSt.exec m unique s' (List.replicate k .main)).pc) →
      ∃ k, Over (EvSt.exec m unique s (List.replicate k .main)).pc := by
    rintro s' hs ⟨k, hk⟩
    exact ⟨k + 1, by simpa [List.replicate_succ, EvSt.exec, hs] using hk⟩
  cases hp : s.pc with
  | idle => exact ⟨0, Or.inl hp⟩
  | gone => exact ⟨0, Or.inr hp⟩
  | wait e l => exact (wait_ends _ l e s (Nat.le_refl _) hi h hp).imp (fun _ x => Or.inl x)
  | dwait e l => exact (dwait_ends _ l e s (Nat.le_refl _) hi h hp).imp (fun _ x => Or.inr x)
  | engine =>
    have hs : EvSt.step m unique s .main = some (EvSt.waitFrom m { s with hist := s.hist ++ [.waitBegin] } 0) := by
      simp only [EvSt.step, EvSt.main, hp]
    refine hone _ hs ?_
    by_cases hm : 0 < m
    · exact (wait_ends _ _ 0 _ (Nat.le_refl _) (hi.step hs) (drained_main h hs)
        (by simp only [EvSt.waitFrom, hm, if_true]; rfl)).imp (fun _ x => Or.inl x)
    · exact ⟨0, Or.inl (by simp [EvSt.exec, EvSt.waitFrom, hm])⟩
  | poolDown =>
    obtain ⟨s1, hs⟩ : ∃ s1, EvSt.step m unique s .main = some (EvSt.dwaitFrom m s1 0) := by
      simp only [EvSt.step, EvSt.main, hp]
      cases unique with
      | false => exact ⟨s, rfl⟩
      | true =>
        have hb : s.notes.any busy = false := by
          rw [List.any_eq_false]
          intro n hn hbusy
          obtain ⟨id, hid⟩ := List.mem_iff_getElem?.mp hn
          unfold busy at hbusy
          cases hk : n.kind with
          | sync => rw [hk] at hbusy; cases hbusy
          | async st =>
            rw [hk] at hbusy
            simp only [decide_eq_true_eq] at hbusy
            rcases h id n hid (by rw [hk]; simp) with h1 | h1 <;> rw [h1] at hbusy <;> cases hbusy
        simp only [hb, if_true, Bool.false_eq_true, if_false]
        exact ⟨_, rfl⟩
    refine hone _ hs ?_
    by_cases hm : 0 < m
    · exact (dwait_ends _ _ 0 _ (Nat.le_refl _) (hi.step hs) (drained_main h hs)
        (by simp only [EvSt.dwaitFrom, hm, if_true]; rfl)).imp (fun _ x => Or.inr x)
    · exact ⟨0, Or.inr (by simp [EvSt.exec, EvSt.dwaitFrom, hm])⟩

end EvSt
end CGraph
