import Verif.Spec.Async
import Verif.Lemmas.Status
import Mathlib.Tactic.SplitIfs

/-! # Invariants of elements with a timeout -/
namespace CGraph
open Spec

/-- Everything that was observed satisfies `P`, given what was observed before. -/
def AAlong (P : List AEv → AEv → Prop) (l : List AEv) : Prop := ∀ a x b, l = a ++ x :: b → P a x

theorem AAlong.nil {P : List AEv → AEv → Prop} : AAlong P [] := by
  intro a x b h
  simp at h

theorem AAlong.snoc {P : List AEv → AEv → Prop} {l : List AEv} {x : AEv} (h : AAlong P l) (hx : P l x) :
    AAlong P (l ++ [x]) := by
  intro a y b hl
  rcases List.eq_nil_or_concat b with rfl | ⟨b', z, rfl⟩
  · have := List.append_inj' hl rfl
    obtain ⟨rfl, hy⟩ := this
    obtain rfl : x = y := by simpa using hy
    exact hx
  · have h2 : l ++ [x] = (a ++ y :: b') ++ [z] := by simpa using hl
    have := List.append_inj' h2 rfl
    exact h a y b' this.1

theorem lastRun_snoc (l : List AEv) (x : AEv) :
    lastRun (l ++ [x]) = match x with | .runBegin => [] | _ => lastRun l ++ [x] := by
  simp only [lastRun, List.foldl_append, List.foldl_cons, List.foldl_nil]
  cases x <;> rfl

theorem mem_lastRun_snoc {l : List AEv} {x y : AEv} (hx : x ≠ .runBegin) :
    y ∈ lastRun (l ++ [x]) ↔ y ∈ lastRun l ∨ y = x := by
  rw [lastRun_snoc]
  cases x <;> simp_all

theorem lastRun_sub {l : List AEv} {y : AEv} (h : y ∈ lastRun l) : y ∈ l := by
  rcases List.eq_nil_or_concat l with rfl | ⟨l', x, rfl⟩
  · simp [lastRun] at h
  · by_cases hx : x = .runBegin
    · subst hx
      simp [lastRun_snoc] at h
    · rw [List.concat_eq_append, mem_lastRun_snoc hx] at h
      rcases h with h | rfl
      · have := lastRun_sub h
        simp [this]
      · simp
termination_by l.length
decreasing_by simp_all

theorem Spec.AClean.of_append {l m : List AEv} (h : AClean (l ++ m)) : AClean l :=
  ⟨fun e he => h.1 e (List.mem_append_left _ he), fun he => h.2.1 (List.mem_append_left _ he),
    fun e he => h.2.2 e (List.mem_append_left _ he)⟩

namespace ASt

@[simp] theorem setAt_same {β : Type} (f : Nat → β) (e : Nat) (x : β) : setAt f e x e = x := by simp [setAt]

theorem setAt_ne {β : Type} (f : Nat → β) {e k : Nat} (x : β) (h : k ≠ e) : setAt f e x k = f k := by simp [setAt, h]

theorem setAt_apply {β : Type} (f : Nat → β) (e k : Nat) (x : β) : setAt f e x k = if k = e then x else f k := rfl

/-- The list of bodies and what was observed. -/
structure Rel (s : ASt) : Prop where
  com : ∀ e id, .commit e id ∈ s.hist ↔ ∃ k, s.tasks[id]? = some ⟨e, k⟩
  fin : ∀ e id r, .bodyEnd e id r ∈ s.hist ↔ s.tasks[id]? = some ⟨e, .done r⟩
  nCom : ∀ e, s.hist.countP (isCommit e) = s.tasks.countP (fun t => decide (t.elem = e))
  nBeg : ∀ e, s.hist.countP (isBody e) = s.tasks.countP (fun t => decide (t.elem = e ∧ t.run ≠ .queued))
  nFin : ∀ e, s.hist.countP (isBodyEnd e) =
    s.tasks.countP (fun t => decide (t.elem = e ∧ t.run ≠ .queued ∧ t.run ≠ .running))

theorem result_eq {s : ASt} {id : Nat} {r : ARes} : s.result id = some r ↔ ∃ e, s.tasks[id]? = some ⟨e, .done r⟩ := by
  unfold result
  split
  · rename_i e r' h
    rw [h]
    simp
  · rename_i h
    simp only [reduceCtorEq, false_iff, not_exists]
    exact fun e he => h e r he

theorem result_congr {s s' : ASt} (h : s'.tasks = s.tasks) (id : Nat) : s'.result id = s.result id := by
  unfold result; rw [h]

/-- An error that the run will report. -/
def Acc (s : ASt) : Prop :=
  s.status.isErr = true ∨ (∃ e st b, s.pc e = .ended st b ∧ st.isErr = true) ∨
  (∃ f l st, s.fpc f = .at l st ∧ st.isErr = true) ∨ ∃ f e id l st, s.fpc f = .get e id l st ∧ st.isErr = true

/-- A fence that depends on its elements and has still to ask `l`. -/
def FOK (c : ACfg) (s : ASt) (f : Nat) (l : List Nat) (st : CStatus) : Prop :=
  (∀ e ∈ c.waits f, s.pc e = .back) ∧ (st.isCrash = false → ∀ e ∈ c.waits f, e ∈ l ∨ s.fut e = none)

/-- Invariant, as long as the history is clean. -/
structure AInv (c : ACfg) (s : ASt) : Prop where
  futE : ∀ e id, s.fut e = some id → ∃ k, s.tasks[id]? = some ⟨e, k⟩
  out : ∀ e, c.n ≤ e → s.pc e = .ready
  fout : ∀ f, c.m ≤ f → s.fpc f = .ready
  quietE : s.run ≠ .engine → ∀ e, s.pc e = .ready ∨ s.pc e = .back
  quietF : s.run ≠ .engine → ∀ f, s.fpc f = .ready ∨ s.fpc f = .back
  wait : ∀ e id, s.pc e = .waiting id → s.fut e = some id
  getlt : ∀ f e id l st, s.fpc f = .get e id l st → id < s.tasks.length ∧ s.pc e ≠ .waiting id
  old : ∀ e id k, c.hold e = true → s.tasks[id]? = some ⟨e, k⟩ → (∀ r, k ≠ .done r) → s.fut e = some id
  live : ∀ e id, c.hold e = true → s.fut e = some id →
    (s.run = .engine ∧ (s.pc e = .waiting id ∨ (∃ st, s.pc e = .ended st true) ∨ s.pc e = .back)) ∨
      ∃ l, s.run = .reset l ∧ e ∈ l
  tmo : ∀ e, s.tmo e = true → c.hold e = true ∧
    ((s.run = .engine ∧ ((∃ st, s.pc e = .ended st true) ∨ s.pc e = .back)) ∨ ∃ l, s.run = .reset l ∧ e ∈ l)
  this : ∀ e id, .commit e id ∈ lastRun s.hist →
    (s.fut e = some id ∧ (c.hold e = true ∨ s.pc e = .waiting id ∨ s.Acc)) ∨
      ∃ r, s.result id = some r ∧ (r.status.isErr = false ∨ s.Acc)
  rdy : ∀ e id, s.pc e = .ready → .commit e id ∉ lastRun s.hist
  endF : ∀ e st, s.pc e = .ended st false → s.fut e = none ∧
    ∃ id r, .commit e id ∈ lastRun s.hist ∧ s.result id = some r ∧ st = CStatus.ok.add r.status
  endT : ∀ e st, s.pc e = .ended st true →
    .late e ∈ lastRun s.hist ∧ (∃ id, .commit e id ∈ lastRun s.hist) ∧ st.isErr = !c.hold e
  wt : ∀ e id, s.pc e = .waiting id → .commit e id ∈ lastRun s.hist
  fenA : ∀ f l st, c.deps f = true → s.fpc f = .at l st → FOK c s f l st
  fenG : ∀ f e id l st, c.deps f = true → s.fpc f = .get e id l st → FOK c s f (e :: l) st

theorem Rel.new : Rel .new := by
  constructor <;> simp [ASt.new]

theorem AInv.new (c : ACfg) : AInv c .new := by
  constructor <;> simp [ASt.new, lastRun]

/-- What is claimed of every event. -/
def APost (c : ACfg) (a : List AEv) : AEv → Prop
  | .runRet st => AClean a →
      (∀ e, c.hold e = true → a.countP (isCommit e) = a.countP (isBodyEnd e)) ∧
      (st.isErr = false → ∀ e id, .commit e id ∈ lastRun a → ∃ r, .bodyEnd e id r ∈ a ∧ r.status.isErr = false)
  | .fenceRet f st => AClean a → c.deps f = true → st.isCrash = false →
      ∀ e ∈ c.waits f, ∀ id, .commit e id ∈ lastRun a → ∃ r, .bodyEnd e id r ∈ a
  | .bodyBegin e _ => AClean a → c.hold e = true → a.countP (isBody e) = a.countP (isBodyEnd e)
  | .elemRet e st => AClean a →
      (∃ id r, .commit e id ∈ lastRun a ∧ .bodyEnd e id r ∈ a ∧ st = CStatus.ok.add r.status) ∨
      (.late e ∈ lastRun a ∧ (∃ id, .commit e id ∈ lastRun a) ∧ st.isErr = !c.hold e)
  | _ => True

/-- Events that do not concern the list of bodies. -/
def AEv.neutral : AEv → Bool
  | .commit _ _ | .bodyBegin _ _ | .bodyEnd _ _ _ | .runBegin => false
  | _ => true

theorem Rel.emit {s : ASt} (h : Rel s) {x : AEv} (hx : AEv.neutral x = true ∨ x = .runBegin) : Rel (s.emit x) := by
  constructor
  · intro e id
    have := h.com e id
    cases x <;> simp_all [ASt.emit, AEv.neutral]
  · intro e id r
    have := h.fin e id r
    cases x <;> simp_all [ASt.emit, AEv.neutral]
  · intro e
    have := h.nCom e
    cases x <;> simp_all [ASt.emit, AEv.neutral, isCommit, List.countP_append]
  · intro e
    have := h.nBeg e
    cases x <;> simp_all [ASt.emit, AEv.neutral, isBody, List.countP_append]
  · intro e
    have := h.nFin e
    cases x <;> simp_all [ASt.emit, AEv.neutral, isBodyEnd, List.countP_append]

theorem Rel.congr {s s' : ASt} (h : Rel s) (ht : s'.tasks = s.tasks) (hh : s'.hist = s.hist) : Rel s' := by
  obtain ⟨a, b, c, d, e⟩ := h
  constructor <;> rw [ht, hh] <;> assumption

theorem Rel.commit {s : ASt} (h : Rel s) (e : Nat) : Rel (s.commit e) := by
  constructor
  · intro e' id
    simp only [ASt.commit, List.mem_append, List.mem_singleton, h.com e' id, List.getElem?_append]
    by_cases hid : id < s.tasks.length
    · rw [if_pos hid]
      constructor
      · rintro (h | h)
        · exact h
        · cases h; omega
      · exact fun h => .inl h
    · rw [if_neg hid]
      by_cases hid' : id = s.tasks.length
      · subst hid'
        simp
        exact eq_comm
      · have : id - s.tasks.length ≠ 0 := by omega
        rw [List.getElem?_eq_none (by omega)]
        simp [this, hid']
  · intro e' id r
    simp only [ASt.commit, List.mem_append, List.mem_singleton, h.fin e' id r, List.getElem?_append, reduceCtorEq, or_false]
    by_cases hid : id < s.tasks.length
    · rw [if_pos hid]
    · rw [if_neg hid, List.getElem?_eq_none (by omega)]
      by_cases hid' : id - s.tasks.length = 0
      · simp [hid']
      · rw [List.getElem?_eq_none (by simp; omega)]
  · intro e'
    simp only [ASt.commit, List.countP_append, h.nCom e']
    simp [isCommit]
  · intro e'
    simp only [ASt.commit, List.countP_append, h.nBeg e']
    simp [isBody]
  · intro e'
    simp only [ASt.commit, List.countP_append, h.nFin e']
    simp [isBodyEnd]

theorem countP_set {l : List ATask} {id : Nat} {t : ATask} (h : l[id]? = some t) (u : ATask) (p : ATask → Bool) :
    (l.set id u).countP p + (if p t then 1 else 0) = l.countP p + (if p u then 1 else 0) := by
  induction l generalizing id with
  | nil => simp at h
  | cons a l ih =>
    cases id with
    | zero =>
      simp at h
      subst h
      simp [List.countP_cons]
      omega
    | succ id =>
      have := ih (id := id) (by simpa using h)
      simp only [List.set_cons_succ, List.countP_cons]
      omega

theorem Rel.take {s : ASt} (h : Rel s) {e id : Nat} (ht : s.tasks[id]? = some ⟨e, .queued⟩) :
    Rel ({ s with tasks := s.tasks.set id ⟨e, .running⟩ }.emit (.bodyBegin e id)) := by
  have hlt : id < s.tasks.length := (List.getElem?_eq_some_iff.mp ht).1
  constructor
  · intro e' id'
    simp only [ASt.emit, List.mem_append, List.mem_singleton, h.com e' id', List.getElem?_set, reduceCtorEq, or_false]
    by_cases hi : id = id'
    · subst hi; rw [ht]; simp [hlt]
    · simp [hi]
  · intro e' id' r
    simp only [ASt.emit, List.mem_append, List.mem_singleton, h.fin e' id' r, List.getElem?_set, reduceCtorEq, or_false]
    by_cases hi : id = id'
    · subst hi; rw [ht]; simp [hlt]
    · simp [hi]
  · intro e'
    have := countP_set ht ⟨e, .running⟩ (fun t => decide (t.elem = e'))
    simp only [ASt.emit, List.countP_append, h.nCom e']
    simp [isCommit] at this ⊢
    omega
  · intro e'
    have := countP_set ht ⟨e, .running⟩ (fun t => decide (t.elem = e' ∧ t.run ≠ .queued))
    simp only [ASt.emit, List.countP_append, h.nBeg e']
    simp [isBody, List.countP_cons] at this ⊢
    omega
  · intro e'
    have := countP_set ht ⟨e, .running⟩ (fun t => decide (t.elem = e' ∧ t.run ≠ .queued ∧ t.run ≠ .running))
    simp only [ASt.emit, List.countP_append, h.nFin e']
    simp [isBodyEnd] at this ⊢
    omega

theorem Rel.finish {s : ASt} (h : Rel s) {e id : Nat} {r : ARes} (ht : s.tasks[id]? = some ⟨e, .running⟩) :
    Rel ({ s with tasks := s.tasks.set id ⟨e, .done r⟩ }.emit (.bodyEnd e id r)) := by
  have hlt : id < s.tasks.length := (List.getElem?_eq_some_iff.mp ht).1
  constructor
  · intro e' id'
    simp only [ASt.emit, List.mem_append, List.mem_singleton, h.com e' id', List.getElem?_set, reduceCtorEq, or_false]
    by_cases hi : id = id'
    · subst hi; rw [ht]; simp [hlt]
    · simp [hi]
  · intro e' id' r'
    simp only [ASt.emit, List.mem_append, List.mem_singleton, h.fin e' id' r', List.getElem?_set]
    by_cases hi : id = id'
    · subst hi
      rw [ht]
      simp [hlt]
      constructor
      · rintro ⟨rfl, rfl⟩; exact ⟨rfl, rfl⟩
      · rintro ⟨rfl, rfl⟩; exact ⟨rfl, rfl⟩
    · simp [hi]
      exact fun _ h => absurd h.symm hi
  · intro e'
    have := countP_set ht ⟨e, .done r⟩ (fun t => decide (t.elem = e'))
    simp only [ASt.emit, List.countP_append, h.nCom e']
    simp [isCommit] at this ⊢
    omega
  · intro e'
    have := countP_set ht ⟨e, .done r⟩ (fun t => decide (t.elem = e' ∧ t.run ≠ .queued))
    simp only [ASt.emit, List.countP_append, h.nBeg e']
    simp [isBody] at this ⊢
    omega
  · intro e'
    have := countP_set ht ⟨e, .done r⟩ (fun t => decide (t.elem = e' ∧ t.run ≠ .queued ∧ t.run ≠ .running))
    simp only [ASt.emit, List.countP_append, h.nFin e']
    simp [isBodyEnd, List.countP_cons] at this ⊢
    omega

end ASt
end CGraph
