import Verif.Spec.HappensBefore
import Mathlib.Tactic.ByContra

/-! What a thread, a location or a task in transit has learned, from the definition of happens-before. -/
namespace CGraph.Hb
open Spec

variable {L A : Type}

theorem lt_of_getElem? {α : Type} {l : List α} {i : Nat} {a : α} (h : l[i]? = some a) : i < l.length :=
  (List.getElem?_eq_some_iff.1 h).1

theorem get_app {t : List (MemAct L A)} {u : List (MemAct L A)} {i : Nat} {a : MemAct L A} (h : t[i]? = some a) :
    (t ++ u)[i]? = some a := by
  rw [List.getElem?_append_left (lt_of_getElem? h)]; exact h

theorem edge_app {t u : List (MemAct L A)} {i j : Nat} (h : SeqBefore t i j ∨ Synchronizes t i j) :
    SeqBefore (t ++ u) i j ∨ Synchronizes (t ++ u) i j := by
  rcases h with ⟨h1, a, b, h2, h3, h4⟩ | ⟨h1, a, b, h2, h3, h4, h5⟩
  · exact .inl ⟨h1, a, b, get_app h2, get_app h3, h4⟩
  · refine .inr ⟨h1, a, b, get_app h2, get_app h3, h4, fun k c hk1 hk2 hk => h5 k c hk1 hk2 ?_⟩
    have := lt_of_getElem? h3
    rwa [List.getElem?_append_left (by omega)] at hk

theorem hb_app {t u : List (MemAct L A)} {i j : Nat} (h : HappensBefore t i j) : HappensBefore (t ++ u) i j := by
  induction h with
  | single h => exact .single (edge_app h)
  | tail _ h ih => exact .tail ih (edge_app h)

theorem noted_app {t u : List (MemAct L A)} {i : Nat} {m : A} (h : NotedAt t i m) : NotedAt (t ++ u) i m := by
  obtain ⟨tid, h⟩ := h; exact ⟨tid, get_app h⟩

theorem hb_lt {t : List (MemAct L A)} {i j : Nat} (h : HappensBefore t i j) : i < j := by
  induction h with
  | single h => rcases h with h | h <;> exact h.1
  | tail _ h ih => rcases h with h | h <;> exact Nat.lt_trans ih h.1

/-- Same or before. -/
def Le (t : List (MemAct L A)) (i j : Nat) : Prop := i = j ∨ HappensBefore t i j

theorem le_app {t u : List (MemAct L A)} {i j : Nat} (h : Le t i j) : Le (t ++ u) i j := h.imp id hb_app

/-- Thread `t` has learned of `m`. -/
def Kn (log : List (MemAct L A)) (t : Nat) (m : A) : Prop :=
  ∃ i j a, NotedAt log i m ∧ Le log i j ∧ log[j]? = some a ∧ a.tid = t

/-- Who reads `l` learns of `m`. -/
def LocK (log : List (MemAct L A)) (l : L) (m : A) : Prop :=
  ∃ i j a, NotedAt log i m ∧ Le log i j ∧ log[j]? = some a ∧ (a.op = .store l ∨ a.op = .rmw l) ∧
    ∀ k b, j < k → log[k]? = some b → b.op ≠ .store l

/-- Who takes task `n` learns of `m`. -/
def TokK (log : List (MemAct L A)) (n : Nat) (m : A) : Prop :=
  ∃ i j a, NotedAt log i m ∧ Le log i j ∧ log[j]? = some a ∧ a.op = .send n

variable {log : List (MemAct L A)} {m : A} {t n : Nat} {l : L}

theorem Kn.app {u : List (MemAct L A)} (h : Kn log t m) : Kn (log ++ u) t m := by
  obtain ⟨i, j, a, h1, h2, h3, h4⟩ := h
  exact ⟨i, j, a, noted_app h1, le_app h2, get_app h3, h4⟩

theorem TokK.app {u : List (MemAct L A)} (h : TokK log n m) : TokK (log ++ u) n m := by
  obtain ⟨i, j, a, h1, h2, h3, h4⟩ := h
  exact ⟨i, j, a, noted_app h1, le_app h2, get_app h3, h4⟩

theorem LocK.app {u : List (MemAct L A)} (h : LocK log l m) (hu : ∀ b ∈ u, b.op ≠ .store l) : LocK (log ++ u) l m := by
  obtain ⟨i, j, a, h1, h2, h3, h4, h5⟩ := h
  refine ⟨i, j, a, noted_app h1, le_app h2, get_app h3, h4, fun k b hk hb => ?_⟩
  by_cases hk2 : k < log.length
  · rw [List.getElem?_append_left hk2] at hb; exact h5 k b hk hb
  · rw [List.getElem?_append_right (by omega)] at hb
    exact hu b (List.mem_of_getElem? hb)

theorem get_last (log : List (MemAct L A)) (a : MemAct L A) : (log ++ [a])[log.length]? = some a := by simp

/-- A new operation of `t` comes after all it has learned. -/
theorem Kn.hb_last {o : MemOp L A} (h : Kn log t m) :
    ∃ i, NotedAt (log ++ [⟨t, o⟩]) i m ∧ HappensBefore (log ++ [⟨t, o⟩]) i log.length := by
  obtain ⟨i, j, a, h1, h2, h3, h4⟩ := h
  refine ⟨i, noted_app h1, ?_⟩
  have he : SeqBefore (log ++ [⟨t, o⟩]) j log.length :=
    ⟨lt_of_getElem? h3, a, _, get_app h3, get_last log _, h4⟩
  rcases h2 with rfl | h2
  · exact .single (.inl he)
  · exact .tail (hb_app h2) (.inl he)

theorem Kn.note (log : List (MemAct L A)) (t : Nat) (m : A) : Kn (log ++ [⟨t, .note m⟩]) t m :=
  ⟨log.length, log.length, _, ⟨t, get_last log _⟩, .inl rfl, get_last log _, rfl⟩

theorem Kn.acq {o : MemOp L A} (h : LocK log l m) (ho : o = .load l ∨ o = .rmw l) : Kn (log ++ [⟨t, o⟩]) t m := by
  obtain ⟨i, j, a, h1, h2, h3, h4, h5⟩ := h
  refine ⟨i, log.length, _, noted_app h1, .inr ?_, get_last log _, rfl⟩
  have he : Synchronizes (log ++ [⟨t, o⟩]) j log.length := by
    refine ⟨lt_of_getElem? h3, a, _, get_app h3, get_last log _, ?_, fun k b hk1 hk2 hb hbr => ?_⟩
    · rcases h4 with h4 | h4 <;> rcases ho with ho | ho <;> simp [h4, ho, Pairs]
    · rw [List.getElem?_append_left hk2] at hb
      apply h5 k b hk1 hb
      rcases h4 with h4 | h4 <;> rw [h4] at hbr <;> revert hbr <;> cases b.op <;> simp [Breaks] <;> exact fun h => h.symm
  rcases h2 with rfl | h2
  · exact .single (.inr he)
  · exact .tail (hb_app h2) (.inr he)

theorem Kn.recv (h : TokK log n m) : Kn (log ++ [⟨t, .recv n⟩]) t m := by
  obtain ⟨i, j, a, h1, h2, h3, h4⟩ := h
  refine ⟨i, log.length, _, noted_app h1, .inr ?_, get_last log _, rfl⟩
  have he : Synchronizes (log ++ [⟨t, .recv n⟩]) j log.length :=
    ⟨lt_of_getElem? h3, a, _, get_app h3, get_last log _, by simp [h4, Pairs], fun k b _ _ _ hbr => by rw [h4] at hbr; exact hbr⟩
  rcases h2 with rfl | h2
  · exact .single (.inr he)
  · exact .tail (hb_app h2) (.inr he)

theorem LocK.rel {o : MemOp L A} (h : Kn log t m) (ho : o = .store l ∨ o = .rmw l) : LocK (log ++ [⟨t, o⟩]) l m := by
  obtain ⟨i, h1, h2⟩ := h.hb_last (o := o)
  refine ⟨i, log.length, _, h1, .inr h2, get_last log _, ho, fun k b hk hb => ?_⟩
  have := lt_of_getElem? hb
  simp at this
  omega

theorem TokK.send (h : Kn log t m) : TokK (log ++ [⟨t, .send n⟩]) n m := by
  obtain ⟨i, h1, h2⟩ := h.hb_last (o := .send n)
  exact ⟨i, log.length, _, h1, .inr h2, get_last log _, rfl⟩

theorem noted_new {o : MemOp L A} {i : Nat} (h : NotedAt (log ++ [⟨t, o⟩]) i m) :
    NotedAt log i m ∨ (i = log.length ∧ o = .note m) := by
  obtain ⟨tid, h⟩ := h
  by_cases hi : i < log.length
  · rw [List.getElem?_append_left hi] at h; exact .inl ⟨tid, h⟩
  · have := lt_of_getElem? h
    simp at this
    have : i = log.length := by omega
    subst this
    rw [get_last] at h
    simp at h
    exact .inr ⟨rfl, h.2⟩

/-- Nothing in `S` happens before anything outside of it, if that is so for single edges. -/
theorem not_hb {t : List (MemAct L A)} {S : Nat → Prop} (hS : ∀ i j, SeqBefore t i j ∨ Synchronizes t i j → S i → S j)
    {i j : Nat} (hi : S i) (hj : ¬ S j) : ¬ HappensBefore t i j := by
  intro h
  apply hj
  clear hj
  induction h with
  | single h => exact hS _ _ h hi
  | tail _ h ih => exact hS _ _ h ih

end CGraph.Hb
