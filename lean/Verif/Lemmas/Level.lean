import Verif.Spec.Level
import Mathlib.Data.List.Perm.Basic
import Mathlib.Data.List.Nodup

/-! # Search trees and the invariant of the sorted set -/
namespace CGraph
open Spec

theorem lvLess_iff {lv : Nat → Int} {a b : Nat} :
    lvLess lv a b = true ↔ lv a < lv b ∨ lv a = lv b ∧ a < b := by
  unfold lvLess
  split <;> rename_i h
  · simp [h]
  · simp [h]

theorem lvLess_trans {lv : Nat → Int} {a b c : Nat} (h1 : lvLess lv a b = true) (h2 : lvLess lv b c = true) :
    lvLess lv a c = true := by
  rw [lvLess_iff] at *; omega

theorem lvLess_irrefl {lv : Nat → Int} {a : Nat} : lvLess lv a a = false := by
  simp [lvLess]

theorem lvLess_asymm {lv : Nat → Int} {a b : Nat} (h1 : lvLess lv a b = true) : lvLess lv b a = false := by
  rw [Bool.eq_false_iff]
  intro h2
  rw [lvLess_iff] at *; omega

theorem lvLess_total {lv : Nat → Int} {a b : Nat} (h1 : lvLess lv a b = false) (h2 : lvLess lv b a = false) : a = b := by
  rw [Bool.eq_false_iff, ne_eq, lvLess_iff] at h1 h2; omega

/-- The sequence is strictly increasing for the comparator. -/
def LvSorted (lv : Nat → Int) (l : List Nat) : Prop := l.Pairwise (fun a b => lvLess lv a b = true)

theorem LvSorted.nodup {lv : Nat → Int} {l : List Nat} (h : LvSorted lv l) : l.Nodup := by
  refine List.Pairwise.imp ?_ h
  intro a b hab e
  subst e
  rw [lvLess_irrefl] at hab; cases hab

theorem LvSorted.node {lv : Nat → Int} {l : List Nat} {x : Nat} {r : List Nat} :
    LvSorted lv (l ++ x :: r) ↔ LvSorted lv l ∧ LvSorted lv r ∧ (∀ a ∈ l, lvLess lv a x = true) ∧
      (∀ b ∈ r, lvLess lv x b = true) := by
  unfold LvSorted
  rw [List.pairwise_append, List.pairwise_cons]
  constructor
  · rintro ⟨h1, ⟨h2, h3⟩, h4⟩
    exact ⟨h1, h3, fun a ha => h4 a ha x (by simp), h2⟩
  · rintro ⟨h1, h2, h3, h4⟩
    refine ⟨h1, ⟨h4, h2⟩, ?_⟩
    intro a ha b hb
    rcases List.mem_cons.mp hb with rfl | hb
    · exact h3 a ha
    · exact lvLess_trans (h3 a ha) (h4 b hb)

namespace LvTree

theorem insert_perm {lv : Nat → Int} {e : Nat} (t : LvTree) (h : e ∉ t.toList) :
    (t.insert lv e).toList.Perm (e :: t.toList) := by
  induction t with
  | leaf => simp [insert, toList]
  | node l x r ihl ihr =>
    simp only [toList, List.mem_append, List.mem_cons, not_or] at h
    unfold insert
    split
    · exact (List.Perm.append_right _ (ihl h.1))
    · split
      · simp only [toList]
        refine (List.Perm.append_left _ (List.Perm.cons _ (ihr h.2.2))).trans ?_
        refine (List.Perm.append_left _ (List.Perm.swap e x r.toList)).trans ?_
        exact List.perm_middle
      · rename_i h1 h2
        exact absurd (lvLess_total (by simpa using h1) (by simpa using h2)) h.2.1

theorem insert_sorted {lv : Nat → Int} {e : Nat} (t : LvTree) (h : e ∉ t.toList) (hs : LvSorted lv t.toList) :
    LvSorted lv (t.insert lv e).toList := by
  induction t with
  | leaf => simp [insert, toList, LvSorted]
  | node l x r ihl ihr =>
    simp only [toList, List.mem_append, List.mem_cons, not_or] at h
    simp only [toList] at hs
    rw [LvSorted.node] at hs
    unfold insert
    split
    · rename_i h1
      simp only [toList]
      rw [LvSorted.node]
      refine ⟨ihl h.1 hs.1, hs.2.1, ?_, hs.2.2.2⟩
      intro a ha
      rcases List.mem_cons.mp ((insert_perm l h.1).mem_iff.mp ha) with rfl | ha
      · exact h1
      · exact hs.2.2.1 a ha
    · split
      · rename_i h1
        simp only [toList]
        rw [LvSorted.node]
        refine ⟨hs.1, ihr h.2.2 hs.2.1, hs.2.2.1, ?_⟩
        intro b hb
        rcases List.mem_cons.mp ((insert_perm r h.2.2).mem_iff.mp hb) with rfl | hb
        · exact h1
        · exact hs.2.2.2 b hb
      · simp only [toList]
        rw [LvSorted.node]; exact hs

/-- In a sorted tree the search finds what is there. -/
theorem index_mem {lv : Nat → Int} {e : Nat} (t : LvTree) (hs : LvSorted lv t.toList) (h : e ∈ t.toList) :
    t.toList[t.index lv e]? = some e := by
  induction t with
  | leaf => simp [toList] at h
  | node l x r ihl ihr =>
    simp only [toList] at hs
    rw [LvSorted.node] at hs
    simp only [toList, List.mem_append, List.mem_cons] at h
    unfold index
    split
    · rename_i h1
      have hl : e ∈ l.toList := by
        rcases h with h | rfl | h
        · exact h
        · rw [lvLess_irrefl] at h1; cases h1
        · rw [lvLess_asymm (hs.2.2.2 e h)] at h1; cases h1
      have hi := ihl hs.1 hl
      have hlt : l.index lv e < l.toList.length := by
        rcases Nat.lt_or_ge (l.index lv e) l.toList.length with h | h
        · exact h
        · rw [List.getElem?_eq_none h] at hi; cases hi
      simp only [toList]
      rw [if_neg (by omega), List.getElem?_append_left hlt]
      exact hi
    · split
      · rename_i h1 h2
        have hr : e ∈ r.toList := by
          rcases h with h | rfl | h
          · exact absurd (hs.2.2.1 e h) h1
          · rw [lvLess_irrefl] at h2; cases h2
          · exact h
        simp only [toList]
        rw [List.getElem?_append_right (by omega)]
        have : l.toList.length + 1 + r.index lv e - l.toList.length = r.index lv e + 1 := by omega
        rw [this, List.getElem?_cons_succ]
        exact ihr hs.2.1 hr
      · rename_i h1 h2
        have := lvLess_total (lv := lv) (a := e) (b := x) (by simpa using h1) (by simpa using h2)
        subst this
        simp [toList]

/-- The search never finds what is not there. -/
theorem index_not_mem {lv : Nat → Int} {e : Nat} (t : LvTree) (h : e ∉ t.toList) :
    t.index lv e = t.toList.length := by
  induction t with
  | leaf => simp [index, toList]
  | node l x r ihl ihr =>
    simp only [toList, List.mem_append, List.mem_cons, not_or] at h
    unfold index
    split
    · simp only [ihl h.1, if_true, toList, List.length_append, List.length_cons]; omega
    · split
      · simp only [ihr h.2.2, toList, List.length_append, List.length_cons]; omega
      · rename_i h1 h2
        exact absurd (lvLess_total (by simpa using h1) (by simpa using h2)) h.2.1

end LvTree

theorem levelOf_snoc (e : Nat) (h : List LvEv) (x : LvEv) :
    levelOf e (h ++ [x]) = (match x with | .level y l => if y = e then l else levelOf e h | _ => levelOf e h) := by
  simp only [levelOf, List.foldl_append, List.foldl_cons, List.foldl_nil]
  cases x <;> rfl

theorem levelRegs_append (h k : List LvEv) : levelRegs (h ++ k) = levelRegs h ++ levelRegs k := by
  simp [levelRegs, List.filterMap_append]

theorem Spec.LevelsEarly.of_append {h k : List LvEv} (hh : LevelsEarly (h ++ k)) : LevelsEarly h := by
  intro e l p q hp
  exact hh e l p (q ++ k) (by rw [hp]; simp)

/-- What the state has to do with the history, as long as levels are set early. -/
structure LvInv (s : LvSt) : Prop where
  lv : ∀ e, s.lv e = levelOf e s.hist
  perm : s.tree.toList.Perm (levelRegs s.hist)
  sorted : LvSorted s.lv s.tree.toList

theorem LvInv.order {s : LvSt} (h : LvInv s) : LevelOrder s.hist s.tree.toList := by
  refine ⟨h.perm, h.sorted.nodup, ?_⟩
  refine List.Pairwise.imp ?_ h.sorted
  intro a b hab
  rw [lvLess_iff, h.lv, h.lv] at hab
  exact hab

theorem LvInv.mem {s : LvSt} (h : LvInv s) (e : Nat) : e ∈ s.tree.toList ↔ e ∈ levelRegs s.hist :=
  h.perm.mem_iff

theorem LvInv.emit {s : LvSt} (h : LvInv s) (x : LvEv) (b : Bool) (h1 : ∀ e l, x ≠ .level e l) (h2 : ∀ e, x ≠ .reg e) :
    LvInv { s with isInit := b, hist := s.hist ++ [x] } := by
  refine ⟨?_, ?_, h.sorted⟩
  · intro e
    simp only [levelOf_snoc, h.lv]
  · simp only [levelRegs_append]
    cases x with
    | reg y => exact absurd rfl (h2 y)
    | _ => simpa [levelRegs] using h.perm

/-- What is said of the event that a step records. -/
def LvGood (p : List LvEv) : LvEv → Prop
  | .inits l => LevelOrder p l
  | .destroys l => LevelOrder p l
  | .found e r => r = true ↔ e ∈ levelRegs p
  | .index e i n => n = (levelRegs p).length ∧ (e ∈ levelRegs p → ∃ order, LevelOrder p order ∧ order[i]? = some e)
  | _ => True

def LvAll (h : List LvEv) : Prop := ∀ p x q, h = p ++ x :: q → LvGood p x

theorem LvAll.snoc {h : List LvEv} {x : LvEv} (hh : LvAll h) (hx : LvGood h x) : LvAll (h ++ [x]) := by
  intro p y q he
  rcases List.eq_nil_or_concat q with rfl | ⟨q', z, rfl⟩
  · have := List.append_inj' he rfl
    obtain ⟨rfl, h2⟩ := this
    cases h2
    exact hx
  · have he' : h ++ [x] = (p ++ y :: q') ++ [z] := by rw [he]; simp
    have := List.append_inj' he' rfl
    exact hh p y q' this.1

theorem LvInv.step {bal : LvTree → LvTree} (hb : ∀ t, (bal t).toList = t.toList) {s : LvSt} (h : LvInv s)
    (ha : LvAll s.hist) (a : LvAct) (he : LevelsEarly (s.step bal a).hist) :
    LvInv (s.step bal a) ∧ LvAll (s.step bal a).hist := by
  cases a with
  | setLevel e l =>
    simp only [LvSt.step] at he ⊢
    by_cases hi : s.isInit
    · simp only [hi, if_true]; exact ⟨h, ha⟩
    · simp only [hi, Bool.false_eq_true, if_false] at he ⊢
      have hn : e ∉ s.tree.toList := by
        rw [h.mem]; exact he e l s.hist [] rfl
      refine ⟨⟨?_, ?_, ?_⟩, ha.snoc trivial⟩
      · intro x
        simp only [levelOf_snoc, h.lv]
        by_cases hx : x = e
        · subst hx; simp
        · simp [hx, Ne.symm hx]
      · simp only [levelRegs_append]
        simpa [levelRegs] using h.perm
      · refine List.Pairwise.imp_of_mem ?_ h.sorted
        intro a b ha hb hab
        have h1 : a ≠ e := fun h => hn (h ▸ ha)
        have h2 : b ≠ e := fun h => hn (h ▸ hb)
        simpa [lvLess, h1, h2] using hab
  | reg e =>
    simp only [LvSt.step] at he ⊢
    by_cases hi : s.isInit
    · simp only [hi, if_true]; exact ⟨h, ha⟩
    · by_cases hc : e ∈ s.tree.toList
      · simp only [hi, List.contains_iff_mem, hc, if_true]; exact ⟨h, ha⟩
      · have hc' : s.tree.toList.contains e = false := by simpa using hc
        simp only [hi, hc', Bool.false_eq_true, if_false]
        refine ⟨⟨?_, ?_, ?_⟩, ha.snoc trivial⟩
        · intro x; simp only [levelOf_snoc, h.lv]
        · simp only [hb, levelRegs_append]
          refine (LvTree.insert_perm _ hc).trans ?_
          refine (List.Perm.cons e h.perm).trans ?_
          simpa [levelRegs] using (List.perm_append_singleton e (levelRegs s.hist)).symm
        · simp only [hb]
          exact LvTree.insert_sorted _ hc h.sorted
  | init =>
    simp only [LvSt.step]
    split
    · exact ⟨h, ha⟩
    · exact ⟨h.emit _ _ (by simp) (by simp), ha.snoc h.order⟩
  | destroy =>
    simp only [LvSt.step]
    split
    · exact ⟨h.emit _ _ (by simp) (by simp), ha.snoc h.order⟩
    · exact ⟨h, ha⟩
  | find e =>
    refine ⟨h.emit _ s.isInit (by simp) (by simp), ha.snoc ?_⟩
    simp only [LvGood]
    rw [← h.mem]
    constructor
    · intro hr
      by_cases hm : e ∈ s.tree.toList
      · exact hm
      · simp [LvTree.index_not_mem _ hm] at hr
    · intro hm
      have := LvTree.index_mem _ h.sorted hm
      simp only [decide_eq_true_eq]
      intro hl
      rw [hl, List.getElem?_eq_none (by omega)] at this
      cases this
  | index e =>
    refine ⟨h.emit _ s.isInit (by simp) (by simp), ha.snoc ?_⟩
    refine ⟨h.perm.length_eq, ?_⟩
    intro hm
    rw [← h.mem] at hm
    exact ⟨_, h.order, LvTree.index_mem _ h.sorted hm⟩

theorem LvSt.step_hist (bal : LvTree → LvTree) (s : LvSt) (a : LvAct) :
    ∃ k, (s.step bal a).hist = s.hist ++ k := by
  cases a <;> simp only [LvSt.step] <;> (repeat' split) <;>
    first | exact ⟨_, rfl⟩ | exact ⟨[], (List.append_nil _).symm⟩

theorem LvSt.exec_hist (bal : LvTree → LvTree) (acts : List LvAct) (s : LvSt) :
    ∃ k, (s.exec bal acts).hist = s.hist ++ k := by
  induction acts generalizing s with
  | nil => exact ⟨[], by simp [LvSt.exec]⟩
  | cons a l ih =>
    obtain ⟨k, hk⟩ := ih (s.step bal a)
    obtain ⟨k', hk'⟩ := s.step_hist bal a
    exact ⟨k' ++ k, by simp only [LvSt.exec]; rw [hk, hk']; simp⟩

theorem LvInv.exec {bal : LvTree → LvTree} (hb : ∀ t, (bal t).toList = t.toList) (acts : List LvAct) {s : LvSt}
    (h : LvInv s) (ha : LvAll s.hist) (he : LevelsEarly (s.exec bal acts).hist) :
    LvInv (s.exec bal acts) ∧ LvAll (s.exec bal acts).hist := by
  induction acts generalizing s with
  | nil => exact ⟨h, ha⟩
  | cons a l ih =>
    simp only [LvSt.exec] at he ⊢
    obtain ⟨k, hk⟩ := LvSt.exec_hist bal l (s.step bal a)
    have h1 := h.step hb ha a (Spec.LevelsEarly.of_append (hk ▸ he))
    exact ih h1.1 h1.2 he

theorem LvInv.start : LvInv LvSt.start := ⟨fun _ => rfl, List.Perm.refl _, List.Pairwise.nil⟩

theorem LvAll.start : LvAll LvSt.start.hist := by
  intro p x q h
  simp [LvSt.start] at h

end CGraph
