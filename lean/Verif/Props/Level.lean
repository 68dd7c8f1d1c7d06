import Verif.Lemmas.Level
import Mathlib.Tactic.ByContra
import Mathlib.Tactic.IntervalCases

/-! # Levels order `init` and `destroy`: C79 -/
namespace CGraph
namespace LvSt
open Spec

/-- **C79** (order).  However the tree is rebalanced and whatever calls are made: if no level is set after the element was
registered, each `init` and each `destroy` of the pipeline calls every registered element once, smaller levels first.
Missing for the full property: `setLevel` accepts a level after the registration (`C79_order_violated`). -/
theorem C79_order_partial (bal : LvTree → LvTree) (hb : ∀ t, (bal t).toList = t.toList) (acts : List LvAct)
    (he : LevelsEarly (start.exec bal acts).hist) (p q : List LvEv) (l : List Nat)
    (h : (start.exec bal acts).hist = p ++ .inits l :: q ∨ (start.exec bal acts).hist = p ++ .destroys l :: q) :
    LevelOrder p l := by
  have hi := (LvInv.start.exec hb acts LvAll.start he).2
  rcases h with h | h
  · exact hi p _ q h
  · exact hi p _ q h

/-- **C79** (search).  Under the same condition `find` tells exactly what is registered, and the row that the optimizer
takes for a registered element is inside the matrix and is that of the element. -/
theorem C79_find_partial (bal : LvTree → LvTree) (hb : ∀ t, (bal t).toList = t.toList) (acts : List LvAct)
    (he : LevelsEarly (start.exec bal acts).hist) (p q : List LvEv) (e : Nat) :
    (∀ r, (start.exec bal acts).hist = p ++ .found e r :: q → (r = true ↔ e ∈ levelRegs p)) ∧
    (∀ i n, (start.exec bal acts).hist = p ++ .index e i n :: q → e ∈ levelRegs p →
      i < n ∧ n = (levelRegs p).length ∧ ∃ order, LevelOrder p order ∧ order[i]? = some e) := by
  have hi := (LvInv.start.exec hb acts LvAll.start he).2
  refine ⟨fun r h => hi p _ q h, ?_⟩
  intro i n h hm
  obtain ⟨h1, h2⟩ := hi p _ q h
  obtain ⟨order, ho, hg⟩ := h2 hm
  refine ⟨?_, h1, order, ho, hg⟩
  rw [h1, ← ho.all.length_eq]
  by_contra hlt
  rw [List.getElem?_eq_none (by omega)] at hg
  cases hg

/-- Two elements are registered and then the level of the one with the smaller address is set. -/
def lateLevel (a b : Nat) (l : Int) : List LvAct := [.reg a, .reg b, .setLevel a l]

theorem two_shapes {t : LvTree} {a b : Nat} (h : t.toList = [a, b]) :
    t = .node .leaf a (.node .leaf b .leaf) ∨ t = .node (.node .leaf a .leaf) b .leaf := by
  have nil : ∀ t : LvTree, t.toList = [] → t = .leaf := by
    intro t ht
    cases t with
    | leaf => rfl
    | node l x r => simp [LvTree.toList] at ht
  have one : ∀ (t : LvTree) (x : Nat), t.toList = [x] → t = .node .leaf x .leaf := by
    intro t x ht
    cases t with
    | leaf => simp [LvTree.toList] at ht
    | node l y r =>
      simp only [LvTree.toList] at ht
      cases hl : l.toList with
      | nil =>
        rw [hl] at ht
        simp only [List.nil_append, List.cons.injEq] at ht
        rw [nil l hl, nil r ht.2, ht.1]
      | cons z m =>
        rw [hl] at ht
        have := congrArg List.length ht
        simp at this
  cases t with
  | leaf => simp [LvTree.toList] at h
  | node l x r =>
    simp only [LvTree.toList] at h
    cases hl : l.toList with
    | nil =>
      rw [hl] at h
      simp only [List.nil_append, List.cons.injEq] at h
      left; rw [nil l hl, one r b h.2, h.1]
    | cons z m =>
      rw [hl] at h
      cases m with
      | nil =>
        simp only [List.cons_append, List.nil_append, List.cons.injEq] at h
        right; rw [one l z hl, nil r h.2.2, h.1, h.2.1]
      | cons w k =>
        have := congrArg List.length h
        simp at this

theorem late_state (bal : LvTree → LvTree) (hb : ∀ t, (bal t).toList = t.toList) {a b : Nat} (hab : a < b) (l : Int) :
    (start.exec bal (lateLevel a b l)).tree.toList = [a, b] ∧
    (start.exec bal (lateLevel a b l)).hist = [.reg a, .reg b, .level a l] ∧
    (start.exec bal (lateLevel a b l)).isInit = false ∧
    (start.exec bal (lateLevel a b l)).lv a = l ∧ (start.exec bal (lateLevel a b l)).lv b = 0 := by
  have h1 : (bal (LvTree.leaf.insert (fun _ => 0) a)).toList = [a] := by rw [hb]; rfl
  have h0 : (start.step bal (.reg a)) = ⟨fun _ => 0, bal (LvTree.leaf.insert (fun _ => 0) a), false, [.reg a]⟩ := by
    simp [step, start, LvTree.toList]
  have hn : b ∉ (bal (LvTree.leaf.insert (fun _ => 0) a)).toList := by rw [h1]; simp; omega
  have h2 : (bal ((bal (LvTree.leaf.insert (fun _ => 0) a)).insert (fun _ => 0) b)).toList = [a, b] := by
    rw [hb]
    have hp := LvTree.insert_perm (lv := fun _ => 0) _ hn
    have hs := LvTree.insert_sorted (lv := fun _ => 0) _ hn (by rw [h1]; simp [LvSorted])
    rw [h1] at hp
    have hlen := hp.length_eq
    match hL : ((bal (LvTree.leaf.insert (fun _ => 0) a)).insert (fun _ => 0) b).toList with
    | [x, y] =>
      rw [hL] at hp hs
      have hx := (hp.mem_iff (a := x)).mp (by simp)
      have hy := (hp.mem_iff (a := y)).mp (by simp)
      have hxy : x < y := by simpa [LvSorted, lvLess] using hs
      simp only [List.mem_cons, List.not_mem_nil, or_false] at hx hy
      have : x = a ∧ y = b := by omega
      rw [this.1, this.2]
    | [] => rw [hL] at hlen; simp at hlen
    | [x] => rw [hL] at hlen; simp at hlen
    | x :: y :: z :: w => rw [hL] at hlen; simp at hlen
  have hc : (bal (LvTree.leaf.insert (fun _ => 0) a)).toList.contains b = false := by simpa using hn
  have h3 : start.exec bal (lateLevel a b l) =
      ⟨fun x => if x = a then l else 0, bal ((bal (LvTree.leaf.insert (fun _ => 0) a)).insert (fun _ => 0) b), false,
        [.reg a, .reg b, .level a l]⟩ := by
    simp only [lateLevel, exec, h0]
    simp only [step, hc, Bool.false_eq_true, if_false, List.cons_append, List.nil_append]
  rw [h3]
  refine ⟨h2, rfl, rfl, by simp, ?_⟩
  have : b ≠ a := by omega
  simp [this]

/-- **C79 is false of the code** (order).  For any two elements and any positive level: when the level is set after the
registration, `init` calls the element with the larger level first. -/
theorem C79_order_violated (bal : LvTree → LvTree) (hb : ∀ t, (bal t).toList = t.toList) {a b : Nat} (hab : a < b)
    {l : Int} (hl : 0 < l) :
    ∃ p order, (start.exec bal (lateLevel a b l ++ [.init])).hist = p ++ [.inits order] ∧ ¬ LevelOrder p order := by
  obtain ⟨h1, h2, h3, -, -⟩ := late_state bal hb hab l
  have he : start.exec bal (lateLevel a b l ++ [.init]) = (start.exec bal (lateLevel a b l)).step bal .init := rfl
  refine ⟨[.reg a, .reg b, .level a l], [a, b], ?_, ?_⟩
  · rw [he]
    simp only [step, h3, h1, h2]
    rfl
  · intro ho
    have := ho.sorted
    have hba : b ≠ a := by omega
    simp [levelBefore, levelOf, Ne.symm hba] at this
    omega

/-- **C79 is false of the code** (search).  In the same situation one of the two registered elements is not found, and the
optimizer takes for it a row outside of its matrix. -/
theorem C79_find_violated (bal : LvTree → LvTree) (hb : ∀ t, (bal t).toList = t.toList) {a b : Nat} (hab : a < b)
    {l : Int} (hl : 0 < l) :
    ∃ e p, (start.exec bal (lateLevel a b l ++ [.find e, .index e])).hist = p ++ [.found e false, .index e 2 2] ∧
      e ∈ levelRegs p := by
  obtain ⟨h1, h2, h3, h4, h5⟩ := late_state bal hb hab l
  have key : ∀ e, (start.exec bal (lateLevel a b l)).tree.index (start.exec bal (lateLevel a b l)).lv e = 2 →
      (start.exec bal (lateLevel a b l ++ [.find e, .index e])).hist =
        [.reg a, .reg b, .level a l] ++ [.found e false, .index e 2 2] := by
    intro e hi
    have he : start.exec bal (lateLevel a b l ++ [.find e, .index e]) =
        ((start.exec bal (lateLevel a b l)).step bal (.find e)).step bal (.index e) := rfl
    rw [he]
    simp only [step, hi, h1, h2]
    rfl
  rcases two_shapes h1 with ht | ht
  · refine ⟨b, _, key b ?_, by simp [levelRegs]⟩
    rw [ht]
    have : lvLess (start.exec bal (lateLevel a b l)).lv b a = true := by rw [lvLess_iff, h4, h5]; omega
    simp [LvTree.index, this, LvTree.toList]
  · refine ⟨a, _, key a ?_, by simp [levelRegs]⟩
    rw [ht]
    have hba : lvLess (start.exec bal (lateLevel a b l)).lv b a = true := by rw [lvLess_iff, h4, h5]; omega
    have hab' : lvLess (start.exec bal (lateLevel a b l)).lv a b = false := lvLess_asymm hba
    simp [LvTree.index, hba, hab', LvTree.toList]

/-- Four elements, levels set before their registration, one changed while not registered; a level set while the pipeline
is initialised is refused. -/
def lvDemo : List LvAct :=
  [.setLevel 7 2, .reg 7, .setLevel 3 5, .setLevel 3 (-1), .reg 9, .reg 3, .setLevel 4 2, .reg 4, .find 9, .find 5, .init,
   .setLevel 9 8, .index 7, .destroy]

example : (start.exec id lvDemo).hist =
    [.level 7 2, .reg 7, .level 3 5, .level 3 (-1), .reg 9, .reg 3, .level 4 2, .reg 4, .found 9 true, .found 5 false,
     .inits [3, 9, 4, 7], .index 7 3 4, .destroys [3, 9, 4, 7]] := by decide +kernel

example : LevelsEarly (start.exec id lvDemo).hist := by
  have h : (start.exec id lvDemo).hist = [.level 7 2, .reg 7, .level 3 5, .level 3 (-1), .reg 9, .reg 3, .level 4 2, .reg 4,
     .found 9 true, .found 5 false, .inits [3, 9, 4, 7], .index 7 3 4, .destroys [3, 9, 4, 7]] := by decide +kernel
  rw [h]
  intro e l p q hp
  have hlen := congrArg List.length hp
  simp at hlen
  have : p.length < 13 := by omega
  have hg := congrArg (fun x => x[p.length]?) hp
  have htk := congrArg (fun x => x.take p.length) hp
  simp only [List.getElem?_append_right (Nat.le_refl _), Nat.sub_self, List.getElem?_cons_zero,
    List.take_left] at hg htk
  clear hp h hlen
  generalize p.length = n at this hg htk
  subst htk
  interval_cases n <;> simp at hg <;> obtain ⟨rfl, rfl⟩ := hg <;> simp [levelRegs]

end LvSt
end CGraph
