import Verif.Spec.Mutable
import Verif.Lemmas.Graph
import Verif.Lemmas.Kahn
import Mathlib.Tactic.SplitIfs

/-! # Lemmas for mutable groups -/
namespace CGraph
open Spec

namespace Heap

theorem mutableSetup_elt (cs : List Eid) (h : Heap) (a : Eid) :
    (h.mutableSetup cs).elt a =
      if a ∈ cs then { h.elt a with deps := [], succs := [] } else h.elt a := by
  induction cs generalizing h with
  | nil => simp [mutableSetup]
  | cons c cs ih =>
    simp only [mutableSetup]
    rw [ih]
    simp only [upd]
    by_cases h1 : a ∈ cs <;> by_cases h2 : a = c <;> simp [h1, h2]

/-- One element added as a dependency. -/
theorem addDepend_one (h : Heap) (b a : Eid) :
    h.addDepend b [some a] =
      if (!h.isMutable b && (h.elt b).isInit) = true then (h, false)
      else if (h.elt a).belong ≠ (h.elt b).belong then (h, false)
      else if b = a then (h.storeLeft b, true)
      else ((h.link b a).storeLeft b, true) := by
  simp only [addDepend, addLoop]

theorem storeLeft_elt (h : Heap) (b x : Eid) :
    ((h.storeLeft b).elt x) = if x = b then { h.elt x with left := (h.elt x).deps.length } else h.elt x := by
  unfold storeLeft upd
  by_cases hx : x = b
  · subst hx; simp
  · simp [hx]

theorem link_elt (h : Heap) {b a : Eid} (hne : b ≠ a) (x : Eid) :
    ((h.link b a).elt x) =
      if x = a then { h.elt x with succs := insertU (h.elt x).succs b }
      else if x = b then { h.elt x with deps := insertU (h.elt x).deps a } else h.elt x := by
  unfold link upd
  by_cases h1 : x = a
  · subst h1; simp [Ne.symm hne]
  · by_cases h2 : x = b
    · subst h2; simp [hne]
    · simp [h1, h2]

end Heap

theorem lastWord_nil {α β : Type} (f : α → Option β) (d : β) : lastWord f d [] = d := rfl

theorem lastWord_cons {α β : Type} (f : α → Option β) (d : β) (x : α) (l : List α) :
    lastWord f d (x :: l) = lastWord f ((f x).getD d) l := by
  unfold lastWord
  cases hx : f x with
  | none => rw [List.filterMap_cons_none hx]; rfl
  | some y =>
    rw [List.filterMap_cons_some hx]
    cases hl : l.filterMap f with
    | nil => rfl
    | cons z zs => rw [List.getLast?_cons_cons]; rw [List.getLast?_eq_some_getLast (by simp)]; rfl

namespace Spec

/-! ## What the calls do not change -/

theorem MuSame.refl (s : MuSt) : MuSame s s := ⟨rfl, rfl, rfl, rfl, fun _ => rfl, fun _ => rfl, fun _ => rfl⟩

theorem MuSame.trans {s t u : MuSt} (h1 : MuSame s t) (h2 : MuSame t u) : MuSame s u :=
  ⟨h2.group.trans h1.group, h2.children.trans h1.children, h2.timed.trans h1.timed, h2.bind.trans h1.bind,
   fun e => (h2.belong e).trans (h1.belong e), fun e => (h2.isInit e).trans (h1.isInit e),
   fun e => (h2.isMut e).trans (h1.isMut e)⟩

theorem MuSame.symm {s t : MuSt} (h : MuSame s t) : MuSame t s :=
  ⟨h.group.symm, h.children.symm, h.timed.symm, h.bind.symm, fun e => (h.belong e).symm, fun e => (h.isInit e).symm,
   fun e => (h.isMut e).symm⟩

end Spec

namespace MuSt

theorem setVis_same (s : MuSt) (e : Eid) (v : Bool) : MuSame s (s.setVis e v).1 := by
  unfold setVis; split_ifs
  · exact MuSame.refl s
  · exact ⟨rfl, rfl, rfl, rfl, fun _ => rfl, fun _ => rfl, fun _ => rfl⟩

theorem putLoop_same (s : MuSt) (e : Eid) (n : Nat) : MuSame s (s.putLoop e n).1 := by
  unfold putLoop; split_ifs
  · exact MuSame.refl s
  · exact MuSame.refl s
  · exact ⟨rfl, rfl, rfl, rfl, fun _ => rfl, fun _ => rfl, fun _ => rfl⟩

theorem heap_same (s : MuSt) (b a : Eid) : MuSame s { s with h := (s.h.addDepend b [some a]).1 } := by
  have key : ∀ x, ((s.h.addDepend b [some a]).1.elt x).belong = (s.h.elt x).belong ∧
      ((s.h.addDepend b [some a]).1.elt x).isInit = (s.h.elt x).isInit ∧
      ((s.h.addDepend b [some a]).1.elt x).isMutableGroup = (s.h.elt x).isMutableGroup := by
    intro x
    rw [Heap.addDepend_one]
    split_ifs with h1 h2 h3
    · exact ⟨rfl, rfl, rfl⟩
    · exact ⟨rfl, rfl, rfl⟩
    · simp only [Heap.storeLeft_elt]; split_ifs <;> exact ⟨rfl, rfl, rfl⟩
    · simp only [Heap.storeLeft_elt, Heap.link_elt _ h3]; split_ifs <;> exact ⟨rfl, rfl, rfl⟩
  exact ⟨rfl, rfl, rfl, rfl, fun x => (key x).1, fun x => (key x).2.1, fun x => (key x).2.2⟩

theorem greater_same (s : MuSt) (a : Eid) (b : Option Eid) : MuSame s (s.greater a b).1 := by
  cases b with
  | none => exact MuSame.refl s
  | some b =>
    simp only [greater]
    split_ifs
    · exact MuSame.refl s
    · exact heap_same s b a
    · exact (heap_same s b a).trans (setVis_same _ a true)
    · exact ((heap_same s b a).trans (setVis_same _ a true)).trans (setVis_same _ b true)

theorem call_same (s : MuSt) (o : RsOp) : MuSame s (s.call o).1 := by
  cases o with
  | arrow a b => exact (setVis_same s a true).trans (greater_same _ a b)
  | «show» a => exact setVis_same s a true
  | times a n => exact putLoop_same s a n
  | setLoop a n => exact putLoop_same s a n
  | setVisible a v => exact setVis_same s a v

theorem calls_same (s : MuSt) (ops : List RsOp) : MuSame s (s.calls ops).1 := by
  induction ops generalizing s with
  | nil => exact MuSame.refl s
  | cons o l ih =>
    simp only [calls]
    split_ifs
    · exact (call_same s o).trans (ih _)
    · exact call_same s o

theorem setup_same (s : MuSt) : MuSame s s.setup := by
  refine ⟨rfl, rfl, rfl, rfl, ?_, ?_, ?_⟩ <;> intro e <;> simp only [setup] <;> rw [Heap.mutableSetup_elt] <;>
    split_ifs <;> rfl

theorem resetLeft_same (s : MuSt) : MuSame s s.resetLeft := by
  refine ⟨rfl, rfl, rfl, rfl, ?_, ?_, ?_⟩ <;> intro e <;> simp only [resetLeft] <;> split_ifs <;> rfl

/-! ## Calls in closed form -/

theorem frozen_same {s t : MuSt} (h : MuSame s t) (e : Eid) : t.frozen e = s.frozen e := by
  unfold frozen Heap.isMutable
  rw [h.belong e, h.isInit e]
  cases (s.h.elt e).belong with
  | none => rfl
  | some b => simp only [h.isMut b]

theorem frozen_child {s : MuSt} (w : MuWF s) {e : Eid} (he : e ∈ s.children) : s.frozen e = false := by
  unfold frozen Heap.isMutable
  rw [(w.belong e).mpr he]
  simp [w.isMut]

/-- Whether an arrow is accepted. -/
def arrowOk (s : MuSt) (a b : Eid) : Bool :=
  !s.frozen a && !s.frozen b && decide ((s.h.elt a).belong = (s.h.elt b).belong)

/-- The relations after an accepted arrow. -/
def linked (h : Heap) (a b : Eid) : Heap := if b = a then h.storeLeft b else (h.link b a).storeLeft b

theorem arrow_ok {s : MuSt} {a b : Eid} (h : s.arrowOk a b = true) :
    s.call (.arrow a (some b)) =
      ({ s with h := linked s.h a b, vis := fun x => if x = b then true else if x = a then true else s.vis x }, true) := by
  simp only [arrowOk, Bool.and_eq_true, Bool.not_eq_true', decide_eq_true_eq] at h
  obtain ⟨⟨ha, hb⟩, hab⟩ := h
  have hb' : (!s.h.isMutable b && (s.h.elt b).isInit) = false := hb
  have hd : s.h.addDepend b [some a] = (linked s.h a b, true) := by
    rw [Heap.addDepend_one, hb']
    unfold linked
    simp only [Bool.false_eq_true, if_false, ne_eq, hab, not_true]
    split_ifs <;> rfl
  have hv : s.setVis a true = ({ s with vis := fun x => if x = a then true else s.vis x }, true) := by
    unfold setVis; rw [ha]; rfl
  have same : MuSame s { s with h := linked s.h a b, vis := fun x => if x = a then true else s.vis x } := by
    have := heap_same s b a
    rw [hd] at this
    exact ⟨rfl, rfl, rfl, rfl, this.belong, this.isInit, this.isMut⟩
  have fa : ({ s with vis := fun x => if x = a then true else s.vis x } : MuSt).frozen a = false := by
    exact ha
  have fa2 := frozen_same same a
  have fb2 := frozen_same same b
  rw [ha] at fa2
  rw [hb] at fb2
  simp only [call, hv, greater, fa, hd, Bool.false_eq_true, if_false, Bool.not_true]
  have e1 : ({ s with h := linked s.h a b, vis := fun x => if x = a then true else s.vis x } : MuSt).setVis a true =
      ({ s with h := linked s.h a b, vis := fun x => if x = a then true else s.vis x }, true) := by
    unfold setVis
    rw [fa2]
    simp only [Bool.false_eq_true, if_false]
    congr 2
    funext x
    by_cases hx : x = a <;> simp [hx]
  rw [e1]
  simp only [Bool.not_true, Bool.false_eq_true, if_false]
  unfold setVis
  rw [fb2]
  rfl

theorem arrow_bad {s : MuSt} {a b : Eid} (h : s.arrowOk a b = false) :
    s.call (.arrow a (some b)) = ((s.setVis a true).1, false) := by
  have same := setVis_same s a true
  simp only [call, greater]
  rw [frozen_same same a]
  by_cases ha : s.frozen a = true
  · rw [if_pos ha]
  · rw [if_neg ha]
    have hh : (s.setVis a true).1.h = s.h := by unfold setVis; split_ifs <;> rfl
    rw [hh, Heap.addDepend_one]
    simp only [Bool.not_eq_true] at ha
    by_cases hb : s.frozen b = true
    · have hb' : (!s.h.isMutable b && (s.h.elt b).isInit) = true := hb
      rw [if_pos hb']
      simp only [Bool.not_false, if_true, ← hh]
    · have hb' : ¬ (!s.h.isMutable b && (s.h.elt b).isInit) = true := hb
      have hab : (s.h.elt a).belong ≠ (s.h.elt b).belong := by
        intro he
        simp [arrowOk, ha, hb, he] at h
      rw [if_neg hb', if_pos hab]
      simp only [Bool.not_false, if_true, ← hh]

theorem linked_deps (h : Heap) (a b x : Eid) :
    ((linked h a b).elt x).deps = if x = b ∧ a ≠ b then Heap.insertU (h.elt x).deps a else (h.elt x).deps := by
  unfold linked
  by_cases hab : b = a
  · rw [if_pos hab, Heap.storeLeft_elt]
    have : ¬ (x = b ∧ a ≠ b) := fun hc => hc.2 hab.symm
    rw [if_neg this]; split_ifs <;> rfl
  · rw [if_neg hab, Heap.storeLeft_elt, Heap.link_elt _ hab]
    by_cases h1 : x = b
    · subst h1
      have : ¬ x = a := hab
      have h2 : a ≠ x := Ne.symm hab
      simp [this, h2]
    · by_cases h2 : x = a <;> simp [h1, h2] <;> split_ifs <;> rfl

theorem linked_succs (h : Heap) (a b x : Eid) :
    ((linked h a b).elt x).succs = if x = a ∧ a ≠ b then Heap.insertU (h.elt x).succs b else (h.elt x).succs := by
  unfold linked
  by_cases hab : b = a
  · rw [if_pos hab, Heap.storeLeft_elt]
    have : ¬ (x = a ∧ a ≠ b) := fun hc => hc.2 hab.symm
    rw [if_neg this]; split_ifs <;> rfl
  · rw [if_neg hab, Heap.storeLeft_elt, Heap.link_elt _ hab]
    by_cases h1 : x = a
    · subst h1
      have : ¬ x = b := fun hc => hab hc.symm
      simp [this]
    · by_cases h2 : x = b
      · subst h2; simp [hab]
      · simp [h1, h2]

/-! ## Well-formedness is kept -/

theorem wf_of_heap {s t : MuSt} (w : MuWF s) (same : MuSame s t) (hd : ∀ e, (t.h.elt e).deps = (s.h.elt e).deps)
    (hs : ∀ e, (t.h.elt e).succs = (s.h.elt e).succs) : MuWF t := by
  refine ⟨?_, ?_, ?_, ?_, ?_, ?_, ?_, ?_, ?_⟩
  · rw [same.children]; exact w.nodup
  · intro e; rw [same.belong, same.group, same.children]; exact w.belong e
  · rw [same.isMut, same.group]; exact w.isMut
  · intro a b; rw [hd, hs]; exact w.sym a b
  · intro e; rw [hd]; exact w.dn e
  · intro e; rw [hs]; exact w.sn e
  · intro e; rw [hd]; exact w.irr e
  · intro e he; rw [hd]; rw [same.children] at *; exact w.inD e he
  · intro e he; rw [hs]; rw [same.children] at *; exact w.inS e he

theorem setVis_h (s : MuSt) (e : Eid) (v : Bool) : (s.setVis e v).1.h = s.h := by unfold setVis; split_ifs <;> rfl
theorem putLoop_h (s : MuSt) (e : Eid) (n : Nat) : (s.putLoop e n).1.h = s.h := by unfold putLoop; split_ifs <;> rfl

theorem wf_linked {s : MuSt} (w : MuWF s) {a b : Eid} (h : s.arrowOk a b = true) (v : Eid → Bool) :
    MuWF { s with h := linked s.h a b, vis := v } := by
  have hab : (s.h.elt a).belong = (s.h.elt b).belong := by
    simp only [arrowOk, Bool.and_eq_true, decide_eq_true_eq] at h; exact h.2
  have hch : a ∈ s.children ↔ b ∈ s.children := by rw [← w.belong, ← w.belong, hab]
  have same : MuSame s { s with h := linked s.h a b, vis := v } := by
    have := heap_same s b a
    have hd : (s.h.addDepend b [some a]).1 = linked s.h a b := by
      simp only [arrowOk, Bool.and_eq_true, Bool.not_eq_true', decide_eq_true_eq] at h
      have hb' : (!s.h.isMutable b && (s.h.elt b).isInit) = false := h.1.2
      rw [Heap.addDepend_one, hb']
      unfold linked
      simp only [Bool.false_eq_true, if_false, ne_eq, hab, not_true]
      split_ifs <;> rfl
    rw [hd] at this
    exact ⟨rfl, rfl, rfl, rfl, this.belong, this.isInit, this.isMut⟩
  refine ⟨w.nodup, ?_, ?_, ?_, ?_, ?_, ?_, ?_, ?_⟩
  · intro e; rw [same.belong]; exact w.belong e
  · rw [same.isMut]; exact w.isMut
  · intro x y
    simp only [linked_deps, linked_succs]
    have := w.sym x y
    have hm := Heap.mem_insertU
    split_ifs <;> grind
  · intro e; simp only [linked_deps]; split_ifs
    · exact Heap.nodup_insertU (w.dn e) _
    · exact w.dn e
  · intro e; simp only [linked_succs]; split_ifs
    · exact Heap.nodup_insertU (w.sn e) _
    · exact w.sn e
  · intro e; simp only [linked_deps]
    have := w.irr e
    split_ifs
    · simp only [Heap.mem_insertU]; grind
    · exact this
  · intro e he d; simp only [linked_deps]
    have := w.inD e he d
    split_ifs
    · simp only [Heap.mem_insertU]; grind
    · exact this
  · intro e he d; simp only [linked_succs]
    have := w.inS e he d
    split_ifs
    · simp only [Heap.mem_insertU]; grind
    · exact this

theorem call_wf {s : MuSt} (w : MuWF s) (o : RsOp) : MuWF (s.call o).1 := by
  have vis : ∀ e v, MuWF (s.setVis e v).1 := fun e v =>
    wf_of_heap w (setVis_same s e v) (fun _ => by rw [setVis_h]) (fun _ => by rw [setVis_h])
  have lp : ∀ e n, MuWF (s.putLoop e n).1 := fun e n =>
    wf_of_heap w (putLoop_same s e n) (fun _ => by rw [putLoop_h]) (fun _ => by rw [putLoop_h])
  cases o with
  | arrow a b =>
    cases b with
    | none => exact vis a true
    | some b =>
      cases h : s.arrowOk a b with
      | true => rw [arrow_ok h]; exact wf_linked w h _
      | false => rw [arrow_bad h]; exact vis a true
  | «show» a => exact vis a true
  | times a n => exact lp a n
  | setLoop a n => exact lp a n
  | setVisible a v => exact vis a v

theorem calls_wf {s : MuSt} (w : MuWF s) (ops : List RsOp) : MuWF (s.calls ops).1 := by
  induction ops generalizing s with
  | nil => exact w
  | cons o l ih =>
    simp only [calls]
    split_ifs
    · exact ih (call_wf w o)
    · exact call_wf w o

theorem setup_wf {s : MuSt} (w : MuWF s) : MuWF s.setup := by
  have same := setup_same s
  have hd : ∀ e, (s.setup.h.elt e).deps = if e ∈ s.children then [] else (s.h.elt e).deps := by
    intro e; simp only [setup]; rw [Heap.mutableSetup_elt]; split_ifs <;> rfl
  have hs : ∀ e, (s.setup.h.elt e).succs = if e ∈ s.children then [] else (s.h.elt e).succs := by
    intro e; simp only [setup]; rw [Heap.mutableSetup_elt]; split_ifs <;> rfl
  refine ⟨w.nodup, ?_, ?_, ?_, ?_, ?_, ?_, ?_, ?_⟩
  · intro e; rw [same.belong]; exact w.belong e
  · rw [same.isMut]; exact w.isMut
  · intro x y
    rw [hd, hs]
    have h1 := w.sym x y
    have h2 := w.inS x
    have h3 := w.inD y
    split_ifs <;> grind
  · intro e; rw [hd]; have := w.dn e; split_ifs <;> simp [*]
  · intro e; rw [hs]; have := w.sn e; split_ifs <;> simp [*]
  · intro e; rw [hd]; have := w.irr e; split_ifs <;> simp [*]
  · intro e he d; rw [hd, if_pos (show e ∈ s.children from he)]; simp
  · intro e he d; rw [hs, if_pos (show e ∈ s.children from he)]; simp

theorem resetLeft_deps (s : MuSt) (e : Eid) : (s.resetLeft.h.elt e).deps = (s.h.elt e).deps := by
  simp only [resetLeft]; split_ifs <;> rfl
theorem resetLeft_succs (s : MuSt) (e : Eid) : (s.resetLeft.h.elt e).succs = (s.h.elt e).succs := by
  simp only [resetLeft]; split_ifs <;> rfl

theorem engSetup_same (s : MuSt) (thd : Nat) : MuSame s (s.engSetup thd).1 := by
  have h := resetLeft_same s
  unfold engSetup
  split_ifs
  · exact h
  · split
    · split <;> exact ⟨rfl, rfl, rfl, rfl, h.belong, h.isInit, h.isMut⟩
    · exact ⟨rfl, rfl, rfl, rfl, h.belong, h.isInit, h.isMut⟩

theorem engSetup_h (s : MuSt) (thd : Nat) : (s.engSetup thd).1.h = s.resetLeft.h := by
  unfold engSetup
  split_ifs
  · rfl
  · split
    · split <;> rfl
    · rfl

theorem engSetup_wf {s : MuSt} (w : MuWF s) (thd : Nat) : MuWF (s.engSetup thd).1 :=
  wf_of_heap w (engSetup_same s thd) (fun e => by rw [engSetup_h]; exact resetLeft_deps s e)
    (fun e => by rw [engSetup_h]; exact resetLeft_succs s e)

theorem run_wf {s : MuSt} (w : MuWF s) (ops : List RsOp) (code : Int) (thd : Nat) : MuWF (s.run ops code thd).1 := by
  unfold run
  simp only
  split_ifs
  · exact calls_wf (setup_wf w) ops
  · exact engSetup_wf (calls_wf (setup_wf w) ops) thd

theorem run_same (s : MuSt) (ops : List RsOp) (code : Int) (thd : Nat) : MuSame s (s.run ops code thd).1 := by
  unfold run
  simp only
  split_ifs
  · exact (setup_same s).trans (calls_same _ ops)
  · exact ((setup_same s).trans (calls_same _ ops)).trans (engSetup_same _ thd)

/-! ## What `reshape` builds -/

/-- An accepted call, on a child. -/
theorem call_effect {s : MuSt} (w : MuWF s) {o : RsOp} (hok : (s.call o).2 = true) {e : Eid} (he : e ∈ s.children) :
    (∀ d, d ∈ ((s.call o).1.h.elt e).deps ↔ d ∈ (s.h.elt e).deps ∨ (o = .arrow d (some e) ∧ d ≠ e)) ∧
    (s.call o).1.vis e = (saysVis e o).getD (s.vis e) ∧
    (s.call o).1.loop e = (saysLoop (s.timed e) e o).getD (s.loop e) := by
  have hfe := frozen_child w he
  have vis : ∀ a v, (s.setVis a v).1.vis e = if a = e then v else s.vis e := by
    intro a v
    unfold setVis
    by_cases hae : a = e
    · subst hae; rw [hfe]; simp
    · split_ifs
      · rfl
      · simp [Ne.symm hae]
  have visL : ∀ a v, (s.setVis a v).1.loop e = s.loop e := by
    intro a v; unfold setVis; split_ifs <;> rfl
  have lpV : ∀ a n, (s.putLoop a n).1.vis e = s.vis e := by
    intro a n; unfold putLoop; split_ifs <;> rfl
  have lp : ∀ a n, (s.putLoop a n).1.loop e = if a = e ∧ (s.timed e = true → n = 1) then n else s.loop e := by
    intro a n
    unfold putLoop
    by_cases hae : a = e
    · subst hae
      rw [hfe]
      by_cases ht : s.timed a = true
      · by_cases hn : n = 1
        · subst hn; simp
        · simp [ht, hn]
      · simp [ht]
    · have : ¬ (a = e ∧ (s.timed e = true → n = 1)) := fun h => hae h.1
      rw [if_neg this]
      split_ifs
      · rfl
      · rfl
      · simp [Ne.symm hae]
  cases o with
  | arrow a b =>
    cases b with
    | none => simp [call, greater] at hok
    | some b =>
      cases h : s.arrowOk a b with
      | false => rw [arrow_bad h] at hok; simp at hok
      | true =>
        rw [arrow_ok h]
        refine ⟨?_, ?_, rfl⟩
        · intro d
          simp only [linked_deps]
          by_cases hc : e = b ∧ a ≠ b
          · obtain ⟨rfl, hne⟩ := hc
            rw [if_pos ⟨rfl, hne⟩, Heap.mem_insertU]
            constructor
            · rintro (h1 | rfl)
              · exact .inl h1
              · exact .inr ⟨rfl, hne⟩
            · rintro (h1 | ⟨h1, -⟩)
              · exact .inl h1
              · injection h1 with h1 h2; exact .inr h1.symm
          · rw [if_neg hc]
            constructor
            · exact .inl
            · rintro (h1 | ⟨h1, h2⟩)
              · exact h1
              · injection h1 with h3 h4
                injection h4 with h4
                subst h3 h4
                exact absurd ⟨rfl, h2⟩ hc
        · simp only [saysVis, Option.some.injEq]
          by_cases h1 : e = b
          · subst h1; simp
          · by_cases h2 : e = a
            · subst h2; simp [h1]
            · simp [h1, h2, Ne.symm h1, Ne.symm h2]
  | «show» a =>
    refine ⟨?_, ?_, visL a true⟩
    · intro d; simp only [call, setVis_h]; simp
    · simp only [call, vis, saysVis]; split_ifs <;> rfl
  | times a n =>
    refine ⟨?_, lpV a n, ?_⟩
    · intro d; simp only [call, putLoop_h]; simp
    · simp only [call, lp, saysLoop]; split_ifs <;> rfl
  | setLoop a n =>
    refine ⟨?_, lpV a n, ?_⟩
    · intro d; simp only [call, putLoop_h]; simp
    · simp only [call, lp, saysLoop]; split_ifs <;> rfl
  | setVisible a v =>
    refine ⟨?_, ?_, visL a v⟩
    · intro d; simp only [call, setVis_h]; simp
    · simp only [call, vis, saysVis]; split_ifs <;> rfl

theorem calls_effect {s : MuSt} (w : MuWF s) {ops : List RsOp} (hok : (s.calls ops).2 = true) {e : Eid}
    (he : e ∈ s.children) :
    (∀ d, d ∈ ((s.calls ops).1.h.elt e).deps ↔ d ∈ (s.h.elt e).deps ∨ Arrows ops d e) ∧
    (s.calls ops).1.vis e = lastWord (saysVis e) (s.vis e) ops ∧
    (s.calls ops).1.loop e = lastWord (saysLoop (s.timed e) e) (s.loop e) ops := by
  induction ops generalizing s with
  | nil => exact ⟨fun d => ⟨.inl, fun h => h.elim id (fun h => absurd h.1 (by simp))⟩, rfl, rfl⟩
  | cons o l ih =>
    simp only [calls] at hok ⊢
    by_cases h1 : (s.call o).2 = true
    · rw [if_pos h1] at hok ⊢
      have same := call_same s o
      obtain ⟨a1, a2, a3⟩ := call_effect w h1 he
      obtain ⟨b1, b2, b3⟩ := ih (call_wf w o) hok (by rw [same.children]; exact he)
      refine ⟨?_, ?_, ?_⟩
      · intro d
        rw [b1, a1]
        unfold Arrows
        simp only [List.mem_cons]
        constructor
        · rintro ((h | ⟨h, h'⟩) | ⟨h, h'⟩)
          · exact .inl h
          · exact .inr ⟨.inl h.symm, h'⟩
          · exact .inr ⟨.inr h, h'⟩
        · rintro (h | ⟨h | h, h'⟩)
          · exact .inl (.inl h)
          · exact .inl (.inr ⟨h.symm, h'⟩)
          · exact .inr ⟨h, h'⟩
      · rw [b2, lastWord_cons, a2]
      · rw [b3, lastWord_cons, a3, same.timed]
    · rw [if_neg h1] at hok; simp at hok

/-! ## Two states of the same group -/

/-- The children look the same in both states. -/
structure MuRel (s t : MuSt) : Prop where
  same : MuSame s t
  deps : ∀ e ∈ s.children, (t.h.elt e).deps = (s.h.elt e).deps
  succs : ∀ e ∈ s.children, (t.h.elt e).succs = (s.h.elt e).succs
  vis : ∀ e ∈ s.children, t.vis e = s.vis e
  loop : ∀ e ∈ s.children, t.loop e = s.loop e

theorem setVis_rel {s t : MuSt} (r : MuRel s t) (a : Eid) (v : Bool) :
    MuRel (s.setVis a v).1 (t.setVis a v).1 ∧ (t.setVis a v).2 = (s.setVis a v).2 := by
  unfold setVis
  rw [frozen_same r.same]
  by_cases h : s.frozen a = true
  · rw [if_pos h, if_pos h]; exact ⟨r, rfl⟩
  · rw [if_neg h, if_neg h]
    refine ⟨⟨⟨r.same.group, r.same.children, r.same.timed, r.same.bind, r.same.belong, r.same.isInit, r.same.isMut⟩,
      r.deps, r.succs, ?_, r.loop⟩, rfl⟩
    intro e he
    have := r.vis e he
    simp only
    split_ifs <;> simp [this]

theorem putLoop_rel {s t : MuSt} (r : MuRel s t) (a : Eid) (n : Nat) :
    MuRel (s.putLoop a n).1 (t.putLoop a n).1 ∧ (t.putLoop a n).2 = (s.putLoop a n).2 := by
  unfold putLoop
  rw [frozen_same r.same, r.same.timed]
  by_cases h : s.frozen a = true
  · rw [if_pos h, if_pos h]; exact ⟨r, rfl⟩
  · rw [if_neg h, if_neg h]
    by_cases h2 : (s.timed a && n != 1) = true
    · rw [if_pos h2, if_pos h2]; exact ⟨r, rfl⟩
    · rw [if_neg h2, if_neg h2]
      refine ⟨⟨⟨r.same.group, r.same.children, rfl, r.same.bind, r.same.belong, r.same.isInit,
        r.same.isMut⟩, r.deps, r.succs, r.vis, ?_⟩, rfl⟩
      intro e he
      have := r.loop e he
      simp only
      split_ifs <;> simp [this]

theorem call_rel {s t : MuSt} (r : MuRel s t) (o : RsOp) :
    MuRel (s.call o).1 (t.call o).1 ∧ (t.call o).2 = (s.call o).2 := by
  cases o with
  | arrow a b =>
    cases b with
    | none => exact ⟨(setVis_rel r a true).1, rfl⟩
    | some b =>
      have hk : t.arrowOk a b = s.arrowOk a b := by
        unfold arrowOk
        rw [frozen_same r.same, frozen_same r.same, r.same.belong, r.same.belong]
      cases h : s.arrowOk a b with
      | false =>
        rw [arrow_bad h, arrow_bad (hk.trans h)]
        exact ⟨(setVis_rel r a true).1, rfl⟩
      | true =>
        have hs := call_same s (.arrow a (some b))
        have ht := call_same t (.arrow a (some b))
        have same := (MuSame.symm hs).trans (r.same.trans ht)
        rw [arrow_ok h, arrow_ok (hk.trans h)] at same ⊢
        refine ⟨⟨same, ?_, ?_, ?_, r.loop⟩, rfl⟩
        · intro e he; simp only [linked_deps]; rw [r.deps e he]
        · intro e he; simp only [linked_succs]; rw [r.succs e he]
        · intro e he; simp only; rw [r.vis e he]
  | «show» a => exact ⟨(setVis_rel r a true).1, rfl⟩
  | times a n => exact ⟨(putLoop_rel r a n).1, rfl⟩
  | setLoop a n => exact putLoop_rel r a n
  | setVisible a v => exact setVis_rel r a v

theorem calls_rel {s t : MuSt} (r : MuRel s t) (ops : List RsOp) :
    MuRel (s.calls ops).1 (t.calls ops).1 ∧ (t.calls ops).2 = (s.calls ops).2 := by
  induction ops generalizing s t with
  | nil => exact ⟨r, rfl⟩
  | cons o l ih =>
    obtain ⟨r1, h1⟩ := call_rel r o
    simp only [calls, h1]
    by_cases h : (s.call o).2 = true
    · rw [if_pos h, if_pos h]; exact ih r1
    · rw [if_neg h, if_neg h]; exact ⟨r1, rfl⟩

theorem setup_rel {s t : MuSt} (h : MuSame s t) : MuRel s.setup t.setup := by
  have same := (MuSame.symm (setup_same s)).trans (h.trans (setup_same t))
  refine ⟨same, ?_, ?_, ?_, ?_⟩ <;> intro e he <;> replace he : e ∈ s.children := he <;>
    have het : e ∈ t.children := h.children ▸ he
  · simp only [setup]; rw [Heap.mutableSetup_elt, Heap.mutableSetup_elt, if_pos he, if_pos het]
  · simp only [setup]; rw [Heap.mutableSetup_elt, Heap.mutableSetup_elt, if_pos he, if_pos het]
  · simp only [setup]; rw [if_pos he, if_pos het]
  · simp only [setup]; rw [if_pos he, if_pos het]

/-- The relations of a well-formed group are a graph in the sense of the engines. -/
theorem cfg_wf {s : MuSt} (w : MuWF s) : s.cfg.g.WF :=
  ⟨⟨w.nodup, fun e _ => w.dn e, fun e _ => w.sn e, w.sym, w.inS⟩, w.inD⟩

end MuSt
end CGraph
