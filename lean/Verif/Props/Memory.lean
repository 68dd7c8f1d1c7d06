import Verif.Lemmas.Memory

/-! # Every object is deleted once: C85 -/
namespace CGraph
open Spec
namespace MemSt

theorem holds_iff {s : MemSt} {p x : Nat} : Holds s p x ↔ x ∈ s.pObjs p := by
  constructor
  · intro h
    simp only [pObjs, List.mem_cons, List.mem_append, List.mem_flatMap, eObjs, List.mem_map]
    cases h with
    | self => exact .inl rfl
    | daemon h => exact .inr (.inl (.inl (.inl (.inl h))))
    | param h => exact .inr (.inl (.inl (.inl (.inr ⟨_, h, rfl⟩))))
    | event h => exact .inr (.inl (.inl (.inr ⟨_, h, rfl⟩)))
    | stage h => exact .inr (.inl (.inr ⟨_, h, rfl⟩))
    | elem h => exact .inr (.inr ⟨x, h, .inl rfl⟩)
    | aspect h h' => exact .inr (.inr ⟨_, h, .inr (.inl h')⟩)
    | eparam h h' => exact .inr (.inr ⟨_, h, .inr (.inr ⟨_, h', rfl⟩)⟩)
  · intro h
    simp only [pObjs, List.mem_cons, List.mem_append, List.mem_flatMap, eObjs, List.mem_map] at h
    rcases h with rfl | (((h | ⟨⟨k, y⟩, h, rfl⟩) | ⟨⟨k, y⟩, h, rfl⟩) | ⟨⟨k, y⟩, h, rfl⟩) | ⟨e, h, rfl | h' | ⟨⟨k, y⟩, h', rfl⟩⟩
    · exact .self
    · exact .daemon h
    · exact .param h
    · exact .event h
    · exact .stage h
    · exact .elem h
    · exact .aspect h h'
    · exact .eparam h h'

theorem exec_append (s : MemSt) (a b : List MemOp) : s.exec (a ++ b) = (s.exec a).exec b := by
  induction a generalizing s with
  | nil => rfl
  | cons x a ih => exact ih _

theorem keyGet_none_of {l : List (Nat × Nat)} {k : Nat} (h : ∀ x, (k, x) ∉ l) : keyGet l k = none := by
  unfold keyGet
  rw [Option.map_eq_none_iff, List.find?_eq_none]
  rintro ⟨a, b⟩ hm hb
  simp only [beq_iff_eq] at hb
  exact h b (hb ▸ hm)

/-- Histories keep the invariant; what is lost stays lost; a fine history loses nothing. -/
theorem inv_exec : ∀ (l : List MemOp) {made : List (Nat × Nat)} {lost : List Nat} {s : MemSt}, Inv made lost s →
    LegalCalls made s l → ∃ made' lost', Inv made' lost' (s.exec l) ∧ (∀ x ∈ lost, x ∈ lost') ∧ (AllFine s l → lost' = lost) ∧
      ∀ l', LegalCalls made s (l ++ l') ↔ LegalCalls made' (s.exec l) l'
  | [], made, lost, s, h, _ => ⟨made, lost, h, fun _ h => h, fun _ => rfl, fun l' => Iff.rfl⟩
  | o :: l, made, lost, s, h, hl => by
    obtain ⟨m, k, h1, h2, h3, h4⟩ := inv_exec l (h.step hl.1) hl.2
    refine ⟨m, k, h1, fun x hx => h2 x (List.mem_append_left _ hx), fun hf => ?_, fun l' => ?_⟩
    · rw [h3 hf.2]
      have : s.loses o = [] := by
        have hf1 := hf.1
        cases o with
        | regNew p d => simp only [loses]; rw [if_pos hf1]
        | mkNode p d => simp only [loses]; rw [if_pos hf1]
        | mkGroup p e d => simp only [loses]; rw [if_pos hf1]
        | stage p k =>
          simp only [loses]
          rw [keyGet_none_of hf1]
          simp
        | _ => rfl
      rw [this, List.append_nil]
    · exact ⟨fun h => (h4 l').mp h.2, fun h => ⟨hl.1, (h4 l').mpr h⟩⟩

theorem le_sum_of_mem {l : List Nat} {a : Nat} (h : a ∈ l) : a ≤ l.sum := by
  induction l with
  | nil => cases h
  | cons b l ih =>
    rw [List.sum_cons]
    rcases List.mem_cons.mp h with rfl | h
    · omega
    · have := ih h; omega

theorem held_pos {s : MemSt} {p x : Nat} (hp : p ∈ s.live) (hx : Holds s p x) : 1 ≤ s.held x := by
  have h1 : 1 ≤ (s.pObjs p).count x := List.count_pos_iff.mpr (holds_iff.mp hx)
  have h2 : (s.pObjs p).count x ≤ s.held x :=
    le_sum_of_mem (List.mem_map.mpr ⟨p, hp, rfl⟩)
  omega

theorem two_le_sum {f : Nat → Nat} : ∀ {l : List Nat} {p q : Nat}, p ∈ l → q ∈ l → p ≠ q → f p + f q ≤ (l.map f).sum
  | a :: l, p, q, hp, hq, hne => by
    simp only [List.map_cons, List.sum_cons]
    rcases List.mem_cons.mp hp with h | hp' <;> rcases List.mem_cons.mp hq with h' | hq'
    · exact absurd (h.trans h'.symm) hne
    · have := le_sum_of_mem (List.mem_map.mpr ⟨q, hq', rfl⟩ : f q ∈ l.map f); rw [h]; omega
    · have := le_sum_of_mem (List.mem_map.mpr ⟨p, hp', rfl⟩ : f p ∈ l.map f); rw [h']; omega
    · have := two_le_sum (f := f) hp' hq' hne; omega

theorem keyGet_mem {l : List (Nat × Nat)} {k a : Nat} (h : keyGet l k = some a) : a ∈ l.map (·.2) := by
  unfold keyGet at h
  rw [Option.map_eq_some_iff] at h
  obtain ⟨q, hq, rfl⟩ := h
  exact List.mem_map.mpr ⟨q, List.mem_of_find?_eq_some hq, rfl⟩

/-- What a pipeline holds apart from itself and its elements. -/
def subObjs (s : MemSt) (p : Nat) : List Nat :=
  s.daemons p ++ (s.params p).map (·.2) ++ (s.events p).map (·.2) ++ (s.stages p).map (·.2) ++
    (s.repo p).flatMap (fun e => s.aspects e ++ (s.eparams e).map (·.2))

theorem count_sub (s : MemSt) (p x : Nat) : (s.pObjs p).count x = (p :: s.repo p).count x + (s.subObjs p).count x := by
  rw [count_pObjs]
  simp only [subObjs, List.count_append, List.count_cons, List.count_nil, count_flatMap', count_eObjs]
  have : ∀ r : List Nat, (r.map fun e => (0 + if (e == x) = true then 1 else 0) + (s.aspects e).count x +
      ((s.eparams e).map (·.2)).count x).sum =
      r.count x + (r.map fun a => (s.aspects a).count x + ((s.eparams a).map (·.2)).count x).sum := by
    intro r
    induction r with
    | nil => rfl
    | cons a r ih => simp only [List.map_cons, List.sum_cons, List.count_cons, ih]; omega
  rw [this]; omega

/-- An object that is something else is neither a pipeline nor an element. -/
theorem Inv.sub_not_root {made : List (Nat × Nat)} {lost : List Nat} {s : MemSt} (h : Inv made lost s) {p q x : Nat}
    (hp : p ∈ s.live) (hx : x ∈ s.subObjs p) (hq : q ∈ s.live) : x ∉ q :: s.repo q := by
  intro hr
  have h1 := h.once x
  have h2 := List.count_pos_iff.mpr hx
  have h3 := List.count_pos_iff.mpr hr
  have h4 : s.held x = (s.live.map fun r => (s.pObjs r).count x).sum := rfl
  by_cases hpq : p = q
  · subst hpq
    have h5 : (s.pObjs p).count x ≤ s.held x := le_sum_of_mem (List.mem_map.mpr ⟨p, hp, rfl⟩)
    rw [count_sub] at h5
    split_ifs at h1 <;> omega
  · have h5 := two_le_sum (f := fun r => (s.pObjs r).count x) hp hq hpq
    beta_reduce at h5
    rw [count_sub, count_sub] at h5
    split_ifs at h1 <;> omega

/-- **C85** (once, partial).  In every legal history no object is deleted twice, only objects that were made are deleted, and
no pipeline in the factory holds anything that was deleted.  The full statement is about all calls with live pipelines and
elements; it is false (`C85_shared_violated`, `C85_removed_violated`). -/
theorem C85_once_partial (l : List MemOp) (hl : LegalCalls [] start l) :
    (start.exec l).freed.Nodup ∧ (∀ x ∈ (start.exec l).freed, x < (start.exec l).next) ∧
    ∀ p ∈ (start.exec l).live, ∀ x, Holds (start.exec l) p x → x ∉ (start.exec l).freed := by
  obtain ⟨m, k, h, -, -, -⟩ := inv_exec l inv_start hl
  refine ⟨?_, ?_, ?_⟩
  · refine List.nodup_iff_count.mpr fun x => ?_
    have := h.once x
    split_ifs at this <;> omega
  · intro x hx
    have h1 := h.once x
    have h2 := List.count_pos_iff.mpr hx
    split_ifs at h1 with h3
    · exact h3
    · omega
  · intro p hp x hx hf
    have h1 := h.once x
    have h2 := List.count_pos_iff.mpr hf
    have h3 := held_pos hp hx
    split_ifs at h1 <;> omega

/-- **C85** (separate, partial).  Two pipelines never hold the same object. -/
theorem C85_apart_partial (l : List MemOp) (hl : LegalCalls [] start l) {p q : Nat} (hp : p ∈ (start.exec l).live)
    (hq : q ∈ (start.exec l).live) (hne : p ≠ q) (x : Nat) : ¬ (Holds (start.exec l) p x ∧ Holds (start.exec l) q x) := by
  rintro ⟨hx, hy⟩
  obtain ⟨m, k, h, -, -, -⟩ := inv_exec l inv_start hl
  have h1 := h.once x
  have h2 : 1 ≤ ((start.exec l).pObjs p).count x := List.count_pos_iff.mpr (holds_iff.mp hx)
  have h3 : 1 ≤ ((start.exec l).pObjs q).count x := List.count_pos_iff.mpr (holds_iff.mp hy)
  have h4 := two_le_sum (f := fun r => ((start.exec l).pObjs r).count x) hp hq hne
  beta_reduce at h4
  have h5 : (start.exec l).held x = ((start.exec l).live.map fun r => ((start.exec l).pObjs r).count x).sum := rfl
  split_ifs at h1 <;> omega

/-- **C85** (remove, partial).  `remove` deletes the pipeline and all it holds, each once, and nothing that another pipeline
holds. -/
theorem C85_remove_partial (l : List MemOp) (hl : LegalCalls [] start l) {p : Nat} (hp : p ∈ (start.exec l).live) :
    ∃ d, (start.exec (l ++ [.remove p])).freed = (start.exec l).freed ++ d ∧ d.Nodup ∧
      (∀ x, x ∈ d ↔ Holds (start.exec l) p x) ∧ p ∉ (start.exec (l ++ [.remove p])).live ∧
      ∀ q, q ≠ p → (q ∈ (start.exec (l ++ [.remove p])).live ↔ q ∈ (start.exec l).live) ∧
        ∀ x, Holds (start.exec (l ++ [.remove p])) q x ↔ Holds (start.exec l) q x := by
  obtain ⟨m, k, h, -, -, -⟩ := inv_exec l inv_start hl
  rw [exec_append]
  generalize start.exec l = s at h hp ⊢
  refine ⟨s.pObjs p, rfl, ?_, fun x => holds_iff.symm, ?_, fun q hq => ⟨?_, fun x => ?_⟩⟩
  · refine List.nodup_iff_count.mpr fun x => ?_
    have h1 := h.once x
    have h2 : (s.pObjs p).count x ≤ s.held x := le_sum_of_mem (List.mem_map.mpr ⟨p, hp, rfl⟩)
    split_ifs at h1 <;> omega
  · show p ∉ s.live.filter (· != p)
    simp
  · show q ∈ s.live.filter (· != p) ↔ _
    simp [hq]
  · rw [holds_iff, holds_iff]; exact Iff.rfl

/-- **C85** (all, partial).  When all registrations succeed and no stage is registered twice, then after `clear` every object
that was ever made has been deleted exactly once.  Without these conditions objects leak (`C85_leak_violated`). -/
theorem C85_all_partial (l : List MemOp) (hl : LegalCalls [] start l) (hf : AllFine start l) :
    (start.exec (l ++ [.clear])).freed.Perm (List.range (start.exec (l ++ [.clear])).next) := by
  obtain ⟨m, k, h, -, hk, -⟩ := inv_exec l inv_start hl
  have hk := hk hf
  subst hk
  rw [List.perm_iff_count]
  intro x
  have hc : LegalCall m (start.exec l) .clear := trivial
  have h1 := (h.step hc).once x
  have hm : makes (start.exec l) .clear = [] := by simp [makes]
  have he : start.exec (l ++ [.clear]) = ((start.exec l).step .clear).1 := exec_append _ _ _
  rw [he]
  have h0 : ((start.exec l).step .clear).1.held x = 0 := rfl
  have hlo : (start.exec l).loses .clear = [] := rfl
  rw [h0, hlo] at h1
  simp only [List.append_nil, List.count_nil, Nat.add_zero] at h1
  rw [h1]
  split_ifs with hx
  · exact (List.nodup_range.count (a := x)).trans (if_pos (List.mem_range.mpr hx)) |>.symm
  · exact (List.count_eq_zero.mpr (fun hm => hx (List.mem_range.mp hm))).symm

/-- **C85** (kept, partial).  Only `remove` and `clear` delete a pipeline or an element: any other call deletes at most one
object, and not a pipeline or an element of one. -/
theorem C85_kept_partial (l : List MemOp) (o : MemOp) (hl : LegalCalls [] start (l ++ [o])) (ho : o ≠ .clear)
    (hr : ∀ p, o ≠ .remove p) :
    ∃ d, ((start.exec l).step o).1.freed = (start.exec l).freed ++ d ∧ d.length ≤ 1 ∧
      ∀ p ∈ (start.exec l).live, ∀ x ∈ d, x ≠ p ∧ x ∉ (start.exec l).repo p := by
  have hl1 : LegalCalls [] start l := by
    have : ∀ (a : List MemOp) {m : List (Nat × Nat)} {s : MemSt}, LegalCalls m s (a ++ [o]) → LegalCalls m s a := by
      intro a
      induction a with
      | nil => intro _ _ _; trivial
      | cons b a ih => intro m s h; exact ⟨h.1, ih h.2⟩
    exact this l hl
  obtain ⟨m, k, h, -, -, hL⟩ := inv_exec l inv_start hl1
  have hc : LegalCall m (start.exec l) o := ((hL [o]).mp hl).1
  generalize start.exec l = s at h hc ⊢
  have nothing : (s.step o).1.freed = s.freed → ∃ d, (s.step o).1.freed = s.freed ++ d ∧ d.length ≤ 1 ∧
      ∀ p ∈ s.live, ∀ x ∈ d, x ≠ p ∧ x ∉ s.repo p := fun hfr => ⟨[], by simpa using hfr, by simp, by simp⟩
  have one : ∀ a, (s.step o).1.freed = s.freed ++ [a] → ∀ p ∈ s.live, a ∈ s.subObjs p →
      ∃ d, (s.step o).1.freed = s.freed ++ d ∧ d.length ≤ 1 ∧ ∀ p ∈ s.live, ∀ x ∈ d, x ≠ p ∧ x ∉ s.repo p :=
    fun a hfr p hp ha => ⟨[a], hfr, by simp, fun q hq x hx => by
      rw [List.mem_singleton] at hx
      have := h.sub_not_root hp (hx ▸ ha) hq
      exact ⟨fun e => this (e ▸ List.mem_cons_self), fun e => this (List.mem_cons_of_mem _ e)⟩⟩
  cases o with
  | clear => exact absurd rfl ho
  | remove p => exact absurd rfl (hr p)
  | create => exact nothing rfl
  | regNew p d => exact nothing (by simp only [MemSt.step]; split_ifs <;> rfl)
  | mkNode p d => exact nothing (by simp only [MemSt.step]; split_ifs <;> rfl)
  | mkGroup p e d => exact nothing (by simp only [MemSt.step]; split_ifs <;> rfl)
  | reg p e d => exact nothing (by simp only [MemSt.step]; split_ifs <;> rfl)
  | init p ok => exact nothing (by simp only [MemSt.step]; split_ifs <;> rfl)
  | destroy p => exact nothing (by simp only [MemSt.step]; split_ifs <;> rfl)
  | aspect e => exact nothing rfl
  | param p k => exact nothing (by simp only [MemSt.step]; split <;> rfl)
  | daemon p => exact nothing (by simp only [MemSt.step]; split_ifs <;> rfl)
  | event p k => exact nothing (by simp only [MemSt.step]; split_ifs; · rfl
                                   · split <;> rfl)
  | stage p k => exact nothing (by simp only [MemSt.step]; split_ifs; · rfl
                                   · split <;> rfl)
  | pop e =>
    obtain ⟨p, hp, he⟩ : ∃ p, p ∈ s.live ∧ (p, e) ∈ m := hc
    have her : e ∈ s.repo p := (h.repo_made p hp e).mpr he
    cases hl : (s.aspects e).getLast? with
    | none => exact nothing (by simp only [MemSt.step, hl])
    | some a =>
      refine one a (by simp only [MemSt.step, hl]) p hp ?_
      exact List.mem_append_right _ (List.mem_flatMap.mpr ⟨e, her, List.mem_append_left _ (List.mem_of_getLast? hl)⟩)
  | eparam e k =>
    obtain ⟨p, hp, he⟩ : ∃ p, p ∈ s.live ∧ (p, e) ∈ m := hc
    have her : e ∈ s.repo p := (h.repo_made p hp e).mpr he
    cases hl : keyGet (s.eparams e) k with
    | none => exact nothing (by simp only [MemSt.step, hl, Option.toList_none, List.append_nil])
    | some a =>
      refine one a (by simp only [MemSt.step, hl, Option.toList_some]) p hp ?_
      exact List.mem_append_right _ (List.mem_flatMap.mpr ⟨e, her, List.mem_append_right _ (keyGet_mem hl)⟩)
  | rmParam p k =>
    have hp : p ∈ s.live := hc
    cases hl : keyGet (s.params p) k with
    | none => exact nothing (by simp only [MemSt.step, hl])
    | some a =>
      refine one a (by simp only [MemSt.step, hl]) p hp ?_
      simp only [subObjs, List.mem_append]
      exact .inl (.inl (.inl (.inr (keyGet_mem hl))))

/-! ## Where the code deviates -/

/-- **C85 is false of the code**: a registration of a new node that fails leaks the node: whatever follows, nobody deletes it
and no pipeline holds it. -/
theorem C85_leak_violated (l : List MemOp) (hl : LegalCalls [] start l) (p : Nat) (hp : p ∈ (start.exec l).live)
    (hu : (start.exec l).up p = false) (deps : List (Option Nat)) (d : Option Nat) (hd : d ∈ deps)
    (hbad : ∀ e, d = some e → e < (start.exec l).next ∧ (start.exec l).belong e ≠ none) (l' : List MemOp)
    (hl' : LegalCalls [] start (l ++ .regNew p deps :: l')) :
    ((start.exec l).step (.regNew p deps)).2 = false ∧
    ((start.exec l).step (.regNew p deps)).1.next = (start.exec l).next + 1 ∧
    (start.exec l).next ∉ (start.exec (l ++ .regNew p deps :: l')).freed ∧
    ∀ q ∈ (start.exec (l ++ .regNew p deps :: l')).live, ¬ Holds (start.exec (l ++ .regNew p deps :: l')) q (start.exec l).next := by
  obtain ⟨m, k, h, -, -, hL⟩ := inv_exec l inv_start hl
  have hrest := (hL (.regNew p deps :: l')).mp hl'
  have _ := hp
  rw [exec_append]
  generalize start.exec l = s at h hu hbad hrest ⊢
  have hdep : (s.newElt []).depsOk s.next deps = false := by
    rw [depsOk, List.all_eq_false]
    refine ⟨d, hd, ?_⟩
    cases d with
    | none => simp
    | some e =>
      obtain ⟨h1, h2⟩ := hbad e rfl
      have hb : (s.newElt []).belong s.next = none := by simp [newElt, upd_self]
      have hb' : (s.newElt []).belong e = s.belong e := by
        simp only [newElt, upd_ne _ _ (Nat.ne_of_lt h1)]; simp
      simp only [hb, hb', beq_iff_eq]
      simpa using h2
  have hs : s.step (.regNew p deps) = (s.newElt [], false) := by
    simp only [step, hu, hdep, Bool.false_eq_true, if_false]
  have hlo : s.loses (.regNew p deps) = [s.next] := by
    simp only [loses, hs, Bool.false_eq_true, if_false]
    show List.range' s.next (s.next + 1 - s.next) = _
    rw [Nat.add_sub_cancel_left]; rfl
  have h1 := h.step hrest.1
  obtain ⟨m2, k2, h2, hsub, -, -⟩ := inv_exec l' h1 hrest.2
  have hmem : s.next ∈ k2 := hsub _ (List.mem_append_right _ (by rw [hlo]; exact List.mem_singleton_self _))
  have hcount := h2.once s.next
  have hpos := List.count_pos_iff.mpr hmem
  refine ⟨by rw [hs], by rw [hs]; rfl, ?_, ?_⟩
  · intro hf
    have := List.count_pos_iff.mpr hf
    have hx : ((s.step (.regNew p deps)).1.exec l') = s.exec (.regNew p deps :: l') := rfl
    rw [hx] at hcount
    split_ifs at hcount <;> omega
  · intro q hq hh
    have := held_pos hq hh
    have hx : ((s.step (.regNew p deps)).1.exec l') = s.exec (.regNew p deps :: l') := rfl
    rw [hx] at hcount
    split_ifs at hcount <;> omega

/-- **C85 is false of the code**: an element made by one pipeline can be registered in another one, which reports success;
both delete it. -/
theorem C85_shared_violated (l : List MemOp) (p q e : Nat) (hp : p ∈ (start.exec l).live) (hq : q ∈ (start.exec l).live)
    (hne : p ≠ q) (he : e ∈ (start.exec l).repo p) (hb : (start.exec l).belong e = none)
    (hr : (start.exec l).registered e = false) (hu : (start.exec l).up q = false) :
    ((start.exec l).step (.reg q e [])).2 = true ∧ 2 ≤ (start.exec (l ++ [.reg q e [], .clear])).freed.count e := by
  rw [exec_append]
  generalize start.exec l = s at hp hq he hb hr hu ⊢
  have hs : s.step (.reg q e []) = (s.enter q e, true) := by
    simp [step, hu, hb, hr, depsOk]
  refine ⟨by rw [hs], ?_⟩
  show 2 ≤ ((s.step (.reg q e [])).1.step .clear).1.freed.count e
  rw [hs]
  show 2 ≤ (s.freed ++ s.live.flatMap (s.enter q e).pObjs).count e
  rw [List.count_append, count_flatMap']
  have h1 := two_le_sum (f := fun r => ((s.enter q e).pObjs r).count e) hp hq hne
  beta_reduce at h1
  have h2 : 1 ≤ ((s.enter q e).pObjs p).count e := List.count_pos_iff.mpr (holds_iff.mp (.elem (by
    show e ∈ upd s.repo q _ p
    rw [upd_ne _ _ hne]; exact he)))
  have h3 : 1 ≤ ((s.enter q e).pObjs q).count e := List.count_pos_iff.mpr (holds_iff.mp (.elem (by
    show e ∈ upd s.repo q _ q
    rw [upd_self, mem_setIns]; exact .inl rfl)))
  omega

/-- **C85 is false of the code**: `remove` of a pipeline that was removed deletes it and all it held once more, and reports
success. -/
theorem C85_removed_violated (s : MemSt) (p : Nat) :
    ((s.step (.remove p)).1.step (.remove p)).2 = true ∧
    ∀ x, Holds s p x → 2 ≤ ((s.step (.remove p)).1.step (.remove p)).1.freed.count x := by
  refine ⟨rfl, fun x hx => ?_⟩
  show 2 ≤ (s.freed ++ s.pObjs p ++ s.pObjs p).count x
  have := List.count_pos_iff.mpr (holds_iff.mp hx)
  rw [List.count_append, List.count_append]; omega

/-! ## Cases -/

/-- Two pipelines; a node, another one after it, a group of two made nodes with an aspect; parameters, a daemon, an event, a
stage; one removed, the rest cleared. -/
def memDemo : List MemOp :=
  [.create, .create, .regNew 0 [], .regNew 0 [some 2], .mkNode 1 [], .mkNode 1 [], .mkGroup 1 [4, 5] [], .reg 1 6 [],
   .aspect 6, .aspect 2, .eparam 2 7, .eparam 2 7, .pop 2, .param 0 1, .param 0 1, .rmParam 0 1, .daemon 0, .event 1 3,
   .event 1 3, .stage 1 0, .init 1 true, .regNew 1 [], .destroy 1, .remove 0]

example : LegalCalls [] start memDemo := by
  simp [memDemo, LegalCalls, LegalCall, makes, step, start, newElt, enter, depsOk, upd, setIns, keyGet, fetchAll, below]

example : (start.exec (memDemo ++ [.clear])).freed.length = 15 ∧ (start.exec (memDemo ++ [.clear])).next = 15 := by
  decide +kernel

/-- The conditions of `C85_all_partial` hold of the same history without the registration that fails. -/
example : AllFine start (memDemo.filter (· != .regNew 1 [])) ∧ LegalCalls [] start (memDemo.filter (· != .regNew 1 [])) := by
  have h : memDemo.filter (· != .regNew 1 []) =
    [.create, .create, .regNew 0 [], .regNew 0 [some 2], .mkNode 1 [], .mkNode 1 [], .mkGroup 1 [4, 5] [], .reg 1 6 [],
     .aspect 6, .aspect 2, .eparam 2 7, .eparam 2 7, .pop 2, .param 0 1, .param 0 1, .rmParam 0 1, .daemon 0, .event 1 3,
     .event 1 3, .stage 1 0, .init 1 true, .destroy 1, .remove 0] := by decide
  rw [h]
  constructor
  · simp [AllFine, step, start, newElt, enter, depsOk, upd, setIns, keyGet, fetchAll, below]
  · simp [LegalCalls, LegalCall, makes, step, start, newElt, enter, depsOk, upd, setIns, keyGet, fetchAll, below]

/-- The hypotheses of `C85_leak_violated`: a node that depends on a member of a group. -/
example : LegalCalls [] start ([.create, .mkNode 0 [], .mkGroup 0 [1] []] ++ .regNew 0 [some 1] :: [.clear]) ∧
    (start.exec [.create, .mkNode 0 [], .mkGroup 0 [1] []]).belong 1 = some 2 := by
  refine ⟨?_, by decide +kernel⟩
  simp [LegalCalls, LegalCall, makes, step, start, newElt, depsOk, upd, setIns]

/-- The hypotheses of `C85_shared_violated`. -/
example : let s := start.exec [.create, .create, .mkNode 0 []]
    s.live = [0, 1] ∧ s.repo 0 = [2] ∧ s.belong 2 = none ∧ s.registered 2 = false ∧ s.up 1 = false := by decide +kernel

end MemSt
end CGraph
