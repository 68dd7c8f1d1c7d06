import Verif.Spec.PqConc
import Mathlib.Data.List.Perm.Basic
import Mathlib.Data.List.Nodup
import Mathlib.Data.List.Induction
/-! # C117: the priority queue of the pool acts as if each call happened at once -/
namespace CGraph.PqConc
open PqSt CGraph.Spec.PqConc

variable {α : Type}

/-- The nodes of a bag. -/
def emb (b : Bag α) : List (Node α) := b.map fun e => ⟨e.1, some e.2⟩

theorem addr_emb (b : Bag α) : (emb b).map Node.addr = b.map Prod.fst := by simp [emb, Function.comp_def]

theorem top_emb (b : Bag α) : top (emb b) = (b.map Prod.fst).max? := by rw [top, addr_emb]

theorem find_emb (b : Bag α) (a : Nat) :
    ((emb b).find? (fun x => x.addr == a)).bind Node.val = (b.find? (fun e => e.1 == a)).map Prod.snd := by
  simp only [emb, List.find?_map, Function.comp_def]
  cases b.find? (fun e => e.1 == a) <;> rfl

/-- The top has been moved out. -/
def hollow (a : Nat) (h : List (Node α)) : List (Node α) := h.map fun x => if x.addr == a then { x with val := none } else x

theorem addr_hollow (a : Nat) (h : List (Node α)) : (hollow a h).map Node.addr = h.map Node.addr := by
  simp only [hollow, List.map_map]
  apply List.map_congr_left
  intro x _
  simp only [Function.comp]
  split <;> rfl

theorem filter_hollow (a : Nat) (b : Bag α) :
    (hollow a (emb b)).filter (fun x => x.addr != a) = emb (b.filter fun e => e.1 != a) := by
  induction b with
  | nil => rfl
  | cons e b ih =>
    have h1 : hollow a (emb (e :: b)) = (if e.1 == a then ⟨e.1, none⟩ else ⟨e.1, some e.2⟩) :: hollow a (emb b) := rfl
    rw [h1]
    by_cases h : e.1 = a
    · have : (e.1 == a) = true := by simpa using h
      simp only [this, if_true, List.filter_cons, bne, Bool.not_true] at ih ⊢
      simpa using ih
    · have : (e.1 == a) = false := by simpa using h
      simp only [this, List.filter_cons, bne, Bool.not_false, if_true] at ih ⊢
      simpa [this, emb] using ih

/-! ### the specification -/

theorem takeN_sub (n : Nat) (b : Bag α) : (takeN n b).2.Sublist b := by
  induction n generalizing b with
  | zero => exact List.Sublist.refl _
  | succ n ih =>
    simp only [takeN]
    split
    · exact List.Sublist.refl _
    · exact (ih _).trans List.filter_sublist

theorem find_perm (b : Bag α) (a : Nat) (hn : (b.map Prod.fst).Nodup) (ha : a ∈ b.map Prod.fst) :
    (b.map Prod.snd).Perm (((b.find? (fun e => e.1 == a)).map Prod.snd).toList ++ (b.filter fun e => e.1 != a).map Prod.snd) := by
  induction b with
  | nil => simp at ha
  | cons e b ih =>
    simp only [List.map_cons, List.nodup_cons] at hn
    by_cases h : e.1 = a
    · subst h
      have : b.filter (fun x => x.1 != e.1) = b := by
        apply List.filter_eq_self.2
        intro x hx
        have : x.1 ≠ e.1 := fun h => hn.1 (h ▸ List.mem_map_of_mem hx)
        simpa using this
      simp [List.find?_cons, this]
    · have ha' : a ∈ b.map Prod.fst := by
        rcases List.mem_cons.1 ha with h' | h'
        · exact absurd h'.symm h
        · exact h'
      have := ih hn.2 ha'
      have hb : (e.1 == a) = false := by simpa using h
      simp only [List.map_cons, List.find?_cons, hb, List.filter_cons, bne, Bool.not_false, if_true] at this ⊢
      exact (this.cons _).trans List.perm_middle.symm

theorem takeN_perm (n : Nat) (b : Bag α) (hn : (b.map Prod.fst).Nodup) :
    (b.map Prod.snd).Perm ((takeN n b).1 ++ (takeN n b).2.map Prod.snd) := by
  induction n generalizing b with
  | zero => simp [takeN]
  | succ n ih =>
    simp only [takeN]
    split
    · simp
    · rename_i a ha
      have hm := List.max?_mem ha
      refine (find_perm b a hn hm).trans ?_
      rw [List.append_assoc]
      exact (ih _ (hn.sublist (List.filter_sublist.map _))).append_left _

variable [DecidableEq α]

theorem replay_snoc (l : List (Ev α)) (e : Ev α) : replay (l ++ [e]) = (replay l).bind (one · e) := by
  simp [replay, List.foldl_append]

theorem replay_nodup (l : List (Ev α)) : ∀ b, replay l = some b →
    (b.map Prod.fst).Nodup ∧ (pushed l).Perm (popped l ++ b.map Prod.snd) := by
  induction l using List.reverseRecOn with
  | nil => intro b h; cases h; simp [pushed, popped]
  | append_singleton l e ih =>
    intro b h
    rw [replay_snoc] at h
    obtain ⟨b0, h0, h1⟩ := Option.bind_eq_some_iff.1 h
    obtain ⟨hn, hp⟩ := ih b0 h0
    cases e with
    | push t a x =>
      simp only [one] at h1
      split at h1
      · cases h1
      · rename_i ha
        cases h1
        refine ⟨List.nodup_cons.2 ⟨ha, hn⟩, ?_⟩
        simp only [pushed, popped, List.filterMap_append, List.flatMap_append, List.filterMap_cons, List.filterMap_nil,
          List.flatMap_cons, List.flatMap_nil, List.append_nil, List.map_cons] at hp ⊢
        exact (hp.append_right [x]).trans (by
          rw [List.append_assoc]
          exact (List.perm_append_comm).append_left _)
    | pop t n r =>
      simp only [one] at h1
      split at h1
      · rename_i hr
        cases h1
        subst hr
        refine ⟨hn.sublist ((takeN_sub n b0).map _), ?_⟩
        simp only [pushed, popped, List.filterMap_append, List.flatMap_append, List.filterMap_cons, List.filterMap_nil,
          List.flatMap_cons, List.flatMap_nil, List.append_nil] at hp ⊢
        rw [List.append_assoc]
        exact hp.trans ((takeN_perm n b0 hn).append_left _)
      · cases h1
    | busy t n =>
      cases h1
      refine ⟨hn, ?_⟩
      simpa [pushed, popped] using hp
    | empty t x =>
      simp only [one] at h1
      split at h1
      · cases h1
        refine ⟨hn, ?_⟩
        simpa [pushed, popped] using hp
      · cases h1

/-! ### the invariant -/

/-- Possesses the mutex. -/
def PqPc.holds : PqPc α → Bool
  | .ins .. => true
  | .unlP .. => true
  | .chk .. => true
  | .move .. => true
  | .pop .. => true
  | .unlT .. => true
  | .rdE => true
  | .unlE _ => true
  | _ => false

/-- The address of a task that is not yet in the heap. -/
def PqPc.held : PqPc α → Option Nat
  | .lockP a _ => some a
  | .ins a _ => some a
  | _ => none

/-- What the heap is while the thread at this place possesses the mutex; `b`: the bag after the calls that returned. -/
def At (h : List (Node α)) (b : Bag α) : PqPc α → Prop
  | .unlP a x => a ∉ b.map Prod.fst ∧ h = emb ((a, x) :: b)
  | .chk n left got => ∃ b', h = emb b' ∧ takeN n b = (got ++ (takeN left b').1, (takeN left b').2)
  | .move n left got => ∃ b', b' ≠ [] ∧ h = emb b' ∧ takeN n b = (got ++ (takeN (left + 1) b').1, (takeN (left + 1) b').2)
  | .pop n left got => ∃ b' a, (b'.map Prod.fst).max? = some a ∧ h = hollow a (emb b') ∧
      takeN n b = (got ++ (takeN left (b'.filter fun e => e.1 != a)).1, (takeN left (b'.filter fun e => e.1 != a)).2)
  | .unlT n got => ∃ b', h = emb b' ∧ takeN n b = (got, b')
  | .unlE e => h = emb b ∧ e = b.isEmpty
  | _ => h = emb b

/-- The invariant. -/
structure Inv (s : PqSt α) : Prop where
  own : ∀ t : Nat, s.owner = some t ↔ (s.pc t).holds = true
  bag : ∃ b, replay s.log = some b ∧ (s.owner = none → s.heap = emb b) ∧ ∀ t : Nat, s.owner = some t → At s.heap b (s.pc t)
  live : ∀ a ∈ s.heap.map Node.addr, a ∈ s.live
  held : ∀ (t a : Nat), (s.pc t).held = some a → a ∈ s.live ∧ a ∉ s.heap.map Node.addr
  apart : ∀ (t u a : Nat), (s.pc t).held = some a → (s.pc u).held = some a → t = u

theorem inv_init : Inv (init : PqSt α) where
  own t := by simp [init, PqPc.holds]
  bag := ⟨[], rfl, fun _ => rfl, fun t h => by simp [init] at h⟩
  live a h := by simp [init] at h
  held t a h := by simp [init, PqPc.held] at h
  apart t u a h := by simp [init, PqPc.held] at h

/-- The state after a step of thread `t`. -/
theorem Inv.next {s : PqSt α} (inv : Inv s) (t : Nat) (q : PqPc α) (o : Option Nat) (h : List (Node α)) (lv : List Nat) (lg : List (Ev α))
    (hown : (q.holds = true ∧ o = some t ∧ (s.owner = none ∨ s.owner = some t)) ∨
      (q.holds = false ∧ ((o = s.owner ∧ (s.pc t).holds = false) ∨ (o = none ∧ s.owner = some t))))
    (hbag : ∃ b, replay lg = some b ∧ (o = none → h = emb b) ∧ ∀ u : Nat, o = some u → At h b (if u = t then q else s.pc u))
    (hlive : ∀ a ∈ h.map Node.addr, a ∈ lv)
    (hheld : ∀ (u a : Nat), u ≠ t → (s.pc u).held = some a → a ∈ lv ∧ a ∉ h.map Node.addr)
    (hq : ∀ a, q.held = some a → a ∈ lv ∧ a ∉ h.map Node.addr ∧ ∀ u : Nat, u ≠ t → (s.pc u).held ≠ some a) :
    Inv { owner := o, heap := h, live := lv, pc := fun k => if k = t then q else s.pc k, log := lg } where
  own u := by
    by_cases hu : u = t
    · subst hu
      simp only [if_true]
      rcases hown with ⟨h1, h2, -⟩ | ⟨h1, ⟨h2, h3⟩ | ⟨h2, -⟩⟩
      · simp [h1, h2]
      · rw [h1, h2, inv.own u, h3]
      · simp [h1, h2]
    · simp only [hu, if_false]
      rw [← inv.own u]
      have ne : ¬ t = u := fun h => hu h.symm
      rcases hown with ⟨h1, h2, h3 | h3⟩ | ⟨h1, ⟨h2, h3⟩ | ⟨h2, h3⟩⟩
      · simp [h2, h3, ne]
      · simp [h2, h3]
      · rw [h2]
      · simp [h2, h3, ne]
  bag := hbag
  live := hlive
  held u a hu := by
    by_cases e : u = t
    · simp only [e, if_true] at hu; exact ⟨(hq a hu).1, (hq a hu).2.1⟩
    · simp only [e, if_false] at hu; exact hheld u a e hu
  apart u w a hu hw := by
    by_cases e : u = t
    · by_cases e' : w = t
      · rw [e, e']
      · simp only [e, if_true] at hu
        simp only [e', if_false] at hw
        exact absurd hw ((hq a hu).2.2 w e')
    · by_cases e' : w = t
      · simp only [e', if_true] at hw
        simp only [e, if_false] at hu
        exact absurd hu ((hq a hw).2.2 u e)
      · simp only [e, e', if_false] at hu hw
        exact inv.apart u w a hu hw

/-- The bag, if nothing of it changed and `t` does not possess the mutex. -/
theorem Inv.keep {s : PqSt α} (inv : Inv s) (t : Nat) (q : PqPc α) (hn : (s.pc t).holds = false) :
    ∃ b, replay s.log = some b ∧ (s.owner = none → s.heap = emb b) ∧ ∀ u : Nat, s.owner = some u → At s.heap b (if u = t then q else s.pc u) := by
  obtain ⟨b, h1, h2, h3⟩ := inv.bag
  refine ⟨b, h1, h2, fun u hu => ?_⟩
  have : u ≠ t := by
    rintro rfl
    rw [(inv.own u).1 hu] at hn
    cases hn
  simp only [this, if_false]
  exact h3 u hu

/-- The bag, if `t` possesses the mutex afterwards. -/
theorem bag_of {b : Bag α} {lg : List (Ev α)} {h : List (Node α)} {t : Nat} {q : PqPc α} {f : Nat → PqPc α} (h1 : replay lg = some b) (h2 : At h b q) :
    ∃ b, replay lg = some b ∧ (some t = none → h = emb b) ∧ ∀ u : Nat, some t = some u → At h b (if u = t then q else f u) :=
  ⟨b, h1, (fun h => nomatch h), fun u hu => by cases hu; simpa using h2⟩

/-- The bag, if nobody possesses the mutex afterwards. -/
theorem bag_free {b : Bag α} {lg : List (Ev α)} {h : List (Node α)} {f : Nat → PqPc α} (h1 : replay lg = some b) (h2 : h = emb b) :
    ∃ b, replay lg = some b ∧ ((none : Option Nat) = none → h = emb b) ∧ ∀ u : Nat, none = some u → At h b (f u) :=
  ⟨b, h1, fun _ => h2, fun _ hu => nomatch hu⟩

theorem inv_go {s : PqSt α} (inv : Inv s) (t p : Nat) : Inv (s.go t p) := by
  unfold go
  have heldO : ∀ (u a : Nat), u ≠ t → (s.pc u).held = some a → a ∈ s.live ∧ a ∉ s.heap.map Node.addr := fun u a _ h => inv.held u a h
  cases hp : s.pc t with
  | out => exact inv
  | make v pr =>
    simp only
    split
    · exact inv
    · rename_i hl
      have hn : (s.pc t).holds = false := by rw [hp]; rfl
      refine inv.next t _ _ _ _ _ (.inr ⟨rfl, .inl ⟨rfl, hn⟩⟩) (inv.keep t _ hn) (fun a ha => List.mem_cons_of_mem _ (inv.live a ha))
        (fun u a hu h => ⟨List.mem_cons_of_mem _ (inv.held u a h).1, (inv.held u a h).2⟩) ?_
      intro a ha
      cases ha
      exact ⟨List.mem_cons_self, fun h => hl (inv.live _ h), fun u _ h => hl (inv.held u _ h).1⟩
  | lockP a x =>
    simp only
    split
    · rename_i ho
      obtain ⟨b, h1, h2, -⟩ := inv.bag
      refine inv.next t _ _ _ _ _ (.inl ⟨rfl, rfl, .inl ho⟩) (bag_of h1 (h2 ho)) inv.live heldO ?_
      intro a' ha
      cases ha
      have hh : (s.pc t).held = some a := by rw [hp]; rfl
      exact ⟨(inv.held t a hh).1, (inv.held t a hh).2, fun u hu h => hu (inv.apart u t a h hh)⟩
    · exact inv
  | ins a x =>
    have ho : s.owner = some t := (inv.own t).2 (by rw [hp]; rfl)
    have hh : (s.pc t).held = some a := by rw [hp]; rfl
    obtain ⟨b, h1, -, h3⟩ := inv.bag
    have h3 : s.heap = emb b := by have := h3 t ho; rw [hp] at this; exact this
    have ha := inv.held t a hh
    refine inv.next t (.unlP a x) s.owner _ _ _ (.inl ⟨rfl, ho, .inr ho⟩) ?_ ?_ ?_ (fun _ h => nomatch h)
    · rw [ho]
      refine bag_of h1 ⟨?_, ?_⟩
      · rw [← addr_emb, ← h3]; exact ha.2
      · rw [h3]; rfl
    · intro a' h'
      rcases List.mem_cons.1 h' with rfl | h'
      · exact ha.1
      · exact inv.live _ h'
    · intro u a' hu h'
      refine ⟨(inv.held u a' h').1, fun hm => ?_⟩
      rcases List.mem_cons.1 hm with rfl | hm
      · exact hu (inv.apart u t _ h' hh)
      · exact (inv.held u a' h').2 hm
  | unlP a x =>
    have ho : s.owner = some t := (inv.own t).2 (by rw [hp]; rfl)
    obtain ⟨b, h1, -, h3⟩ := inv.bag
    have h3 := h3 t ho
    rw [hp] at h3
    refine inv.next t .out none _ _ _ (.inr ⟨rfl, .inr ⟨rfl, ho⟩⟩) (bag_free (b := (a, x) :: b) ?_ h3.2) inv.live heldO (fun _ h => nomatch h)
    rw [replay_snoc, h1]
    simp only [Option.bind_some, one]
    rw [if_neg h3.1]
  | tryL n =>
    simp only
    split
    · rename_i ho
      obtain ⟨b, h1, h2, -⟩ := inv.bag
      exact inv.next t _ _ _ _ _ (.inl ⟨rfl, rfl, .inl ho⟩) (bag_of h1 ⟨b, h2 ho, rfl⟩) inv.live heldO (fun _ h => nomatch h)
    · have hn : (s.pc t).holds = false := by rw [hp]; rfl
      obtain ⟨b, h1, h2⟩ := inv.keep t .out hn
      refine inv.next t .out s.owner _ _ _ (.inr ⟨rfl, .inl ⟨rfl, hn⟩⟩) ⟨b, ?_, h2⟩ inv.live heldO (fun _ h => nomatch h)
      rw [replay_snoc, h1]; rfl
  | chk n left got =>
    have ho : s.owner = some t := (inv.own t).2 (by rw [hp]; rfl)
    obtain ⟨b, h1, -, h3⟩ := inv.bag
    have h3 := h3 t ho
    rw [hp] at h3
    obtain ⟨b', hb, ht⟩ := h3
    have stop : takeN left b' = ([], b') → Inv (s.setPc t (.unlT n got)) := fun this => by
      refine inv.next t (.unlT n got) s.owner _ _ _ (.inl ⟨rfl, ho, .inr ho⟩) ?_ inv.live heldO (fun _ h => nomatch h)
      rw [ho]
      exact bag_of h1 ⟨b', hb, by rw [ht, this, List.append_nil]⟩
    simp only
    rw [hb]
    cases left with
    | zero => cases b' <;> exact stop rfl
    | succ left =>
      cases b' with
      | nil => exact stop rfl
      | cons e b' =>
        refine inv.next t (.move n left got) s.owner _ _ _ (.inl ⟨rfl, ho, .inr ho⟩) ?_ inv.live heldO (fun _ h => nomatch h)
        rw [ho]
        exact bag_of h1 ⟨e :: b', by simp, hb, ht⟩
  | move n left got =>
    have ho : s.owner = some t := (inv.own t).2 (by rw [hp]; rfl)
    obtain ⟨b, h1, -, h3⟩ := inv.bag
    have h3 := h3 t ho
    rw [hp] at h3
    obtain ⟨b', hne, hb, ht⟩ := h3
    simp only
    split
    · rename_i a hm
      have hadd : (hollow a s.heap).map Node.addr = s.heap.map Node.addr := addr_hollow a s.heap
      have hm' : (b'.map Prod.fst).max? = some a := by rw [← top_emb, ← hb]; exact hm
      refine inv.next t (.pop n left _) s.owner (hollow a s.heap) _ _ (.inl ⟨rfl, ho, .inr ho⟩) ?_ (by rw [hadd]; exact inv.live)
        (by rw [hadd]; exact heldO) (fun _ h => nomatch h)
      rw [ho]
      refine bag_of h1 ⟨b', a, hm', by rw [hb], ?_⟩
      rw [ht, hb, find_emb]
      simp only [takeN, hm', List.append_assoc]
    · exact inv
  | pop n left got =>
    have ho : s.owner = some t := (inv.own t).2 (by rw [hp]; rfl)
    obtain ⟨b, h1, -, h3⟩ := inv.bag
    have h3 := h3 t ho
    rw [hp] at h3
    obtain ⟨b', a', hm', hb, ht⟩ := h3
    simp only
    split
    · rename_i a hm
      have e : a = a' := by
        rw [top, hb, addr_hollow, addr_emb, hm'] at hm
        exact (Option.some.inj hm).symm
      subst e
      have hmem : a ∈ s.heap.map Node.addr := List.max?_mem hm
      refine inv.next t (.chk n left got) s.owner _ _ _ (.inl ⟨rfl, ho, .inr ho⟩) ?_ ?_ ?_ (fun _ h => nomatch h)
      · rw [ho]
        exact bag_of h1 ⟨_, by rw [hb, filter_hollow], ht⟩
      · intro i hi
        obtain ⟨x, hx, rfl⟩ := List.mem_map.1 hi
        obtain ⟨hx, hxa⟩ := List.mem_filter.1 hx
        exact List.mem_filter.2 ⟨inv.live _ (List.mem_map_of_mem hx), hxa⟩
      · intro u i hu h
        obtain ⟨g1, g2⟩ := inv.held u i h
        refine ⟨List.mem_filter.2 ⟨g1, ?_⟩, fun hi => g2 ?_⟩
        · have : i ≠ a := by rintro rfl; exact g2 hmem
          simpa using this
        · obtain ⟨x, hx, rfl⟩ := List.mem_map.1 hi
          exact List.mem_map_of_mem (List.mem_filter.1 hx).1
    · exact inv
  | unlT n got =>
    have ho : s.owner = some t := (inv.own t).2 (by rw [hp]; rfl)
    obtain ⟨b, h1, -, h3⟩ := inv.bag
    have h3 := h3 t ho
    rw [hp] at h3
    obtain ⟨b', hb, ht⟩ := h3
    refine inv.next t .out none _ _ _ (.inr ⟨rfl, .inr ⟨rfl, ho⟩⟩) (bag_free (b := b') ?_ hb) inv.live heldO (fun _ h => nomatch h)
    rw [replay_snoc, h1]
    simp [one, ht]
  | lockE =>
    simp only
    split
    · rename_i ho
      obtain ⟨b, h1, h2, -⟩ := inv.bag
      exact inv.next t _ _ _ _ _ (.inl ⟨rfl, rfl, .inl ho⟩) (bag_of h1 (h2 ho)) inv.live heldO (fun _ h => nomatch h)
    · exact inv
  | rdE =>
    have ho : s.owner = some t := (inv.own t).2 (by rw [hp]; rfl)
    obtain ⟨b, h1, -, h3⟩ := inv.bag
    have h3 : s.heap = emb b := by have := h3 t ho; rw [hp] at this; exact this
    refine inv.next t (.unlE s.heap.isEmpty) s.owner _ _ _ (.inl ⟨rfl, ho, .inr ho⟩) ?_ inv.live heldO (fun _ h => nomatch h)
    rw [ho]
    exact bag_of h1 ⟨h3, by rw [h3]; cases b <;> rfl⟩
  | unlE e =>
    have ho : s.owner = some t := (inv.own t).2 (by rw [hp]; rfl)
    obtain ⟨b, h1, -, h3⟩ := inv.bag
    have h3 := h3 t ho
    rw [hp] at h3
    refine inv.next t .out none _ _ _ (.inr ⟨rfl, .inr ⟨rfl, ho⟩⟩) (bag_free (b := b) ?_ h3.1) inv.live heldO (fun _ h => nomatch h)
    rw [replay_snoc, h1]
    simp [one, h3.2]

omit [DecidableEq α] in
theorem isOut_eq {q : PqPc α} (h : q.isOut = true) : q = .out := by
  cases q <;> first | rfl | cases h

theorem inv_step {s : PqSt α} (inv : Inv s) (a : PqAct α) : Inv (s.step a) := by
  cases a with
  | go t p => exact inv_go inv t p
  | call t c =>
    simp only [step]
    split
    · rename_i h
      have hn : (s.pc t).holds = false := by rw [isOut_eq h]; rfl
      have h1 : (first c : PqPc α).holds = false := by cases c <;> rfl
      have h2 : (first c : PqPc α).held = none := by cases c <;> rfl
      exact inv.next t (first c) s.owner _ _ _ (.inr ⟨h1, .inl ⟨rfl, hn⟩⟩) (inv.keep t _ hn) inv.live
        (fun u a _ h => inv.held u a h) (fun a h => by rw [h2] at h; cases h)
    · exact inv

theorem inv_run (l : List (PqAct α)) : Inv (run l) := by
  unfold run
  induction l using List.reverseRecOn with
  | nil => exact inv_init
  | append_singleton l a ih => rw [List.foldl_append]; exact inv_step ih a

/-! ### the property -/

/-- **C117 (at once)** Whenever no thread is inside, the calls that returned, in the order in which they gave the mutex back (or failed to get it), have exactly
the results of a bag that is used by one call at a time, and the queue contains exactly what this bag does, every task unmoved. -/
theorem C117_atonce (l : List (PqAct α)) : ∃ b, replay (run l).log = some b ∧
    ((run l).owner = none → (run l).heap = b.map fun e => ⟨e.1, some e.2⟩) := by
  obtain ⟨b, h1, h2, -⟩ := (inv_run l).bag
  exact ⟨b, h1, h2⟩

/-- **C117 (conserved)** Whenever no thread is inside, the tasks pushed are the tasks handed out and the tasks in the queue: none lost, none
twice, each with the priority it was pushed with. -/
theorem C117_conserved (l : List (PqAct α)) (ho : (run l).owner = none) :
    ((pushed (run l).log).map some).Perm ((popped (run l).log).map some ++ (run l).heap.map Node.val) := by
  obtain ⟨b, h1, h2, -⟩ := (inv_run l).bag
  have := ((replay_nodup _ b h1).2).map some
  rw [h2 ho]
  simpa [emb, Function.comp_def] using this

omit [DecidableEq α] in
theorem takeN_length (n : Nat) (b : Bag α) : (takeN n b).1.length ≤ n := by
  induction n generalizing b with
  | zero => simp [takeN]
  | succ n ih =>
    simp only [takeN]
    split
    · simp
    · rw [List.length_append]
      have := ih (b.filter fun e => e.1 != ‹Nat›)
      have h1 : ∀ o : Option (α × Int), o.toList.length ≤ 1 := fun o => by cases o <;> simp
      have h2 := h1 ((b.find? (fun e => e.1 == ‹Nat›)).map Prod.snd)
      omega

theorem replay_at {l1 l2 : List (Ev α)} {t n : Nat} {r : List (α × Int)} {b : Bag α} (h1 : replay (l1 ++ .pop t n r :: l2) = some b) :
    ∃ b0, replay l1 = some b0 ∧ r = (takeN n b0).1 := by
  have fn : ∀ l : List (Ev α), l.foldl (fun b e => b.bind (one · e)) none = none := by
    intro l
    induction l with
    | nil => rfl
    | cons a l ih => exact ih
  have e : replay (l1 ++ .pop t n r :: l2) = l2.foldl (fun b e => b.bind (one · e)) ((replay l1).bind (one · (.pop t n r))) := by
    simp [replay, List.foldl_append]
  rw [e] at h1
  cases h0 : replay l1 with
  | none => rw [h0, Option.bind_none, fn] at h1; cases h1
  | some b0 =>
    refine ⟨b0, rfl, ?_⟩
    by_contra hr
    have : one b0 (.pop t n r) = none := by simp [one, hr]
    rw [h0, Option.bind_some, this, fn] at h1
    cases h1

/-- **C117 (batch)** A call for up to `n` tasks hands out at most `n`. -/
theorem C117_batch (l : List (PqAct α)) (t n : Nat) (r : List (α × Int)) (h : Ev.pop t n r ∈ (run l).log) : r.length ≤ n := by
  obtain ⟨b, h1, -, -⟩ := (inv_run l).bag
  obtain ⟨l1, l2, e⟩ := List.append_of_mem h
  rw [e] at h1
  obtain ⟨b0, -, rfl⟩ := replay_at h1
  exact takeN_length n b0

omit [DecidableEq α] in
theorem takeN_nil (n : Nat) (b : Bag α) (h : (takeN (n + 1) b).1 = []) : b = [] := by
  simp only [takeN] at h
  split at h
  · rename_i hm
    simpa [List.max?_eq_none_iff] using hm
  · rename_i a hm
    obtain ⟨e, he, hea⟩ := List.mem_map.1 (List.max?_mem hm)
    have h := (List.append_eq_nil_iff.1 h).1
    cases hf : b.find? (fun e => e.1 == a) with
    | none =>
      have := List.find?_eq_none.1 hf e he
      simp [hea] at this
    | some x => rw [hf] at h; cases h

/-- **C117 (nothing)** A call for at least one task that got the mutex and hands out nothing: everything pushed before it has been handed
out before it. -/
theorem C117_nothing (l : List (PqAct α)) (t n : Nat) (l1 l2 : List (Ev α)) (h : (run l).log = l1 ++ .pop t (n + 1) [] :: l2) :
    (pushed l1).Perm (popped l1) := by
  obtain ⟨b, h1, -, -⟩ := (inv_run l).bag
  rw [h] at h1
  obtain ⟨b0, h0, hr⟩ := replay_at h1
  have := (replay_nodup _ b0 h0).2
  rw [takeN_nil n b0 hr.symm] at this
  simpa using this

/-- The next step reads or writes the heap. -/
def PqPc.uses : PqPc α → Bool
  | .ins .. => true
  | .chk .. => true
  | .move .. => true
  | .pop .. => true
  | .rdE => true
  | _ => false

/-- **C117 (exclusive)** No two threads use the heap at the same time. -/
theorem C117_exclusive (l : List (PqAct α)) (t u : Nat) (ht : ((run l).pc t).uses = true) (hu : ((run l).pc u).uses = true) : t = u := by
  have inv := inv_run l
  have up : ∀ q : PqPc α, q.uses = true → q.holds = true := fun q h => by cases q <;> first | rfl | cases h
  have h1 := (inv.own t).2 (up _ ht)
  rw [(inv.own u).2 (up _ hu)] at h1
  exact (Option.some.inj h1).symm

/-! ### try-pop does not block -/

/-- Steps until `tryPop` returns, at most. -/
def PqPc.fuel : PqPc α → Nat
  | .tryL n => 3 * n + 3
  | .chk _ left _ => 3 * left + 2
  | .move _ left _ => 3 * left + 4
  | .pop _ left _ => 3 * left + 3
  | .unlT .. => 1
  | _ => 0

/-- In `tryPop`. -/
def PqPc.trying : PqPc α → Bool
  | .tryL .. => true
  | .chk .. => true
  | .move .. => true
  | .pop .. => true
  | .unlT .. => true
  | _ => false

omit [DecidableEq α] in
theorem go_other (s : PqSt α) (u p t : Nat) (h : t ≠ u) : (s.go u p).pc t = s.pc t := by
  unfold go
  split <;> (try rfl) <;> (try (split <;> simp [setPc, h])) <;> simp [setPc, h]

theorem top_some {h : List (Node α)} (hn : h ≠ []) : ∃ a, top h = some a := by
  cases hm : top h with
  | some a => exact ⟨a, rfl⟩
  | none => rw [top, List.max?_eq_none_iff, List.map_eq_nil_iff] at hm; exact absurd hm hn

theorem go_try {s : PqSt α} (inv : Inv s) (t p : Nat) (h : (s.pc t).trying = true) :
    ((s.go t p).pc t).isOut = true ∨ (((s.go t p).pc t).trying = true ∧ ((s.go t p).pc t).fuel + 1 ≤ (s.pc t).fuel) := by
  unfold go
  have at_ : (s.pc t).holds = true → ∃ b, At s.heap b (s.pc t) := fun h => by
    obtain ⟨b, -, -, h3⟩ := inv.bag
    exact ⟨b, h3 t ((inv.own t).2 h)⟩
  cases hp : s.pc t with
  | tryL n =>
    simp only
    split
    · right; simp [setPc, PqPc.trying, PqPc.fuel]
    · left; simp [setPc, PqPc.isOut]
  | chk n left got =>
    simp only
    right
    split
    · simp [setPc, PqPc.trying, PqPc.fuel]; omega
    · simp [setPc, PqPc.trying, PqPc.fuel]
  | move n left got =>
    rw [hp] at at_
    obtain ⟨b, b', hne, hb, -⟩ := at_ rfl
    obtain ⟨a, ha⟩ := top_some (h := s.heap) (by rw [hb]; simpa [emb] using hne)
    simp only [ha]
    right; simp [setPc, PqPc.trying, PqPc.fuel]
  | pop n left got =>
    rw [hp] at at_
    obtain ⟨b, b', a', hm, hb, -⟩ := at_ rfl
    obtain ⟨a, ha⟩ := top_some (h := s.heap) (by
      rw [hb]
      cases b' with
      | nil => cases hm
      | cons e b' => simp [hollow, emb])
    simp only [ha]
    right; simp [setPc, PqPc.trying, PqPc.fuel]
  | unlT n got => left; simp [setPc, PqPc.isOut]
  | _ => rw [hp] at h; cases h

/-- The steps of thread `t`. -/
def steps (t : Nat) (l : List (PqAct α)) : Nat := l.countP fun
  | .go u _ => u == t
  | .call .. => false

theorem try_out (t : Nat) (l' : List (PqAct α)) : ∀ s : PqSt α, Inv s → (s.pc t).trying = true → (s.pc t).fuel ≤ steps t l' →
    ∃ l1 l2, l' = l1 ++ l2 ∧ ((l1.foldl step s).pc t).isOut = true := by
  induction l' with
  | nil =>
    intro s _ h hf
    cases hp : s.pc t <;> rw [hp] at h hf <;> first | (cases h; done) | (simp [steps, PqPc.fuel] at hf)
  | cons a l' ih =>
    intro s inv h hf
    have key : ((s.step a).pc t).isOut = true ∨ (((s.step a).pc t).trying = true ∧ ((s.step a).pc t).fuel ≤ steps t l') := by
      cases a with
      | call u c =>
        have hf : (s.pc t).fuel ≤ steps t l' := by simpa [steps, List.countP_cons] using hf
        simp only [step]
        split
        · rename_i ho
          have : t ≠ u := by rintro rfl; rw [isOut_eq ho] at h; cases h
          right; simp only [setPc, this, if_false]; exact ⟨h, hf⟩
        · exact .inr ⟨h, hf⟩
      | go u p =>
        simp only [step]
        by_cases hu : t = u
        · subst hu
          have hf : (s.pc t).fuel ≤ steps t l' + 1 := by simpa [steps, List.countP_cons] using hf
          rcases go_try inv t p h with h' | ⟨h1, h2⟩
          · exact .inl h'
          · exact .inr ⟨h1, by omega⟩
        · have hu' : ¬ u = t := fun h => hu h.symm
          have hf : (s.pc t).fuel ≤ steps t l' := by simpa [steps, List.countP_cons, hu'] using hf
          rw [go_other s u p t hu]
          exact .inr ⟨h, hf⟩
    rcases key with h' | ⟨h1, h2⟩
    · exact ⟨[a], l', rfl, h'⟩
    · obtain ⟨l1, l2, e, h3⟩ := ih _ (inv_step inv a) h1 h2
      exact ⟨a :: l1, l2, by rw [e]; rfl, h3⟩

/-- **C117 (wait-free)** A thread that asks for up to `n` tasks is back after `3n + 3` steps of its own, whatever the others do, also if one of them
stops inside. -/
theorem C117_waitfree (l l' : List (PqAct α)) (t n : Nat) (ho : ((run l).pc t).isOut = true) (hs : 3 * n + 3 ≤ steps t l') :
    ∃ l1 l2, l' = l1 ++ l2 ∧ ((run (l ++ .call t (.pop n) :: l1)).pc t).isOut = true := by
  have e : ((run l).step (.call t (.pop n))).pc t = .tryL n := by simp [step, ho, setPc, first]
  obtain ⟨l1, l2, h1, h2⟩ := try_out t l' _ (inv_step (inv_run l) (.call t (.pop n))) (by rw [e]; rfl) (by rw [e]; exact hs)
  refine ⟨l1, l2, h1, ?_⟩
  unfold run at h2 ⊢
  rw [List.foldl_append, List.foldl_cons]
  exact h2

/-- **C117 (busy)** A call is told nothing without looking only while another thread is inside. -/
theorem C117_busy (s : List (PqAct α)) (a : PqAct α) (t n : Nat)
    (h : (run (s ++ [a])).log = (run s).log ++ [.busy t n]) : ∃ u, u ≠ t ∧ (run s).owner = some u := by
  have inv := inv_run s
  have e : run (s ++ [a]) = (run s).step a := by simp [run, List.foldl_append]
  rw [e] at h
  generalize run s = s at *
  have no : ∀ l : List (Ev α), ¬ l = l ++ [.busy t n] := fun l h => by simpa using congrArg List.length h
  cases a with
  | call u c =>
    simp only [step] at h
    split at h <;> exact absurd h (no _)
  | go u p =>
    simp only [step, go] at h
    split at h <;> (try exact absurd h (no _)) <;> (try (split at h <;> (try exact absurd h (no _)))) <;> (try (simp at h; done))
    all_goals
      rename_i hp _ w hw
      have h := List.append_cancel_left h
      simp only [List.cons.injEq, Ev.busy.injEq, and_true] at h
      obtain ⟨rfl, rfl⟩ := h
      refine ⟨w, ?_, hw⟩
      rintro rfl
      have := (inv.own w).1 hw
      rw [hp] at this
      cases this

/-! ### an example -/

/-- Threads 0 and 1 push, thread 2 comes in between, then takes up to three tasks. -/
def exRun : List (PqAct Nat) :=
  [.call 0 (.push 7 1), .call 1 (.push 8 2), .go 0 5, .go 1 4, .go 0 0, .go 1 0, .call 2 (.pop 3), .go 2 0, .go 0 0, .go 0 0, .go 1 0, .go 1 0, .go 1 0,
   .call 2 (.pop 3), .go 2 0, .go 2 0, .go 2 0, .go 2 0, .go 2 0, .go 2 0, .go 2 0, .go 2 0, .go 2 0, .call 0 .empty, .go 0 0, .go 0 0, .go 0 0]

/-- The one with the smaller priority number comes first here because of its address. -/
example : (run exRun).log = [.busy 2 3, .push 0 5 (7, 1), .push 1 4 (8, 2), .pop 2 3 [(7, 1), (8, 2)], .empty 0 true] ∧
    (run exRun).owner = none ∧ (run exRun).heap = [] := by decide

/-- The hypotheses of `C117_busy`: thread 1 has pushed a task, thread 0 asks whether there are any, thread 2 is told nothing although the task is there. -/
def exBusy : List (PqAct Nat) := [.call 1 (.push 7 0), .go 1 5, .go 1 0, .go 1 0, .go 1 0, .call 0 .empty, .go 0 0, .call 2 (.pop 1)]

example : (run (exBusy ++ [.go 2 0])).log = (run exBusy).log ++ [.busy 2 1] ∧ (run exBusy).owner = some 0 ∧
    (run exBusy).heap = [⟨5, some (7, 0)⟩] := by decide

/-- The hypotheses of `C117_nothing`: two tasks pushed and handed out, the next call gets nothing. -/
example : (run (exRun ++ [.call 1 (.pop 1), .go 1 0, .go 1 0, .go 1 0])).log =
    [.busy 2 3, .push 0 5 (7, 1), .push 1 4 (8, 2), .pop 2 3 [(7, 1), (8, 2)], .empty 0 true] ++ .pop 1 (0 + 1) [] :: [] := by decide

/-- The hypotheses of `C117_waitfree`, and of `C117_exclusive` (with `t = u`; that they hold of no two threads is what it says). -/
example : ((run (exRun.take 13)).pc 2).isOut = true ∧ 3 * 2 + 3 ≤ steps 2 (exRun.drop 14) ∧ ((run (exRun.take 15)).pc 2).uses = true := by decide

end CGraph.PqConc
