import Verif.Spec.Passed
import Mathlib.Data.List.Nodup
import Mathlib.Tactic.SplitIfs

namespace CGraph
namespace Passed
open Spec

theorem find_put (l : List (Nat × Option Nat)) (k : Nat) (v : Option Nat) (k' : Nat) :
    find (put l k v) k' = if k' = k then some v else find l k' := by
  unfold find put
  by_cases h : k' = k
  · subst h; simp
  · rw [if_neg h, List.find?_cons_of_neg (by simpa using fun h2 => h h2.symm)]
    congr 1
    induction l with
    | nil => rfl
    | cons p l ih =>
      by_cases hp : p.1 = k
      · rw [List.filter_cons_of_neg (by simpa using hp), ih, List.find?_cons_of_neg]
        simp [hp, Ne.symm h]
      · rw [List.filter_cons_of_pos (by simpa using hp)]
        by_cases hq : p.1 = k'
        · rw [List.find?_cons_of_pos (by simpa using hq), List.find?_cons_of_pos (by simpa using hq)]
        · rw [List.find?_cons_of_neg (by simpa using hq), List.find?_cons_of_neg (by simpa using hq), ih]

theorem put_nodup {l : List (Nat × Option Nat)} (h : (l.map Prod.fst).Nodup) (k : Nat) (v : Option Nat) :
    ((put l k v).map Prod.fst).Nodup := by
  unfold put
  rw [List.map_cons, List.nodup_cons]
  refine ⟨?_, ?_⟩
  · simp
  · exact (List.filter_sublist.map _).nodup h

theorem find_mem {l : List (Nat × Option Nat)} (h : (l.map Prod.fst).Nodup) (k : Nat) (v : Option Nat) :
    find l k = some v ↔ (k, v) ∈ l := by
  induction l with
  | nil => simp [find]
  | cons p l ih =>
    rw [List.map_cons, List.nodup_cons] at h
    have ih := ih h.2
    unfold find at ih ⊢
    by_cases hp : p.1 = k
    · rw [List.find?_cons_of_pos (by simpa using hp)]
      subst hp
      have : (p.1, v) ∉ l := fun hm => h.1 (List.mem_map.2 ⟨_, hm, rfl⟩)
      simp only [Option.map_some, Option.some.injEq, List.mem_cons, this, or_false]
      constructor
      · rintro rfl; rfl
      · intro h2; rw [← h2]
    · rw [List.find?_cons_of_neg (by simpa using hp), ih, List.mem_cons]
      constructor
      · exact .inr
      · rintro (h2 | h2)
        · exact absurd (by rw [← h2]) hp
        · exact h2

theorem delAll_spec : ∀ (l : List (Nat × Option Nat)) (mem : Nat → Option Cell), (l.map Prod.fst).Nodup →
    (∀ k b, (k, some b) ∈ l → mem b ≠ none) →
    (∀ k k' b, (k, some b) ∈ l → (k', some b) ∈ l → k = k') →
    ∃ m, delAll l mem = some m ∧ (∀ b, (∃ k, (k, some b) ∈ l) → m b = none) ∧
      ∀ b, (¬ ∃ k, (k, some b) ∈ l) → m b = mem b := by
  intro l
  induction l with
  | nil => intro mem _ _ _; exact ⟨mem, rfl, by simp, fun _ _ => rfl⟩
  | cons p l ih =>
    intro mem hn hl hi
    rw [List.map_cons, List.nodup_cons] at hn
    obtain ⟨k, x⟩ := p
    cases x with
    | none =>
      obtain ⟨m, m1, m2, m3⟩ := ih mem hn.2 (fun k b h => hl k b (by simp [h]))
        (fun k k' b h h' => hi k k' b (by simp [h]) (by simp [h']))
      refine ⟨m, by simpa [delAll, delPtr] using m1, ?_, ?_⟩
      · rintro b ⟨k', h⟩
        exact m2 b ⟨k', by simpa using h⟩
      · intro b h
        exact m3 b (fun ⟨k', h'⟩ => h ⟨k', by simp [h']⟩)
    | some c =>
      have hc := hl k c (by simp)
      have hcl : ∀ k', (k', some c) ∉ l := by
        intro k' h'
        have := hi k k' c (by simp) (by simp [h'])
        subst this
        exact hn.1 (List.mem_map.2 ⟨_, h', rfl⟩)
      obtain ⟨m, m1, m2, m3⟩ := ih (Function.update mem c none) hn.2
        (fun k' b h => by
          rw [Function.update_of_ne (fun hb => by subst hb; exact hcl k' h)]
          exact hl k' b (by simp [h]))
        (fun k k' b h h' => hi k k' b (by simp [h]) (by simp [h']))
      refine ⟨m, ?_, ?_, ?_⟩
      · rw [delAll, delPtr, if_pos (Option.isSome_iff_ne_none.2 hc)]
        exact m1
      · rintro b ⟨k', h⟩
        rcases List.mem_cons.1 h with h | h
        · obtain ⟨-, rfl⟩ : k' = k ∧ b = c := by simpa using h
          rw [m3 b (fun ⟨k2, h2⟩ => hcl k2 h2), Function.update_self]
        · exact m2 b ⟨k', h⟩
      · intro b h
        rw [m3 b (fun ⟨k', h'⟩ => h ⟨k', by simp [h']⟩), Function.update_of_ne]
        rintro rfl
        exact h ⟨k, by simp⟩

/-- Memory with tables of pointers stands for holders with values. -/
structure Sim (s : St) (a : PSpec) : Prop where
  inited : s.inited = a.inited
  gone : s.gone = a.gone
  slotSome : ∀ h k v, a.slot h k = some v → ∃ b, find (s.tbl h) k = some (some b) ∧ s.mem b = some ⟨v.ty, v.val, false⟩
  slotNone : ∀ h k, a.slot h k = none → find (s.tbl h) k = none
  inj : ∀ h k h' k' b, find (s.tbl h) k = some (some b) → find (s.tbl h') k' = some (some b) → h = h' ∧ k = k'
  nul : ∀ i, a.vars i = .null → s.vars i = none
  own : ∀ i v, a.vars i = .own v → ∃ c, s.vars i = some c ∧ s.mem c = some ⟨v.ty, v.val, true⟩
  ownInj : ∀ i j v w, a.vars i = .own v → a.vars j = .own w → s.vars i = s.vars j → i = j
  lent : ∀ i h k, a.vars i = .lent h k → ∃ b, s.vars i = some b ∧ find (s.tbl h) k = some (some b)
  lt : ∀ b, s.mem b ≠ none → b < s.next
  keys : ∀ h, ((s.tbl h).map Prod.fst).Nodup
  goneE : ∀ h, s.gone h = true → s.tbl h = []
  kept : ∀ b c, s.mem b = some c → c.mine = false → ∃ h k, find (s.tbl h) k = some (some b)

theorem Sim.init : Sim Passed.init PSpec.init := by
  constructor <;> simp [Passed.init, PSpec.init, find]

/-- The cell of an entry. -/
theorem Sim.cell {s : St} {a : PSpec} (S : Sim s a) {h k b : Nat} (hf : find (s.tbl h) k = some (some b)) :
    ∃ v, a.slot h k = some v ∧ s.mem b = some ⟨v.ty, v.val, false⟩ := by
  cases hs : a.slot h k with
  | none => rw [S.slotNone h k hs] at hf; simp at hf
  | some v =>
    obtain ⟨b', h1, h2⟩ := S.slotSome h k v hs
    rw [hf] at h1
    simp at h1
    subst h1
    exact ⟨v, rfl, h2⟩

theorem Sim.entry {s : St} {a : PSpec} (S : Sim s a) (h k : Nat) :
    find (s.tbl h) k = none ∨ ∃ b, find (s.tbl h) k = some (some b) := by
  cases hs : a.slot h k with
  | none => exact .inl (S.slotNone h k hs)
  | some v => obtain ⟨b, h1, -⟩ := S.slotSome h k v hs; exact .inr ⟨b, h1⟩

/-- A variable of the caller is never the address of a parameter unless lent. -/
theorem Sim.own_ne {s : St} {a : PSpec} (S : Sim s a) {i h k b c : Nat} {v : PVal} (ho : a.vars i = .own v)
    (hc : s.vars i = some c) (hf : find (s.tbl h) k = some (some b)) : c ≠ b := by
  rintro rfl
  obtain ⟨c', h1, h2⟩ := S.own i v ho
  rw [hc] at h1
  simp at h1; subst h1
  obtain ⟨w, -, h3⟩ := S.cell hf
  rw [h2] at h3
  simp at h3

theorem sim_new {s : St} {a : PSpec} (S : Sim s a) (i ty v : Nat) :
    Sim { s with mem := Function.update s.mem s.next (some ⟨ty, v, true⟩), next := s.next + 1,
                 vars := Function.update s.vars i (some s.next) }
      { a with vars := Function.update a.vars i (.own ⟨ty, v⟩) } := by
  have hn : ∀ b, s.mem b ≠ none → b ≠ s.next := fun b h hb => by have := S.lt b h; omega
  constructor
  · exact S.inited
  · exact S.gone
  · intro h k w hw
    obtain ⟨b, h1, h2⟩ := S.slotSome h k w hw
    exact ⟨b, h1, by dsimp only; rw [Function.update_of_ne (hn b (by simp [h2]))]; exact h2⟩
  · exact S.slotNone
  · exact S.inj
  · intro j hj
    dsimp only at hj ⊢
    by_cases hji : j = i
    · subst hji; simp at hj
    · rw [Function.update_of_ne hji] at hj ⊢; exact S.nul j hj
  · intro j w hj
    dsimp only at hj ⊢
    by_cases hji : j = i
    · subst hji
      simp only [Function.update_self, Ref.own.injEq] at hj
      subst hj
      exact ⟨s.next, by simp, by simp⟩
    · rw [Function.update_of_ne hji] at hj ⊢
      obtain ⟨c, h1, h2⟩ := S.own j w hj
      exact ⟨c, h1, by rw [Function.update_of_ne (hn c (by simp [h2]))]; exact h2⟩
  · intro j j' w w' hj hj' he
    dsimp only at hj hj' he
    by_cases hji : j = i <;> by_cases hji' : j' = i
    · rw [hji, hji']
    · subst hji
      rw [Function.update_of_ne hji'] at hj' he
      obtain ⟨c, h1, h2⟩ := S.own j' w' hj'
      rw [Function.update_self, h1] at he
      exact absurd (Option.some.inj he).symm (hn c (by simp [h2]))
    · subst hji'
      rw [Function.update_of_ne hji] at hj he
      obtain ⟨c, h1, h2⟩ := S.own j w hj
      rw [Function.update_self, h1] at he
      exact absurd (Option.some.inj he) (hn c (by simp [h2]))
    · rw [Function.update_of_ne hji] at hj he
      rw [Function.update_of_ne hji'] at hj' he
      exact S.ownInj j j' w w' hj hj' he
  · intro j h k hj
    dsimp only at hj ⊢
    by_cases hji : j = i
    · subst hji; simp at hj
    · rw [Function.update_of_ne hji] at hj ⊢; exact S.lent j h k hj
  · intro b hb
    dsimp only at hb ⊢
    by_cases hbn : b = s.next
    · omega
    · rw [Function.update_of_ne hbn] at hb; have := S.lt b hb; omega
  · exact S.keys
  · exact S.goneE
  · intro b c hb hm
    dsimp only at hb
    by_cases hbn : b = s.next
    · subst hbn; simp at hb; subst hb; simp at hm
    · rw [Function.update_of_ne hbn] at hb; exact S.kept b c hb hm

theorem sim_del {s : St} {a : PSpec} (S : Sim s a) {i c : Nat} {v : PVal} (ho : a.vars i = .own v)
    (hc : s.vars i = some c) :
    Sim { s with mem := Function.update s.mem c none } { a with vars := Function.update a.vars i .dead } := by
  constructor
  · exact S.inited
  · exact S.gone
  · intro h k w hw
    obtain ⟨b, h1, h2⟩ := S.slotSome h k w hw
    exact ⟨b, h1, by dsimp only; rw [Function.update_of_ne (Ne.symm (S.own_ne ho hc h1))]; exact h2⟩
  · exact S.slotNone
  · exact S.inj
  · intro j hj
    dsimp only at hj ⊢
    by_cases hji : j = i
    · subst hji; simp at hj
    · rw [Function.update_of_ne hji] at hj; exact S.nul j hj
  · intro j w hj
    dsimp only at hj ⊢
    by_cases hji : j = i
    · subst hji; simp at hj
    · rw [Function.update_of_ne hji] at hj
      obtain ⟨c', h1, h2⟩ := S.own j w hj
      refine ⟨c', h1, ?_⟩
      rw [Function.update_of_ne]
      · exact h2
      · rintro rfl
        exact hji (S.ownInj j i w v hj ho (by rw [h1, hc]))
  · intro j j' w w' hj hj' he
    dsimp only at hj hj' he
    by_cases hji : j = i
    · subst hji; simp at hj
    · by_cases hji' : j' = i
      · subst hji'; simp at hj'
      · rw [Function.update_of_ne hji] at hj
        rw [Function.update_of_ne hji'] at hj'
        exact S.ownInj j j' w w' hj hj' he
  · intro j h k hj
    dsimp only at hj ⊢
    by_cases hji : j = i
    · subst hji; simp at hj
    · rw [Function.update_of_ne hji] at hj; exact S.lent j h k hj
  · intro b hb
    dsimp only at hb ⊢
    by_cases hbn : b = c
    · subst hbn; simp at hb
    · rw [Function.update_of_ne hbn] at hb; exact S.lt b hb
  · exact S.keys
  · exact S.goneE
  · intro b c' hb hm
    dsimp only at hb
    by_cases hbn : b = c
    · subst hbn; simp at hb
    · rw [Function.update_of_ne hbn] at hb; exact S.kept b c' hb hm

theorem sim_write_own {s : St} {a : PSpec} (S : Sim s a) {i c : Nat} {v : PVal} (ho : a.vars i = .own v)
    (hc : s.vars i = some c) (x : Nat) :
    Sim { s with mem := Function.update s.mem c (some ⟨v.ty, x, true⟩) }
      { a with vars := Function.update a.vars i (.own { v with val := x }) } := by
  constructor
  · exact S.inited
  · exact S.gone
  · intro h k w hw
    obtain ⟨b, h1, h2⟩ := S.slotSome h k w hw
    exact ⟨b, h1, by dsimp only; rw [Function.update_of_ne (Ne.symm (S.own_ne ho hc h1))]; exact h2⟩
  · exact S.slotNone
  · exact S.inj
  · intro j hj
    dsimp only at hj ⊢
    by_cases hji : j = i
    · subst hji; simp at hj
    · rw [Function.update_of_ne hji] at hj; exact S.nul j hj
  · intro j w hj
    dsimp only at hj ⊢
    by_cases hji : j = i
    · subst hji
      simp only [Function.update_self, Ref.own.injEq] at hj
      subst hj
      exact ⟨c, hc, by simp⟩
    · rw [Function.update_of_ne hji] at hj
      obtain ⟨c', h1, h2⟩ := S.own j w hj
      refine ⟨c', h1, ?_⟩
      rw [Function.update_of_ne]
      · exact h2
      · rintro rfl
        exact hji (S.ownInj j i w v hj ho (by rw [h1, hc]))
  · intro j j' w w' hj hj' he
    dsimp only at hj hj' he
    have hh : ∀ j w, Function.update a.vars i (.own { v with val := x }) j = .own w → ∃ w', a.vars j = .own w' := by
      intro j w hj
      by_cases hji : j = i
      · subst hji; exact ⟨v, ho⟩
      · rw [Function.update_of_ne hji] at hj; exact ⟨w, hj⟩
    obtain ⟨_, h1⟩ := hh j w hj
    obtain ⟨_, h2⟩ := hh j' w' hj'
    exact S.ownInj j j' _ _ h1 h2 he
  · intro j h k hj
    dsimp only at hj ⊢
    by_cases hji : j = i
    · subst hji; simp at hj
    · rw [Function.update_of_ne hji] at hj; exact S.lent j h k hj
  · intro b hb
    dsimp only at hb ⊢
    by_cases hbn : b = c
    · subst hbn
      obtain ⟨c', h1, h2⟩ := S.own i v ho
      rw [hc] at h1; simp at h1; subst h1
      exact S.lt _ (by simp [h2])
    · rw [Function.update_of_ne hbn] at hb; exact S.lt b hb
  · exact S.keys
  · exact S.goneE
  · intro b c' hb hm
    dsimp only at hb
    by_cases hbn : b = c
    · subst hbn; simp at hb; subst hb; simp at hm
    · rw [Function.update_of_ne hbn] at hb; exact S.kept b c' hb hm

theorem sim_write_lent {s : St} {a : PSpec} (S : Sim s a) {h k b : Nat} {v : PVal}
    (hf : find (s.tbl h) k = some (some b)) (hv : a.slot h k = some v) (x : Nat) :
    Sim { s with mem := Function.update s.mem b (some ⟨v.ty, x, false⟩) }
      { a with slot := fun h' k' => if h' = h ∧ k' = k then (a.slot h k).map (fun ob => { ob with val := x })
                                    else a.slot h' k' } := by
  obtain ⟨v', hv', hb⟩ := S.cell hf
  constructor
  · exact S.inited
  · exact S.gone
  · intro h' k' w hw
    dsimp only at hw ⊢
    by_cases he : h' = h ∧ k' = k
    · obtain ⟨rfl, rfl⟩ := he
      rw [if_pos ⟨rfl, rfl⟩, hv] at hw
      simp at hw
      subst hw
      exact ⟨b, hf, by simp⟩
    · rw [if_neg he] at hw
      obtain ⟨b', h1, h2⟩ := S.slotSome h' k' w hw
      refine ⟨b', h1, ?_⟩
      rw [Function.update_of_ne]
      · exact h2
      · rintro rfl
        exact he (S.inj _ _ _ _ _ h1 hf)
  · intro h' k' hw
    dsimp only at hw ⊢
    by_cases he : h' = h ∧ k' = k
    · obtain ⟨rfl, rfl⟩ := he
      rw [if_pos ⟨rfl, rfl⟩, hv] at hw
      simp at hw
    · rw [if_neg he] at hw; exact S.slotNone h' k' hw
  · exact S.inj
  · exact S.nul
  · intro j w hj
    obtain ⟨c, h1, h2⟩ := S.own j w hj
    exact ⟨c, h1, by dsimp only; rw [Function.update_of_ne (S.own_ne hj h1 hf)]; exact h2⟩
  · exact S.ownInj
  · exact S.lent
  · intro b' hb'
    dsimp only at hb' ⊢
    by_cases hbn : b' = b
    · subst hbn; exact S.lt _ (by simp [hb])
    · rw [Function.update_of_ne hbn] at hb'; exact S.lt b' hb'
  · exact S.keys
  · exact S.goneE
  · intro b' c' hb' hm
    dsimp only at hb'
    by_cases hbn : b' = b
    · subst hbn; exact ⟨h, k, hf⟩
    · rw [Function.update_of_ne hbn] at hb'; exact S.kept b' c' hb' hm

/-- Assigning a null or a lent pointer to a variable. -/
theorem sim_assign {s : St} {a : PSpec} (S : Sim s a) (j : Nat) (p : Option Nat) (r : Ref)
    (hr : (r = .null ∧ p = none) ∨ ∃ h k b, r = .lent h k ∧ p = some b ∧ find (s.tbl h) k = some (some b)) :
    Sim { s with vars := Function.update s.vars j p } { a with vars := Function.update a.vars j r } := by
  have hno : ∀ w, r ≠ .own w := by
    rintro w rfl
    rcases hr with ⟨h, -⟩ | ⟨_, _, _, h, -⟩ <;> simp at h
  constructor
  · exact S.inited
  · exact S.gone
  · exact S.slotSome
  · exact S.slotNone
  · exact S.inj
  · intro i hi
    dsimp only at hi ⊢
    by_cases hij : i = j
    · subst hij
      rw [Function.update_self] at hi ⊢
      rcases hr with ⟨-, h⟩ | ⟨_, _, _, h, -⟩
      · exact h
      · rw [hi] at h; simp at h
    · rw [Function.update_of_ne hij] at hi ⊢; exact S.nul i hi
  · intro i w hi
    dsimp only at hi ⊢
    by_cases hij : i = j
    · subst hij; rw [Function.update_self] at hi; exact absurd hi (hno w)
    · rw [Function.update_of_ne hij] at hi ⊢; exact S.own i w hi
  · intro i i' w w' hi hi' he
    dsimp only at hi hi' he
    by_cases hij : i = j
    · subst hij; rw [Function.update_self] at hi; exact absurd hi (hno w)
    · by_cases hij' : i' = j
      · subst hij'; rw [Function.update_self] at hi'; exact absurd hi' (hno w')
      · rw [Function.update_of_ne hij] at hi he
        rw [Function.update_of_ne hij'] at hi' he
        exact S.ownInj i i' w w' hi hi' he
  · intro i h k hi
    dsimp only at hi ⊢
    by_cases hij : i = j
    · subst hij
      rw [Function.update_self] at hi ⊢
      rcases hr with ⟨h1, -⟩ | ⟨h', k', b, h1, h2, h3⟩
      · rw [hi] at h1; simp at h1
      · rw [hi] at h1
        simp at h1
        obtain ⟨rfl, rfl⟩ := h1
        exact ⟨b, h2, h3⟩
    · rw [Function.update_of_ne hij] at hi ⊢; exact S.lent i h k hi
  · exact S.lt
  · exact S.keys
  · exact S.goneE
  · exact S.kept

theorem expire_null {vars : Nat → Ref} {p : Nat → Nat → Bool} {i : Nat} : expire vars p i = .null ↔ vars i = .null := by
  unfold expire; split <;> (try split) <;> simp_all

theorem expire_own {vars : Nat → Ref} {p : Nat → Nat → Bool} {i : Nat} {w : PVal} :
    expire vars p i = .own w ↔ vars i = .own w := by
  unfold expire; split <;> (try split) <;> simp_all

theorem expire_lent {vars : Nat → Ref} {p : Nat → Nat → Bool} {i h k : Nat} :
    expire vars p i = .lent h k ↔ vars i = .lent h k ∧ p h k = false := by
  unfold expire
  split
  · rename_i h' k' he
    rw [he]
    split
    · simp only [reduceCtorEq, Ref.lent.injEq, false_iff]
      rintro ⟨⟨rfl, rfl⟩, h2⟩
      simp_all
    · simp only [Ref.lent.injEq]
      constructor
      · rintro ⟨rfl, rfl⟩; exact ⟨⟨rfl, rfl⟩, by simp_all⟩
      · rintro ⟨h1, -⟩; exact h1
  · rename_i hne
    constructor
    · intro h1; exact absurd h1 (hne h k)
    · rintro ⟨h1, -⟩; exact absurd h1 (hne h k)

theorem sim_drop {s : St} {a : PSpec} (S : Sim s a) (h : Nat) :
    ∃ m, delAll (s.tbl h) s.mem = some m ∧
      Sim { s with mem := m, tbl := Function.update s.tbl h [], gone := Function.update s.gone h true }
        { a with slot := fun h' k' => if h' = h then none else a.slot h' k', gone := Function.update a.gone h true,
                 vars := expire a.vars (fun h' _ => h' = h) } := by
  obtain ⟨m, m1, m2, m3⟩ := delAll_spec (s.tbl h) s.mem (S.keys h)
    (fun k b hb => by
      obtain ⟨v, -, h2⟩ := S.cell ((find_mem (S.keys h) k (some b)).2 hb)
      simp [h2])
    (fun k k' b hb hb' => (S.inj h k h k' b ((find_mem (S.keys h) _ _).2 hb) ((find_mem (S.keys h) _ _).2 hb')).2)
  have m2' : ∀ k b, find (s.tbl h) k = some (some b) → m b = none :=
    fun k b hf => m2 b ⟨k, (find_mem (S.keys h) _ _).1 hf⟩
  have m3' : ∀ b, (∀ k, find (s.tbl h) k ≠ some (some b)) → m b = s.mem b :=
    fun b hf => m3 b (fun ⟨k, hk⟩ => hf k ((find_mem (S.keys h) _ _).2 hk))
  have hm : ∀ b, m b ≠ none → s.mem b ≠ none ∧ m b = s.mem b := by
    intro b hb
    by_cases hx : ∃ k, find (s.tbl h) k = some (some b)
    · obtain ⟨k, hk⟩ := hx; exact absurd (m2' k b hk) hb
    · have := m3' b (fun k hk => hx ⟨k, hk⟩)
      exact ⟨this ▸ hb, this⟩
  have htne : ∀ h', h' ≠ h → (Function.update s.tbl h []) h' = s.tbl h' := fun h' hh => Function.update_of_ne hh _ _
  have hts : ∀ k, find ((Function.update s.tbl h []) h) k = none := by intro k; simp [find]
  have hft : ∀ h' k x, find ((Function.update s.tbl h []) h') k = some x → h' ≠ h ∧ find (s.tbl h') k = some x := by
    intro h' k x hf
    by_cases hh : h' = h
    · subst hh; rw [hts] at hf; simp at hf
    · rw [htne h' hh] at hf; exact ⟨hh, hf⟩
  refine ⟨m, m1, ?_⟩
  constructor
  · exact S.inited
  · dsimp only; rw [S.gone]
  · intro h' k w hw
    dsimp only at hw ⊢
    by_cases hh : h' = h
    · rw [if_pos hh] at hw; simp at hw
    · rw [if_neg hh] at hw
      obtain ⟨b, h1, h2⟩ := S.slotSome h' k w hw
      refine ⟨b, by rw [htne h' hh]; exact h1, ?_⟩
      rw [m3' b]
      · exact h2
      · intro k' hk'
        exact hh (S.inj _ _ _ _ _ h1 hk').1
  · intro h' k hw
    dsimp only at hw ⊢
    by_cases hh : h' = h
    · subst hh; exact hts k
    · rw [if_neg hh] at hw; rw [htne h' hh]; exact S.slotNone h' k hw
  · intro h1 k1 h2 k2 b f1 f2
    exact S.inj _ _ _ _ b (hft _ _ _ f1).2 (hft _ _ _ f2).2
  · intro i hi
    exact S.nul i (expire_null.1 hi)
  · intro i w hi
    have hi := expire_own.1 hi
    obtain ⟨c, h1, h2⟩ := S.own i w hi
    refine ⟨c, h1, ?_⟩
    dsimp only
    rw [m3' c]
    · exact h2
    · intro k hk
      exact S.own_ne hi h1 hk rfl
  · intro i j w w' hi hj he
    exact S.ownInj i j w w' (expire_own.1 hi) (expire_own.1 hj) he
  · intro i h' k hi
    obtain ⟨hi1, hi2⟩ := expire_lent.1 hi
    have hh : h' ≠ h := by simpa using hi2
    obtain ⟨b, h1, h2⟩ := S.lent i h' k hi1
    exact ⟨b, h1, by dsimp only; rw [htne h' hh]; exact h2⟩
  · intro b hb
    exact S.lt b (hm b hb).1
  · intro h'
    dsimp only
    by_cases hh : h' = h
    · subst hh; simp
    · rw [htne h' hh]; exact S.keys h'
  · intro h' hg
    dsimp only at hg ⊢
    by_cases hh : h' = h
    · subst hh; simp
    · rw [htne h' hh]; rw [Function.update_of_ne hh] at hg; exact S.goneE h' hg
  · intro b c hb hcm
    dsimp only at hb
    have hne := hm b (by rw [hb]; simp)
    obtain ⟨h', k, hf⟩ := S.kept b c (by rw [← hne.2]; exact hb) hcm
    have hh : h' ≠ h := by
      rintro rfl
      rw [m2' k b hf] at hb; simp at hb
    exact ⟨h', k, by dsimp only; rw [htne h' hh]; exact hf⟩

/-- A parameter is replaced by a copy. -/
theorem sim_store {s : St} {a : PSpec} (S : Sim s a) (kind : Holder) {h k p T : Nat} {ob : Cell}
    (hp : s.mem p = some ob) (hne : ∀ b, find (s.tbl h) k = some (some b) → p ≠ b) (hg : s.gone h = false) :
    (store kind s h k p T false).2 = .done ∧
    Sim (store kind s h k p T false).1
      { a with slot := fun h' k' => if h' = h ∧ k' = k then some ⟨T, ob.val⟩ else a.slot h' k',
               vars := expire a.vars (fun h' k' => h' = h ∧ k' = k) } := by
  -- deleting the old object
  have hdel : ∃ mem1, delPtr s.mem ((find (s.tbl h) k).getD none) = some mem1 ∧
      (∀ b, find (s.tbl h) k = some (some b) → mem1 b = none) ∧
      (∀ b, find (s.tbl h) k ≠ some (some b) → mem1 b = s.mem b) := by
    rcases S.entry h k with hf | ⟨b, hf⟩
    · exact ⟨s.mem, by rw [hf]; rfl, by simp [hf], fun _ _ => rfl⟩
    · obtain ⟨v, -, hb⟩ := S.cell hf
      refine ⟨Function.update s.mem b none, ?_, ?_, ?_⟩
      · rw [hf]; simp [delPtr, hb]
      · intro b' hb'; rw [hf] at hb'; simp at hb'; subst hb'; simp
      · intro b' hb'; rw [Function.update_of_ne]; rintro rfl; exact hb' hf
  obtain ⟨mem1, d1, d2, d3⟩ := hdel
  have hn : ∀ b, s.mem b ≠ none → b ≠ s.next := fun b h hb => by have := S.lt b h; omega
  have hnf : ∀ h' k', find (s.tbl h') k' ≠ some (some s.next) := by
    intro h' k' hf
    obtain ⟨v, -, hb⟩ := S.cell hf
    exact hn s.next (by simp [hb]) rfl
  have hp1 : Function.update mem1 s.next (some (fresh T)) p = some ob := by
    rw [Function.update_of_ne (hn p (by simp [hp])), d3 p (fun hf => hne p hf rfl)]
    exact hp
  -- the table afterwards
  generalize ht1 : (if (find (s.tbl h) k).isSome then Function.update s.tbl h (put (s.tbl h) k none) else s.tbl) = tbl1
  have htk : ((tbl1 h).map Prod.fst).Nodup := by
    rw [← ht1]; split
    · rw [Function.update_self]; exact put_nodup (S.keys h) _ _
    · exact S.keys h
  have hto : ∀ h', h' ≠ h → tbl1 h' = s.tbl h' := by
    intro h' hh; rw [← ht1]; split
    · exact Function.update_of_ne hh _ _
    · rfl
  have htf : ∀ k', k' ≠ k → find (tbl1 h) k' = find (s.tbl h) k' := by
    intro k' hk; rw [← ht1]; split
    · rw [Function.update_self, find_put, if_neg hk]
    · rfl
  have hres : store kind s h k p T false =
      ({ s with mem := Function.update (Function.update mem1 s.next (some (fresh T))) s.next
                  (some { fresh T with val := ob.val }),
                next := s.next + 1, tbl := Function.update tbl1 h (put (tbl1 h) k (some s.next)) }, .done) := by
    unfold store
    rw [d1]
    dsimp only
    rw [hp1, ht1]
    rfl
  rw [hres]
  refine ⟨rfl, ?_⟩
  dsimp only
  rw [Function.update_idem]
  have hfind : ∀ h' k', find (Function.update tbl1 h (put (tbl1 h) k (some s.next)) h') k' =
      if h' = h ∧ k' = k then some (some s.next) else find (s.tbl h') k' := by
    intro h' k'
    by_cases hh : h' = h
    · subst hh
      rw [Function.update_self, find_put]
      by_cases hk : k' = k
      · simp [hk]
      · simp [hk, htf k' hk]
    · rw [Function.update_of_ne hh, hto h' hh]; simp [hh]
  have hmem : ∀ b, b ≠ s.next → find (s.tbl h) k ≠ some (some b) →
      Function.update mem1 s.next (some { fresh T with val := ob.val }) b = s.mem b := by
    intro b hb hf
    rw [Function.update_of_ne hb, d3 b hf]
  constructor
  · exact S.inited
  · exact S.gone
  · intro h' k' w hw
    dsimp only at hw ⊢
    rw [hfind]
    by_cases he : h' = h ∧ k' = k
    · rw [if_pos he] at hw
      simp at hw; subst hw
      exact ⟨s.next, by rw [if_pos he], by simp [fresh]⟩
    · rw [if_neg he] at hw
      obtain ⟨b, h1, h2⟩ := S.slotSome h' k' w hw
      refine ⟨b, by rw [if_neg he]; exact h1, ?_⟩
      rw [hmem b (hn b (by simp [h2])) (fun hf => he (S.inj _ _ _ _ _ h1 hf))]
      exact h2
  · intro h' k' hw
    dsimp only at hw ⊢
    rw [hfind]
    by_cases he : h' = h ∧ k' = k
    · rw [if_pos he] at hw; simp at hw
    · rw [if_neg he] at hw ⊢; exact S.slotNone h' k' hw
  · intro h1 k1 h2 k2 b f1 f2
    dsimp only at f1 f2
    rw [hfind] at f1 f2
    by_cases e1 : h1 = h ∧ k1 = k <;> by_cases e2 : h2 = h ∧ k2 = k
    · exact ⟨e1.1.trans e2.1.symm, e1.2.trans e2.2.symm⟩
    · rw [if_pos e1] at f1; rw [if_neg e2] at f2
      simp at f1; subst f1; exact absurd f2 (hnf _ _)
    · rw [if_neg e1] at f1; rw [if_pos e2] at f2
      simp at f2; subst f2; exact absurd f1 (hnf _ _)
    · rw [if_neg e1] at f1; rw [if_neg e2] at f2; exact S.inj _ _ _ _ b f1 f2
  · intro i hi; exact S.nul i (expire_null.1 hi)
  · intro i w hi
    have hi := expire_own.1 hi
    obtain ⟨c, h1, h2⟩ := S.own i w hi
    refine ⟨c, h1, ?_⟩
    dsimp only
    rw [hmem c (hn c (by simp [h2])) (fun hf => S.own_ne hi h1 hf rfl)]
    exact h2
  · intro i j w w' hi hj he
    exact S.ownInj i j w w' (expire_own.1 hi) (expire_own.1 hj) he
  · intro i h' k' hi
    obtain ⟨hi1, hi2⟩ := expire_lent.1 hi
    have he : ¬ (h' = h ∧ k' = k) := by simpa using hi2
    obtain ⟨b, h1, h2⟩ := S.lent i h' k' hi1
    exact ⟨b, h1, by dsimp only; rw [hfind, if_neg he]; exact h2⟩
  · intro b hb
    dsimp only at hb ⊢
    by_cases hbn : b = s.next
    · omega
    · rw [Function.update_of_ne hbn] at hb
      by_cases hf : find (s.tbl h) k = some (some b)
      · exact absurd (d2 b hf) hb
      · rw [d3 b hf] at hb; have := S.lt b hb; omega
  · intro h'
    dsimp only
    by_cases hh : h' = h
    · subst hh; rw [Function.update_self]; exact put_nodup htk _ _
    · rw [Function.update_of_ne hh, hto h' hh]; exact S.keys h'
  · intro h' hg'
    dsimp only at hg' ⊢
    have hh : h' ≠ h := by rintro rfl; rw [hg] at hg'; simp at hg'
    rw [Function.update_of_ne hh, hto h' hh]; exact S.goneE h' hg'
  · intro b c hb hm
    dsimp only at hb ⊢
    by_cases hbn : b = s.next
    · exact ⟨h, k, by rw [hfind, if_pos ⟨rfl, rfl⟩, hbn]⟩
    · rw [Function.update_of_ne hbn] at hb
      by_cases hf : find (s.tbl h) k = some (some b)
      · rw [d2 b hf] at hb; simp at hb
      · rw [d3 b hf] at hb
        obtain ⟨h', k', h1⟩ := S.kept b c hb hm
        refine ⟨h', k', ?_⟩
        rw [hfind, if_neg]
        · exact h1
        · rintro ⟨rfl, rfl⟩; exact hf h1

/-- What a variable stands for is in memory. -/
theorem Sim.value {s : St} {a : PSpec} (S : Sim s a) {i : Nat} {v : PVal} (hv : a.value (a.vars i) = some v) :
    ∃ p m, s.vars i = some p ∧ s.mem p = some ⟨v.ty, v.val, m⟩ := by
  cases hr : a.vars i with
  | null => rw [hr] at hv; simp [PSpec.value] at hv
  | dead => rw [hr] at hv; simp [PSpec.value] at hv
  | own w =>
    rw [hr] at hv; simp [PSpec.value] at hv; subst hv
    obtain ⟨c, h1, h2⟩ := S.own i w hr
    exact ⟨c, true, h1, h2⟩
  | lent h k =>
    rw [hr] at hv; simp only [PSpec.value] at hv
    obtain ⟨b, h1, h2⟩ := S.lent i h k hr
    obtain ⟨w, h3, h4⟩ := S.cell h2
    rw [hv] at h3; simp at h3; subst h3
    exact ⟨b, false, h1, h4⟩

/-- One operation without a throwing `clone`. -/
theorem sim_step (kind : Nat → Holder) {s : St} {a : PSpec} (S : Sim s a) (op : Op)
    (hop : ∀ h k i T, op ≠ .set h k i T true) {a' : PSpec} {o : Out} (ha : a.step kind op = some (a', o)) :
    (step kind s op).2 = o ∧ o ≠ .ub ∧ Sim (step kind s op).1 a' := by
  cases op with
  | new i ty v =>
    simp only [PSpec.step, Option.some.injEq, Prod.mk.injEq] at ha
    obtain ⟨rfl, rfl⟩ := ha
    exact ⟨rfl, by simp, sim_new S i ty v⟩
  | del i =>
    cases hr : a.vars i with
    | null =>
      simp only [PSpec.step, hr, Option.some.injEq, Prod.mk.injEq] at ha
      obtain ⟨rfl, rfl⟩ := ha
      simp only [step, S.nul i hr]
      exact ⟨trivial, by simp, S⟩
    | own v =>
      simp only [PSpec.step, hr, Option.some.injEq, Prod.mk.injEq] at ha
      obtain ⟨rfl, rfl⟩ := ha
      obtain ⟨c, h1, h2⟩ := S.own i v hr
      simp only [step, h1, delPtr, h2, Option.isSome_some, if_true]
      exact ⟨trivial, by simp, sim_del S hr h1⟩
    | lent h k => simp [PSpec.step, hr] at ha
    | dead => simp [PSpec.step, hr] at ha
  | write i x =>
    cases hr : a.vars i with
    | null => simp [PSpec.step, hr] at ha
    | dead => simp [PSpec.step, hr] at ha
    | own v =>
      simp only [PSpec.step, hr, Option.some.injEq, Prod.mk.injEq] at ha
      obtain ⟨rfl, rfl⟩ := ha
      obtain ⟨c, h1, h2⟩ := S.own i v hr
      simp only [step, h1, Option.bind_some, h2]
      exact ⟨trivial, by simp, sim_write_own S hr h1 x⟩
    | lent h k =>
      simp only [PSpec.step, hr, Option.some.injEq, Prod.mk.injEq] at ha
      obtain ⟨rfl, rfl⟩ := ha
      obtain ⟨b, h1, h2⟩ := S.lent i h k hr
      obtain ⟨v, h3, h4⟩ := S.cell h2
      simp only [step, h1, Option.bind_some, h4]
      exact ⟨trivial, by simp, sim_write_lent S h2 h3 x⟩
  | read i =>
    simp only [PSpec.step, Option.map_eq_some_iff, Prod.mk.injEq] at ha
    obtain ⟨v, hv, rfl, rfl⟩ := ha
    obtain ⟨p, m, h1, h2⟩ := S.value hv
    simp only [step, h1, Option.bind_some, h2]
    exact ⟨trivial, by simp, S⟩
  | set h k i T throws =>
    have hth : throws = false := by
      cases throws with
      | false => rfl
      | true => exact absurd rfl (hop h k i T)
    subst hth
    simp only [PSpec.step] at ha
    simp only [step]
    rw [S.gone, S.inited]
    by_cases hg : a.gone h = true
    · rw [if_pos hg] at ha; simp at ha
    · rw [if_neg hg] at ha ⊢
      by_cases hi : kind h = .element ∧ a.inited h = true
      · rw [if_pos hi] at ha ⊢
        simp only [Option.some.injEq, Prod.mk.injEq] at ha
        obtain ⟨rfl, rfl⟩ := ha
        exact ⟨rfl, by simp, S⟩
      · rw [if_neg hi] at ha ⊢
        by_cases hnull : a.vars i = .null
        · rw [if_pos hnull] at ha
          simp only [Option.some.injEq, Prod.mk.injEq] at ha
          obtain ⟨rfl, rfl⟩ := ha
          rw [S.nul i hnull]
          exact ⟨rfl, by split <;> simp, S⟩
        · rw [if_neg hnull] at ha
          by_cases hl : a.vars i = .lent h k
          · rw [if_pos hl] at ha; simp at ha
          · rw [if_neg hl] at ha
            simp only [Option.map_eq_some_iff] at ha
            obtain ⟨v, hv, he⟩ := ha
            simp only [Bool.false_eq_true, if_false, Prod.mk.injEq] at he
            obtain ⟨rfl, rfl⟩ := he
            obtain ⟨p, m, h1, h2⟩ := S.value hv
            rw [h1]
            have hne : ∀ b, find (s.tbl h) k = some (some b) → p ≠ b := by
              rintro b hf rfl
              cases hr : a.vars i with
              | null => exact hnull hr
              | dead => rw [hr] at hv; simp [PSpec.value] at hv
              | own w => exact S.own_ne hr h1 hf rfl
              | lent h' k' =>
                obtain ⟨b', e1, e2⟩ := S.lent i h' k' hr
                rw [h1] at e1; simp at e1; subst e1
                obtain ⟨rfl, rfl⟩ := S.inj _ _ _ _ _ e2 hf
                exact hl hr
            have := sim_store S (kind h) (T := T) h2 hne (by rw [S.gone]; simpa using hg)
            exact ⟨this.1, by simp, this.2⟩
  | get h k T j =>
    simp only [PSpec.step] at ha
    simp only [step]
    by_cases hg : a.gone h = true
    · rw [if_pos hg] at ha; simp at ha
    · have hg' : ¬ s.gone h = true := by rw [S.gone]; exact hg
      rw [if_neg hg] at ha
      rw [if_neg hg']
      cases hs : a.slot h k with
      | none =>
        rw [hs] at ha
        rw [S.slotNone h k hs]
        dsimp only at ha ⊢
        by_cases hk : kind h = .aspect
        · rw [if_pos hk] at ha ⊢
          simp only [Option.some.injEq, Prod.mk.injEq] at ha
          obtain ⟨rfl, rfl⟩ := ha
          exact ⟨rfl, by simp, S⟩
        · rw [if_neg hk] at ha ⊢
          simp only [Option.some.injEq, Prod.mk.injEq] at ha
          obtain ⟨rfl, rfl⟩ := ha
          exact ⟨rfl, by simp, sim_assign S j none .null (.inl ⟨rfl, rfl⟩)⟩
      | some v =>
        rw [hs] at ha
        obtain ⟨b, h1, h2⟩ := S.slotSome h k v hs
        rw [h1]
        dsimp only at ha ⊢
        rw [h2]
        dsimp only
        by_cases hk : kind h = .callback ∨ v.ty = T
        · rw [if_pos hk] at ha ⊢
          simp only [Option.some.injEq, Prod.mk.injEq] at ha
          obtain ⟨rfl, rfl⟩ := ha
          exact ⟨rfl, by simp, sim_assign S j (some b) (.lent h k) (.inr ⟨h, k, b, rfl, rfl, h1⟩)⟩
        · rw [if_neg hk] at ha ⊢
          simp only [Option.some.injEq, Prod.mk.injEq] at ha
          obtain ⟨rfl, rfl⟩ := ha
          exact ⟨rfl, by simp, sim_assign S j none .null (.inl ⟨rfl, rfl⟩)⟩
  | initialise h =>
    simp only [PSpec.step] at ha
    simp only [step]
    by_cases hg : a.gone h = true
    · rw [if_pos hg] at ha; simp at ha
    · have hg' : ¬ s.gone h = true := by rw [S.gone]; exact hg
      rw [if_neg hg] at ha
      rw [if_neg hg']
      simp only [Option.some.injEq, Prod.mk.injEq] at ha
      obtain ⟨rfl, rfl⟩ := ha
      refine ⟨rfl, by simp, ?_⟩
      exact { S with inited := by dsimp only; rw [S.inited], gone := S.gone }
  | drop h =>
    simp only [PSpec.step] at ha
    simp only [step]
    obtain ⟨m, m1, m2⟩ := sim_drop S h
    by_cases hg : a.gone h = true
    · rw [if_pos hg] at ha; simp at ha
    · have hg' : ¬ s.gone h = true := by rw [S.gone]; exact hg
      rw [if_neg hg] at ha
      rw [if_neg hg', m1]
      simp only [Option.some.injEq, Prod.mk.injEq] at ha
      obtain ⟨rfl, rfl⟩ := ha
      exact ⟨rfl, by simp, m2⟩

theorem sim_run (kind : Nat → Holder) : ∀ (ops : List Op) {s : St} {a : PSpec}, Sim s a → NoThrow ops →
    ∀ {outs : List Out} {a' : PSpec}, a.run kind ops = some (outs, a') →
    (run kind ops s).1 = outs ∧ Out.ub ∉ outs ∧ Sim (run kind ops s).2 a' := by
  intro ops
  induction ops with
  | nil =>
    intro s a S _ outs a' ha
    simp only [PSpec.run, Option.some.injEq, Prod.mk.injEq] at ha
    obtain ⟨rfl, rfl⟩ := ha
    exact ⟨rfl, by simp, S⟩
  | cons op ops ih =>
    intro s a S hn outs a' ha
    simp only [PSpec.run, Option.bind_eq_some_iff, Option.map_eq_some_iff] at ha
    obtain ⟨⟨a1, o⟩, h1, ⟨outs1, a2⟩, h2, h3⟩ := ha
    simp only [Prod.mk.injEq] at h3
    obtain ⟨rfl, rfl⟩ := h3
    obtain ⟨s1, s2, s3⟩ := sim_step kind S op (hn op (by simp)) h1
    obtain ⟨r1, r2, r3⟩ := ih s3 (fun op' ho => hn op' (by simp [ho])) h2
    simp only [run]
    rw [if_neg (by rw [s1]; exact s2)]
    exact ⟨by rw [s1, r1], by simp [Ne.symm s2, r2], r3⟩

end Passed
end CGraph
