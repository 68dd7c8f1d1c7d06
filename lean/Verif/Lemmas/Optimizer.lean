import Verif.Lemmas.Paths

/-! Clique search, trimming, longest path. -/
namespace CGraph
namespace Graph
open Spec

/-! ### clique search -/

/-- `K`, in increasing order, is a clique of the matrix (read from the smaller to the larger index). -/
def Clique (m : Mat) (K : List Nat) : Prop := K.Pairwise (fun i j => i < j ∧ m i j = 1)

theorem backtrace_ge (m : Mat) (n : Nat) : ∀ (k i : Nat), n - i = k → ∀ C sz M, M ≤ backtrace m n i C sz M := by
  intro k
  induction k with
  | zero => intro i hi C sz M; unfold backtrace; simp [show ¬ i < n by omega]
  | succ k ih =>
    intro i hi C sz M
    unfold backtrace
    simp only [show i < n by omega, if_true]
    split
    · exact Nat.le_refl _
    · refine Nat.le_trans ?_ (ih (i + 1) (by omega) C sz _)
      split
      · exact ih (i + 1) (by omega) _ _ _
      · exact Nat.le_refl _

/-- Every clique extending the current one with later elements is accounted for. -/
theorem backtrace_complete (m : Mat) (n : Nat) : ∀ (k i : Nat), n - i = k → ∀ C M K, Clique m (C ++ K) →
    (∀ x ∈ K, i ≤ x ∧ x < n) → C.length + K.length ≤ backtrace m n i C C.length M := by
  intro k
  induction k with
  | zero =>
    intro i hi C M K hK hx
    have : K = [] := by
      cases K with
      | nil => rfl
      | cons x K => have := hx x (by simp); omega
    subst this
    unfold backtrace
    simp [show ¬ i < n by omega]
  | succ k ih =>
    intro i hi C M K hK hx
    unfold backtrace
    simp only [show i < n by omega, if_true]
    split
    · rename_i hcut
      -- at most n - i elements can be added
      have hlen : K.length ≤ n - i := by
        have hnd : K.Nodup := by
          have : (C ++ K).Nodup := hK.imp (fun h => Nat.ne_of_lt h.1)
          exact (List.nodup_append.1 this).2.1
        have hsub : ∀ x ∈ K, x ∈ List.range' i (n - i) := by
          intro x hx'
          have := hx x hx'
          rw [List.mem_range'_1]; omega
        have := length_le_of_nodup_subset hnd hsub
        simpa using this
      omega
    · by_cases hiK : i ∈ K
      · -- then it is the first of K
        obtain ⟨K', rfl⟩ : ∃ K', K = i :: K' := by
          cases K with
          | nil => simp at hiK
          | cons x K' =>
            have hp := (List.pairwise_append.1 hK).2.1
            rw [List.pairwise_cons] at hp
            rcases List.mem_cons.1 hiK with h | h
            · exact ⟨K', by rw [h]⟩
            · have h1 := (hp.1 i h).1
              have h2 := (hx x (by simp)).1
              omega
        have hadj : C.all (fun j => m j i == 1) = true := by
          rw [List.all_eq_true]
          intro j hj
          have := (List.pairwise_append.1 hK).2.2 j hj i (by simp)
          simp [this.2]
        simp only [hadj, if_true]
        have h1 := ih (i + 1) (by omega) (C ++ [i]) M K' (by simpa using hK) (by
          intro x hx'
          have h2 := hx x (by simp [hx'])
          have hp := (List.pairwise_append.1 hK).2.1
          rw [List.pairwise_cons] at hp
          have := (hp.1 x hx').1
          omega)
        simp only [List.length_append, List.length_singleton] at h1
        refine Nat.le_trans ?_ (backtrace_ge m n k (i + 1) (by omega) C C.length _)
        simp only [List.length_cons]
        omega
      · apply ih (i + 1) (by omega) C _ K hK
        intro x hx'
        have := hx x hx'
        have : x ≠ i := fun h => hiK (h ▸ hx')
        omega

/-- The result is the size of some clique. -/
theorem backtrace_sound (m : Mat) (n : Nat) : ∀ (k i : Nat), n - i = k → ∀ C M, Clique m C → (∀ x ∈ C, x < i) →
    i ≤ n → (∃ K, Clique m K ∧ (∀ x ∈ K, x < n) ∧ K.length = M) →
    ∃ K, Clique m K ∧ (∀ x ∈ K, x < n) ∧ K.length = backtrace m n i C C.length M := by
  intro k
  induction k with
  | zero =>
    intro i hi C M hC hx hin hM
    unfold backtrace
    simp only [show ¬ i < n by omega, if_false]
    rcases Nat.le_total C.length M with h | h
    · rw [Nat.max_eq_right h]; exact hM
    · rw [Nat.max_eq_left h]; exact ⟨C, hC, fun x hx' => by have := hx x hx'; omega, rfl⟩
  | succ k ih =>
    intro i hi C M hC hx hin hM
    unfold backtrace
    simp only [show i < n by omega, if_true]
    split
    · exact hM
    · apply ih (i + 1) (by omega) C _ hC (fun x hx' => by have := hx x hx'; omega) (by omega)
      split
      · rename_i hadj
        have := ih (i + 1) (by omega) (C ++ [i]) M ?_ ?_ (by omega) hM
        · simpa using this
        · unfold Clique
          rw [List.pairwise_append]
          refine ⟨hC, by simp, ?_⟩
          intro a ha b hb
          simp at hb; subst hb
          rw [List.all_eq_true] at hadj
          exact ⟨hx a ha, by simpa using hadj a ha⟩
        · intro x hx'
          rcases List.mem_append.1 hx' with h | h
          · have := hx x h; omega
          · simp at h; omega
      · exact hM

/-! ### longest path -/

theorem longestLoop_spec (cost : Eid → Nat) : ∀ (ps : List (List Eid)) (M : Nat) (best : List Eid),
    (best.map cost).sum = M →
    (longestLoop cost ps M best = best ∨ longestLoop cost ps M best ∈ ps) ∧
    ∀ p, p = best ∨ p ∈ ps → (p.map cost).sum ≤ ((longestLoop cost ps M best).map cost).sum := by
  intro ps
  induction ps with
  | nil => intro M best h; simp [longestLoop]
  | cons q ps ih =>
    intro M best h
    simp only [longestLoop]
    split
    · rename_i hge
      obtain ⟨i1, i2⟩ := ih _ q rfl
      refine ⟨?_, ?_⟩
      · rcases i1 with i1 | i1
        · right; rw [i1]; simp
        · right; simp [i1]
      · intro p hp
        rcases hp with rfl | hp
        · have := i2 q (Or.inl rfl); omega
        · rcases List.mem_cons.1 hp with rfl | hp
          · exact i2 _ (Or.inl rfl)
          · exact i2 p (Or.inr hp)
    · rename_i hlt
      obtain ⟨i1, i2⟩ := ih M best h
      refine ⟨?_, ?_⟩
      · rcases i1 with i1 | i1
        · left; exact i1
        · right; simp [i1]
      · intro p hp
        rcases hp with rfl | hp
        · exact i2 _ (Or.inl rfl)
        · rcases List.mem_cons.1 hp with rfl | hp
          · have := i2 best (Or.inl rfl); omega
          · exact i2 p (Or.inr hp)

/-- Some path is chosen if there is one (a first path always has a sum ≥ 0). -/
theorem longestLoop_mem (cost : Eid → Nat) (ps : List (List Eid)) (h : ps ≠ []) :
    longestLoop cost ps 0 [] ∈ ps := by
  cases ps with
  | nil => exact absurd rfl h
  | cons q ps =>
    simp only [longestLoop, ge_iff_le, Nat.zero_le, if_true]
    rcases (longestLoop_spec cost ps _ q rfl).1 with h | h
    · rw [h]; simp
    · simp [h]

end Graph

/-! ### trimming -/
namespace Heap
open Spec

theorem removeDepend_elt (h : Heap) (this c : Eid) (hi : (h.elt this).isInit = false)
    (hc : c ∈ (h.elt this).deps) :
    h.removeDepend this (some c) =
      ((((h.upd this { h.elt this with deps := (h.elt this).deps.erase c }).upd c
        { (h.upd this { h.elt this with deps := (h.elt this).deps.erase c }).elt c with
          succs := ((h.upd this { h.elt this with deps := (h.elt this).deps.erase c }).elt c).succs.erase this }).storeLeft
            this), true) := by
  simp [removeDepend, hi, hc]

/-- What `removeDepend` does to the adjacency lists. -/
theorem removeDepend_spec (h : Heap) (this c : Eid) (hi : (h.elt this).isInit = false)
    (hc : c ∈ (h.elt this).deps) :
    (h.removeDepend this (some c)).2 = true ∧
    (∀ e, ((h.removeDepend this (some c)).1.elt e).deps =
      if e = this then (h.elt this).deps.erase c else (h.elt e).deps) ∧
    (∀ e, ((h.removeDepend this (some c)).1.elt e).succs =
      if e = c then (h.elt c).succs.erase this else (h.elt e).succs) ∧
    (∀ e, ((h.removeDepend this (some c)).1.elt e).isInit = (h.elt e).isInit) := by
  rw [removeDepend_elt h this c hi hc]
  refine ⟨rfl, ?_, ?_, ?_⟩
  · intro e; simp only [storeLeft, upd]; grind
  · intro e; simp only [storeLeft, upd]; grind
  · intro e; simp only [storeLeft, upd]; grind

theorem removeDepend_not (h : Heap) (this c : Eid) (hc : c ∉ (h.elt this).deps) :
    h.removeDepend this (some c) = (h, false) := by
  simp [removeDepend, hc]

theorem trimRemove_spec (this : Eid) : ∀ (cs : List Eid) (h : Heap) (n : Nat), (∀ e, (h.elt e).isInit = false) →
    (h.elt this).deps.Nodup → (∀ e, (h.elt e).succs.Nodup) →
    (∀ a, this ∈ (h.elt a).succs ↔ a ∈ (h.elt this).deps) →
    (∀ e, ((trimRemove this cs (h, n)).1.elt e).isInit = false) ∧
    (∀ e, ((trimRemove this cs (h, n)).1.elt e).deps =
      if e = this then (h.elt this).deps.filter (fun d => d ∉ cs) else (h.elt e).deps) ∧
    (∀ e x, x ∈ ((trimRemove this cs (h, n)).1.elt e).succs ↔ x ∈ (h.elt e).succs ∧ ¬ (x = this ∧ e ∈ cs)) ∧
    (∀ e, ((trimRemove this cs (h, n)).1.elt e).succs.Nodup) ∧
    (trimRemove this cs (h, n)).2 + ((trimRemove this cs (h, n)).1.elt this).deps.length =
      n + (h.elt this).deps.length := by
  intro cs
  induction cs with
  | nil =>
    intro h n hi _ hs _
    refine ⟨hi, ?_, by simp [trimRemove], hs, rfl⟩
    intro e
    simp only [trimRemove]
    split
    · rename_i he; subst he; simp
    · rfl
  | cons c cs ih =>
    intro h n hi hd hs hsym
    simp only [trimRemove]
    by_cases hc : c ∈ (h.elt this).deps
    · obtain ⟨r1, r2, r3, r4⟩ := removeDepend_spec h this c (hi this) hc
      generalize hr : h.removeDepend this (some c) = r at *
      obtain ⟨h', b⟩ := r
      dsimp only at r1 r2 r3 r4 ⊢
      subst r1
      simp only [if_true]
      have hdt : (h'.elt this).deps = (h.elt this).deps.erase c := by rw [r2]; simp
      have hmem : ∀ e x, x ∈ (h'.elt e).succs ↔ x ∈ (h.elt e).succs ∧ ¬ (x = this ∧ e = c) := by
        intro e x
        rw [r3]
        split
        · rename_i he; subst he
          rw [(hs e).mem_erase_iff]
          grind
        · rename_i he; simp [he]
      obtain ⟨i1, i2, i3, i4, i5⟩ := ih h' (n + 1) (fun e => by rw [r4, hi]) (by rw [hdt]; exact hd.erase c)
        (fun e => by
          rw [r3]; split
          · exact (hs c).erase _
          · exact hs e)
        (fun a => by rw [hmem, hdt, hd.mem_erase_iff, hsym]; grind)
      refine ⟨i1, ?_, ?_, i4, ?_⟩
      · intro e
        rw [i2]
        split
        · rw [hdt, hd.erase_eq_filter, List.filter_filter]
          apply List.filter_congr
          intro x hx
          by_cases hxc : x = c <;> simp [hxc]
        · rename_i he; rw [r2]; simp [he]
      · intro e x
        rw [i3, hmem]
        simp only [List.mem_cons]
        grind
      · rw [i5, hdt, List.length_erase_of_mem hc]
        have := List.length_pos_of_mem hc
        omega
    · rw [removeDepend_not h this c hc]
      simp only [Bool.false_eq_true, if_false]
      obtain ⟨i1, i2, i3, i4, i5⟩ := ih h n hi hd hs hsym
      refine ⟨i1, ?_, ?_, i4, i5⟩
      · intro e
        rw [i2]
        split
        · apply List.filter_congr
          intro x hx
          have : x ≠ c := fun h => hc (h ▸ hx)
          simp [this]
        · rfl
      · intro e x
        rw [i3]
        simp only [List.mem_cons]
        have := hsym c
        grind

/-- Dependencies that trimming keeps. -/
def keep (g : Graph) (m : Graph.Mat) (v : Eid) : List Eid :=
  (g.deps v).filter (fun d => d ∉ trimCandidates g m v)

theorem mem_candidates {g : Graph} {m : Graph.Mat} {v d : Eid} :
    d ∈ trimCandidates g m v ↔ d ∈ g.deps v ∧ ∃ b ∈ g.deps v, m (g.pos d) (g.pos b) = 1 := by
  simp only [trimCandidates, List.mem_flatMap, List.mem_map, List.mem_filter]
  constructor
  · rintro ⟨a, ha, b, ⟨hb, hm⟩, rfl⟩
    exact ⟨ha, b, hb, by simpa using hm⟩
  · rintro ⟨ha, b, hb, hm⟩
    exact ⟨d, ha, b, ⟨hb, by simp [hm]⟩, rfl⟩

/-- Sum of the numbers of dependencies. -/
def depCount (h : Heap) (l : List Eid) : Nat := (l.map (fun e => (h.elt e).deps.length)).sum

theorem trimLoop_spec (elems : List Eid) (m : Graph.Mat) : ∀ (rest : List Eid) (h : Heap) (n : Nat),
    rest.Nodup → (∀ e, (h.elt e).isInit = false) → (∀ e, (h.elt e).deps.Nodup) → (∀ e, (h.elt e).succs.Nodup) →
    (∀ a b, b ∈ (h.elt a).succs ↔ a ∈ (h.elt b).deps) →
    (∀ e, ((trimLoop elems m rest (h, n)).1.elt e).deps =
      if e ∈ rest then keep (h.graph elems) m e else (h.elt e).deps) ∧
    (∀ a b, b ∈ ((trimLoop elems m rest (h, n)).1.elt a).succs ↔
      a ∈ ((trimLoop elems m rest (h, n)).1.elt b).deps) ∧
    (∀ e, ((trimLoop elems m rest (h, n)).1.elt e).succs.Nodup) ∧
    (trimLoop elems m rest (h, n)).2 + depCount (trimLoop elems m rest (h, n)).1 rest = n + depCount h rest := by
  intro rest
  induction rest with
  | nil =>
    intro h n _ _ _ hs hsym
    exact ⟨by simp [trimLoop], hsym, hs, by simp [trimLoop, depCount]⟩
  | cons v rest ih =>
    intro h n hnd hi hd hs hsym
    rw [List.nodup_cons] at hnd
    simp only [trimLoop]
    obtain ⟨r1, r2, r3, r4, r5⟩ := trimRemove_spec v (trimCandidates (h.graph elems) m v) h n hi (hd v) hs
      (fun a => hsym a v)
    generalize hr : trimRemove v (trimCandidates (h.graph elems) m v) (h, n) = r at *
    obtain ⟨h', n'⟩ := r
    dsimp only at r1 r2 r3 r4 r5
    have hdv : (h'.elt v).deps = keep (h.graph elems) m v := by rw [r2]; simp [keep, Heap.graph]
    have hsym' : ∀ a b, b ∈ (h'.elt a).succs ↔ a ∈ (h'.elt b).deps := by
      intro a b
      rw [r3, r2]
      split
      · rename_i hb; subst hb
        rw [hsym, List.mem_filter, decide_eq_true_eq]
        simp
      · rename_i hb
        rw [hsym]; simp [hb]
    obtain ⟨i1, i2, i3, i4⟩ := ih h' n' hnd.2 r1 (fun e => by
      rw [r2]; split
      · exact (hd v).filter _
      · exact hd e) r4 hsym'
    have hkeep : ∀ e, e ≠ v → keep (h'.graph elems) m e = keep (h.graph elems) m e := by
      intro e he
      have : (h'.elt e).deps = (h.elt e).deps := by rw [r2]; simp [he]
      simp [keep, trimCandidates, Heap.graph, Graph.pos, this]
    refine ⟨?_, i2, i3, ?_⟩
    · intro e
      rw [i1]
      by_cases he : e = v
      · subst he; simp [hnd.1, hdv]
      · simp only [List.mem_cons, he, false_or]
        split
        · exact hkeep e he
        · rw [r2]; simp [he]
    · have hv : ((trimLoop elems m rest (h', n')).1.elt v).deps = (h'.elt v).deps := by
        rw [i1]; simp [hnd.1]
      have hother : depCount h' rest = depCount h rest := by
        unfold depCount
        congr 1
        apply List.map_congr_left
        intro e he
        rw [r2]
        have : e ≠ v := fun h => hnd.1 (h ▸ he)
        simp [this]
      have e1 : depCount (trimLoop elems m rest (h', n')).1 (v :: rest) =
          (h'.elt v).deps.length + depCount (trimLoop elems m rest (h', n')).1 rest := by
        simp [depCount, hv]
      have e2 : depCount h (v :: rest) = (h.elt v).deps.length + depCount h rest := by simp [depCount]
      rw [e1, e2]
      omega

end Heap
end CGraph
