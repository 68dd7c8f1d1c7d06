import Verif.Lemmas.Containers

/-! # C03, C04: containers -/
namespace CGraph
open Spec

/-! ## C03 — LRU cache -/

/-- Run a history on the concrete cache; `none` = undefined behaviour occurred. -/
def Lru.run {K V : Type} [DecidableEq K] (c : Lru K V) :
    List (LruOp K V) → Option (Lru K V × List (Option V))
  | [] => some (c, [])
  | op :: ops =>
    match c.step op with
    | none => none
    | some (c', o) => (Lru.run c' ops).map (fun r => (r.1, o :: r.2))

theorem Lru.run_rel {K V : Type} [DecidableEq K] (cap : Nat) (hcap : 1 ≤ cap) (c : Lru K V)
    (h : LruHist K V) (hr : Lru.Rel cap c h) (ops : List (LruOp K V)) :
    ∃ c' h', Lru.run c ops = some (c', lruRun cap h ops) ∧ Lru.Rel cap c' h' := by
  induction ops generalizing c h with
  | nil => exact ⟨c, h, rfl, hr⟩
  | cons op ops ih =>
    obtain ⟨c', hs, hr'⟩ := Lru.rel_step hcap hr op
    obtain ⟨c'', h'', hs', hr''⟩ := ih c' _ hr'
    exact ⟨c'', h'', by simp [Lru.run, hs, hs', lruRun], hr''⟩

/-- **C03**: for every capacity ≥ 1 and every history, the cache never reaches undefined behaviour, its
answers are those of the history specification (a key is found iff it is among the `cap` most recently
used distinct keys, with the last value put), and it never holds more than `cap` keys. -/
theorem C03_lru (K V : Type) [DecidableEq K] (cap : Nat) (hcap : 1 ≤ cap) (ops : List (LruOp K V)) :
    ∃ c', Lru.run (Lru.empty cap) ops = some (c', lruRun cap ⟨[], []⟩ ops) ∧
      c'.nodes.length ≤ cap ∧ c'.curSize = c'.nodes.length := by
  have h0 : Lru.Rel cap (Lru.empty cap : Lru K V) ⟨[], []⟩ :=
    ⟨Lru.empty_wf cap, rfl, by simp [Lru.empty, Lru.view, recent], by
      intro k v hm; simp [Lru.empty, Lru.view] at hm⟩
  obtain ⟨c', h', hs, hr⟩ := Lru.run_rel cap hcap _ _ h0 ops
  refine ⟨c', hs, ?_, hr.wf.size⟩
  have h1 := hr.wf.bound
  have h2 := hr.capEq
  omega

/-- The hypothesis `1 ≤ cap` is needed: with capacity 0 the first `put` reads `back()` of an empty
list (undefined behaviour). -/
theorem C03_capacity_zero_undefined {K V : Type} [DecidableEq K] (k : K) (v : V) :
    (Lru.empty 0 : Lru K V).put k v = none := by
  simp [Lru.put, Lru.empty, Lru.find]

example : (Lru.run (Lru.empty 2)
    [.put 1 "a", .put 2 "b", .get 1, .put 3 "c", .get 2, .get 1, .get 3]).map (·.2)
    = some [none, none, some "a", none, none, some "a", some "c"] := by decide

/-! ## C04 — small vector and unique array -/

/-- Run a history on the concrete small vector. -/
def SmallVec.run {α : Type} [DecidableEq α] (stepSize : Nat) (dflt : α) (v : SmallVec α) :
    List (SetOp α) → Option (SmallVec α)
  | [] => some v
  | .insert x u :: ops =>
    match v.insert stepSize dflt x u with
    | none => none
    | some v' => SmallVec.run stepSize dflt v' ops
  | .remove x :: ops => SmallVec.run stepSize dflt (v.remove x).1 ops
  | .clear :: ops => SmallVec.run stepSize dflt (v.clear dflt) ops

theorem SmallVec.run_spec {α : Type} [DecidableEq α] (stepSize : Nat) (hs : 0 < stepSize) (dflt : α)
    (v : SmallVec α) (hw : v.WF) (ops : List (SetOp α)) :
    ∃ v', SmallVec.run stepSize dflt v ops = some v' ∧ v'.WF ∧
      v'.toList = ops.foldl setStep v.toList := by
  induction ops generalizing v with
  | nil => exact ⟨v, rfl, hw, rfl⟩
  | cons op ops ih =>
    cases op with
    | insert x u =>
      obtain ⟨v1, h1, hw1, ht1⟩ := SmallVec.insert_spec stepSize hs dflt v hw x u
      obtain ⟨v2, h2, hw2, ht2⟩ := ih v1 hw1
      refine ⟨v2, ?_, hw2, ?_⟩
      · simp [SmallVec.run, h1, h2]
      · rw [ht2, ht1]; rfl
    | remove x =>
      obtain ⟨hw1, ht1, _⟩ := SmallVec.remove_spec v x hw
      obtain ⟨v2, h2, hw2, ht2⟩ := ih _ hw1
      refine ⟨v2, h2, hw2, ?_⟩
      rw [ht2, ht1]; rfl
    | clear =>
      obtain ⟨hw1, ht1⟩ := SmallVec.clear_spec dflt v
      obtain ⟨v2, h2, hw2, ht2⟩ := ih _ hw1
      refine ⟨v2, h2, hw2, ?_⟩
      rw [ht2, ht1]; rfl

/-- **C04** (small vector): for every growth step ≥ 1 and every history no undefined behaviour occurs and
the contents are those of the plain list specification, so they do not depend on the growth step. -/
theorem C04_small_vector {α : Type} [DecidableEq α] (stepSize : Nat) (hs : 0 < stepSize) (dflt : α)
    (ops : List (SetOp α)) :
    ∃ v', SmallVec.run stepSize dflt SmallVec.empty ops = some v' ∧
      v'.toList = ops.foldl setStep [] := by
  obtain ⟨v', h, _, ht⟩ := SmallVec.run_spec stepSize hs dflt (SmallVec.empty : SmallVec α)
    (by simp [SmallVec.WF, SmallVec.empty]) ops
  exact ⟨v', h, by rw [ht]; rfl⟩

/-- **C04** (answers): in every state reached by a history, `hasValue` is membership and `remove` reports
whether the value was there. -/
theorem C04_small_vector_answers {α : Type} [DecidableEq α] (stepSize : Nat) (hs : 0 < stepSize)
    (dflt : α) (ops : List (SetOp α)) (x : α) :
    ∃ v', SmallVec.run stepSize dflt SmallVec.empty ops = some v' ∧
      (v'.hasValue x = true ↔ x ∈ ops.foldl setStep []) ∧
      ((v'.remove x).2 = true ↔ x ∈ ops.foldl setStep []) := by
  obtain ⟨v', h, hw, ht⟩ := SmallVec.run_spec stepSize hs dflt (SmallVec.empty : SmallVec α)
    (by simp [SmallVec.WF, SmallVec.empty]) ops
  have ht' : v'.toList = ops.foldl setStep [] := by rw [ht]; rfl
  refine ⟨v', h, ?_, ?_⟩
  · rw [SmallVec.hasValue_iff, ht']
  · rw [(SmallVec.remove_spec v' x hw).2.2, ht', decide_eq_true_iff]

/-- **C04** (set discipline): if every insertion asks for uniqueness, the contents have no duplicates. -/
theorem C04_small_vector_nodup {α : Type} [DecidableEq α] (stepSize : Nat) (hs : 0 < stepSize) (dflt : α)
    (ops : List (SetOp α)) (hu : ∀ x u, SetOp.insert x u ∈ ops → u = true) :
    ∃ v', SmallVec.run stepSize dflt SmallVec.empty ops = some v' ∧ v'.toList.Nodup := by
  obtain ⟨v', hv, ht⟩ := C04_small_vector stepSize hs dflt ops
  refine ⟨v', hv, ?_⟩
  rw [ht]
  clear hv ht
  have gen : ∀ l : List α, l.Nodup → (ops.foldl setStep l).Nodup := by
    induction ops with
    | nil => intro l hl; exact hl
    | cons op ops ih =>
      intro l hl
      have ih' := ih (fun x u hm => hu x u (List.mem_cons_of_mem _ hm))
      apply ih'
      cases op with
      | insert x u =>
        have : u = true := hu x u List.mem_cons_self
        simp only [setStep, this, true_and]
        split
        · exact hl
        · rename_i hx
          rw [List.nodup_append]
          refine ⟨hl, by simp, ?_⟩
          intro a ha b hb
          simp only [List.mem_singleton] at hb
          subst hb; intro e; subst e; exact hx ha
      | remove x => exact hl.erase x
      | clear => exact List.nodup_nil
  exact gen [] List.nodup_nil

example : (SmallVec.run 2 0 SmallVec.empty
    [.insert 5 true, .insert 6 true, .insert 5 true, .insert 7 true, .remove 6, .insert 8 true]).map
      SmallVec.toList = some [5, 7, 8] := by decide

/-- Specification of the unique array: the distinct values in the order of their first addition. -/
def firstOccurrences {α : Type} [DecidableEq α] : List α → List α
  | [] => []
  | x :: l => x :: (firstOccurrences l).filter (fun y => y ≠ x)

/-- **C04** (unique array): after adding any list of values the array lists the distinct values in order
of first addition. -/
theorem C04_unique_array {α : Type} [DecidableEq α] (l : List α) :
    (l.foldl UniqueArr.add UniqueArr.empty).arr = firstOccurrences l := by
  have gen : ∀ (l : List α) (u : UniqueArr α), (∀ x, x ∈ u.set ↔ x ∈ u.arr) →
      (l.foldl UniqueArr.add u).arr = u.arr ++ (firstOccurrences l).filter (fun y => y ∉ u.arr) := by
    intro l
    induction l with
    | nil => intro u _; simp [firstOccurrences]
    | cons x l ih =>
      intro u hu
      simp only [List.foldl_cons, firstOccurrences]
      by_cases hx : x ∈ u.set
      · have hxa := (hu x).1 hx
        simp only [UniqueArr.add, hx, if_true]
        rw [ih u hu, List.filter_cons, if_neg (by simpa using hxa), List.filter_filter]
        congr 1
        apply List.filter_congr
        intro y _
        by_cases hy : y ∈ u.arr
        · simp [hy]
        · have : y ≠ x := by intro e; subst e; exact hy hxa
          simp [hy, this]
      · have hxa : x ∉ u.arr := fun h => hx ((hu x).2 h)
        simp only [UniqueArr.add, hx, if_false]
        rw [ih _ (by intro y; simp [hu y, or_comm])]
        rw [List.filter_cons, if_pos (by simpa using hxa), List.filter_filter]
        simp only [List.append_assoc, List.singleton_append]
        congr 2
        apply List.filter_congr
        intro y _
        by_cases hy : y ∈ u.arr <;> by_cases hyx : y = x <;> simp [hy, hyx]
  have := gen l UniqueArr.empty (by simp [UniqueArr.empty])
  rw [this]
  simp only [UniqueArr.empty, List.nil_append]
  apply List.filter_eq_self.2
  intro y _; simp

/-- **C04** (unique array, stable positions): adding more values never changes the position of a value
already there. -/
theorem C04_unique_array_stable {α : Type} [DecidableEq α] (u : UniqueArr α) (l : List α) :
    ∃ t, (l.foldl UniqueArr.add u).arr = u.arr ++ t := by
  induction l generalizing u with
  | nil => exact ⟨[], by simp⟩
  | cons x l ih =>
    obtain ⟨t, ht⟩ := ih (u.add x)
    simp only [List.foldl_cons, ht]
    unfold UniqueArr.add
    split
    · exact ⟨t, rfl⟩
    · exact ⟨x :: t, by simp⟩

example : ([3, 1, 3, 2, 1].foldl UniqueArr.add UniqueArr.empty).arr = [3, 1, 2] := by decide

end CGraph
