import Verif.Spec.Param

namespace CGraph
open Spec

/-- Number of objects created by a history. -/
def fresh : List ParamOp → Nat
  | [] => 0
  | .create _ k _ :: past => if (holder past k).isNone then fresh past + 1 else fresh past
  | .get _ _ _ _ :: past => fresh past
  | .remove _ :: past => fresh past
  | .clean _ :: past => fresh past
  | .clear :: past => fresh past

theorem fresh_cons (op : ParamOp) (past : List ParamOp) : fresh past ≤ fresh (op :: past) := by
  cases op <;> simp only [fresh] <;> first | exact Nat.le_refl _ | (split <;> omega)

theorem fresh_suffix {a b : List ParamOp} (h : a <:+ b) : fresh a ≤ fresh b := by
  induction b with
  | nil => simp_all
  | cons op b ih =>
    rcases List.suffix_cons_iff.mp h with h | h
    · subst h; exact Nat.le_refl _
    · exact Nat.le_trans (ih h) (fresh_cons op b)

/-- The creation in force is a call of the history, made when the key was free. -/
theorem holder_spec {past : List ParamOp} {key : String} {c : List ParamOp} {t : Nat} {b : Bool}
    (h : holder past key = some (c, t, b)) :
    (ParamOp.create t key b :: c) <:+ past ∧ holder c key = none := by
  induction past with
  | nil => simp [holder] at h
  | cons op past ih =>
    have up : holder past key = some (c, t, b) →
        (ParamOp.create t key b :: c) <:+ (op :: past) ∧ holder c key = none :=
      fun h => ⟨(ih h).1.trans (List.suffix_cons _ _), (ih h).2⟩
    cases op with
    | create t' k' b' =>
      simp only [holder] at h
      cases hp : holder past key with
      | some x => rw [hp] at h; simp only [Option.some.injEq] at h; subst h; exact up hp
      | none =>
        rw [hp] at h
        simp only at h
        split at h
        · rename_i hk
          simp only [Option.some.injEq, Prod.mk.injEq] at h
          obtain ⟨rfl, rfl, rfl⟩ := h
          subst hk
          exact ⟨List.suffix_rfl, hp⟩
        · simp at h
    | get w n t' k' => exact up (by simpa [holder] using h)
    | remove k' =>
      simp only [holder] at h
      split at h
      · simp at h
      · exact up h
    | clean k' => exact up (by simpa [holder] using h)
    | clear => simp [holder] at h

theorem fresh_created {c : List ParamOp} {t : Nat} {key : String} {b : Bool} (h : holder c key = none) :
    fresh (ParamOp.create t key b :: c) = fresh c + 1 := by simp [fresh, h]

theorem fresh_lt {past : List ParamOp} {key : String} {c : List ParamOp} {t : Nat} {b : Bool}
    (h : holder past key = some (c, t, b)) : fresh c < fresh past := by
  have := holder_spec h
  have h1 := fresh_suffix this.1
  rw [fresh_created this.2] at h1
  omega

/-- Creations within one history have different numbers. -/
theorem creation_inj {past : List ParamOp} {k₁ k₂ : String} {c₁ c₂ : List ParamOp} {t₁ t₂ : Nat} {b₁ b₂ : Bool}
    (s₁ : (ParamOp.create t₁ k₁ b₁ :: c₁) <:+ past) (s₂ : (ParamOp.create t₂ k₂ b₂ :: c₂) <:+ past)
    (n₁ : holder c₁ k₁ = none) (n₂ : holder c₂ k₂ = none) (he : fresh c₁ = fresh c₂) :
    (ParamOp.create t₁ k₁ b₁ :: c₁) = (ParamOp.create t₂ k₂ b₂ :: c₂) := by
  rcases List.suffix_or_suffix_of_suffix s₁ s₂ with h | h
  · rcases List.suffix_cons_iff.mp h with h | h
    · exact h
    · have := fresh_suffix h
      rw [fresh_created n₁] at this; omega
  · rcases List.suffix_cons_iff.mp h with h | h
    · exact h.symm
    · have := fresh_suffix h
      rw [fresh_created n₂] at this; omega

theorem holder_inj {past : List ParamOp} {k₁ k₂ : String} {c₁ c₂ : List ParamOp} {t₁ t₂ : Nat} {b₁ b₂ : Bool}
    (h₁ : holder past k₁ = some (c₁, t₁, b₁)) (h₂ : holder past k₂ = some (c₂, t₂, b₂)) (he : fresh c₁ = fresh c₂) :
    k₁ = k₂ := by
  have a := holder_spec h₁
  have b := holder_spec h₂
  have := creation_inj a.1 b.1 a.2 b.2 he
  simp only [List.cons.injEq, ParamOp.create.injEq] at this
  exact this.1.2.1

/-- Nothing was obtained from a free key. -/
theorem accesses_none {past : List ParamOp} {key : String} (h : holder past key = none) : accesses past key = [] := by
  induction past with
  | nil => rfl
  | cons op past ih =>
    cases op with
    | create t k b =>
      simp only [holder] at h
      cases hp : holder past key with
      | some x => rw [hp] at h; simp at h
      | none => simp only [accesses]; exact ih hp
    | get w n t k =>
      simp only [holder] at h
      simp only [accesses, h, Option.map_none, reduceCtorEq, and_false, if_false]
      exact ih h
    | remove k =>
      simp only [holder] at h
      simp only [accesses]
      split
      · rfl
      · rename_i hk; simp only [hk, if_false] at h; exact ih h
    | clean k =>
      simp only [accesses]
      split
      · rfl
      · exact ih (by simpa [holder] using h)
    | clear => rfl

/-- The list of accesses as stored in the object. -/
def stored (on : Bool) (l : List String) : UniqueArr String :=
  if on then l.foldl UniqueArr.add UniqueArr.empty else UniqueArr.empty

theorem lookup_append_str (l : List (String × Nat)) (k key : String) (v : Nat) (h : l.lookup k = none) :
    (l ++ [(k, v)]).lookup key = if k = key then some v else l.lookup key := by
  induction l with
  | nil =>
    simp only [List.nil_append, List.lookup]
    by_cases hk : k = key
    · subst hk; simp
    · have : (key == k) = false := by simpa using fun h => hk h.symm
      simp [this, hk]
  | cons e l ih =>
    obtain ⟨k', v'⟩ := e
    simp only [List.lookup, List.cons_append] at h ⊢
    cases h1 : (k == k') with
    | true => simp [h1] at h
    | false =>
      simp only [h1] at h
      cases h2 : (key == k') with
      | true =>
        have e2 : key = k' := by simpa using h2
        have e1 : k ≠ k' := by simpa using h1
        simp [e2, e1]
      | false => simpa using ih h

theorem lookup_filter_str (l : List (String × Nat)) (k key : String) :
    (l.filter (fun e => e.1 ≠ k)).lookup key = if k = key then none else l.lookup key := by
  induction l with
  | nil => simp
  | cons e l ih =>
    obtain ⟨k', v'⟩ := e
    by_cases h1 : k' = k
    · subst h1
      simp only [List.filter, ne_eq, not_true_eq_false, decide_false, ih, List.lookup]
      by_cases h2 : k' = key
      · simp [h2]
      · have : (key == k') = false := by simpa using fun h => h2 h.symm
        simp [h2, this]
    · simp only [List.filter, ne_eq, h1, not_false_eq_true, decide_true, List.lookup]
      cases h2 : (key == k') with
      | true =>
        have e2 : key = k' := by simpa using h2
        have : k ≠ key := by rw [e2]; exact fun h => h1 h.symm
        simp [this]
      | false => simpa using ih

/-- The tie between the store and the history. -/
structure PInv (past : List ParamOp) (s : PStore) : Prop where
  len : s.heap.length = fresh past
  find : ∀ k, s.find k = (holder past k).map (fun c => fresh c.1)
  obj : ∀ k c t b, holder past k = some (c, t, b) → s.load (fresh c) = some ⟨t, k, b, stored b (accesses past k)⟩
  dead : ∀ p, p < fresh past → (∀ k c t b, holder past k = some (c, t, b) → fresh c ≠ p) → s.load p = none
  nodup : (s.map.map Prod.fst).Nodup
  mem : ∀ k p, (k, p) ∈ s.map → s.find k = some p

theorem load_set (s : PStore) (p q : Nat) :
    ({ s with heap := s.heap.set p none } : PStore).load q = if p = q then none else s.load q := by
  simp only [PStore.load, List.getElem?_set]
  split
  · split <;> rfl
  · rfl

theorem load_modify (s : PStore) (p q : Nat) (f : PObj → PObj) :
    ({ s with heap := s.heap.modify p (Option.map f) } : PStore).load q =
      if p = q then (s.load q).map f else s.load q := by
  simp only [PStore.load, List.getElem?_modify]
  cases h : s.heap[q]? with
  | none => simp
  | some o => split <;> simp

theorem load_clear (l : List (String × Nat)) (heap : List (Option PObj)) (p : Nat) :
    ((l.foldl (fun h e => h.set e.2 none) heap)[p]?).join =
      if p ∈ l.map Prod.snd then none else (heap[p]?).join := by
  induction l generalizing heap with
  | nil => simp
  | cons e l ih =>
    simp only [List.foldl, ih, List.getElem?_set, List.map, List.mem_cons]
    by_cases h1 : p ∈ l.map Prod.snd
    · simp [h1]
    · simp only [h1, or_false, if_false]
      by_cases h2 : p = e.2
      · subst h2; simp only [if_true]; split <;> rfl
      · have : e.2 ≠ p := fun h => h2 h.symm
        simp [h2, this]

theorem length_clear (l : List (String × Nat)) (heap : List (Option PObj)) :
    (l.foldl (fun h e => h.set e.2 none) heap).length = heap.length := by
  induction l generalizing heap with
  | nil => rfl
  | cons e l ih => simp [List.foldl, ih]

theorem find_mem (s : PStore) {k : String} {p : Nat} (h : s.find k = some p) : (k, p) ∈ s.map := by
  unfold PStore.find at h
  obtain ⟨m⟩ := s
  rename_i map _
  simp only at h ⊢
  induction map with
  | nil => simp at h
  | cons e l ih =>
    obtain ⟨k', v⟩ := e
    simp only [List.lookup] at h
    cases h1 : (k == k') with
    | true =>
      simp only [h1, Option.some.injEq] at h
      have : k = k' := by simpa using h1
      subst this; subst h; simp
    | false => simp only [h1] at h; exact List.mem_cons_of_mem _ (ih h)

theorem PInv.empty : PInv [] PStore.empty where
  len := rfl
  find := by simp [PStore.find, PStore.empty, holder]
  obj := by simp [holder]
  dead := by simp [fresh]
  nodup := by simp [PStore.empty]
  mem := by simp [PStore.empty]

/-- The type test of the code compares with the type given at creation. -/
theorem PInv.ty {past s} (I : PInv past s) {k c t b} (h : holder past k = some (c, t, b)) (ty : Nat) :
    ((s.load (fresh c)).map PObj.ty = some ty) ↔ t = ty := by
  rw [I.obj k c t b h]; simp

theorem PInv.create {past s} (I : PInv past s) (t : Nat) (k : String) (b : Bool) :
    PInv (.create t k b :: past) (s.create t k b).1 := by
  cases hp : holder past k with
  | some c =>
    have hs : (s.create t k b).1 = s := by
      have := I.find k; rw [hp] at this
      simp only [Option.map_some] at this
      simp [PStore.create, this]
    rw [hs]
    have hh : ∀ key, holder (.create t k b :: past) key = holder past key := by
      intro key
      simp only [holder]
      cases h2 : holder past key with
      | some x => rfl
      | none =>
        have : k ≠ key := by rintro rfl; rw [hp] at h2; simp at h2
        simp [this]
    have hf : fresh (.create t k b :: past) = fresh past := by simp [fresh, hp]
    exact
      { len := by rw [hf]; exact I.len
        find := fun key => by rw [hh]; exact I.find key
        obj := fun key c t b h => by rw [hh] at h; exact I.obj key c t b h
        dead := fun p hlt h => I.dead p (hf ▸ hlt) (fun key c t b h2 => h key c t b (by rw [hh]; exact h2))
        nodup := I.nodup
        mem := I.mem }
  | none =>
    have hfind : s.find k = none := by rw [I.find k, hp]; rfl
    have hs : (s.create t k b).1 = { s with heap := s.heap ++ [some ⟨t, k, b, UniqueArr.empty⟩]
                                            map := s.map ++ [(k, s.heap.length)] } := by
      simp [PStore.create, hfind]
    rw [hs]
    have hh : ∀ key, holder (.create t k b :: past) key = if k = key then some (past, t, b) else holder past key := by
      intro key
      simp only [holder]
      by_cases h2 : k = key
      · subst h2; simp [hp]
      · simp only [h2, if_false]; cases holder past key <;> rfl
    have hf : fresh (.create t k b :: past) = fresh past + 1 := by simp [fresh, hp]
    have hl : ∀ p, ({ s with heap := s.heap ++ [some ⟨t, k, b, UniqueArr.empty⟩]
                             map := s.map ++ [(k, s.heap.length)] } : PStore).load p =
        if p = fresh past then some ⟨t, k, b, UniqueArr.empty⟩ else s.load p := by
      intro p
      have hlen := I.len
      simp only [PStore.load]
      by_cases h1 : p = fresh past
      · simp [h1, ← hlen]
      · simp only [h1, if_false]
        by_cases h2 : p < s.heap.length
        · rw [List.getElem?_append_left h2]
        · rw [List.getElem?_eq_none (by simp; omega), List.getElem?_eq_none (by omega)]
    exact
      { len := by simp [hf, I.len]
        find := fun key => by
          rw [hh]
          simp only [PStore.find] at hfind ⊢
          rw [lookup_append_str _ _ _ _ hfind]
          have := I.find key
          simp only [PStore.find] at this
          split
          · simp [I.len]
          · exact this
        obj := fun key c t' b' h => by
          rw [hh] at h
          rw [hl]
          split at h
          · rename_i hk
            simp only [Option.some.injEq, Prod.mk.injEq] at h
            obtain ⟨rfl, rfl, rfl⟩ := h
            subst hk
            simp only [if_true, accesses, accesses_none hp]
            simp [stored]
          · have := fresh_lt h
            rw [if_neg (by omega), I.obj key c t' b' h]
            rfl
        dead := fun p hlt h => by
          rw [hl]
          have h1 := h k past t b (by rw [hh]; simp)
          rw [if_neg (fun h => h1 h.symm)]
          refine I.dead p (by omega) ?_
          intro key c t' b' h2
          refine h key c t' b' ?_
          rw [hh, if_neg ?_]
          · exact h2
          · rintro rfl; rw [hp] at h2; simp at h2
        nodup := by
          simp only [List.map_append, List.map_cons, List.map_nil]
          rw [List.nodup_append]
          refine ⟨I.nodup, by simp, ?_⟩
          rintro a ha _ hb rfl
          simp only [List.mem_singleton] at hb
          subst hb
          obtain ⟨⟨k', p'⟩, hm, rfl⟩ := List.mem_map.mp ha
          have := I.mem _ _ hm
          simp only at hfind
          rw [hfind] at this; simp at this
        mem := fun key p hm => by
          simp only [PStore.find] at hfind ⊢
          rw [lookup_append_str _ _ _ _ hfind]
          simp only [List.mem_append, List.mem_singleton, Prod.mk.injEq] at hm
          rcases hm with hm | ⟨rfl, rfl⟩
          · have := I.mem key p hm
            simp only [PStore.find] at this
            split
            · rename_i hk; subst hk; rw [hfind] at this; simp at this
            · exact this
          · simp }

theorem PInv.remove {past s} (I : PInv past s) (k : String) : PInv (.remove k :: past) (s.remove k).1 := by
  have hh : ∀ key, holder (.remove k :: past) key = if k = key then none else holder past key := fun _ => rfl
  cases hp : holder past k with
  | none =>
    have hfind : s.find k = none := by rw [I.find k, hp]; rfl
    have hs : (s.remove k).1 = s := by simp [PStore.remove, hfind]
    have hh' : ∀ key, holder (.remove k :: past) key = holder past key := by
      intro key; rw [hh]; split
      · rename_i h; subst h; exact hp.symm
      · rfl
    rw [hs]
    exact
      { len := I.len
        find := fun key => by rw [hh']; exact I.find key
        obj := fun key c t b h => by
          rw [hh'] at h
          have hk : k ≠ key := by rintro rfl; rw [hp] at h; simp at h
          have : accesses (.remove k :: past) key = accesses past key := by simp [accesses, hk]
          rw [this]; exact I.obj key c t b h
        dead := fun p hlt h => I.dead p hlt (fun key c t b h2 => h key c t b (by rw [hh']; exact h2))
        nodup := I.nodup
        mem := I.mem }
  | some x =>
    obtain ⟨c₀, t₀, b₀⟩ := x
    have hfind : s.find k = some (fresh c₀) := by rw [I.find k, hp]; rfl
    have hs : (s.remove k).1 = { s with heap := s.heap.set (fresh c₀) none
                                        map := s.map.filter (fun e => e.1 ≠ k) } := by
      simp [PStore.remove, hfind]
    rw [hs]
    have hl : ∀ p, ({ s with heap := s.heap.set (fresh c₀) none
                             map := s.map.filter (fun e => e.1 ≠ k) } : PStore).load p =
        if fresh c₀ = p then none else s.load p := fun p => load_set s (fresh c₀) p
    exact
      { len := by simp only [List.length_set]; exact I.len
        find := fun key => by
          rw [hh]
          simp only [PStore.find]
          rw [lookup_filter_str]
          have := I.find key
          simp only [PStore.find] at this
          split
          · rfl
          · exact this
        obj := fun key c t b h => by
          rw [hh] at h
          split at h
          · simp at h
          · rename_i hk
            rw [hl, if_neg (fun he => hk (holder_inj hp h he)), I.obj key c t b h]
            simp [accesses, hk]
        dead := fun p hlt h => by
          rw [hl]
          split
          · rfl
          · rename_i hne
            refine I.dead p hlt (fun key c t b h2 => ?_)
            by_cases hk : k = key
            · subst hk; rw [hp] at h2
              simp only [Option.some.injEq, Prod.mk.injEq] at h2
              rw [← h2.1]; exact hne
            · exact h key c t b (by rw [hh, if_neg hk]; exact h2)
        nodup := List.Nodup.sublist (List.filter_sublist.map _) I.nodup
        mem := fun key p hm => by
          simp only [PStore.find]
          rw [lookup_filter_str]
          simp only [List.mem_filter, ne_eq, decide_eq_true_eq] at hm
          rw [if_neg (fun h => hm.2 h.symm)]
          exact I.mem key p hm.1 }

theorem PInv.clear {past s} (I : PInv past s) : PInv (.clear :: past) s.clear where
  len := by simp only [PStore.clear, length_clear]; exact I.len
  find := fun key => by simp [PStore.clear, PStore.find, holder]
  obj := fun key c t b h => by simp [holder] at h
  dead := fun p hlt h => by
    simp only [PStore.clear, PStore.load, load_clear]
    split
    · rfl
    · rename_i hm
      refine I.dead p hlt (fun key c t b h2 => ?_)
      rintro rfl
      have := I.find key
      rw [h2] at this
      exact hm (List.mem_map_of_mem (f := Prod.snd) (find_mem s this))
  nodup := by simp [PStore.clear]
  mem := by simp [PStore.clear]

/-- A change of the recorded accesses of one object. -/
theorem PInv.touch {past s} (I : PInv past s) (op : ParamOp) (k : String) (f : PObj → PObj) {c₀ t₀ b₀}
    (hp : holder past k = some (c₀, t₀, b₀))
    (hh : ∀ key, holder (op :: past) key = holder past key) (hf : fresh (op :: past) = fresh past)
    (ha : ∀ key, key ≠ k → accesses (op :: past) key = accesses past key)
    (hk : f ⟨t₀, k, b₀, stored b₀ (accesses past k)⟩ = ⟨t₀, k, b₀, stored b₀ (accesses (op :: past) k)⟩)
    (s' : PStore) (h1 : s'.heap = s.heap.modify (fresh c₀) (Option.map f)) (h2 : s'.map = s.map) :
    PInv (op :: past) s' := by
  have hl : ∀ q, s'.load q = if fresh c₀ = q then (s.load q).map f else s.load q := by
    intro q
    have : s'.load q = ({ s with heap := s.heap.modify (fresh c₀) (Option.map f) } : PStore).load q := by
      simp only [PStore.load, h1]
    rw [this]; exact load_modify s (fresh c₀) q f
  have hfd : ∀ key, s'.find key = s.find key := fun key => by simp only [PStore.find, h2]
  exact
    { len := by rw [h1, hf, List.length_modify]; exact I.len
      find := fun key => by rw [hh, hfd]; exact I.find key
      obj := fun key c t b h => by
        rw [hh] at h
        rw [hl]
        by_cases he : fresh c₀ = fresh c
        · have := holder_inj hp h he
          subst this
          rw [hp] at h
          simp only [Option.some.injEq, Prod.mk.injEq] at h
          obtain ⟨rfl, rfl, rfl⟩ := h
          rw [if_pos rfl, I.obj _ _ _ _ hp, Option.map_some, hk]
        · rw [if_neg he, I.obj key c t b h, ha key]
          rintro rfl
          rw [hp] at h
          simp only [Option.some.injEq, Prod.mk.injEq] at h
          exact he (by rw [h.1])
      dead := fun p hlt h => by
        rw [hl]
        have := I.dead p (hf ▸ hlt) (fun key c t b h2 => h key c t b (by rw [hh]; exact h2))
        rw [this]; simp
      nodup := by rw [h2]; exact I.nodup
      mem := fun key p hm => by rw [hfd]; rw [h2] at hm; exact I.mem key p hm }

/-- No recorded access changes. -/
theorem PInv.keep {past s} (I : PInv past s) (op : ParamOp) (hh : ∀ key, holder (op :: past) key = holder past key)
    (hf : fresh (op :: past) = fresh past) (ha : ∀ key, holder past key ≠ none →
      accesses (op :: past) key = accesses past key) : PInv (op :: past) s where
  len := by rw [hf]; exact I.len
  find := fun key => by rw [hh]; exact I.find key
  obj := fun key c t b h => by
    rw [hh] at h; rw [ha key (by simp [h])]; exact I.obj key c t b h
  dead := fun p hlt h => I.dead p (hf ▸ hlt) (fun key c t b h2 => h key c t b (by rw [hh]; exact h2))
  nodup := I.nodup
  mem := I.mem

/-- The answer of `get` in terms of the history. -/
theorem PInv.get {past s} (I : PInv past s) (ty : Nat) (key : String) :
    s.get ty key = (holder past key).bind fun c => if c.2.1 = ty then some (fresh c.1) else none := by
  unfold PStore.get
  rw [I.find key]
  cases hp : holder past key with
  | none => rfl
  | some x =>
    obtain ⟨c, t, b⟩ := x
    simp only [Option.map_some, Option.bind_some]
    by_cases h : t = ty
    · rw [if_pos ((I.ty hp ty).mpr h), if_pos h]
    · rw [if_neg (fun h' => h ((I.ty hp ty).mp h')), if_neg h]

theorem stored_add (b : Bool) (l : List String) (x : String) (t : Nat) (k : String) :
    PStore.addBacktrace ⟨t, k, b, stored b l⟩ x = ⟨t, k, b, stored b (l ++ [x])⟩ := by
  cases b <;> simp [PStore.addBacktrace, stored, List.foldl_append]

theorem PInv.getGParam {past s} (I : PInv past s) (who : Nat) (name : String) (ty : Nat) (k : String) :
    PInv (.get who name ty k :: past) (s.getGParam who name ty k).1 := by
  have hg := I.get ty k
  cases hp : holder past k with
  | none =>
    rw [hp] at hg
    simp only [Option.bind_none] at hg
    simp only [PStore.getGParam, hg]
    refine I.keep _ (fun _ => rfl) rfl (fun key hk => ?_)
    simp only [accesses]
    rw [if_neg]
    rintro ⟨rfl, h⟩; exact hk hp
  | some x =>
    obtain ⟨c, t, b⟩ := x
    rw [hp] at hg
    simp only [Option.bind_some] at hg
    by_cases ht : t = ty
    · rw [if_pos ht] at hg
      simp only [PStore.getGParam, hg]
      refine I.touch _ k (fun o => PStore.addBacktrace o name) hp (fun _ => rfl) rfl (fun key hk => ?_) ?_ _ rfl rfl
      · simp only [accesses]; rw [if_neg]; rintro ⟨rfl, _⟩; exact hk rfl
      · rw [stored_add]; simp [accesses, hp, ht]
    · rw [if_neg ht] at hg
      simp only [PStore.getGParam, hg]
      refine I.keep _ (fun _ => rfl) rfl (fun key hk => ?_)
      simp only [accesses]
      rw [if_neg]
      rintro ⟨rfl, h⟩
      rw [hp] at h; simp only [Option.map_some, Option.some.injEq] at h; exact ht h

theorem PInv.clean {past s} (I : PInv past s) (k : String) : PInv (.clean k :: past) (s.clean k) := by
  have hfd := I.find k
  cases hp : holder past k with
  | none =>
    rw [hp] at hfd
    simp only [Option.map_none] at hfd
    simp only [PStore.clean, hfd]
    refine I.keep _ (fun _ => rfl) rfl (fun key hk => ?_)
    simp only [accesses]
    rw [if_neg]; rintro rfl; exact hk hp
  | some x =>
    obtain ⟨c, t, b⟩ := x
    rw [hp] at hfd
    simp only [Option.map_some] at hfd
    simp only [PStore.clean, hfd]
    refine I.touch _ k _ hp (fun _ => rfl) rfl (fun key hk => ?_) ?_ _ rfl rfl
    · simp only [accesses]; rw [if_neg]; rintro rfl; exact hk rfl
    · cases b <;> simp [stored, accesses, UniqueArr.clear, UniqueArr.empty]

theorem PInv.step {past s} (I : PInv past s) (op : ParamOp) : PInv (op :: past) (s.step op).1 := by
  cases op with
  | create t k b => exact I.create t k b
  | get who name ty k => exact I.getGParam who name ty k
  | remove k => exact I.remove k
  | clean k => exact I.clean k
  | clear => exact I.clear

theorem PInv.after (past : List ParamOp) : PInv past (PStore.after past) := by
  induction past with
  | nil => exact PInv.empty
  | cons op past ih => exact ih.step op

end CGraph
