import Verif.Lemmas.Param
import Verif.Props.Containers
import Verif.Lemmas.Status

/-! # C51, C71, C72: the parameter manager -/
namespace CGraph.PStore
open Spec

/-! ## C51 -/

/-- `get<T>(key)` returns a parameter exactly when the creation in force for the key has the type `T`. -/
theorem C51_get (past : List ParamOp) (ty : Nat) (key : String) :
    ((after past).get ty key).isSome ↔ ∃ c b, holder past key = some (c, ty, b) := by
  rw [(PInv.after past).get ty key]
  cases hp : holder past key with
  | none => simp
  | some x =>
    obtain ⟨c, t, b⟩ := x
    simp only [Option.bind_some]
    by_cases ht : t = ty
    · subst ht; simp
    · simp [ht]

/-- Two calls of `get`, possibly at different times and with different keys, return the same object exactly when the
same creation answers them. -/
theorem C51_identity (past later : List ParamOp) (hl : past <:+ later) (ty ty' : Nat) (key key' : String) (p p' : Nat)
    (h : (after past).get ty key = some p) (h' : (after later).get ty' key' = some p') :
    p = p' ↔ key = key' ∧ holder past key = holder later key' := by
  rw [(PInv.after past).get ty key] at h
  rw [(PInv.after later).get ty' key'] at h'
  cases hp : holder past key with
  | none => rw [hp] at h; simp at h
  | some x =>
    cases hq : holder later key' with
    | none => rw [hq] at h'; simp at h'
    | some y =>
      obtain ⟨c, t, b⟩ := x
      obtain ⟨d, u, e⟩ := y
      rw [hp] at h; rw [hq] at h'
      simp only [Option.bind_some] at h h'
      split at h
      · split at h'
        · simp only [Option.some.injEq] at h h'
          subst h; subst h'
          constructor
          · intro he
            have a := holder_spec hp
            have a' := holder_spec hq
            have := creation_inj (a.1.trans hl) a'.1 a.2 a'.2 he
            simp only [List.cons.injEq, ParamOp.create.injEq] at this
            obtain ⟨⟨rfl, rfl, rfl⟩, rfl⟩ := this
            exact ⟨rfl, rfl⟩
          · rintro ⟨rfl, he⟩
            simp only [Option.some.injEq, Prod.mk.injEq] at he
            rw [he.1]
        · simp at h'
      · simp at h

/-- The element's call returns the same as the manager's `get`. -/
theorem C51_element_get (past : List ParamOp) (who : Nat) (name : String) (ty : Nat) (key : String) :
    ((after past).step (.get who name ty key)).2 = .ptr ((after past).get ty key) := by
  simp only [step, getGParam]
  cases (after past).get ty key <;> rfl

/-- Creation succeeds exactly when the key is free or holds the same type; when the key is taken nothing changes. -/
theorem C51_create (past : List ParamOp) (ty : Nat) (key : String) (bt : Bool) :
    (((after past).create ty key bt).2.isOK ↔ ∀ c t b, holder past key = some (c, t, b) → t = ty) ∧
    (((after past).create ty key bt).2.isErr ↔ ∃ c t b, holder past key = some (c, t, b) ∧ t ≠ ty) ∧
    (holder past key ≠ none → ((after past).create ty key bt).1 = after past) := by
  have I := PInv.after past
  have hf := I.find key
  cases hp : holder past key with
  | none =>
    rw [hp] at hf
    simp only [Option.map_none] at hf
    simp only [create, hf]
    refine ⟨by simp [CStatus.ok_isOK], by simp [CStatus.ok_isErr], by simp⟩
  | some x =>
    obtain ⟨c, t, b⟩ := x
    rw [hp] at hf
    simp only [Option.map_some] at hf
    simp only [create, hf]
    by_cases ht : t = ty
    · rw [if_pos ((I.ty hp ty).mpr ht)]
      subst ht
      refine ⟨by simp [CStatus.ok_isOK], ?_, by simp⟩
      simp only [CStatus.ok_isErr, Bool.false_eq_true, false_iff]
      rintro ⟨c', t', b', h, hn⟩
      simp only [Option.some.injEq, Prod.mk.injEq] at h
      exact hn h.2.1.symm
    · rw [if_neg (fun h' => ht ((I.ty hp ty).mp h'))]
      refine ⟨?_, ?_, by simp⟩
      · simp [CStatus.isOK, CStatus.err, STATUS_OK, STATUS_ERR, ht]
      · simp only [CStatus.isErr, CStatus.err, STATUS_OK, STATUS_ERR]
        exact ⟨fun _ => ⟨c, t, b, rfl, ht⟩, fun _ => rfl⟩

/-- Removal succeeds exactly when the key is taken; a refused removal changes nothing. -/
theorem C51_remove (past : List ParamOp) (key : String) :
    (((after past).remove key).2.isOK ↔ holder past key ≠ none) ∧
    (holder past key = none → ((after past).remove key).1 = after past ∧ ((after past).remove key).2.isErr) := by
  have hf := (PInv.after past).find key
  cases hp : holder past key with
  | none =>
    rw [hp] at hf
    simp only [Option.map_none] at hf
    simp [remove, hf, CStatus.isOK, CStatus.isErr, CStatus.err, STATUS_OK, STATUS_ERR]
  | some x =>
    rw [hp] at hf
    simp only [Option.map_some] at hf
    simp [remove, hf, CStatus.ok_isOK]

/-- `getKeys` lists every taken key once and nothing else. -/
theorem C51_keys (past : List ParamOp) :
    (after past).keys.Nodup ∧ ∀ key, key ∈ (after past).keys ↔ holder past key ≠ none := by
  have I := PInv.after past
  refine ⟨I.nodup, fun key => ?_⟩
  have hf := I.find key
  constructor
  · intro hm hn
    obtain ⟨⟨k, p⟩, hm', rfl⟩ := List.mem_map.mp hm
    have := I.mem k p hm'
    rw [hf, hn] at this; simp at this
  · intro hn
    cases hp : holder past key with
    | none => exact absurd hp hn
    | some x =>
      rw [hp] at hf
      exact List.mem_map.mpr ⟨_, find_mem _ hf, rfl⟩

/-- A type clash: the second creation is refused and the first stays in force; a base class request finds nothing. -/
example :
    let past := [ParamOp.create 2 "p" false, .create 1 "p" true, .create 7 "q" false]
    holder past "p" = some ([.create 7 "q" false], 1, true) ∧ (after past).get 1 "p" = some 1 ∧
    (after past).get 2 "p" = none ∧ ((after past.tail).create 2 "p" false).2.isErr := by
  decide +kernel

/-- After removal and a new creation another object answers. -/
example :
    let past := [ParamOp.create 1 "p" false]
    let later := [ParamOp.create 1 "p" false, .remove "p", .create 1 "p" false]
    past <:+ later ∧ (after past).get 1 "p" = some 0 ∧ (after later).get 1 "p" = some 1 := by
  decide +kernel

/-! ## C71: recorded accesses -/

/-- For a parameter created with recording, `getBacktrace` lists the names of those who obtained it since it was
created or cleaned, each once, in the order of their first access. -/
theorem C71_backtrace (past : List ParamOp) (key : String) (c : List ParamOp) (ty p : Nat)
    (h : holder past key = some (c, ty, true)) (hp : (after past).get ty key = some p) :
    (after past).backtrace p = some (.ret (firstOccurrences (accesses past key))) := by
  have I := PInv.after past
  rw [I.get ty key, h] at hp
  simp only [Option.bind_some, if_true, Option.some.injEq] at hp
  subst hp
  simp only [backtrace, I.obj key c ty true h, Option.map_some, if_true, stored]
  rw [C04_unique_array]

/-- Without recording the call throws and nobody's access is recorded. -/
theorem C71_off (past : List ParamOp) (key : String) (c : List ParamOp) (ty p : Nat)
    (h : holder past key = some (c, ty, false)) (hp : (after past).get ty key = some p) :
    ∃ m, (after past).backtrace p = some (.throw m) := by
  have I := PInv.after past
  rw [I.get ty key, h] at hp
  simp only [Option.bind_some, if_true, Option.some.injEq] at hp
  subst hp
  refine ⟨"no enable backtrace for [" ++ key ++ "] param", ?_⟩
  simp only [backtrace, I.obj key c ty false h, Option.map_some]
  rfl

/-- A second creation that asks for recording is accepted, but recording stays off: `getBacktrace` throws. -/
theorem C71_second_create_violated (past : List ParamOp) (key : String) (c : List ParamOp) (ty : Nat)
    (h : holder past key = some (c, ty, false)) :
    ((after past).create ty key true).2.isOK ∧
    ∃ p m, (after (.create ty key true :: past)).get ty key = some p ∧
      (after (.create ty key true :: past)).backtrace p = some (.throw m) := by
  have h2 : holder (.create ty key true :: past) key = some (c, ty, false) := by simp [holder, h]
  refine ⟨(C51_create past ty key true).1.mpr (fun c' t b h' => ?_), ?_⟩
  · rw [h] at h'; simp only [Option.some.injEq, Prod.mk.injEq] at h'; exact h'.2.1.symm
  · obtain ⟨p, hp⟩ := Option.isSome_iff_exists.mp ((C51_get (.create ty key true :: past) ty key).mpr ⟨c, false, h2⟩)
    obtain ⟨m, hm⟩ := C71_off _ key c ty p h2 hp
    exact ⟨p, m, hp, hm⟩

/-- Names are recorded once, in order; a request with the wrong type is not recorded. -/
example :
    let past := [ParamOp.get 1 "a" 3 "p", .get 2 "b" 3 "p", .get 4 "x" 9 "p", .get 1 "a" 3 "p", .create 3 "p" true]
    (after past).get 3 "p" = some 0 ∧ accesses past "p" = ["a", "b", "a"] ∧
    (after past).backtrace 0 = some (.ret ["a", "b"]) := by
  decide +kernel

example : holder [ParamOp.create 3 "p" false] "p" = some ([], 3, false) := by decide +kernel

/-! ## C72: the list of used parameters -/

/-- What `who` holds are the creations it obtained. -/
theorem concerned_iff (past : List ParamOp) (who p : Nat) :
    (who, p) ∈ (after past).concerned ↔ ∃ k c, (k, c) ∈ usedBy past who ∧ fresh c = p := by
  induction past generalizing who p with
  | nil => simp [after, empty, usedBy]
  | cons op past ih =>
    have I := PInv.after past
    cases op with
    | create t k b =>
      have : (after (.create t k b :: past)).concerned = (after past).concerned := by
        simp only [after, step, create]; split <;> rfl
      rw [this, ih]; rfl
    | remove k =>
      have : (after (.remove k :: past)).concerned = (after past).concerned := by
        simp only [after, step, remove]; split <;> rfl
      rw [this, ih]; rfl
    | clean k =>
      have : (after (.clean k :: past)).concerned = (after past).concerned := by
        simp only [after, step, clean]; split <;> rfl
      rw [this, ih]; rfl
    | clear => rw [show (after (.clear :: past)).concerned = (after past).concerned from rfl, ih]; rfl
    | get w n t k =>
      have hg := I.get t k
      have hold : ((after past).get t k = none) → usedBy (.get w n t k :: past) who = usedBy past who := by
        intro hn
        rw [hn] at hg
        simp only [usedBy]
        cases hp : holder past k with
        | none => rfl
        | some x =>
          obtain ⟨c, t', b⟩ := x
          rw [hp] at hg
          simp only [Option.bind_some] at hg
          by_cases ht : t' = t
          · simp [ht] at hg
          · simp [ht]
      cases hq : (after past).get t k with
      | none =>
        have : (after (.get w n t k :: past)).concerned = (after past).concerned := by
          simp [after, step, getGParam, hq]
        rw [this, ih, hold hq]
      | some q =>
        rw [hq] at hg
        cases hp : holder past k with
        | none => rw [hp] at hg; simp at hg
        | some x =>
          obtain ⟨c, t', b⟩ := x
          rw [hp] at hg
          simp only [Option.bind_some] at hg
          by_cases ht : t' = t
          · rw [if_pos ht] at hg
            simp only [Option.some.injEq] at hg
            have h1 : (who, p) ∈ (after (.get w n t k :: past)).concerned ↔
                (who, p) ∈ (after past).concerned ∨ (w = who ∧ q = p) := by
              simp only [after, step, getGParam, hq]
              by_cases hm : (w, q) ∈ (after past).concerned
              · simp only [hm, if_true]
                constructor
                · exact Or.inl
                · rintro (h | ⟨rfl, rfl⟩)
                  · exact h
                  · exact hm
              · simp only [hm, if_false, List.mem_append, List.mem_singleton, Prod.mk.injEq]
                constructor
                · rintro (h | ⟨rfl, rfl⟩)
                  · exact Or.inl h
                  · exact Or.inr ⟨rfl, rfl⟩
                · rintro (h | ⟨rfl, rfl⟩)
                  · exact Or.inl h
                  · exact Or.inr ⟨rfl, rfl⟩
            rw [h1, ih]
            simp only [usedBy, hp]
            by_cases hw : w = who
            · simp only [hw, ht, true_and, if_true, List.mem_append, List.mem_singleton, Prod.mk.injEq]
              constructor
              · rintro (⟨k', c', hm, he⟩ | hqp)
                · exact ⟨k', c', Or.inl hm, he⟩
                · exact ⟨k, c, Or.inr ⟨rfl, rfl⟩, by omega⟩
              · rintro ⟨k', c', hm | ⟨rfl, rfl⟩, he⟩
                · exact Or.inl ⟨k', c', hm, he⟩
                · exact Or.inr (by omega)
            · simp [hw]
          · simp [ht] at hg

/-- What was obtained was created in this history. -/
theorem usedBy_created {past : List ParamOp} {who : Nat} {k : String} {c : List ParamOp} (h : (k, c) ∈ usedBy past who) :
    ∃ t b, (ParamOp.create t k b :: c) <:+ past ∧ holder c k = none := by
  induction past with
  | nil => simp [usedBy] at h
  | cons op past ih =>
    have up : (k, c) ∈ usedBy past who → ∃ t b, (ParamOp.create t k b :: c) <:+ (op :: past) ∧ holder c k = none := by
      intro h
      obtain ⟨t, b, h1, h2⟩ := ih h
      exact ⟨t, b, h1.trans (List.suffix_cons _ _), h2⟩
    cases op with
    | create _ _ _ => exact up h
    | remove _ => exact up h
    | clean _ => exact up h
    | clear => exact up h
    | get w n t' k' =>
      simp only [usedBy] at h
      cases hp : holder past k' with
      | none => rw [hp] at h; exact up h
      | some x =>
        obtain ⟨c', t, b⟩ := x
        rw [hp] at h
        simp only at h
        split at h
        · simp only [List.mem_append, List.mem_singleton, Prod.mk.injEq] at h
          rcases h with h | ⟨rfl, rfl⟩
          · exact up h
          · have := holder_spec hp
            exact ⟨t, b, this.1.trans (List.suffix_cons _ _), this.2⟩
        · exact up h

/-- Reading an obtained parameter finds it exactly when its creation is still in force. -/
theorem load_used {past : List ParamOp} {who : Nat} {k : String} {c : List ParamOp} (h : (k, c) ∈ usedBy past who) :
    ((after past).load (fresh c)).map PObj.key = if (holder past k).map (·.1) = some c then some k else none := by
  have I := PInv.after past
  obtain ⟨t, b, hs, hn⟩ := usedBy_created h
  split
  · rename_i hh
    cases hp : holder past k with
    | none => rw [hp] at hh; simp at hh
    | some x =>
      obtain ⟨c', t', b'⟩ := x
      rw [hp] at hh
      simp only [Option.map_some, Option.some.injEq] at hh
      subst hh
      rw [I.obj k c' t' b' hp]; rfl
  · rename_i hh
    rw [I.dead]
    · rfl
    · have := fresh_suffix hs
      rw [fresh_created hn] at this; omega
    · intro k' c' t' b' hp he
      have a := holder_spec hp
      have := creation_inj a.1 hs a.2 hn he
      simp only [List.cons.injEq, ParamOp.create.injEq] at this
      obtain ⟨⟨_, rfl, _⟩, rfl⟩ := this
      exact hh (by rw [hp]; rfl)

theorem mapM_some_mem {α β : Type} {f : α → Option β} {l : List α} {r : List β} (h : l.mapM f = some r) :
    (∀ y, y ∈ r ↔ ∃ x ∈ l, f x = some y) := by
  induction l generalizing r with
  | nil => simp at h; subst h; simp
  | cons a l ih =>
    simp only [List.mapM_cons, Option.bind_eq_bind] at h
    cases ha : f a with
    | none => rw [ha] at h; simp at h
    | some b =>
      cases hl : l.mapM f with
      | none => rw [ha, hl] at h; simp at h
      | some r' =>
        rw [ha, hl] at h
        simp at h
        subst h
        intro y
        simp only [List.mem_cons, ih hl y, exists_eq_or_imp, ha, Option.some.injEq]
        constructor
        · rintro (rfl | h)
          · exact Or.inl rfl
          · exact Or.inr h
        · rintro (rfl | h)
          · exact Or.inl rfl
          · exact Or.inr h

theorem mapM_none_iff {α β : Type} {f : α → Option β} {l : List α} : l.mapM f = none ↔ ∃ x ∈ l, f x = none := by
  induction l with
  | nil => simp
  | cons a l ih =>
    simp only [List.mapM_cons, Option.bind_eq_bind, List.mem_cons, exists_eq_or_imp]
    cases ha : f a with
    | none => simp
    | some b =>
      cases hl : l.mapM f with
      | none => simp [ih.mp hl]
      | some r' =>
        have : ¬ ∃ x ∈ l, f x = none := fun h => by rw [ih.mpr h] at hl; simp at hl
        simpa using this

/-- `getConcernedGParamKeys` reads freed memory exactly when some parameter obtained by the element is gone. -/
theorem C72_freed_read (past : List ParamOp) (who : Nat) :
    (after past).concernedKeys who = none ↔
      ∃ k c, (k, c) ∈ usedBy past who ∧ (holder past k).map (·.1) ≠ some c := by
  unfold concernedKeys
  rw [mapM_none_iff]
  constructor
  · rintro ⟨⟨w, p⟩, hm, hn⟩
    simp only [List.mem_filter, decide_eq_true_eq] at hm
    obtain ⟨hm, rfl⟩ := hm
    obtain ⟨k, c, hu, rfl⟩ := (concerned_iff past w p).mp hm
    refine ⟨k, c, hu, fun hh => ?_⟩
    rw [load_used hu, if_pos hh] at hn; simp at hn
  · rintro ⟨k, c, hu, hh⟩
    refine ⟨(who, fresh c), ?_, ?_⟩
    · simp only [List.mem_filter, decide_true, and_true]
      exact (concerned_iff past who _).mpr ⟨k, c, hu, rfl⟩
    · rw [load_used hu, if_neg hh]

/-- As long as no obtained parameter is removed the list has exactly the keys of the obtained parameters.
Partial: see `C72_freed_read`. -/
theorem C72_keys_partial (past : List ParamOp) (who : Nat)
    (alive : ∀ k c, (k, c) ∈ usedBy past who → (holder past k).map (·.1) = some c) :
    ∃ l, (after past).concernedKeys who = some l ∧ ∀ k, k ∈ l ↔ ∃ c, (k, c) ∈ usedBy past who := by
  cases h : (after past).concernedKeys who with
  | none =>
    obtain ⟨k, c, hu, hh⟩ := (C72_freed_read past who).mp h
    exact absurd (alive k c hu) hh
  | some l =>
    refine ⟨l, rfl, fun k => ?_⟩
    unfold concernedKeys at h
    rw [mapM_some_mem h]
    constructor
    · rintro ⟨⟨w, p⟩, hm, hk⟩
      simp only [List.mem_filter, decide_eq_true_eq] at hm
      obtain ⟨hm, rfl⟩ := hm
      obtain ⟨k', c, hu, rfl⟩ := (concerned_iff past w p).mp hm
      rw [load_used hu] at hk
      split at hk
      · simp only [Option.some.injEq] at hk; subst hk; exact ⟨c, hu⟩
      · simp at hk
    · rintro ⟨c, hu⟩
      refine ⟨(who, fresh c), ?_, ?_⟩
      · simp only [List.mem_filter, decide_true, and_true]
        exact (concerned_iff past who _).mpr ⟨k, c, hu, rfl⟩
      · rw [load_used hu, if_pos (alive k c hu)]

/-- Removing a parameter that an element has used makes that element's `getConcernedGParamKeys` read freed memory, for
ever after, whatever is called next. -/
theorem C72_removed_violated (past more : List ParamOp) (who : Nat) (key : String) (c : List ParamOp)
    (hu : (key, c) ∈ usedBy past who) : (after (more ++ .remove key :: past)).concernedKeys who = none := by
  rw [C72_freed_read]
  refine ⟨key, c, ?_, ?_⟩
  · have mono : ∀ op past, (key, c) ∈ usedBy past who → (key, c) ∈ usedBy (op :: past) who := by
      intro op past h
      cases op <;> simp only [usedBy] <;> try exact h
      split
      · split
        · exact List.mem_append_left _ h
        · exact h
      · exact h
    have : (key, c) ∈ usedBy (.remove key :: past) who := mono _ _ hu
    induction more with
    | nil => exact this
    | cons op more ih => exact mono _ _ ih
  · intro hh
    obtain ⟨t, b, hs, hn⟩ := usedBy_created hu
    -- the creation in force after a removal is made after the removal
    have late : ∀ c', (holder (more ++ .remove key :: past) key).map (·.1) = some c' →
        (ParamOp.remove key :: past) <:+ c' := by
      intro c' h
      clear hh
      induction more with
      | nil => simp [holder] at h
      | cons op more ih =>
        cases op with
        | create t' k' b' =>
          simp only [List.cons_append, holder] at h
          cases hp : holder (more ++ .remove key :: past) key with
          | some x => rw [hp] at h; exact ih (by rw [hp]; exact h)
          | none =>
            rw [hp] at h
            simp only at h
            split at h
            · simp only [Option.map_some, Option.some.injEq] at h
              subst h
              exact List.suffix_append _ _
            · simp at h
        | get _ _ _ _ => exact ih (by simpa [holder] using h)
        | clean _ => exact ih (by simpa [holder] using h)
        | clear => simp [holder] at h
        | remove k' =>
          simp only [List.cons_append, holder] at h
          split at h
          · simp at h
          · exact ih h
    have h1 := (late c hh).length_le
    have h2 := hs.length_le
    simp only [List.length_cons] at h1 h2
    omega

/-- Two elements, three parameters, one of another element removed. -/
example :
    let past := [ParamOp.remove "r", .get 1 "a" 5 "q", .get 2 "b" 5 "r", .get 1 "a" 3 "p", .create 5 "r" false,
      .create 5 "q" false, .create 3 "p" false]
    (after past).concernedKeys 1 = some ["p", "q"] ∧ (after past).concernedKeys 2 = none ∧
    usedBy past 1 = [("p", []), ("q", [.create 3 "p" false])] := by
  decide +kernel

end CGraph.PStore
