import Verif.Props.PipelineRun

/-! # C73, C74: `init` and `destroy` of the parts, and use after a failure -/
namespace CGraph.Pipe

/-! ## Examples for C58 -/

/-- A history: a failed `init`, a repaired one, refused calls, a run, `destroy`, another `init`. -/
example :
    let once : PEnv := ⟨fun h c => if c = .init .elem 2 ∧ h.count (.init .elem 2) = 0 then .ret (CStatus.err "bad")
      else .ret CStatus.ok, fun _ => none⟩
    let s₁ := step once sample .init
    let s₂ := step once s₁.1 .init
    let s₃ := step once s₂.1 (.register 7)
    let s₄ := step once s₃.1 .run
    let s₅ := step once s₄.1 .destroy
    let s₆ := step once s₅.1 .run
    let s₇ := step once s₆.1 .init
    (works s₁.2, works s₂.2, works s₃.2, works s₄.2, works s₅.2, works s₆.2, works s₇.2) =
      (false, true, false, true, true, false, true) := by decide +kernel

/-! ## C73 -/

/-- What a successful `init` calls. -/
def initCalls (s : Pipe) : List PCall :=
  [.pool] ++ s.elems.map .suit ++ s.params.map (.init .param) ++ s.events.map (.init .event) ++ [.engine] ++
    s.elems.map (.init .elem) ++ s.stages.map (.init .stage) ++ s.daemons.map (.init .daemon)

/-- What a successful `destroy` calls. -/
def destroyCalls (s : Pipe) : List PCall :=
  s.events.map (.destroy .event) ++ s.daemons.map (.destroy .daemon) ++ s.elems.map (.destroy .elem) ++
    s.stages.map (.destroy .stage) ++ s.params.map (.destroy .param)

theorem initEnv_ret {env s s' r} (h : initEnv env s = (s', .ret r)) (hr : r.isErr = false) :
    s' = { s with poolUp := s.unique, state := .normal, calls := s.calls ++ ([.pool] ++ s.elems.map .suit) } := by
  obtain ⟨s₁, r₁, h1, h2⟩ := andThen_ret.mp h
  obtain ⟨_, h2⟩ := checked_ret h2 hr
  obtain ⟨s₂, r₂, h3, h4⟩ := andThen_ret.mp h2
  simp only [Prod.mk.injEq, Res.ret.injEq] at h4
  obtain ⟨rfl, rfl⟩ := h4
  obtain ⟨hr₁, hr₂⟩ := add_of_add_ok hr
  obtain ⟨s₃, r₃, h5, h6⟩ := andThen_ret.mp h1
  obtain ⟨rfl, _⟩ := call_ret h5
  obtain ⟨_, h6⟩ := checked_ret h6 hr₁
  simp only [Prod.mk.injEq, Res.ret.injEq] at h6
  obtain ⟨rfl, _⟩ := h6
  obtain ⟨s₄, r₄, h7, h8⟩ := andThen_ret.mp h3
  obtain ⟨hr₄, h8⟩ := checked_ret h8 hr₂
  simp only [Prod.mk.injEq, Res.ret.injEq] at h8
  obtain ⟨rfl, _⟩ := h8
  obtain ⟨rfl, _⟩ := untilErr_ret h7 hr₄
  simp [push]

theorem elemInit_ret {env s s' r} (h : elemInit env s = (s', .ret r)) (hr : r.isErr = false) :
    s' = { s with engineUp := true, calls := s.calls ++ ([.engine] ++ s.elems.map (.init .elem)) } := by
  obtain ⟨s₁, r₁, h1, h2⟩ := andThen_ret.mp h
  obtain ⟨rfl, _⟩ := call_ret h1
  obtain ⟨_, h2⟩ := checked_ret h2 hr
  obtain ⟨rfl, _⟩ := untilErr_ret h2 hr
  simp

theorem elemDestroy_ret {env s s' r} (h : elemDestroy env s = (s', .ret r)) (hr : r.isErr = false) :
    s' = { s with engineUp := false, calls := s.calls ++ s.elems.map (.destroy .elem) } := by
  obtain ⟨s₁, r₁, h1, h2⟩ := andThen_ret.mp h
  obtain ⟨hr₁, h2⟩ := checked_ret h2 hr
  simp only [Prod.mk.injEq, Res.ret.injEq] at h2
  obtain ⟨rfl, _⟩ := h2
  obtain ⟨rfl, _⟩ := untilErr_ret h1 hr₁
  rfl

/-- The state after a successful `init`. -/
theorem init_exact {env s} (h : works (init env s).2 = true) :
    (init env s).1 = { s with isInit := true, poolUp := s.unique, engineUp := true, state := .normal,
                              calls := s.calls ++ initCalls s } := by
  obtain ⟨r, h, hr⟩ := works_iff.mp h
  obtain ⟨t, ht⟩ : ∃ t, init env s = (t, .ret r) := ⟨_, Prod.ext rfl h⟩
  rw [ht]
  unfold init at ht
  split at ht
  · simp only [refused, Prod.mk.injEq, Res.ret.injEq] at ht
    rw [← ht.2] at hr; simp [CStatus.err, CStatus.isErr, STATUS_ERR, STATUS_OK] at hr
  · obtain ⟨s₁, r₁, h1, ht⟩ := plus_ret.mp ht
    obtain ⟨e1, ht⟩ := checked_ret ht hr
    obtain ⟨s₂, r₂, h2, ht⟩ := plus_ret.mp ht
    obtain ⟨s₃, r₃, h3, ht⟩ := plus_ret.mp ht
    obtain ⟨s₄, r₄, h4, ht⟩ := plus_ret.mp ht
    obtain ⟨s₅, r₅, h5, ht⟩ := plus_ret.mp ht
    obtain ⟨s₆, r₆, h6, ht⟩ := plus_ret.mp ht
    obtain ⟨e2, ht⟩ := checked_ret ht hr
    simp only [Prod.mk.injEq, Res.ret.injEq] at ht
    obtain ⟨rfl, rfl⟩ := ht
    have e4 := (add_of_add_ok (add_of_add_ok (add_of_add_ok e2).1).1).2
    obtain rfl := initEnv_ret h1 (add_of_add_ok e1).2
    obtain ⟨rfl, _⟩ := sumAll_ret h2
    obtain ⟨rfl, _⟩ := sumAll_ret h3
    obtain rfl := elemInit_ret h4 e4
    obtain ⟨rfl, _⟩ := sumAll_ret h5
    obtain ⟨rfl, _⟩ := sumAll_ret h6
    simp [initCalls]

/-- The state after a successful `destroy`. -/
theorem destroy_exact {env s} (h : works (destroy env s).2 = true) :
    (destroy env s).1 = { s with isInit := false, poolUp := false, engineUp := false, state := .normal,
                                 calls := s.calls ++ destroyCalls s } := by
  obtain ⟨r, h, hr⟩ := works_iff.mp h
  obtain ⟨t, ht⟩ : ∃ t, destroy env s = (t, .ret r) := ⟨_, Prod.ext rfl h⟩
  rw [ht]
  unfold destroy at ht
  split at ht
  · simp only [refused, Prod.mk.injEq, Res.ret.injEq] at ht
    rw [← ht.2] at hr; simp [CStatus.err, CStatus.isErr, STATUS_ERR, STATUS_OK] at hr
  · obtain ⟨s₁, r₁, h1, ht⟩ := plus_ret.mp ht
    obtain ⟨s₂, r₂, h2, ht⟩ := plus_ret.mp ht
    obtain ⟨s₃, r₃, h3, ht⟩ := plus_ret.mp ht
    obtain ⟨s₄, r₄, h4, ht⟩ := plus_ret.mp ht
    obtain ⟨s₅, r₅, h5, ht⟩ := plus_ret.mp ht
    obtain ⟨e, ht⟩ := checked_ret ht hr
    simp only [Prod.mk.injEq, Res.ret.injEq] at ht
    obtain ⟨rfl, rfl⟩ := ht
    have e3 := (add_of_add_ok (add_of_add_ok (add_of_add_ok e).1).1).2
    obtain ⟨rfl, _⟩ := sumAll_ret h1
    obtain ⟨rfl, _⟩ := sumAll_ret h2
    obtain rfl := elemDestroy_ret h3 e3
    obtain ⟨rfl, _⟩ := sumAll_ret h4
    obtain ⟨rfl, _⟩ := sumAll_ret h5
    simp [destroyCalls, push]

/-- The parts of a kind. -/
def parts (s : Pipe) : CompKind → List Nat
  | .param => s.params | .event => s.events | .elem => s.elems | .stage => s.stages | .daemon => s.daemons

theorem count_map_of_inj (f : Nat → PCall) (hf : ∀ a b, f a = f b → a = b) (l : List Nat) (i : Nat) :
    (l.map f).count (f i) = l.count i := by
  induction l with
  | nil => rfl
  | cons a l ih =>
    simp only [List.map_cons, List.count_cons, ih]
    by_cases h : a = i
    · simp [h]
    · have : f a ≠ f i := fun e => h (hf _ _ e)
      simp [h, this]

theorem count_map_of_ne (f : Nat → PCall) (c : PCall) (hf : ∀ a, f a ≠ c) (l : List Nat) : (l.map f).count c = 0 := by
  rw [List.count_eq_zero]
  intro h
  obtain ⟨a, _, h⟩ := List.mem_map.mp h
  exact hf a h

/-- A successful `init` initialises every registered part exactly once and destroys none; after it a parameter or event is
ready before the first element is initialised. -/
theorem C73_init (env : PEnv) (s : Pipe) (h : works (init env s).2 = true) :
    ∃ new, (init env s).1.calls = s.calls ++ new ∧
      (∀ k i, new.count (.init k i) = (parts s k).count i) ∧ (∀ k i, PCall.destroy k i ∉ new) ∧
      (∃ a b, new = a ++ b ∧ (∀ k i, (k = .param ∨ k = .event) → PCall.init k i ∉ b) ∧
        ∀ k i, (k = .elem ∨ k = .stage ∨ k = .daemon) → PCall.init k i ∉ a) := by
  refine ⟨initCalls s, by rw [init_exact h], ?_, ?_, ?_⟩
  · intro k i
    have same : ∀ k (l : List Nat), (l.map (PCall.init k)).count (.init k i) = l.count i :=
      fun k l => count_map_of_inj _ (fun a b h => by simpa using h) l i
    have other : ∀ k k' (l : List Nat), k ≠ k' → (l.map (PCall.init k)).count (.init k' i) = 0 :=
      fun k k' l hk => count_map_of_ne _ _ (fun a h => hk (by simp only [PCall.init.injEq] at h; exact h.1)) l
    have suit : (s.elems.map PCall.suit).count (.init k i) = 0 := count_map_of_ne _ _ (by simp) _
    cases k <;>
    simp [initCalls, List.count_append, same, other, suit, parts, List.count_cons]
  · intro k i; simp [initCalls]
  · refine ⟨[.pool] ++ s.elems.map .suit ++ s.params.map (.init .param) ++ s.events.map (.init .event),
      [.engine] ++ s.elems.map (.init .elem) ++ s.stages.map (.init .stage) ++ s.daemons.map (.init .daemon), ?_, ?_, ?_⟩
    · simp [initCalls]
    · rintro k i (rfl | rfl) <;> simp
    · rintro k i (rfl | rfl | rfl) <;> simp

/-- A successful `destroy` destroys every registered part exactly once and initialises none; the parameters go last. -/
theorem C73_destroy (env : PEnv) (s : Pipe) (h : works (destroy env s).2 = true) :
    ∃ new, (destroy env s).1.calls = s.calls ++ new ∧
      (∀ k i, new.count (.destroy k i) = (parts s k).count i) ∧ (∀ k i, PCall.init k i ∉ new) ∧
      (∃ a b, new = a ++ b ∧ (∀ i, PCall.destroy .param i ∉ a) ∧ ∀ k i, k ≠ .param → PCall.destroy k i ∉ b) := by
  refine ⟨destroyCalls s, by rw [destroy_exact h], ?_, ?_, ?_⟩
  · intro k i
    have same : ∀ k (l : List Nat), (l.map (PCall.destroy k)).count (.destroy k i) = l.count i :=
      fun k l => count_map_of_inj _ (fun a b h => by simpa using h) l i
    have other : ∀ k k' (l : List Nat), k ≠ k' → (l.map (PCall.destroy k)).count (.destroy k' i) = 0 :=
      fun k k' l hk => count_map_of_ne _ _ (fun a h => hk (by simp only [PCall.destroy.injEq] at h; exact h.1)) l
    cases k <;> simp [destroyCalls, List.count_append, same, other, parts]
  · intro k i; simp [destroyCalls]
  · refine ⟨s.events.map (.destroy .event) ++ s.daemons.map (.destroy .daemon) ++ s.elems.map (.destroy .elem) ++
      s.stages.map (.destroy .stage), s.params.map (.destroy .param), rfl, ?_, ?_⟩
    · intro i; simp
    · intro k i hk
      simp only [List.mem_map, PCall.destroy.injEq, not_exists, not_and]
      intro a _ h; exact absurd h.symm hk

example : works (init (failing []) sample).2 = true ∧ (init (failing []) sample).1.calls =
    [.pool, .suit 1, .suit 2, .init .param 1, .init .param 2, .init .event 1, .init .event 2, .engine, .init .elem 1,
     .init .elem 2, .init .stage 1, .init .stage 2, .init .daemon 1, .init .daemon 2] := by decide +kernel

example : let s := (init (failing []) sample).1
    works (destroy (failing []) s).2 = true ∧ (destroy (failing []) s).1.calls = s.calls ++
    [.destroy .event 1, .destroy .event 2, .destroy .daemon 1, .destroy .daemon 2, .destroy .elem 1, .destroy .elem 2,
     .destroy .stage 1, .destroy .stage 2, .destroy .param 1, .destroy .param 2] := by decide +kernel

/-- The code violates the pairing when `init` fails at a part: every stage and every daemon is initialised all the same (a
daemon's timer is then running), and no `destroy` can undo it: `destroy` is refused. -/
theorem C73_failed_init_violated (env : PEnv) (s s₁ : Pipe) (r₁ r : CStatus) (hi : s.isInit = false)
    (h₁ : initEnv env s = (s₁, .ret r₁)) (hr₁ : r₁.isErr = false)
    (h : (init env s).2 = .ret r) (hr : r.isErr = true) :
    (∃ new, (init env s).1.calls = s.calls ++ new ∧
      ∀ k i, k ≠ .elem → i ∈ parts s k → PCall.init k i ∈ new) ∧
    (∀ k i, PCall.destroy k i ∈ (init env s).1.calls → PCall.destroy k i ∈ s.calls) ∧
    destroy env (init env s).1 = ((init env s).1, refused) := by
  obtain ⟨t, ht⟩ : ∃ t, init env s = (t, .ret r) := ⟨_, Prod.ext rfl h⟩
  have hf : t.isInit = false := by
    rcases init_body env s hi with ⟨hf, _⟩ | ⟨s', q, _, he, hq⟩
    · rw [ht] at hf; rw [hf.isInit]; exact hi
    · rw [he] at h; simp only [Res.ret.injEq] at h; rw [h, hr] at hq; simp at hq
  rw [ht]
  have ht' := ht
  unfold init at ht
  simp only [hi, Bool.false_eq_true, if_false] at ht
  rw [h₁, plus_mk, checked_ok (show (CStatus.ok.add r₁).isErr = false by rw [CStatus.add_isErr, hr₁]; rfl)] at ht
  obtain rfl := initEnv_ret h₁ hr₁
  obtain ⟨s₂, r₂, h2, ht⟩ := plus_ret.mp ht
  obtain ⟨s₃, r₃, h3, ht⟩ := plus_ret.mp ht
  obtain ⟨s₄, r₄, h4, ht⟩ := plus_ret.mp ht
  obtain ⟨s₅, r₅, h5, ht⟩ := plus_ret.mp ht
  obtain ⟨s₆, r₆, h6, ht⟩ := plus_ret.mp ht
  obtain ⟨rfl, _⟩ := sumAll_ret h2
  obtain ⟨rfl, _⟩ := sumAll_ret h3
  have hu : ∀ (l : List Nat) st u, ∃ k, (untilErr env (.init .elem) l st u).1 =
      { u with calls := u.calls ++ (l.take k).map (.init .elem) } := by
    intro l
    induction l with
    | nil => intro st u; exact ⟨0, by simp [untilErr]⟩
    | cons i l ih =>
      intro st u
      simp only [untilErr, call]
      cases ha : env.answer u.calls (.init .elem i) with
      | throw m => exact ⟨1, by simp [andThen]⟩
      | ret q =>
        rw [andThen_mk, checked_eq]
        split
        · exact ⟨1, by simp⟩
        · obtain ⟨k, hk⟩ := ih (st.assign q) { u with calls := u.calls ++ [.init .elem i] }
          exact ⟨k + 1, by rw [hk]; simp⟩
  have hE : ∀ u, ∃ l, (∀ c ∈ l, c = .engine ∨ ∃ i, c = .init .elem i) ∧
      (elemInit env u).1 = { u with engineUp := true, calls := u.calls ++ l } := by
    intro u
    simp only [elemInit, call]
    cases ha : env.answer u.calls .engine with
    | throw m => exact ⟨[.engine], by simp, by simp [andThen]⟩
    | ret q =>
      rw [andThen_mk, checked_eq]
      split
      · exact ⟨[.engine], by simp, by simp⟩
      · obtain ⟨k, hk⟩ := hu u.elems q { u with engineUp := true, calls := u.calls ++ [.engine] }
        refine ⟨.engine :: (u.elems.take k).map (.init .elem), ?_, by rw [hk]; simp⟩
        intro c hc
        rcases List.mem_cons.mp hc with rfl | hc
        · exact .inl rfl
        · obtain ⟨i, _, rfl⟩ := List.mem_map.mp hc; exact .inr ⟨i, rfl⟩
  obtain ⟨l, hl, h4'⟩ := hE _
  rw [h4] at h4'
  simp only at h4'
  subst h4'
  obtain ⟨rfl, _⟩ := sumAll_ret h5
  obtain ⟨rfl, _⟩ := sumAll_ret h6
  rw [checked_eq] at ht
  have hcalls : t.calls = s.calls ++ ([.pool] ++ s.elems.map .suit ++ s.params.map (.init .param) ++
      s.events.map (.init .event) ++ l ++ s.stages.map (.init .stage) ++ s.daemons.map (.init .daemon)) := by
    split at ht
    · simp only [Prod.mk.injEq] at ht; rw [← ht.1]; simp
    · simp only [Prod.mk.injEq] at ht; rw [← ht.1]; simp
  refine ⟨⟨_, hcalls, ?_⟩, ?_, ?_⟩
  · intro k i hk hm
    cases k <;> simp_all [parts]
  · intro k i hm
    rw [hcalls] at hm
    simp only [List.mem_append, List.mem_cons, List.not_mem_nil, List.mem_map] at hm
    rcases hm with h | h
    · exact h
    · have := fun h => hl (.destroy k i) h
      simp_all
  · simp [destroy, hf]

example : let x := init (failing [.init .elem 1]) sample
    works x.2 = false ∧ x.1.calls.count (.init .elem 2) = 0 ∧ x.1.calls.count (.init .daemon 2) = 1 ∧
    works (initEnv (failing [.init .elem 1]) sample).2 = true := by decide +kernel

/-- A parameter created while the pipeline is initialised is destroyed although it never was initialised. -/
theorem C73_late_param_violated : ∃ (env : PEnv) (ops : List Op),
    (∀ h c, works (env.answer h c) = true) ∧
    PCall.destroy .param 9 ∈ (steps env new ops).calls ∧ PCall.init .param 9 ∉ (steps env new ops).calls :=
  ⟨failing [], [.register 1, .init, .addParam 9, .run, .destroy], by intro h c; rfl, by decide +kernel, by decide +kernel⟩

/-- Repeating a failed `destroy` destroys parts a second time. -/
theorem C73_repeated_destroy_violated : ∃ (env : PEnv) (ops : List Op),
    (steps env new ops).calls.count (.init .elem 1) = 1 ∧ (steps env new ops).calls.count (.destroy .elem 1) = 2 :=
  ⟨failing [.destroy .elem 2], [.register 1, .register 2, .init, .destroy, .destroy], by decide +kernel⟩

/-! ## C74 -/

/-- The pool, the engine and the flag of undefined behaviour are kept. -/
structure Keeps (s s' : Pipe) : Prop where
  poolUp : s'.poolUp = s.poolUp
  engineUp : s'.engineUp = s.engineUp
  ub : s'.ub = s.ub

theorem Keeps.refl (s : Pipe) : Keeps s s := ⟨rfl, rfl, rfl⟩

theorem Keeps.trans {a b c : Pipe} (h : Keeps a b) (g : Keeps b c) : Keeps a c :=
  ⟨g.poolUp.trans h.poolUp, g.engineUp.trans h.engineUp, g.ub.trans h.ub⟩

theorem call_keeps (env : PEnv) (s : Pipe) (c : PCall) : Keeps s (call env s c).1 := ⟨rfl, rfl, rfl⟩

theorem sumAll_keeps (env : PEnv) (c : Nat → PCall) (l : List Nat) (st : CStatus) (s : Pipe) :
    Keeps s (sumAll env c l st s).1 := by
  induction l generalizing st s with
  | nil => exact Keeps.refl s
  | cons i l ih => exact andThen_keep (Keeps s) (call_keeps env s (c i)) (fun s' r h => h.trans (ih _ s'))

theorem untilErr_keeps (env : PEnv) (c : Nat → PCall) (l : List Nat) (st : CStatus) (s : Pipe) :
    Keeps s (untilErr env c l st s).1 := by
  induction l generalizing st s with
  | nil => exact Keeps.refl s
  | cons i l ih =>
    exact andThen_keep (Keeps s) (call_keeps env s (c i))
      (fun s' r h => checked_keep (Keeps s) h (h.trans (ih _ s')))

theorem each_keeps (env : PEnv) (c : Nat → PCall) (l : List Nat) (st : CStatus) (s : Pipe) :
    Keeps s (each env c l st s).1 := by
  induction l generalizing st s with
  | nil => exact Keeps.refl s
  | cons i l ih => exact andThen_keep (Keeps s) (call_keeps env s (c i)) (fun s' r h => h.trans (ih _ s'))

theorem init_ub (env : PEnv) (s : Pipe) : (init env s).1.ub = s.ub := by
  let P : Pipe → Prop := fun t => t.ub = s.ub
  have sum : ∀ c l st t, P t → P (sumAll env c l st t).1 := fun c l st t h => (sumAll_keeps env c l st t).ub.trans h
  have unt : ∀ c l st t, P t → P (untilErr env c l st t).1 := fun c l st t h => (untilErr_keeps env c l st t).ub.trans h
  show P (init env s).1
  unfold init
  split
  · rfl
  · refine plus_keep P ?_ fun t st h => checked_keep P h ?_
    · unfold initEnv
      refine andThen_keep P ?_ fun t r h => checked_keep P h (andThen_keep P ?_ fun t r h => h)
      · unfold scheduleInit
        exact andThen_keep P rfl fun t r h => checked_keep P h h
      · unfold repoInit
        exact andThen_keep P (unt _ _ _ _ h) fun t r h => checked_keep P h h
    · refine plus_keep P (sum _ _ _ _ h) fun t st h => ?_
      refine plus_keep P (sum _ _ _ _ h) fun t st h => ?_
      refine plus_keep P ?_ fun t st h => ?_
      · unfold elemInit
        exact andThen_keep P h fun t r h => checked_keep P h (unt _ _ _ _ h)
      · refine plus_keep P (sum _ _ _ _ h) fun t st h => ?_
        refine plus_keep P (sum _ _ _ _ h) fun t st h => ?_
        exact checked_keep P h h

/-- The engine and its pool are there while the pipeline is initialised, and nothing undefined has happened. -/
structure Ready (s : Pipe) : Prop where
  ub : s.ub = false
  engine : s.isInit = true → s.engineUp = true
  pool : s.isInit = true → s.unique = true → s.poolUp = true

theorem Ready.of_keeps {s t : Pipe} (h : Ready s) (f : Frame s t) (k : Keeps s t) : Ready t :=
  ⟨k.ub.trans h.ub, fun hi => k.engineUp.trans (h.engine (f.isInit ▸ hi)),
    fun hi hu => k.poolUp.trans (h.pool (f.isInit ▸ hi) (f.unique ▸ hu))⟩

theorem run_ready (env : PEnv) (s : Pipe) (h : Ready s) : Ready (run env s).1 := by
  cases hi : s.isInit with
  | false => simpa [run, hi] using h
  | true =>
    refine h.of_keeps (run_frame env s) ?_
    have e1 := h.engine hi
    have e2 := h.pool hi
    unfold run
    simp only [hi, Bool.not_true, Bool.false_eq_true, if_false]
    let P : Pipe → Prop := fun t => Keeps s t ∧ t.unique = s.unique
    refine (?_ : P _).1
    have fr : ∀ {t u : Pipe}, P t → Keeps t u → u.unique = t.unique → P u :=
      fun h k f => ⟨h.1.trans k, f.trans h.2⟩
    have h0 : P (s.push .normal) := ⟨⟨rfl, rfl, rfl⟩, rfl⟩
    refine plus_keep P (fr h0 (sumAll_keeps _ _ _ _ _) (sumAll_frame _ _ _ _ _).unique) fun t st h => ?_
    refine checked_keep P h ?_
    refine andThen_keep P ?_ fun t r h => ?_
    · refine ⟨⟨h.1.poolUp, h.1.engineUp, ?_⟩, h.2⟩
      show (t.ub || !t.engineUp || (t.unique && !t.poolUp)) = s.ub
      rw [h.1.ub, h.1.engineUp, h.2, h.1.poolUp, e1]
      cases hu : s.unique with
      | false => simp
      | true => simp [e2 hu]
    · refine plus_keep P (fr h (call_keeps _ _ _) rfl) fun t st h => ?_
      refine andThen_keep P (fr h (each_keeps _ _ _ _ _) (each_frame _ _ _ _ _).unique) fun t st h => ?_
      exact fr h (each_keeps _ _ _ _ _) (each_frame _ _ _ _ _).unique

/-- No part fails to be destroyed. -/
def DestroyWorks (env : PEnv) : Prop := ∀ h k i, works (env.answer h (.destroy k i)) = true

theorem sumAll_works {env : PEnv} (c : Nat → PCall) (g : ∀ h i, works (env.answer h (c i)) = true) (l : List Nat)
    (st : CStatus) (s : Pipe) : ∃ s', sumAll env c l st s = (s', .ret st) := by
  induction l generalizing s with
  | nil => exact ⟨s, rfl⟩
  | cons i l ih =>
    obtain ⟨r, hr, he⟩ := works_iff.mp (g s.calls i)
    simp only [sumAll, call, hr, andThen, CStatus.add_not_err_right he]
    exact ih _

theorem untilErr_works {env : PEnv} (c : Nat → PCall) (g : ∀ h i, works (env.answer h (c i)) = true) (l : List Nat)
    (st : CStatus) (s : Pipe) (h : st.isErr = false) :
    ∃ s' r, untilErr env c l st s = (s', .ret r) ∧ r.isErr = false := by
  induction l generalizing s st with
  | nil => exact ⟨s, st, rfl, h⟩
  | cons i l ih =>
    obtain ⟨r, hr, he⟩ := works_iff.mp (g s.calls i)
    have ha : (st.assign r).isErr = false := by rw [assign_isErr]; exact he
    simp only [untilErr, call, hr, andThen, checked_ok ha]
    exact ih _ _ ha

theorem destroy_works {env : PEnv} (g : DestroyWorks env) (s : Pipe) (hi : s.isInit = true) :
    works (destroy env s).2 = true := by
  have ok := CStatus.ok_isErr
  have hadd : CStatus.ok.add CStatus.ok = CStatus.ok := rfl
  obtain ⟨s₁, h1⟩ := sumAll_works (.destroy .event) (fun h i => g h _ i) s.events CStatus.ok
    { s.push .normal with poolUp := false }
  obtain ⟨s₂, h2⟩ := sumAll_works (.destroy .daemon) (fun h i => g h _ i) s₁.daemons CStatus.ok s₁
  obtain ⟨s₃, r₃, h3, e3⟩ := untilErr_works (.destroy .elem) (fun h i => g h _ i) s₂.elems CStatus.ok s₂ ok
  have h3' : elemDestroy env s₂ = ({ s₃ with engineUp := false }, .ret r₃) := by
    simp only [elemDestroy, h3, andThen, checked_ok e3]
  obtain ⟨s₄, h4⟩ := sumAll_works (.destroy .stage) (fun h i => g h _ i) s₃.stages CStatus.ok { s₃ with engineUp := false }
  obtain ⟨s₅, h5⟩ := sumAll_works (.destroy .param) (fun h i => g h _ i) s₄.params CStatus.ok s₄
  unfold destroy
  rw [if_neg (by simp [hi]), h1]
  simp only [plus_mk, hadd, h2, h3',
    CStatus.add_not_err_right e3, h4, h5, checked_ok ok]
  rfl

theorem destroy_ready {env : PEnv} (g : DestroyWorks env) (s : Pipe) (h : Ready s) : Ready (destroy env s).1 := by
  cases hi : s.isInit with
  | false => simpa [destroy, hi] using h
  | true =>
    rw [destroy_exact (destroy_works g s hi)]
    exact ⟨h.ub, by simp, by simp⟩

theorem init_ready (env : PEnv) (s : Pipe) (h : Ready s) : Ready (init env s).1 := by
  cases hw : works (init env s).2 with
  | true =>
    rw [init_exact hw]
    exact ⟨h.ub, fun _ => rfl, fun _ hu => hu⟩
  | false =>
    cases hi : s.isInit with
    | true => simpa [init, hi] using h
    | false =>
      rcases init_body env s hi with ⟨hf, _⟩ | ⟨s', r, _, he, hr⟩
      · refine ⟨(init_ub env s).trans h.ub, ?_, ?_⟩ <;> (rw [hf.isInit, hi]; simp)
      · rw [he] at hw; simp [works, hr] at hw

theorem loop_ready (env : PEnv) (n : Nat) (st : CStatus) (s : Pipe) (h : Ready s) : Ready (loop env n st s).1 := by
  induction n generalizing st s with
  | zero => exact h
  | succ n ih =>
    unfold loop
    split
    · exact plus_keep Ready (run_ready env s h) fun t st h => ih _ _ h
    · exact h

theorem step_ready {env : PEnv} (g : DestroyWorks env) (s : Pipe) (op : Op) (h : Ready s) :
    Ready (step env s op).1 := by
  have free : ∀ {t : Pipe}, t.ub = false → t.isInit = false → Ready t :=
    fun h1 h2 => ⟨h1, by rw [h2]; simp, by rw [h2]; simp⟩
  cases op with
  | init => exact init_ready env s h
  | run => exact run_ready env s h
  | destroy => exact destroy_ready g s h
  | process n =>
    refine andThen_keep Ready (init_ready env s h) fun t st h => ?_
    refine checked_keep Ready h ?_
    refine andThen_keep Ready (loop_ready env n _ _ h) fun t st h => ?_
    exact plus_keep Ready (destroy_ready g t h) fun t st h => h
  | control st => simp only [step]; split <;> exact ⟨h.ub, h.engine, h.pool⟩
  | register e =>
    simp only [step, register]
    split
    · exact h
    · rename_i hi
      simp only [Bool.not_eq_true] at hi
      split
      · exact h
      · have P0 : (fun t : Pipe => t.ub = false ∧ t.isInit = false) (call env s (.info e)).1 := ⟨h.ub, hi⟩
        have := andThen_keep (fun t : Pipe => t.ub = false ∧ t.isInit = false) (x := call env s (.info e)) (f := fun s r =>
          checked s r fun s => ({ s with elems := s.elems ++ [e] }, .ret r)) P0
          (fun t r h => checked_keep (fun t : Pipe => t.ub = false ∧ t.isInit = false) h h)
        exact free this.1 this.2
  | addEvent i =>
    simp only [step]
    split
    · exact h
    · split <;> exact ⟨h.ub, h.engine, h.pool⟩
  | addStage i => simp only [step]; split <;> exact ⟨h.ub, h.engine, h.pool⟩
  | addDaemon i => simp only [step]; split <;> exact ⟨h.ub, h.engine, h.pool⟩
  | addParam i => exact ⟨h.ub, h.engine, h.pool⟩
  | setShared on =>
    simp only [step]
    split
    · exact h
    · rename_i hi
      exact free h.ub (by simpa using hi)

/-- Whatever is called in whatever order, and whatever fails or throws - except `destroy` of a part - an engine is only run
when it exists and its pool is alive.  Partial: see `C74_after_failed_destroy_violated`. -/
theorem C74_safe_partial (env : PEnv) (g : DestroyWorks env) (ops : List Op) : (steps env new ops).ub = false := by
  have : ∀ s, Ready s → Ready (steps env s ops) := by
    induction ops with
    | nil => exact fun s h => h
    | cons op ops ih => exact fun s h => ih _ (step_ready g s op h)
  exact (this new ⟨rfl, by simp [new], by simp [new]⟩).ub

/-- After any failed `destroy` of a pipeline with its own pool the pipeline still accepts `run`, and a run whose `setup`
calls work uses the deleted pool. -/
theorem C74_after_failed_destroy_violated (env : PEnv) (s : Pipe) (hi : s.isInit = true) (hu : s.unique = true)
    (hd : works (destroy env s).2 = false)
    (hs : ∀ a ∈ answers env (destroy env s).1.calls ((destroy env s).1.params.map .setup), works a = true) :
    (run env (destroy env s).1).1.ub = true := by
  rcases destroy_body env s hi with ⟨hf, _⟩ | ⟨s', r, _, he, hr⟩
  rotate_left
  · rw [he] at hd; simp [works, hr] at hd
  have hp : (destroy env s).1.poolUp = false := by
    unfold destroy
    simp only [hi, Bool.not_true, Bool.false_eq_true, if_false]
    let P : Pipe → Prop := fun t => t.poolUp = false
    have sum : ∀ c l st t, P t → P (sumAll env c l st t).1 := fun c l st t h => (sumAll_keeps env c l st t).poolUp.trans h
    refine plus_keep P (sum _ _ _ _ rfl) fun t st h => ?_
    refine plus_keep P (sum _ _ _ _ h) fun t st h => ?_
    refine plus_keep P ?_ fun t st h => ?_
    · unfold elemDestroy
      exact andThen_keep P ((untilErr_keeps _ _ _ _ _).poolUp.trans h) fun t r h => checked_keep P h h
    · refine plus_keep P (sum _ _ _ _ h) fun t st h => ?_
      refine plus_keep P (sum _ _ _ _ h) fun t st h => ?_
      exact checked_keep P h h
  have hi' : (destroy env s).1.isInit = true := hf.isInit.trans hi
  have hu' : (destroy env s).1.unique = true := hf.unique.trans hu
  generalize (destroy env s).1 = t at hs hp hi' hu'
  obtain ⟨q, h1, h2⟩ := sumAll_answers env .setup t.params CStatus.ok (t.push .normal)
    (fun a ha => (works_iff.mp (hs a ha)).imp fun _ h => h.1)
  have hq : q.isErr = false := by
    cases hq : q.isErr with
    | false => rfl
    | true =>
      rcases h2.mp hq with h | ⟨a, ha, hw⟩
      · simp at h
      · rw [hs a ha] at hw; simp at hw
  unfold run
  simp only [hi', Bool.not_true, Bool.false_eq_true, if_false, h1]
  rw [plus_mk, checked_ok (show (CStatus.ok.add q).isErr = false by rw [CStatus.add_isErr, hq]; rfl)]
  let P : Pipe → Prop := fun t => t.ub = true
  refine andThen_keep P ?_ fun t r h => ?_
  · show (_ || !_ || (t.unique && !t.poolUp)) = true
    rw [hu', hp]; simp
  · refine plus_keep P h fun t st h => ?_
    refine andThen_keep P ((each_keeps _ _ _ _ _).ub.trans h) fun t st h => ?_
    exact (each_keeps _ _ _ _ _).ub.trans h

/-- One event that cannot be destroyed is enough. -/
example : let env := failing [.destroy .event 1]
    let s := steps env new [.register 1, .addEvent 1, .init, .run, .destroy]
    s.isInit = true ∧ s.ub = false ∧ (run env s).1.ub = true := by decide +kernel

end CGraph.Pipe
