import Verif.Lemmas.ParamConc

/-! # C111 — parameters created, fetched and removed by many threads -/
namespace CGraph.ParamConc
open Spec PmSt

set_option maxHeartbeats 1000000

/-- **C111 (at once)** After any schedule there is an order of the calls of all threads in which each took effect at once on a typed
store; the calls of a thread are in the order in which it made them, each took effect after it began and before it returned,
and it returned what this order says. -/
theorem C111_atomic (l : List PmAct) :
    TsHist [] (run l).hist (run l).abs ∧
    ∀ t, ∃ x y, (run l).log.filter (fun e => e.1 = t) = (run l).rets.filter (fun e => e.1 = t) ++ x ∧
      ((run l).calls.filter (fun e => e.1 = t)).map Prod.snd =
        ((run l).log.filter (fun e => e.1 = t)).map (fun e => e.2.1) ++ y ∧
      x.length + y.length = if (run l).pc t = .idle then 0 else 1 := by
  have h := (inv_run l).1
  refine ⟨h.hist, fun t => ⟨_, _, h.pend t, h.calls t, ?_⟩⟩
  cases (run l).pc t <;> simp [pend, PmPc.open]

/-! ### what was created is found -/

theorem hist_split {a b : List (Nat × TsCall × TsRes)} {m m'' : List (String × Nat × Nat)} (h : TsHist m (a ++ b) m'') :
    ∃ m', TsHist m a m' ∧ TsHist m' b m'' := by
  generalize hz : a ++ b = z at h
  induction h generalizing b with
  | nil =>
    obtain ⟨rfl, rfl⟩ := List.append_eq_nil_iff.1 hz
    exact ⟨m, .nil, .nil⟩
  | @snoc m1 m2 h t c r a' s ih =>
    rcases List.eq_nil_or_concat b with rfl | ⟨b', x, rfl⟩
    · rw [List.append_nil] at hz
      exact ⟨m2, hz ▸ .snoc t a' s, .nil⟩
    · rw [List.concat_eq_append, ← List.append_assoc] at hz
      obtain ⟨h1, h2⟩ := List.append_inj' hz rfl
      obtain ⟨m', h3, h4⟩ := ih h1
      simp only [List.cons.injEq, and_true] at h2
      rw [List.concat_eq_append, h2]
      exact ⟨m', h3, .snoc t h4 s⟩

theorem hist_nil {m m' : List (String × Nat × Nat)} (h : TsHist m [] m') : m' = m := by
  generalize hz : ([] : List (Nat × TsCall × TsRes)) = z at h
  cases h with
  | nil => rfl
  | snoc t a b => exact absurd hz (by simp)

theorem hist_one {x : Nat × TsCall × TsRes} {m m' : List (String × Nat × Nat)} (h : TsHist m [x] m') :
    TsStep m x.2.1 x.2.2 m' := by
  generalize hz : [x] = z at h
  cases h with
  | nil => exact absurd hz (by simp)
  | snoc t a b =>
    rw [show [x] = [] ++ [x] from rfl] at hz
    obtain ⟨h1, h2⟩ := List.append_inj' hz rfl
    subst h1
    simp only [List.cons.injEq, and_true] at h2
    subst h2
    rw [← hist_nil a]; exact b

/-- A key stands for one object. -/
def Uniq (m : List (String × Nat × Nat)) : Prop := ∀ k ty p ty' p', TsHas m k ty p → TsHas m k ty' p' → ty = ty' ∧ p = p'

theorem step_uniq {m m' : List (String × Nat × Nat)} {c r} (b : TsStep m c r m') (ih : Uniq m) : Uniq m' := by
  intro k ty p ty' p' h1 h2
  unfold TsStep at b
  split at b
  · rcases b with ⟨rfl, -⟩ | ⟨hf, q, hq, rfl⟩
    · exact ih _ _ _ _ _ h1 h2
    · simp only [TsHas, List.mem_append, List.mem_singleton, Prod.mk.injEq] at h1 h2
      rcases h1 with h1 | ⟨rfl, rfl, rfl⟩ <;> rcases h2 with h2 | ⟨h3, rfl, rfl⟩
      · exact ih _ _ _ _ _ h1 h2
      · subst h3; exact absurd h1 (hf _ _)
      · exact absurd h2 (hf _ _)
      · exact ⟨rfl, rfl⟩
  · rw [b.1] at h1 h2; exact ih _ _ _ _ _ h1 h2
  · rw [b.2] at h1 h2
    exact ih _ _ _ _ _ (List.mem_filter.1 h1).1 (List.mem_filter.1 h2).1
  · rw [b.2] at h1 h2; exact ih _ _ _ _ _ h1 h2
  · rw [b.1] at h1 h2; exact ih _ _ _ _ _ h1 h2
  · rw [b] at h1; simp [TsHas] at h1
  · rw [b.1] at h1 h2; exact ih _ _ _ _ _ h1 h2
  · rw [b.1] at h1 h2; exact ih _ _ _ _ _ h1 h2
  · exact absurd b id

theorem hist_uniq {h m m'} (hh : TsHist m h m') (hu : Uniq m) : Uniq m' := by
  induction hh with
  | nil => exact hu
  | snoc t a b ih => exact step_uniq b ih

theorem step_stays {m m' : List (String × Nat × Nat)} {c r key ty p} (b : TsStep m c r m') (hc : c.takes key = false)
    (h : TsHas m key ty p) : TsHas m' key ty p := by
  unfold TsStep at b
  split at b
  · rcases b with ⟨rfl, -⟩ | ⟨hf, q, hq, rfl⟩
    · exact h
    · exact List.mem_append_left _ h
  · rw [b.1]; exact h
  · rw [b.2]
    refine List.mem_filter.2 ⟨h, ?_⟩
    simp only [TsCall.takes, beq_eq_false_iff_ne] at hc
    simpa using Ne.symm hc
  · rw [b.2]; exact h
  · rw [b.1]; exact h
  · simp [TsCall.takes] at hc
  · rw [b.1]; exact h
  · rw [b.1]; exact h
  · exact absurd b id

/-- An entry stays until its key is taken away. -/
theorem hist_stays {h m m' key ty p} (hh : TsHist m h m') (ht : ∀ e ∈ h, e.2.1.takes key = false)
    (hp : TsHas m key ty p) : TsHas m' key ty p := by
  induction hh with
  | nil => exact hp
  | snoc t a b ih => exact step_stays b (ht _ (List.mem_append_right _ (List.mem_singleton.2 rfl))) (ih fun e he => ht e (by simp [he]))

theorem look_is {m m' : List (String × Nat × Nat)} {ty key r p} (hu : Uniq m) (h : TsStep m (.look ty key) r m')
    (hp : TsHas m key ty p) : r = .obj (some p) := by
  unfold TsStep at h
  split at h
  case h_7 hh => cases hh; rw [(hu _ _ _ _ _ h.2 hp).2]
  case h_8 hh => cases hh; exact absurd hp (h.2 p)
  all_goals first | contradiction | exact absurd h id

theorem made {m m' : List (String × Nat × Nat)} {ty key} (h : TsStep m (.make ty key) (.done true) m') :
    ∃ p, TsHas m' key ty p := by
  rcases h with ⟨rfl, h⟩ | ⟨-, p, -, rfl⟩
  · exact h
  · exact ⟨p, by simp [TsHas]⟩

/-- **C111 (found)** After a `create` that returned OK, and as long as no call takes the key away, every `getGParam` of this key
and type returns an object, and all of them the same one. -/
theorem C111_found (l : List PmAct) (a b c : List (Nat × PmCall × PmRes)) (t : Nat) (key : String) (ty : Nat) (bt : Bool)
    (hl : (run l).log = a ++ [(t, .create ty key bt, .done true)] ++ b ++ c)
    (hb : ∀ e ∈ b, e.2.1 ≠ .remove key ∧ e.2.1 ≠ .clear) :
    ∃ p, ∀ u n r, (u, PmCall.get n ty key, r) ∈ b → r = .ptr (some p) := by
  have h := (inv_run l).1.hist
  rw [PmSt.hist, hl] at h
  simp only [List.map_append, List.map_cons, List.map_nil] at h
  obtain ⟨m3, h, -⟩ := hist_split h
  obtain ⟨m2, h, hB⟩ := hist_split h
  obtain ⟨m1, hA, hC⟩ := hist_split h
  have hu2 : Uniq m2 := step_uniq (hist_one hC) (hist_uniq hA (by intro k ty p ty' p' h; simp [TsHas] at h))
  obtain ⟨p, hp⟩ := made (hist_one hC)
  refine ⟨p, fun u n r hm => ?_⟩
  obtain ⟨b1, b2, rfl⟩ := List.append_of_mem hm
  have hB' : TsHist m2 (b1.map (fun e => (e.1, e.2.1.spec, e.2.2.spec)) ++ ([(u, TsCall.look ty key, r.spec)] ++
      b2.map (fun e => (e.1, e.2.1.spec, e.2.2.spec)))) m3 := by simpa [PmCall.spec] using hB
  obtain ⟨m4, h4, h5⟩ := hist_split hB'
  obtain ⟨m5, h5, -⟩ := hist_split h5
  have hno : ∀ e ∈ b1.map (fun e : Nat × PmCall × PmRes => (e.1, e.2.1.spec, e.2.2.spec)), e.2.1.takes key = false := by
    intro e he
    obtain ⟨⟨v, c', r'⟩, hx, rfl⟩ := List.mem_map.1 he
    have := hb (v, c', r') (by simp [hx])
    cases c' <;> simp_all [PmCall.spec, TsCall.takes]
  have hr := look_is (hist_uniq h4 hu2) (hist_one h5) (hist_stays h4 hno hp)
  cases r <;> simp_all [PmRes.spec]

/-- The `create` of thread 0, then the `getGParam` of threads 1 and 2 interleaved: the hypotheses of `C111_found` are met. -/
example : (run ([.call 0 (.create 7 "a" true), .go 0, .go 0, .go 0, .go 0, .call 1 (.get "n1" 7 "a"), .go 1,
      .call 2 (.get "n2" 7 "a"), .go 2, .go 1, .go 2])).log =
    [] ++ [(0, .create 7 "a" true, .done true)] ++ [(1, .get "n1" 7 "a", .ptr (some 0)), (2, .get "n2" 7 "a", .ptr (some 0))] ++ [] := by
  decide

/-! ### freed objects -/

/-- In `getGParam`. -/
def PmPc.getting : PmPc → Bool
  | .find (.get ..) => true
  | .gType .. => true
  | .gFlag .. => true
  | .gSpin .. => true
  | .gAdd .. => true
  | .gFree .. => true
  | _ => false

/-- Deleting objects, in `removeByKey` or `clear`. -/
def PmPc.deleting : PmPc → Bool
  | .del .. => true
  | .erase .. => true
  | .wipe .. => true
  | _ => false

/-- **C111 (freed)** A `getGParam` of a key that another thread removes at the same time accesses the object after it was freed:
`get` takes no lock (GParamManager.inl:39-54). -/
theorem C111_freed_violated : ∃ l : List PmAct, (run l).bad = true ∧
    (run l).calls = [(0, .create 7 "a" false), (1, .get "n" 7 "a"), (0, .remove "a")] :=
  ⟨[.call 0 (.create 7 "a" false), .go 0, .go 0, .go 0, .go 0, .go 0, .call 1 (.get "n" 7 "a"), .go 1,
    .call 0 (.remove "a"), .go 0, .go 0, .go 0, .go 1], by decide, by decide⟩

theorem run_snoc (l : List PmAct) (a : PmAct) : run (l ++ [a]) = step (run l) a := by simp [run]

theorem touch_bad {s s' : PmSt} {p : Nat} (hp : s.live p = true) : s.touch p s' = s' := by simp [PmSt.touch, hp]

theorem find_bad (s : PmSt) (t : Nat) (c : PmCall) : (s.findStep t c).bad = s.bad := by
  cases c <;> simp only [findStep] <;> first | rfl | (split <;> rfl)

/-- **C111 (only get)** Only a `getGParam` ever accesses a freed object; `create`, `removeByKey`, `getKeys`, `clear` do not. -/
theorem C111_only_get (l : List PmAct) (a : PmAct) (h0 : (run l).bad = false) (h1 : (step (run l) a).bad = true) :
    ∃ t, a = .go t ∧ ((run l).pc t).getting = true := by
  have inv := (inv_run l).1
  generalize run l = s at *
  unfold step at h1
  simp only [h0, Bool.false_eq_true, if_false] at h1
  cases a with
  | call t c =>
    simp only at h1
    split at h1
    · simp [setPc, h0] at h1
    · simp [h0] at h1
  | go t =>
    refine ⟨t, rfl, ?_⟩
    have hpos := inv.pos t
    simp only [go] at h1
    split at h1 <;> rename_i hp <;> rw [hp] at hpos ⊢ <;> try rfl
    all_goals try (simp [h0, setPc, PmSt.leave, effect, PmSt.ret] at h1; done)
    · split at h1 <;> simp [setPc, h0] at h1
    · rw [find_bad, h0] at h1; simp at h1
    · rw [touch_bad hpos.2] at h1; simp [PmSt.leave, effect, setPc, h0] at h1

/-- **C111 (freed once)** An object that `removeByKey` or `clear` is about to delete has not been deleted before. -/
theorem C111_freed_once (l : List PmAct) (t p : Nat) (h : ((run l).pc t).acc = .free p) : (run l).live p = true := by
  have inv := (inv_run l).1
  generalize run l = s at *
  have hpos := inv.pos t
  cases hp : s.pc t with
  | del k q =>
    rw [hp] at h hpos
    cases h
    exact inv.all (t := t) (by rw [hp]; rfl) (fun p => by rw [hp]; rfl) (k, p) ((lookup_some inv.keys).1 hpos)
  | wipe ps =>
    rw [hp] at h hpos
    cases ps with
    | nil => simp [PmPc.acc] at h
    | cons q ps =>
      simp only [PmPc.acc, Acc.free.injEq] at h
      subst h
      obtain ⟨k, hk⟩ := hpos.1 q (by simp)
      rcases inv.alive _ hk with h1 | ⟨u, h1⟩
      · exact h1
      · have := inv.killer (t := t) (by rw [hp]; rfl) h1
        subst this
        rw [hp] at h1; simp [PmPc.kills] at h1
  | _ => rw [hp] at h; simp [PmPc.acc] at h

/-- The object that a `getGParam` has found. -/
def PmPc.holds : PmPc → Option Nat
  | .gType _ _ _ p => some p
  | .gFlag _ _ _ p => some p
  | .gSpin _ _ _ p => some p
  | .gAdd _ _ _ p => some p
  | .gFree _ _ _ p => some p
  | _ => none

theorem holds_getting {q : PmPc} {p : Nat} (h : q.holds = some p) : q.getting = true := by
  cases q <;> first | rfl | simp [PmPc.holds] at h

/-- Nothing is freed under a `getGParam`. -/
def Held (s : PmSt) : Prop := s.bad = false ∧ ∀ t p, (s.pc t).holds = some p → s.live p = true

theorem held_upd {s s' : PmSt} (h : Held s) (t : Nat) (q : PmPc) (hpc : s'.pc = fun k => if k = t then q else s.pc k)
    (hb : s'.bad = s.bad) (hl : ∀ p, s.live p = true → s'.live p = true) (hq : ∀ p, q.holds = some p → s'.live p = true) : Held s' := by
  refine ⟨hb.trans h.1, fun u p hp => ?_⟩
  rw [hpc] at hp
  by_cases hu : u = t
  · simp only [hu, if_true] at hp; exact hq p hp
  · simp only [hu, if_false] at hp; exact hl p (h.2 u p hp)

theorem held_find {s : PmSt} (inv : Inv s) (h : Held s) (hno : ∀ t u, ¬ ((s.pc t).getting = true ∧ (s.pc u).deleting = true))
    (t : Nat) (c : PmCall) (hp : s.pc t = .find c) : Held (s.findStep t c) := by
  cases c <;> simp only [findStep]
  case get n ty k =>
    split
    · rename_i p hl
      refine held_upd h t _ rfl rfl (fun p h => h) (fun q hq => ?_)
      cases hq
      rcases inv.alive _ ((lookup_some inv.keys).1 hl) with h1 | ⟨u, h1⟩
      · exact h1
      · refine absurd ⟨?_, ?_⟩ (hno t u)
        · rw [hp]; rfl
        · cases hu : s.pc u <;> rw [hu] at h1 <;> first | rfl | simp [PmPc.kills] at h1
    · exact held_upd h t _ rfl rfl (fun p h => h) (fun q hq => by simp [PmPc.holds] at hq)
  all_goals
    first
    | exact held_upd h t _ rfl rfl (fun p h => h) (fun q hq => by simp [PmPc.holds] at hq)
    | (split <;> exact held_upd h t _ rfl rfl (fun p h => h) (fun q hq => by simp [PmPc.holds] at hq))

theorem held_free {s s' : PmSt} (h : Held s) (hno : ∀ t u, ¬ ((s.pc t).getting = true ∧ (s.pc u).deleting = true))
    (t : Nat) (hd : (s.pc t).deleting = true) (q : PmPc) (hq : q.holds = none)
    (hpc : s'.pc = fun k => if k = t then q else s.pc k) (hb : s'.bad = s.bad) : Held s' := by
  refine ⟨hb.trans h.1, fun u p hp => ?_⟩
  rw [hpc] at hp
  by_cases hu : u = t
  · simp [hu, hq] at hp
  · simp only [hu, if_false] at hp
    exact absurd ⟨holds_getting hp, hd⟩ (hno u t)

theorem held_go {s : PmSt} (inv : Inv s) (h : Held s) (hno : ∀ t u, ¬ ((s.pc t).getting = true ∧ (s.pc u).deleting = true))
    (t : Nat) : Held (s.go t) := by
  have hpos := inv.pos t
  have hh := h.2 t
  unfold go
  split
  · exact h
  · split
    · exact held_upd h t _ rfl rfl (fun p h => h) (fun q hq => by simp [PmPc.holds] at hq)
    · exact h
  · exact held_find inv h hno t _ (by assumption)
  · rename_i hp
    rw [hp] at hpos
    rw [touch_bad hpos.2]
    exact held_upd h t _ rfl rfl (fun p h => h) (fun q hq => by simp [PmPc.holds] at hq)
  · refine held_upd h t _ rfl rfl (fun p h => ?_) (fun q hq => by simp [PmPc.holds] at hq)
    simp only
    split
    · rfl
    · exact h
  · exact held_upd h t _ rfl rfl (fun p h => h) (fun q hq => by simp [PmPc.holds] at hq)
  · rename_i hp; exact held_free h hno t (by rw [hp]; rfl) _ rfl rfl rfl
  · rename_i hp; exact held_free h hno t (by rw [hp]; rfl) _ rfl rfl rfl
  · rename_i hp; exact held_free h hno t (by rw [hp]; rfl) _ rfl rfl rfl
  · rename_i hp; exact held_free h hno t (by rw [hp]; rfl) _ rfl rfl rfl
  · exact held_upd h t _ rfl rfl (fun p h => h) (fun q hq => by simp [PmPc.holds] at hq)
  · rename_i hp
    rw [hp] at hh
    rw [touch_bad (hh _ rfl)]
    split
    · exact held_upd h t _ rfl rfl (fun p h => h) (fun q hq => hh q hq)
    · exact held_upd h t _ rfl rfl (fun p h => h) (fun q hq => by simp [PmPc.holds] at hq)
  · rename_i hp
    rw [hp] at hh
    rw [touch_bad (hh _ rfl)]
    split
    · exact held_upd h t _ rfl rfl (fun p h => h) (fun q hq => hh q hq)
    · exact held_upd h t _ rfl rfl (fun p h => h) (fun q hq => by simp [PmPc.holds] at hq)
  · rename_i hp
    rw [hp] at hh
    rw [touch_bad (hh _ rfl)]
    split
    · exact held_upd h t _ rfl rfl (fun p h => h) (fun q hq => hh q hq)
    · exact h
  · rename_i hp
    rw [hp] at hh
    rw [touch_bad (hh _ rfl)]
    exact held_upd h t _ rfl rfl (fun p h => h) (fun q hq => hh q hq)
  · rename_i hp
    rw [hp] at hh
    rw [touch_bad (hh _ rfl)]
    exact held_upd h t _ rfl rfl (fun p h => h) (fun q hq => by simp [PmPc.holds] at hq)

/-- **C111 (safe)** What is missing for a schedule never to access a freed object: that no thread is inside `getGParam` while
another deletes objects in `removeByKey` or `clear`. -/
theorem C111_safe_partial (l : List PmAct)
    (hno : ∀ l' l'', l = l' ++ l'' → ∀ t u, ¬ (((run l').pc t).getting = true ∧ ((run l').pc u).deleting = true)) :
    (run l).bad = false := by
  suffices h : ∀ l' l'', l = l' ++ l'' → Held (run l') from (h l [] (by simp)).1
  intro l'
  induction hn : l'.length generalizing l' with
  | zero =>
    intro l'' _
    cases l' with
    | nil => exact ⟨rfl, fun t p h => by simp [run, init, PmPc.holds] at h⟩
    | cons => simp at hn
  | succ n ih =>
    intro l'' hl
    rcases List.eq_nil_or_concat l' with rfl | ⟨b, x, rfl⟩
    · simp at hn
    · rw [List.concat_eq_append] at hn hl ⊢
      have hl' : l = b ++ ([x] ++ l'') := by rw [hl]; simp
      have h := ih b (by simpa using hn) _ hl'
      have inv := (inv_run b).1
      have hno' := hno _ _ hl'
      rw [run_snoc]
      unfold step
      rw [h.1]
      cases x with
      | call t c =>
        simp only [Bool.false_eq_true, if_false]
        split
        · refine held_upd h t c.first rfl rfl (fun p h => h) (fun q hq => ?_)
          cases c <;> simp [PmCall.first, PmPc.holds] at hq
        · exact h
      | go t =>
        simp only [Bool.false_eq_true, if_false]
        exact held_go inv h hno' t

theorem calls_of (l : List PmAct) {t : Nat} {c : PmCall} (h : (t, c) ∈ (run l).calls) : PmAct.call t c ∈ l := by
  have hf : ∀ (s : PmSt) t c, (s.findStep t c).calls = s.calls := by
    intro s t c
    cases c <;> simp only [findStep] <;> first | rfl | (split <;> rfl)
  have hg : ∀ (s : PmSt) t, (s.go t).calls = s.calls := by
    intro s t
    unfold go
    split <;> try rfl
    · split <;> rfl
    · rw [hf]
    all_goals (unfold PmSt.touch; split <;> (try split) <;> rfl)
  have gen : ∀ (l : List PmAct) (s : PmSt), (t, c) ∈ (l.foldl step s).calls → (t, c) ∈ s.calls ∨ PmAct.call t c ∈ l := by
    intro l
    induction l with
    | nil => intro s h; exact .inl h
    | cons a l ih =>
      intro s h
      rcases ih _ h with h | h
      · unfold step at h
        split at h
        · exact .inl h
        · split at h
          · split at h
            · simp only [List.mem_append, List.mem_singleton, Prod.mk.injEq] at h
              rcases h with h | ⟨rfl, rfl⟩
              · exact .inl h
              · exact .inr (by simp)
            · exact .inl h
          · rw [hg] at h; exact .inl h
      · exact .inr (by simp [h])
  rcases gen l init h with h | h
  · simp [init] at h
  · exact h

/-- **C111 (no removal)** Threads that only create, get, and ask for keys never access a freed object. -/
theorem C111_noremoval_partial (l : List PmAct) (hr : ∀ t k, PmAct.call t (.remove k) ∉ l) (hc : ∀ t, PmAct.call t .clear ∉ l) :
    (run l).bad = false := by
  refine C111_safe_partial l fun l' l'' hl t u ⟨_, hu⟩ => ?_
  have inv := (inv_run l').1
  have hcl := inv.calls u
  have key : ∀ c, c ∈ ((run l').pc u).open → PmAct.call u c ∈ l := by
    intro c hcm
    have : c ∈ ((run l').calls.filter (fun e => e.1 = u)).map Prod.snd := by rw [hcl]; simp [hcm]
    obtain ⟨⟨v, c'⟩, h1, rfl⟩ := List.mem_map.1 this
    obtain ⟨h2, h3⟩ := List.mem_filter.1 h1
    have : v = u := by simpa using h3
    subst this
    rw [hl]
    exact List.mem_append_left _ (calls_of l' h2)
  cases hp : (run l').pc u with
  | del k p => exact hr u k (key _ (by rw [hp]; simp [PmPc.open]))
  | erase k => exact hr u k (key _ (by rw [hp]; simp [PmPc.open]))
  | wipe ps => exact hc u (key _ (by rw [hp]; simp [PmPc.open]))
  | _ => rw [hp] at hu; simp [PmPc.deleting] at hu

/-- Two creators and a `getGParam` interleaved: the hypotheses of `C111_noremoval_partial` (and so of `C111_safe_partial`) are met. -/
example : (run [.call 0 (.create 7 "a" true), .call 2 (.create 7 "a" true), .go 0, .go 2, .go 0, .go 0, .go 0, .call 1 (.get "n" 7 "a"), .go 1,
    .go 0, .go 2, .go 1, .go 2]).bad = false :=
  C111_noremoval_partial _ (by simp) (by simp)

/-- A removal about to free an object, and a `getGParam` about to touch a freed one. -/
example : ((run [.call 0 (.create 7 "a" false), .go 0, .go 0, .go 0, .go 0, .go 0, .call 0 (.remove "a"), .go 0, .go 0]).pc 0).acc = .free 0 ∧
    (run [.call 0 (.create 7 "a" false), .go 0, .go 0, .go 0, .go 0, .go 0, .call 1 (.get "n" 7 "a"), .go 1,
      .call 0 (.remove "a"), .go 0, .go 0, .go 0]).bad = false := by decide

/-! ### nothing is left behind -/

/-- An object that has not been freed is in the map or about to be inserted; what is about to go out of the map was freed. -/
def Kept (s : PmSt) : Prop := (∀ p, s.live p = true → (∃ k, (k, p) ∈ s.map) ∨ ∃ t ty k b, s.pc t = .insert ty k b p) ∧
  ∀ t, ∀ e ∈ s.map, (s.pc t).kills s.map e.2 = true → s.live e.2 = false

theorem kept_upd {s s' : PmSt} (inv : Inv s) (h : Kept s) (t : Nat) (q : PmPc)
    (hpc : s'.pc = fun k => if k = t then q else s.pc k)
    (hi : ∀ ty k b p, s.pc t = .insert ty k b p → (k, p) ∈ s'.map) (hm : ∀ e ∈ s.map, s'.live e.2 = true → e ∈ s'.map)
    (hl : ∀ p, s'.live p = true → s.live p = true ∨ ∃ ty k b, q = .insert ty k b p)
    (hst : (s.pc t).inside = false → s'.map = s.map ∧ s'.live = s.live)
    (hq : ∀ e ∈ s'.map, q.kills s'.map e.2 = true → s'.live e.2 = false) : Kept s' := by
  refine ⟨fun p hp => ?_, fun u e he hk => ?_⟩
  · rcases hl p hp with h1 | ⟨ty, k, b, rfl⟩
    · rcases h.1 p h1 with ⟨k, h2⟩ | ⟨u, ty, k, b, h2⟩
      · exact .inl ⟨k, hm _ h2 hp⟩
      · by_cases hu : u = t
        · exact .inl ⟨k, hi ty k b p (hu ▸ h2)⟩
        · exact .inr ⟨u, ty, k, b, by rw [hpc]; simp [hu, h2]⟩
    · exact .inr ⟨t, ty, k, b, by rw [hpc]; simp⟩
  · rw [hpc] at hk
    by_cases hu : u = t
    · simp only [hu, if_true] at hk; exact hq e he hk
    · simp only [hu, if_false] at hk
      have ho := (inv.own u).2 (kills_inside hk)
      have hn : (s.pc t).inside = false := by
        cases hi : (s.pc t).inside with
        | false => rfl
        | true =>
          have := (inv.own t).2 hi
          rw [ho] at this
          exact absurd (Option.some.inj this) hu
      obtain ⟨e1, e2⟩ := hst hn
      rw [e1] at hk he
      rw [e2]
      exact h.2 u e he hk

/-- A step that neither changes the map nor the objects. -/
theorem kept_move {s s' : PmSt} (inv : Inv s) (h : Kept s) (t : Nat) (q : PmPc)
    (hpc : s'.pc = fun k => if k = t then q else s.pc k)
    (hi : ∀ ty k b p, s.pc t ≠ .insert ty k b p) (hm : s'.map = s.map) (hl : s'.live = s.live)
    (hq : ∀ e ∈ s.map, q.kills s.map e.2 = true → s.live e.2 = false) : Kept s' :=
  kept_upd inv h t q hpc (fun ty k b p h' => absurd h' (hi ty k b p)) (fun e he _ => by rw [hm]; exact he)
    (fun p hp => .inl (by rw [← hl]; exact hp)) (fun _ => ⟨hm, hl⟩) (by rw [hm, hl]; exact hq)

theorem kept_touch {s s' : PmSt} (h : Kept s) (p : Nat) (h' : Kept s') : Kept (s.touch p s') := by
  unfold PmSt.touch
  split
  · exact h'
  · exact h

theorem kept_find {s : PmSt} (inv : Inv s) (h : Kept s) (t : Nat) (c : PmCall) (hp : s.pc t = .find c) : Kept (s.findStep t c) := by
  cases c <;> simp only [findStep] <;> (try split)
  all_goals
    refine kept_move inv h t _ rfl (fun ty k b p h' => by rw [hp] at h'; simp at h') rfl rfl (fun e he hk => ?_)
  all_goals first
    | (simp [PmPc.kills] at hk; done)
    | (exfalso; simp only [PmPc.kills, Bool.not_eq_true', List.contains_eq_mem, decide_eq_false_iff_not] at hk
       exact hk (List.mem_map_of_mem he))

theorem kept_go {s : PmSt} (inv : Inv s) (h : Kept s) (t : Nat) : Kept (s.go t) := by
  have hpos := inv.pos t
  unfold go
  split
  · exact h
  · rename_i hp
    split
    · exact kept_move inv h t _ rfl (fun ty k b p h' => by rw [hp] at h'; simp at h') rfl rfl (fun e he hk => by simp [PmPc.kills] at hk)
    · exact h
  · exact kept_find inv h t _ (by assumption)
  · rename_i hp
    exact kept_touch h _ (kept_move inv h t _ rfl (fun ty k b p h' => by rw [hp] at h'; simp at h') rfl rfl
      (fun e he hk => by simp [PmPc.kills] at hk))
  · -- alloc
    rename_i ty k b hp
    refine kept_upd inv h t (.insert ty k b s.next) rfl (fun ty k b p h' => by rw [hp] at h'; simp at h') (fun e he _ => he)
      (fun p hl => ?_) (fun hi => by rw [hp] at hi; simp [PmPc.inside] at hi) (fun e he hk => by simp [PmPc.kills] at hk)
    simp only at hl
    split at hl
    · rename_i hn; exact .inr ⟨ty, k, b, by rw [hn]⟩
    · exact .inl hl
  · -- insert
    rename_i ty k b p hp
    refine kept_upd inv h t _ rfl (fun ty' k' b' p' h' => ?_) (fun e he _ => List.mem_append_left _ he) (fun p hl => .inl hl)
      (fun hi => by rw [hp] at hi; simp [PmPc.inside] at hi) (fun e he hk => by simp [PmPc.kills] at hk)
    rw [hp] at h'
    cases h'
    simp
  · -- del
    rename_i k p hp
    rw [hp] at hpos
    refine kept_upd inv h t (.erase k) rfl (fun ty k b p h' => by rw [hp] at h'; simp at h') (fun e he _ => he) (fun q hl => ?_)
      (fun hi => by rw [hp] at hi; simp [PmPc.inside] at hi) (fun e he hk => ?_)
    · simp only at hl
      split at hl
      · simp at hl
      · exact .inl hl
    · replace hk : (s.map.lookup k == some e.2) = true := hk
      rw [show s.map.lookup k = some p from hpos] at hk
      simp only [beq_iff_eq, Option.some.injEq] at hk
      simp [hk]
  · -- erase
    rename_i k hp
    refine kept_upd inv h t _ rfl (fun ty k b p h' => by rw [hp] at h'; simp at h') (fun e he hl => ?_) (fun p hl => .inl hl)
      (fun hi => by rw [hp] at hi; simp [PmPc.inside] at hi) (fun e he hk => by simp [PmPc.kills] at hk)
    refine List.mem_filter.2 ⟨he, ?_⟩
    simp only [ne_eq, decide_not, Bool.not_eq_true', decide_eq_false_iff_not]
    intro hk
    have := h.2 t e he (by
      rw [hp]
      simp only [PmPc.kills, beq_iff_eq]
      exact (lookup_some inv.keys).2 (by rw [← hk]; exact he))
    rw [show s.live e.2 = true from hl] at this
    simp at this
  · -- wipe cons
    rename_i p ps hp
    refine kept_upd inv h t (.wipe ps) rfl (fun ty k b p h' => by rw [hp] at h'; simp at h') (fun e he _ => he) (fun q hl => ?_)
      (fun hi => by rw [hp] at hi; simp [PmPc.inside] at hi) (fun e he hk => ?_)
    · simp only at hl
      split at hl
      · simp at hl
      · exact .inl hl
    · simp only
      split
      · rfl
      · rename_i hne
        refine h.2 t e he ?_
        rw [hp]
        simpa [PmPc.kills, hne] using hk
  · -- wipe nil
    rename_i hp
    refine kept_upd inv h t _ rfl (fun ty k b p h' => by rw [hp] at h'; simp at h') (fun e he hl => ?_) (fun p hl => .inl hl)
      (fun hi => by rw [hp] at hi; simp [PmPc.inside] at hi) (fun e he hk => by simp [PmPc.kills] at hk)
    have := h.2 t e he (by rw [hp]; simp [PmPc.kills])
    rw [show s.live e.2 = true from hl] at this
    simp at this
  · rename_i hp
    exact kept_move inv h t _ rfl (fun ty k b p h' => by rw [hp] at h'; simp at h') rfl rfl
      (fun e he hk => by simp [PmPc.kills] at hk)
  all_goals
    rename_i hp
    refine kept_touch h _ ?_
    try split
  all_goals first
    | exact h
    | exact kept_move inv h t _ rfl (fun ty k b p h' => by rw [hp] at h'; simp at h') rfl rfl
        (fun e he hk => by simp [PmPc.kills] at hk)

theorem kept_run (l : List PmAct) : Kept (run l) := by
  induction hn : l.length generalizing l with
  | zero =>
    cases l with
    | nil => exact ⟨fun p h => by simp [run, init] at h, fun t e he => by simp [run, init] at he⟩
    | cons => simp at hn
  | succ n ih =>
    rcases List.eq_nil_or_concat l with rfl | ⟨b, x, rfl⟩
    · simp at hn
    · rw [List.concat_eq_append] at hn ⊢
      have h := ih b (by simpa using hn)
      rw [run_snoc]
      unfold step
      split
      · exact h
      · split
        · split
          · rename_i t c hp
            refine kept_move (inv_run b).1 h t c.first rfl (fun ty k b p h' => by rw [hp] at h'; simp at h') rfl rfl
              (fun e he hk => ?_)
            cases c <;> simp [PmCall.first, PmPc.kills] at hk
          · exact h
        · exact kept_go (inv_run b).1 h _

/-- **C111 (no leak)** Whenever no thread possesses the mutex, exactly the objects in the map exist: what was removed or
cleared away has been deleted, nothing else has. -/
theorem C111_noleak (l : List PmAct) (h : (run l).owner = none) (p : Nat) :
    (run l).live p = true ↔ ∃ k, (k, p) ∈ (run l).map := by
  have inv := (inv_run l).1
  have hno : ∀ t, ((run l).pc t).inside = false := by
    intro t
    cases hi : ((run l).pc t).inside with
    | false => rfl
    | true => rw [(inv.own t).2 hi] at h; simp at h
  constructor
  · intro hp
    rcases (kept_run l).1 p hp with h1 | ⟨t, ty, k, b, h1⟩
    · exact h1
    · have := hno t; rw [h1] at this; simp [PmPc.inside] at this
  · rintro ⟨k, hk⟩
    rcases inv.alive _ hk with h1 | ⟨t, h1⟩
    · exact h1
    · have := hno t; rw [kills_inside h1] at this; simp at this

/-- Two objects created, one removed, a `getGParam` under way. -/
example : (run [.call 0 (.create 7 "a" true), .go 0, .go 0, .go 0, .go 0, .go 0, .call 0 (.create 7 "b" true), .go 0, .go 0, .go 0, .go 0, .go 0,
      .call 1 (.get "n" 7 "b"), .go 1, .call 3 (.remove "a"), .go 3, .go 3, .go 3, .go 3, .go 3]).owner = none ∧
    (run [.call 0 (.create 7 "a" true), .go 0, .go 0, .go 0, .go 0, .go 0, .call 0 (.create 7 "b" true), .go 0, .go 0, .go 0, .go 0, .go 0,
      .call 1 (.get "n" 7 "b"), .go 1, .call 3 (.remove "a"), .go 3, .go 3, .go 3, .go 3, .go 3]).map = [("b", 1)] := by
  decide

/-! ### data races -/

/-- About to write to the map or to free an object. -/
def PmPc.writing : PmPc → Bool
  | .insert .. => true
  | p => p.deleting

/-- **C111 (race)** A `create` of one key races with a `getGParam` of another: the map is modified while it is read. -/
theorem C111_race_violated : ∃ l : List PmAct, Race (run l) 0 1 ∧
    (run l).calls = [(0, .create 7 "a" false), (1, .get "n" 8 "b")] :=
  ⟨[.call 0 (.create 7 "a" false), .go 0, .go 0, .go 0, .call 1 (.get "n" 8 "b")], by unfold Race; decide, by decide⟩

theorem acc_cases (q : PmPc) : q.acc = .none ∨
    (q.writing = true ∧ q.inside = true ∧ (q.acc = .mapWrite ∨ ∃ p, q.acc = .free p)) ∨
    (q.inside = true ∧ (q.acc = .mapRead ∨ ∃ p, q.acc = .look p)) ∨
    (q.getting = true ∧ (q.acc = .mapRead ∨ (∃ p, q.acc = .look p) ∨ ∃ n ty k p, q = .gAdd n ty k p)) := by
  cases q with
  | wipe ps => cases ps <;> simp [PmPc.acc, PmPc.writing, PmPc.inside, PmPc.deleting, PmPc.getting]
  | find c => cases c <;> simp [PmPc.acc, PmPc.writing, PmPc.inside, PmPc.deleting, PmPc.getting]
  | _ => simp [PmPc.acc, PmPc.writing, PmPc.inside, PmPc.deleting, PmPc.getting]

/-- **C111 (race, what holds)** These are the only races: in every race one of the two is in `getGParam` and the other, under the
mutex, is modifying the map or deleting.  Calls that lock do not race with each other, nor do `getGParam`s among themselves. -/
theorem C111_race_partial (l : List PmAct) (t u : Nat) (h : Race (run l) t u) :
    (((run l).pc t).getting = true ∧ ((run l).pc u).writing = true ∧ (run l).owner = some u) ∨
    (((run l).pc u).getting = true ∧ ((run l).pc t).writing = true ∧ (run l).owner = some t) := by
  have inv := (inv_run l).1
  generalize run l = s at *
  obtain ⟨hne, hc⟩ := h
  have both : ¬ ((s.pc t).inside = true ∧ (s.pc u).inside = true) := by
    rintro ⟨h1, h2⟩
    have h1 := (inv.own t).2 h1
    rw [(inv.own u).2 h2] at h1
    exact hne (Option.some.inj h1).symm
  rcases acc_cases (s.pc t) with h1 | ⟨h1, h1', h1''⟩ | ⟨h1, h1'⟩ | ⟨h1, h1'⟩
  · rw [h1] at hc; simp [Acc.conflict] at hc
  · rcases acc_cases (s.pc u) with h2 | ⟨h2, h2', -⟩ | ⟨h2, -⟩ | ⟨h2, -⟩
    · rw [h2] at hc
      rcases h1'' with h | ⟨p, h⟩ <;> rw [h] at hc <;> simp [Acc.conflict] at hc
    · exact absurd ⟨h1', h2'⟩ both
    · exact absurd ⟨h1', h2⟩ both
    · exact .inr ⟨h2, h1, (inv.own t).2 h1'⟩
  · exfalso
    rcases acc_cases (s.pc u) with h2 | ⟨h2, h2', -⟩ | ⟨h2, -⟩ | ⟨h2, h2'⟩
    · rw [h2] at hc
      rcases h1' with h | ⟨p, h⟩ <;> rw [h] at hc <;> simp [Acc.conflict] at hc
    · exact both ⟨h1, h2'⟩
    · exact both ⟨h1, h2⟩
    · rcases h1' with h | ⟨p, h⟩ <;> rw [h] at hc <;> rcases h2' with h' | ⟨p', h'⟩ | ⟨n, ty, k, p', h'⟩ <;> rw [h'] at hc <;>
        simp [Acc.conflict, PmPc.acc] at hc
  · rcases acc_cases (s.pc u) with h2 | ⟨h2, h2', -⟩ | ⟨h2, h2'⟩ | ⟨h2, h2'⟩
    · rw [h2] at hc
      rcases h1' with h | ⟨p, h⟩ | ⟨n, ty, k, p, h⟩ <;> rw [h] at hc <;> simp [Acc.conflict, PmPc.acc] at hc
    · exact .inl ⟨h1, h2, (inv.own u).2 h2'⟩
    · exfalso
      rcases h1' with h | ⟨p, h⟩ | ⟨n, ty, k, p, h⟩ <;> rw [h] at hc <;> rcases h2' with h' | ⟨p', h'⟩ <;> rw [h'] at hc <;>
        simp [Acc.conflict, PmPc.acc] at hc
    · exfalso
      rcases h1' with h | ⟨p, h⟩ | ⟨n, ty, k, p, h⟩ <;> rw [h] at hc <;> rcases h2' with h' | ⟨p', h'⟩ | ⟨n', ty', k', p', h'⟩ <;>
        rw [h'] at hc <;> simp [Acc.conflict, PmPc.acc] at hc
      subst hc
      have e1 := inv.pos t
      have e2 := inv.pos u
      rw [h] at e1; rw [h'] at e2
      have := e1.2.2.symm.trans e2.2.2
      exact hne (Option.some.inj this)

/-- Two `getGParam`s of the same object, one of them in the backtrace: nobody races. -/
example : ∃ l : List PmAct, ((run l).pc 1).acc = .trace 0 ∧ ((run l).pc 2).acc = .look 0 ∧ ¬ Race (run l) 1 2 :=
  ⟨[.call 0 (.create 7 "a" true), .go 0, .go 0, .go 0, .go 0, .go 0, .call 1 (.get "n1" 7 "a"), .go 1, .go 1, .go 1, .go 1,
    .call 2 (.get "n2" 7 "a"), .go 2, .go 2, .go 2], by decide, by decide, by unfold Race; decide⟩

/-! ### the backtrace -/

/-- What the backtraces say. -/
structure Tr (s : PmSt) : Prop where
  nodup : ∀ p, (s.obj p).bt.arr.Nodup
  from_ : ∀ p n, n ∈ (s.obj p).bt.arr → p < s.next ∧ ∃ t ty k, (t, PmCall.get n ty k, PmRes.ptr (some p)) ∈ s.log
  lock : ∀ t c r, s.pc t = .unlock c r → ∀ n ty k, c ≠ .get n ty k
  ret : ∀ t n ty k p, (t, PmCall.get n ty k, PmRes.ptr (some p)) ∈ s.rets →
    p < s.next ∧ ((s.obj p).btOn = true → n ∈ (s.obj p).bt.arr)

/-- A step that leaves the objects alone. -/
theorem Tr.same {s s' : PmSt} (h : Tr s) (t : Nat) (q : PmPc) (hpc : s'.pc = fun k => if k = t then q else s.pc k)
    (hobj : s'.obj = s.obj) (hn : s'.next = s.next) (hlog : ∀ e ∈ s.log, e ∈ s'.log)
    (hl : ∀ c r, q = .unlock c r → ∀ n ty k, c ≠ .get n ty k)
    (hr : ∀ e ∈ s'.rets, e ∈ s.rets ∨ ∀ u n ty k p, e = (u, PmCall.get n ty k, PmRes.ptr (some p)) →
      p < s.next ∧ ((s.obj p).btOn = true → n ∈ (s.obj p).bt.arr)) : Tr s' := by
  refine ⟨by rw [hobj]; exact h.nodup, ?_, ?_, ?_⟩
  · intro p n hp
    rw [hobj] at hp
    obtain ⟨h1, u, ty, k, h2⟩ := h.from_ p n hp
    exact ⟨by rw [hn]; exact h1, u, ty, k, hlog _ h2⟩
  · intro u c r hu
    rw [hpc] at hu
    by_cases hut : u = t
    · simp only [hut, if_true] at hu; exact hl c r hu
    · simp only [hut, if_false] at hu; exact h.lock u c r hu
  · intro u n ty k p hm
    rw [hobj, hn]
    rcases hr _ hm with h1 | h1
    · exact h.ret _ _ _ _ _ h1
    · exact h1 _ _ _ _ _ rfl

theorem Tr.bad {s : PmSt} (h : Tr s) : Tr { s with bad := true } := ⟨h.nodup, h.from_, h.lock, h.ret⟩

theorem Tr.touch {s s' : PmSt} (h : Tr s) (p : Nat) (h' : Tr s') : Tr (s.touch p s') := by
  unfold PmSt.touch
  split
  · exact h'
  · exact h.bad

theorem tr_find {s : PmSt} (h : Tr s) (t : Nat) (c : PmCall) : Tr (s.findStep t c) := by
  cases c <;> simp only [findStep] <;> (try split)
  all_goals
    refine h.same t _ rfl rfl rfl (fun e he => ?_) (fun c r hq => ?_) (fun e he => ?_)
  all_goals first
    | exact he
    | exact List.mem_append_left _ he
    | exact .inl he
    | (simp only [PmSt.ret, effect, List.mem_append, List.mem_singleton] at he
       rcases he with he | rfl
       · exact .inl he
       · exact .inr fun u n ty k p hh => by simp at hh)
    | (simp at hq; done)
    | (cases hq; intro n ty k hh; cases hh)

theorem tr_go {s : PmSt} (inv : Inv s) (fit : ∀ p, Fit (s.obj p)) (h : Tr s) (t : Nat) : Tr (s.go t) := by
  have hpos := inv.pos t
  unfold go
  split
  · exact h
  · split
    · exact h.same t _ rfl rfl rfl (fun e he => he) (fun c r hq => by simp at hq) (fun e he => .inl he)
    · exact h
  · exact tr_find h t _
  · refine h.touch _ (h.same t _ rfl rfl rfl (fun e he => List.mem_append_left _ he) (fun c r hq => ?_) (fun e he => .inl he))
    cases hq; intro n ty k hh; cases hh
  · -- alloc
    refine ⟨fun p => ?_, fun p n hp => ?_, fun u c r hu => ?_, fun u n ty k p hm => ?_⟩
    · simp only
      split
      · exact List.nodup_nil
      · exact h.nodup p
    · simp only at hp
      split at hp
      · simp [UniqueArr.empty] at hp
      · exact ⟨Nat.lt_succ_of_lt (h.from_ p n hp).1, (h.from_ p n hp).2⟩
    · simp only [setPc] at hu
      split at hu
      · simp at hu
      · exact h.lock u c r hu
    · obtain ⟨h1, h2⟩ := h.ret u n ty k p hm
      refine ⟨Nat.lt_succ_of_lt h1, ?_⟩
      simp only [Nat.ne_of_lt h1, if_false]
      exact h2
  · refine h.same t _ rfl rfl rfl (fun e he => List.mem_append_left _ he) (fun c r hq => ?_) (fun e he => .inl he)
    cases hq; intro n ty k hh; cases hh
  · exact h.same t _ rfl rfl rfl (fun e he => he) (fun c r hq => by simp at hq) (fun e he => .inl he)
  · refine h.same t _ rfl rfl rfl (fun e he => List.mem_append_left _ he) (fun c r hq => ?_) (fun e he => .inl he)
    cases hq; intro n ty k hh; cases hh
  · exact h.same t _ rfl rfl rfl (fun e he => he) (fun c r hq => by simp at hq) (fun e he => .inl he)
  · refine h.same t _ rfl rfl rfl (fun e he => List.mem_append_left _ he) (fun c r hq => ?_) (fun e he => .inl he)
    cases hq; intro n ty k hh; cases hh
  · -- unlock
    rename_i c r hp
    refine h.same t .idle rfl rfl rfl (fun e he => he) (fun c r hq => by simp at hq) (fun e he => ?_)
    simp only [PmSt.ret, List.mem_append, List.mem_singleton] at he
    rcases he with he | rfl
    · exact .inl he
    · refine .inr fun u n ty k p hh => ?_
      simp only [Prod.mk.injEq] at hh
      exact absurd hh.2.1 (h.lock t c r hp n ty k)
  · -- gType
    refine h.touch _ ?_
    split
    · exact h.same t _ rfl rfl rfl (fun e he => he) (fun c r hq => by simp at hq) (fun e he => .inl he)
    · refine h.same t .idle rfl rfl rfl (fun e he => he) (fun c r hq => by simp at hq) (fun e he => ?_)
      simp only [PmSt.ret, List.mem_append, List.mem_singleton] at he
      rcases he with he | rfl
      · exact .inl he
      · exact .inr fun u n ty k p hh => by simp at hh
  · -- gFlag
    rename_i n ty k p hp
    rw [hp] at hpos
    refine h.touch _ ?_
    split
    · exact h.same t _ rfl rfl rfl (fun e he => he) (fun c r hq => by simp at hq) (fun e he => .inl he)
    · rename_i hf
      refine h.same t .idle rfl rfl rfl (fun e he => he) (fun c r hq => by simp at hq) (fun e he => ?_)
      simp only [PmSt.ret, List.mem_append, List.mem_singleton] at he
      rcases he with he | rfl
      · exact .inl he
      · refine .inr fun u n' ty' k' p' hh => ?_
        simp only [Prod.mk.injEq, PmRes.ptr.injEq, Option.some.injEq] at hh
        rw [← hh.2.2]
        exact ⟨hpos.1, fun h => absurd h hf⟩
  · -- gSpin
    refine h.touch _ ?_
    split
    · exact h.same t _ rfl rfl rfl (fun e he => he) (fun c r hq => by simp at hq) (fun e he => .inl he)
    · exact h
  · -- gAdd
    rename_i n ty k p hp
    have hpend := inv.pend t
    rw [hp] at hpos hpend
    have hlog : (t, PmCall.get n ty k, PmRes.ptr (some p)) ∈ s.log := by
      have : (t, PmCall.get n ty k, PmRes.ptr (some p)) ∈ s.log.filter (fun e => e.1 = t) := by rw [hpend]; simp [pend]
      exact (List.mem_filter.1 this).1
    refine h.touch _ ⟨fun q => ?_, fun q x hx => ?_, fun u c r hu => ?_, fun u n' ty' k' q hm => ?_⟩
    · simp only
      split
      · simp only [UniqueArr.add]
        split
        · exact h.nodup p
        · rename_i hns
          rw [List.nodup_append]
          refine ⟨h.nodup p, by simp, ?_⟩
          intro a ha b hb hab
          simp only [List.mem_singleton] at hb
          subst hab; subst hb
          exact hns ((fit p a).2 ha)
      · exact h.nodup q
    · simp only at hx
      split at hx
      · rename_i hq
        subst hq
        simp only [UniqueArr.add] at hx
        split at hx
        · exact h.from_ q x hx
        · simp only [List.mem_append, List.mem_singleton] at hx
          rcases hx with hx | rfl
          · exact h.from_ q x hx
          · exact ⟨hpos.1, t, ty, k, hlog⟩
      · exact h.from_ q x hx
    · simp only [setPc] at hu
      split at hu
      · simp at hu
      · exact h.lock u c r hu
    · obtain ⟨h1, h2⟩ := h.ret u n' ty' k' q hm
      refine ⟨h1, ?_⟩
      simp only
      split
      · rename_i hq
        subst hq
        exact fun hb => mem_add _ _ (h2 hb)
      · exact h2
  · -- gFree
    rename_i n ty k p hp
    rw [hp] at hpos
    refine h.touch _ (h.same t .idle rfl rfl rfl (fun e he => he) (fun c r hq => by simp at hq) (fun e he => ?_))
    simp only [PmSt.ret, List.mem_append, List.mem_singleton] at he
    rcases he with he | rfl
    · exact .inl he
    · refine .inr fun u n' ty' k' p' hh => ?_
      simp only [Prod.mk.injEq, PmRes.ptr.injEq, Option.some.injEq, PmCall.get.injEq] at hh
      rw [← hh.2.2, ← hh.2.1.1]
      exact ⟨hpos.1, fun _ => hpos.2.2.2⟩

theorem tr_run (l : List PmAct) : Tr (run l) := by
  induction hn : l.length generalizing l with
  | zero =>
    cases l with
    | nil => exact ⟨fun p => List.nodup_nil, fun p n h => by simp [run, init, UniqueArr.empty] at h, fun t c r h => by simp [run, init] at h,
        fun t n ty k p h => by simp [run, init] at h⟩
    | cons => simp at hn
  | succ n ih =>
    rcases List.eq_nil_or_concat l with rfl | ⟨b, x, rfl⟩
    · simp at hn
    · rw [List.concat_eq_append] at hn ⊢
      have h := ih b (by simpa using hn)
      rw [run_snoc]
      unfold step
      split
      · exact h
      · split
        · split
          · rename_i t c hp
            refine h.same t c.first rfl rfl rfl (fun e he => he) (fun c' r hq => ?_) (fun e he => .inl he)
            cases c <;> simp [PmCall.first] at hq
          · exact h
        · exact tr_go (inv_run b).1 (inv_run b).2 h _

/-- **C111 (backtrace)** When `getGParam` has returned an object with the backtrace switched on, the name of the caller is in the
backtrace of this object, however many threads fetch it at once; no name is there twice, and only names of callers that
fetched this very object are there. -/
theorem C111_backtrace (l : List PmAct) (p : Nat) :
    (∀ t n ty k, (t, PmCall.get n ty k, PmRes.ptr (some p)) ∈ (run l).rets → ((run l).obj p).btOn = true →
      n ∈ ((run l).obj p).bt.arr) ∧
    ((run l).obj p).bt.arr.Nodup ∧
    ∀ n ∈ ((run l).obj p).bt.arr, ∃ t ty k, (t, PmCall.get n ty k, PmRes.ptr (some p)) ∈ (run l).log :=
  ⟨fun t n ty k h => ((tr_run l).ret t n ty k p h).2, (tr_run l).nodup p, fun n h => ((tr_run l).from_ p n h).2⟩

/-- Two threads fetch the object interleaved, thread 1 twice. -/
example : ∃ l : List PmAct, ((run l).obj 0).btOn = true ∧ ((run l).obj 0).bt.arr = ["n1", "n2"] ∧ (run l).rets.length = 4 :=
  ⟨[.call 0 (.create 7 "a" true), .go 0, .go 0, .go 0, .go 0, .go 0, .call 1 (.get "n1" 7 "a"), .go 1, .go 1,
    .call 2 (.get "n2" 7 "a"), .go 2, .go 2, .go 2, .go 1, .go 1, .go 2, .go 1, .go 1, .go 2, .go 2, .go 2,
    .call 1 (.get "n1" 7 "a"), .go 1, .go 1, .go 1, .go 1, .go 1, .go 1], by decide, by decide, by decide⟩

/-! ### the mutex is given back -/

/-- A bound of the steps to the unlock. -/
def left (s : PmSt) : PmPc → Nat
  | .find _ => s.map.length + 5
  | .type .. => 2
  | .alloc .. => 3
  | .insert .. => 2
  | .del .. => 3
  | .erase .. => 2
  | .wipe ps => ps.length + 2
  | .unlock .. => 1
  | _ => 0

theorem owner_step {s : PmSt} (inv : Inv s) (t : Nat) (hb : s.bad = false) (ho : s.owner = some t) :
    ((s.go t).owner = none ∧ (s.go t).pc t = .idle) ∨
    ((s.go t).bad = false ∧ (s.go t).owner = some t ∧ left (s.go t) ((s.go t).pc t) < left s (s.pc t)) := by
  have hi := (inv.own t).1 ho
  have hpos := inv.pos t
  cases hp : s.pc t with
  | find c =>
    rw [hp] at hi
    cases c with
    | get => simp [PmPc.inside] at hi
    | create ty k b =>
      right
      simp only [go, hp, findStep]
      split <;> simp [setPc, hb, ho, left] <;> omega
    | remove k =>
      right
      simp only [go, hp, findStep]
      split <;> simp [setPc, PmSt.leave, effect, hb, ho, left] <;> omega
    | keys => right; simp [go, hp, findStep, setPc, PmSt.leave, effect, hb, ho, left]
    | clear => right; simp [go, hp, findStep, setPc, hb, ho, left]
  | type ty k b p =>
    rw [hp] at hpos
    right
    simp only [go, hp, touch_bad hpos.2]
    simp [setPc, PmSt.leave, effect, hb, ho, left]
  | alloc => right; simp [go, hp, setPc, hb, ho, left]
  | insert => right; simp [go, hp, setPc, PmSt.leave, effect, hb, ho, left]
  | del => right; simp [go, hp, setPc, hb, ho, left]
  | erase => right; simp [go, hp, setPc, PmSt.leave, effect, hb, ho, left]
  | wipe ps => right; cases ps <;> simp [go, hp, setPc, PmSt.leave, effect, hb, ho, left]
  | unlock c r => left; simp [go, hp, setPc, PmSt.ret]
  | _ => rw [hp] at hi; simp [PmPc.inside] at hi

/-- **C111 (release)** The thread that possesses the mutex gives it back after finitely many steps of its own and has then
returned; it waits for no other thread meanwhile. -/
theorem C111_release (l : List PmAct) (t : Nat) (hb : (run l).bad = false) (ho : (run l).owner = some t) :
    ∃ n, (run (l ++ List.replicate n (.go t))).owner = none ∧ (run (l ++ List.replicate n (.go t))).pc t = .idle := by
  generalize hm : left (run l) ((run l).pc t) = m
  induction m using Nat.strongRecOn generalizing l with
  | ind m ih =>
    have hs : run (l ++ [.go t]) = (run l).go t := by rw [run_snoc]; simp [step, hb]
    rcases owner_step (inv_run l).1 t hb ho with ⟨h1, h2⟩ | ⟨h1, h2, h3⟩
    · exact ⟨1, by simp only [List.replicate_one]; rw [hs]; exact ⟨h1, h2⟩⟩
    · rw [← hs] at h1 h2 h3
      obtain ⟨n, h4⟩ := ih _ (hm ▸ h3) (l ++ [.go t]) h1 h2 rfl
      refine ⟨n + 1, ?_⟩
      rw [List.replicate_succ, List.append_cons]
      exact h4

/-- A `clear` in the middle of deleting two objects, two other threads waiting. -/
example : ∃ l : List PmAct, (run l).bad = false ∧ (run l).owner = some 3 ∧ (run l).pc 3 = .wipe [1] ∧
    (run l).pc 1 = .lock (.remove "a") ∧ (run l).pc 2 = .lock .keys :=
  ⟨[.call 0 (.create 7 "a" true), .go 0, .go 0, .go 0, .go 0, .go 0, .call 0 (.create 7 "b" true), .go 0, .go 0, .go 0, .go 0, .go 0,
    .call 3 .clear, .go 3, .go 3, .go 3, .call 1 (.remove "a"), .go 1, .call 2 .keys, .go 2],
    by decide, by decide, by decide, by decide, by decide⟩

end CGraph.ParamConc
