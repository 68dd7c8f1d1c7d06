import Verif.Model.WsConc
import Verif.Spec.WsConc

namespace CGraph.WsConc
open Spec
variable {α : Type}

/-- The call in the words of the specification. -/
def WqCall.spec : WqCall α → DqCall α
  | .push v => .add [v] true
  | .tryPush v => .add [v] false
  | .pushAll vs => .add vs true
  | .batch vs => .add vs true
  | .rem b none => .rem b (some 1)
  | .rem b (some n) => .rem b (if n < 0 then none else some n.toNat)
  | .isEmpty => .ask

/-- The result in the words of the specification. -/
def WqRes.spec : WqRes α → DqRes α
  | .pushed b => .stored b
  | .got vs met => .got vs met
  | .empty b met => .empty b met

/-- The history in the words of the specification. -/
def WqSt.hist (s : WqSt α) : List (Nat × DqCall α × DqRes α) := s.log.map fun e => (e.1, e.2.1.spec, e.2.2.spec)

/-- The thread possesses the mutex. -/
def WqPc.inside : WqPc α → Bool
  | .put .. => true
  | .look .. => true
  | .take .. => true
  | .unlock .. => true
  | _ => false

/-- The call a thread is in. -/
def WqPc.pending : WqPc α → Option (WqCall α)
  | .idle => none
  | .test c => some c
  | .lock c => some c
  | .put c _ => some c
  | .look b m _ _ => some (.rem b m)
  | .take b m _ _ => some (.rem b m)
  | .unlock c _ => some c

/-- The values a pushing call brings. -/
def WqCall.values : WqCall α → Option (List α)
  | .push v => some [v]
  | .tryPush v => some [v]
  | .pushAll vs => some vs
  | .batch vs => some vs
  | _ => none

/-- `acc` has been removed from `q`, `d` is left. -/
def Rem (b : Bool) (q acc d : List α) : Prop := if b then q = d ++ acc.reverse else q = acc ++ d

/-- How far the loop is: `k` more removals are allowed for. -/
def Count (m : Option Int) (n : Int) (k : Int) (acc : List α) : Prop :=
  match m with
  | none => acc = []
  | some z => (0 ≤ z → 0 ≤ n ∧ n + k + acc.length = z) ∧ (z < 0 → n < 0)

/-- What is known of a thread at `p` when the deque holds `d` and `q` is what the completed calls left. -/
def Pos (d q : List α) : WqPc α → Prop
  | .idle => True
  | .test c => c.values = none
  | .lock c => c ≠ .isEmpty
  | .put c todo => ∃ done, c.values = some (done ++ todo) ∧ d = q ++ done
  | .look b m n acc => Rem b q acc d ∧ Count m n 0 acc
  | .take b m n acc => Rem b q acc d ∧ d ≠ [] ∧ Count m n 1 acc
  | .unlock c r => DqStep q c.spec r.spec d

/-- The state fits `q`. -/
structure Ok (s : WqSt α) (q : List α) : Prop where
  free : s.owner = none → s.deque = q
  own : ∀ t, s.owner = some t ↔ (s.pc t).inside = true
  pos : ∀ t, Pos s.deque q (s.pc t)

/-- The invariant. -/
def Inv (s : WqSt α) : Prop := ∃ q, DqHist [] s.hist q ∧ Ok s q

theorem pos_outside {d q d' q' : List α} {p : WqPc α} (h : p.inside = false) (hp : Pos d q p) : Pos d' q' p := by
  cases p <;> first | exact hp | cases h

theorem Ok.upd {s : WqSt α} {q : List α} (h : Ok s q) (t : Nat) (p : WqPc α) {s' : WqSt α} {q' : List α}
    (hpc : s'.pc = fun k => if k = t then p else s.pc k)
    (hfree : s'.owner = none → s'.deque = q') (ht : s'.owner = some t ↔ p.inside = true)
    (ho : ∀ u, u ≠ t → (s'.owner = some u ↔ s.owner = some u))
    (hd : ∀ u, u ≠ t → s.owner = some u → s'.deque = s.deque ∧ q' = q) (hp : Pos s'.deque q' p) : Ok s' q' := by
  refine ⟨hfree, ?_, ?_⟩
  · intro u
    rw [hpc]
    by_cases hu : u = t
    · subst hu; simpa using ht
    · simp only [hu, if_false]; rw [ho u hu]; exact h.own u
  · intro u
    rw [hpc]
    by_cases hu : u = t
    · subst hu; simpa using hp
    · simp only [hu, if_false]
      cases hi : (s.pc u).inside with
      | false => exact pos_outside hi (h.pos u)
      | true =>
        obtain ⟨h1, h2⟩ := hd u hu ((h.own u).2 hi)
        rw [h1, h2]; exact h.pos u

/-- The thread changes only its own place, outside. -/
theorem Ok.out {s : WqSt α} {q : List α} (h : Ok s q) (t : Nat) (p : WqPc α) {s' : WqSt α}
    (hpc : s'.pc = fun k => if k = t then p else s.pc k) (hown : s'.owner = s.owner) (hdq : s'.deque = s.deque)
    (ht : (s.pc t).inside = false) (hi : p.inside = false) (hp : Pos s'.deque q p) : Ok s' q := by
  refine h.upd t p hpc (by rw [hown, hdq]; exact h.free) ?_ (by rw [hown]; simp) (by simp [hdq]) hp
  rw [hown, h.own t, ht, hi]

/-- The owner moves on inside. -/
theorem Ok.inn {s : WqSt α} {q : List α} (h : Ok s q) (t : Nat) (p : WqPc α) {s' : WqSt α}
    (hpc : s'.pc = fun k => if k = t then p else s.pc k) (hown : s'.owner = s.owner)
    (ht : (s.pc t).inside = true) (hi : p.inside = true) (hp : Pos s'.deque q p) : Ok s' q := by
  have hot := (h.own t).2 ht
  refine h.upd t p hpc (by rw [hown, hot]; simp) (by rw [hown, hot]; simp [hi]) (by rw [hown]; simp) ?_ hp
  intro u hu h2; rw [hot] at h2; injection h2 with h2; exact absurd h2.symm hu

theorem hist_finish (s : WqSt α) (t : Nat) (c : WqCall α) (r : WqRes α) :
    (s.finish t c r).hist = s.hist ++ [(t, c.spec, r.spec)] := by simp [WqSt.hist, WqSt.finish, WqSt.setPc]

/-- A call that takes effect outside. -/
theorem inv_out {s : WqSt α} {q : List α} (hh : DqHist [] s.hist q) (h : Ok s q) (t : Nat) (c : WqCall α) (r : WqRes α)
    (ht : (s.pc t).inside = false) (hs : DqStep q c.spec r.spec q) : Inv (s.finish t c r) :=
  ⟨q, by rw [hist_finish]; exact .snoc t hh hs, h.out t .idle rfl rfl rfl ht rfl trivial⟩

theorem step_nothing {q : List α} (b : Bool) (m : Option Int) {met : Bool} (h : met = false → q = []) :
    DqStep q (WqCall.rem b m).spec (WqRes.got [] met).spec q := by
  have : (met = true ∧ ([] : List α) = []) ∨ ∀ l : Option Nat,
      ((∀ k, l = some k → ([] : List α).length ≤ k) ∧ (q = [] ∨ l = some ([] : List α).length)) := by
    cases met with
    | true => exact .inl ⟨rfl, rfl⟩
    | false => exact .inr fun l => ⟨by simp, .inl (h rfl)⟩
  cases m <;> refine ⟨by cases b <;> simp, this.imp id fun f => f _⟩

/-- The loop has ended. -/
theorem step_ended {d q acc : List α} {b : Bool} {m : Option Int} {n : Int} (hr : Rem b q acc d) (hc : Count m n 0 acc)
    (he : d = [] ∨ (m ≠ none ∧ n = 0)) : DqStep q (WqCall.rem b m).spec (WqRes.got acc false).spec d := by
  cases m with
  | none =>
    refine ⟨hr, .inr ⟨?_, ?_⟩⟩
    · cases hc; simp
    · rcases he with he | he
      · exact .inl he
      · exact absurd rfl he.1
  | some z =>
    refine ⟨hr, .inr ⟨?_, ?_⟩⟩
    · intro k hk
      by_cases hz : z < 0
      · simp [hz] at hk
      · simp only [hz, if_false, Option.some.injEq] at hk
        have := hc.1 (by omega)
        omega
    · rcases he with he | he
      · exact .inl he
      · refine .inr ?_
        have hz : ¬ z < 0 := fun h => by have := hc.2 h; omega
        have := hc.1 (by omega)
        simp only [hz, if_false, Option.some.injEq]
        omega

theorem rem_take {d q acc : List α} {b : Bool} {x : α} (hr : Rem b q acc d)
    (hx : (if b then d.getLast? else d.head?) = some x) :
    Rem b q (acc ++ [x]) (if b then d.dropLast else d.tail) := by
  cases b with
  | true =>
    simp only [Rem, if_true] at hr hx ⊢
    obtain ⟨ys, rfl⟩ := List.getLast?_eq_some_iff.1 hx
    simp [hr]
  | false =>
    simp only [Rem, Bool.false_eq_true, if_false] at hr hx ⊢
    cases d with
    | nil => simp at hx
    | cons y d => simp at hx; subst hx; simp [hr]

theorem inv_go {s : WqSt α} (t : Nat) (h : Inv s) : Inv (s.go t) := by
  obtain ⟨q, hh, h⟩ := h
  have hp := h.pos t
  have met : s.owner.isSome = false → s.deque = q := by
    intro hm; apply h.free; cases ho : s.owner <;> simp [ho] at hm ⊢
  unfold WqSt.go
  cases hpc : s.pc t with
  | idle => exact ⟨q, hh, h⟩
  | test c =>
    have hin : (s.pc t).inside = false := by rw [hpc]; rfl
    rw [hpc] at hp
    cases c with
    | rem b m =>
      simp only
      split
      · rename_i he
        exact inv_out hh h t _ _ hin (step_nothing b m fun hm => by rw [← met hm]; simpa using he)
      · exact ⟨q, hh, h.out t (.lock (.rem b m)) rfl rfl rfl hin rfl (by simp [Pos])⟩
    | isEmpty =>
      refine inv_out hh h t _ _ hin ⟨rfl, fun hm => ?_⟩
      rw [← met hm]; simp
    | push v => cases hp
    | tryPush v => cases hp
    | pushAll v => cases hp
    | batch v => cases hp
  | lock c =>
    have hin : (s.pc t).inside = false := by rw [hpc]; rfl
    rw [hpc] at hp
    simp only [WqSt.tryLock]
    cases ho : s.owner with
    | none =>
      simp only
      refine ⟨q, hh, h.upd t c.enter rfl (by simp) ?_ ?_ ?_ ?_⟩
      · cases c <;> simp [WqCall.enter, WqPc.inside]
        exact absurd rfl hp
      · intro u hu; simp [ho]; exact fun h => hu h.symm
      · intro u _ h2; rw [ho] at h2; cases h2
      · have hd := h.free ho
        show Pos s.deque q _
        cases c with
        | rem b m =>
          refine ⟨by cases b <;> simp [Rem, hd], ?_⟩
          cases m with
          | none => rfl
          | some z => simp [Count]
        | isEmpty => trivial
        | push v => exact ⟨[], rfl, by simp [hd]⟩
        | tryPush v => exact ⟨[], rfl, by simp [hd]⟩
        | pushAll v => exact ⟨[], rfl, by simp [hd]⟩
        | batch v => exact ⟨[], rfl, by simp [hd]⟩
    | some u =>
      cases c with
      | rem b m => exact inv_out hh h t _ _ hin (step_nothing b m (by simp))
      | tryPush v => exact inv_out hh h t _ _ hin ⟨rfl, rfl⟩
      | isEmpty => exact ⟨q, hh, h⟩
      | push v => exact ⟨q, hh, h⟩
      | pushAll v => exact ⟨q, hh, h⟩
      | batch v => exact ⟨q, hh, h⟩
  | put c todo =>
    have hin : (s.pc t).inside = true := by rw [hpc]; rfl
    rw [hpc] at hp
    obtain ⟨done, h1, h2⟩ := hp
    cases todo with
    | nil =>
      refine ⟨q, hh, h.inn t (.unlock c (.pushed true)) rfl rfl hin rfl ?_⟩
      show DqStep q c.spec (DqRes.stored true) s.deque
      rw [List.append_nil] at h1
      cases c <;> simp only [WqCall.values, Option.some.injEq, reduceCtorEq] at h1 <;> subst h1 <;> exact h2
    | cons v vs =>
      refine ⟨q, hh, h.inn t (.put c vs) rfl rfl hin rfl ⟨done ++ [v], by simp [h1], by simp [h2]⟩⟩
  | look b m n acc =>
    have hin : (s.pc t).inside = true := by rw [hpc]; rfl
    rw [hpc] at hp
    obtain ⟨hr, hc⟩ := hp
    simp only [WqSt.lookStep]
    split
    · rename_i he
      have he : s.deque = [] := by simpa using he
      refine ⟨q, hh, h.inn t _ rfl rfl hin rfl ?_⟩
      exact step_ended hr hc (.inl he)
    · rename_i he
      have hne : s.deque ≠ [] := by simpa using he
      cases m with
      | none => exact ⟨q, hh, h.inn t _ rfl rfl hin rfl ⟨hr, hne, hc⟩⟩
      | some z =>
        simp only
        split
        · rename_i hn
          exact ⟨q, hh, h.inn t _ rfl rfl hin rfl (step_ended hr hc (.inr ⟨by simp, hn⟩))⟩
        · rename_i hn
          refine ⟨q, hh, h.inn t _ rfl rfl hin rfl ⟨hr, hne, ?_⟩⟩
          simp only [Count] at hc ⊢
          exact ⟨fun hz => by have := hc.1 hz; omega, fun hz => by have := hc.2 hz; omega⟩
  | take b m n acc =>
    have hin : (s.pc t).inside = true := by rw [hpc]; rfl
    rw [hpc] at hp
    obtain ⟨hr, hne, hc⟩ := hp
    simp only [WqSt.takeStep]
    split
    · exact ⟨q, hh, h⟩
    · rename_i x hx
      have hr' := rem_take hr hx
      cases m with
      | none =>
        refine ⟨q, hh, h.inn t _ rfl rfl hin rfl ?_⟩
        refine ⟨hr', .inr ⟨?_, ?_⟩⟩
        · cases hc; simp
        · cases hc; exact .inr rfl
      | some z =>
        refine ⟨q, hh, h.inn t _ rfl rfl hin rfl ⟨hr', ?_⟩⟩
        simp only [Count] at hc ⊢
        refine ⟨fun hz => ?_, hc.2⟩
        have := hc.1 hz
        simp only [List.length_append, List.length_singleton]
        omega
  | unlock c r =>
    have hin : (s.pc t).inside = true := by rw [hpc]; rfl
    rw [hpc] at hp
    have hot := (h.own t).2 hin
    refine ⟨s.deque, ?_, h.upd t .idle rfl (fun _ => rfl) (by simp [WqPc.inside]) ?_ ?_ trivial⟩
    · show DqHist [] (s.finish t c r).hist s.deque
      rw [hist_finish]; exact .snoc t hh hp
    · intro u hu; rw [hot]; simp; exact fun h => hu h.symm
    · intro u hu h2; rw [hot] at h2; injection h2 with h2; exact absurd h2.symm hu

theorem inv_step {s : WqSt α} (a : WqAct α) (h : Inv s) : Inv (s.step a) := by
  cases a with
  | go t => exact inv_go t h
  | call t c =>
    unfold WqSt.step
    simp only
    split
    · rename_i hm
      obtain ⟨q, hh, h⟩ := h
      have hi : s.pc t = .idle := by
        revert hm; cases s.pc t <;> simp
      refine ⟨q, hh, h.out t c.first rfl rfl rfl (by rw [hi]; rfl) (by cases c <;> rfl) ?_⟩
      cases c <;> simp [WqCall.first, Pos, WqCall.values]
    · exact h

theorem inv_run (l : List (WqAct α)) : Inv (WqSt.run l) := by
  suffices ∀ s : WqSt α, Inv s → Inv (l.foldl WqSt.step s) from
    this _ ⟨[], .nil [], fun _ => rfl, by simp [WqSt.init, WqPc.inside], fun _ => trivial⟩
  induction l with
  | nil => exact fun s h => h
  | cons a l ih => exact fun s h => ih _ (inv_step a h)

/-! ## Every call takes effect once -/

/-- Thread `t` has begun these calls. -/
def WqSt.begun (s : WqSt α) (t : Nat) : List (WqCall α) := (s.calls.filter (·.1 == t)).map (·.2)

/-- These calls of thread `t` took effect. -/
def WqSt.done (s : WqSt α) (t : Nat) : List (WqCall α) := (s.log.filter (·.1 == t)).map (·.2.1)

/-- What was begun and has not taken effect is the call the thread is in. -/
def Acc (s : WqSt α) : Prop := ∀ t, s.begun t = s.done t ++ (s.pc t).pending.toList

theorem acc_move {s s' : WqSt α} (h : Acc s) (t : Nat) (p : WqPc α) (hpc : s'.pc = fun k => if k = t then p else s.pc k)
    (hc : s'.calls = s.calls) (hl : s'.log = s.log) (hp : p.pending = (s.pc t).pending) : Acc s' := by
  intro u
  have := h u
  simp only [WqSt.begun, WqSt.done, hc, hl, hpc] at this ⊢
  by_cases hu : u = t
  · subst hu; simp only [if_true, hp]; exact this
  · simp only [hu, if_false]; exact this

theorem acc_finish {s s' : WqSt α} (h : Acc s) (t : Nat) (c : WqCall α) (r : WqRes α)
    (hpc : s'.pc = fun k => if k = t then .idle else s.pc k)
    (hc : s'.calls = s.calls) (hl : s'.log = s.log ++ [(t, c, r)]) (hp : (s.pc t).pending = some c) : Acc s' := by
  intro u
  have := h u
  simp only [WqSt.begun, WqSt.done, hc, hl, hpc] at this ⊢
  by_cases hu : u = t
  · subst hu
    rw [hp] at this
    simp only [if_true, this]
    simp [WqPc.pending]
  · have hu' : ¬ t = u := fun h => hu h.symm
    simp only [hu, if_false, this]
    simp [hu']

theorem acc_step {s : WqSt α} (hs : Inv s) (a : WqAct α) (h : Acc s) : Acc (s.step a) := by
  cases a with
  | call t c =>
    unfold WqSt.step
    simp only
    split
    · rename_i hm
      have hi : s.pc t = .idle := by
        revert hm; cases s.pc t <;> simp
      intro u
      have := h u
      simp only [WqSt.begun, WqSt.done] at this
      simp only [WqSt.begun, WqSt.done, WqSt.setPc, if_true]
      by_cases hu : u = t
      · subst hu
        rw [hi] at this
        simp only [if_true, List.filter_append, List.map_append, this]
        cases c <;> simp [WqPc.pending, WqCall.first]
      · have hu' : ¬ t = u := fun h => hu h.symm
        rw [if_neg hu, List.filter_append, List.map_append, this]
        simp [hu']
    · exact h
  | go t =>
    obtain ⟨q, -, ok⟩ := hs
    have hp := ok.pos t
    show Acc (s.go t)
    unfold WqSt.go
    cases hpc : s.pc t with
    | idle => exact h
    | test c =>
      cases c
      case rem b m =>
        show Acc (if s.deque.isEmpty then _ else _)
        split
        · exact acc_finish h t _ _ rfl rfl rfl (by rw [hpc]; rfl)
        · exact acc_move h t _ rfl rfl rfl (by rw [hpc]; rfl)
      all_goals exact acc_finish h t _ _ rfl rfl rfl (by rw [hpc]; rfl)
    | lock c =>
      simp only [WqSt.tryLock]
      cases ho : s.owner with
      | none =>
        refine acc_move h t _ rfl rfl rfl ?_
        rw [hpc] at hp ⊢
        cases c <;> first | rfl | exact absurd rfl hp
      | some u =>
        cases c <;> first | exact h | exact acc_finish h t _ _ rfl rfl rfl (by rw [hpc]; rfl)
    | put c todo => cases todo <;> exact acc_move h t _ rfl rfl rfl (by rw [hpc]; rfl)
    | look b m n acc =>
      simp only [WqSt.lookStep]
      split
      · exact acc_move h t _ rfl rfl rfl (by rw [hpc]; rfl)
      · cases m with
        | none => exact acc_move h t _ rfl rfl rfl (by rw [hpc]; rfl)
        | some z => simp only; split <;> exact acc_move h t _ rfl rfl rfl (by rw [hpc]; rfl)
    | take b m n acc =>
      simp only [WqSt.takeStep]
      split
      · exact h
      · cases m <;> exact acc_move h t _ rfl rfl rfl (by rw [hpc]; rfl)
    | unlock c r => exact acc_finish h t _ _ rfl rfl rfl (by rw [hpc]; rfl)

theorem acc_run (l : List (WqAct α)) : Acc (WqSt.run l) := by
  suffices ∀ s : WqSt α, Inv s → Acc s → Acc (l.foldl WqSt.step s) from
    this _ (inv_run []) (by simp [Acc, WqSt.init, WqSt.begun, WqSt.done, WqPc.pending])
  induction l with
  | nil => exact fun s _ h => h
  | cons a l ih => exact fun s hi h => ih _ (inv_step a hi) (acc_step hi a h)

/-! ## The owner leaves -/

/-- How many more steps the owner makes at most. -/
def WqPc.todo (d : List α) : WqPc α → Nat
  | .put _ todo => todo.length + 2
  | .look .. => 2 * d.length + 2
  | .take .. => 2 * d.length + 1
  | .unlock .. => 1
  | _ => 0

/-- A step of the owner: it leaves, or stays and has less to do. -/
theorem owner_step {s : WqSt α} (h : Inv s) {t : Nat} (ho : s.owner = some t) :
    (s.go t).owner = none ∨
    ((s.go t).owner = some t ∧ ((s.go t).pc t).todo (s.go t).deque < (s.pc t).todo s.deque) := by
  obtain ⟨q, -, ok⟩ := h
  have hin := (ok.own t).1 ho
  have hp := ok.pos t
  unfold WqSt.go
  cases hpc : s.pc t with
  | idle => rw [hpc] at hin; cases hin
  | test c => rw [hpc] at hin; cases hin
  | lock c => rw [hpc] at hin; cases hin
  | put c todo => right; cases todo <;> simp [WqSt.setPc, ho, WqPc.todo]
  | look b m n acc =>
    right
    simp only [WqSt.lookStep]
    split
    · simp [WqSt.setPc, ho, WqPc.todo]
    · cases m with
      | none => simp [WqSt.setPc, ho, WqPc.todo]
      | some z => simp only; split <;> simp [WqSt.setPc, ho, WqPc.todo]
  | take b m n acc =>
    right
    rw [hpc] at hp
    have hne := hp.2.1
    simp only [WqSt.takeStep]
    have hl : (if b then s.deque.dropLast else s.deque.tail).length + 1 = s.deque.length := by
      have := List.length_pos_iff.2 hne
      cases b <;> simp <;> omega
    split
    · rename_i hx
      cases b <;> simp [hne] at hx
    · cases m with
      | none => simp [WqSt.setPc, ho, WqPc.todo]; omega
      | some z => simp only [WqSt.setPc, ho, WqPc.todo, if_true, true_and]; omega
  | unlock c r => left; simp

end CGraph.WsConc
