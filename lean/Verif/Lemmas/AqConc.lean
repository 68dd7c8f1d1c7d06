import Verif.Model.AqConc
import Verif.Spec.AqConc
import Verif.Lemmas.PoolRun

namespace CGraph.AqConc
open Spec
variable {α : Type}

/-- The call in the words of the specification. -/
def AqCall.spec : AqCall α → FqCall α
  | .push v => .add v
  | .tryPop => .rem 1
  | .tryPopN n => .rem n.toNat
  | .popPtr => .rem 1
  | .empty => .ask
  | .waitPop => .await
  | .popTimeout => .awaitFor
  | .reset => .close

/-- The result in the words of the specification. -/
def AqRes.spec : AqRes α → FqRes α
  | .done => .done
  | .got vs met => .got vs met
  | .empty b => .empty b

/-- The history in the words of the specification. -/
def AqSt.hist (s : AqSt α) : List (Nat × FqCall α × FqRes α) := s.log.map fun e => (e.1, e.2.1.spec, e.2.2.spec)

/-- The thread possesses the mutex. -/
def AqPc.inside : AqPc α → Bool
  | .put .. => true
  | .look .. => true
  | .take .. => true
  | .cond .. => true
  | .ask => true
  | .flag => true
  | .unlock .. => true
  | _ => false

/-- The call a thread is in and that has not taken effect. -/
def AqPc.pending : AqPc α → Option (AqCall α)
  | .idle => none
  | .test c => some c
  | .lock c => some c
  | .put v => some (.push v)
  | .look c _ _ => some c
  | .take c _ _ => some c
  | .cond c _ => some c
  | .sleep c => some c
  | .woken c _ => some c
  | .ask => some .empty
  | .flag => some .reset
  | .unlock c _ => some c
  | .tell _ => none

/-- A call that may sleep. -/
def AqCall.waits : AqCall α → Prop
  | .waitPop => True
  | .popTimeout => True
  | _ => False

/-- What is known of a thread at `p`; `d` and `f` are the contents and the flag, `q` what the completed calls left. -/
def Pos (d : List α) (f : Bool) (q : FqState α) : AqPc α → Prop
  | .idle => True
  | .tell _ => True
  | .test c => c = .tryPop ∨ ∃ z, c = .tryPopN z
  | .lock _ => True
  | .put _ => q = (d, f)
  | .look c n acc => q = (acc ++ d, f) ∧
      (match c with
        | .tryPop => acc = []
        | .popPtr => acc = []
        | .tryPopN z => n + acc.length = z ∧ (acc = [] ∨ 0 ≤ n)
        | _ => False)
  | .take c n acc => q = (acc ++ d, f) ∧ d ≠ [] ∧
      (match c with
        | .tryPop => acc = []
        | .popPtr => acc = []
        | .tryPopN z => n + 1 + acc.length = z ∧ 0 ≤ n
        | .waitPop => acc = []
        | .popTimeout => acc = [] ∧ f = true
        | _ => False)
  | .cond c _ => q = (d, f) ∧ c.waits
  | .sleep c => c.waits
  | .woken c _ => c.waits
  | .ask => q = (d, f)
  | .flag => q = (d, f)
  | .unlock c r => FqStep q c.spec r.spec (d, f)

/-- The state fits `q`. -/
structure Ok (s : AqSt α) (q : FqState α) : Prop where
  free : s.owner = none → q = (s.queue, s.ready)
  own : ∀ t, s.owner = some t ↔ (s.pc t).inside = true
  pos : ∀ t, Pos s.queue s.ready q (s.pc t)

/-- The invariant. -/
def Inv (s : AqSt α) : Prop := ∃ q, FqHist ([], true) s.hist q ∧ Ok s q

theorem pos_outside {d d' : List α} {f f' : Bool} {q q' : FqState α} {p : AqPc α} (h : p.inside = false)
    (hp : Pos d f q p) : Pos d' f' q' p := by
  cases p <;> first | exact hp | cases h

theorem Ok.upd {s : AqSt α} {q : FqState α} (h : Ok s q) (t : Nat) (p : AqPc α) {s' : AqSt α} {q' : FqState α}
    (hpc : s'.pc = fun k => if k = t then p else s.pc k)
    (hfree : s'.owner = none → q' = (s'.queue, s'.ready)) (ht : s'.owner = some t ↔ p.inside = true)
    (ho : ∀ u, u ≠ t → (s'.owner = some u ↔ s.owner = some u))
    (hd : ∀ u, u ≠ t → s.owner = some u → s'.queue = s.queue ∧ s'.ready = s.ready ∧ q' = q)
    (hp : Pos s'.queue s'.ready q' p) : Ok s' q' := by
  refine ⟨hfree, ?_, ?_⟩
  · intro u
    rw [hpc]
    by_cases hu : u = t
    · subst hu; simpa using ht
    · simp only [hu, if_false]; rw [ho u hu]; exact h.own u
  · intro u
    rw [hpc]
    by_cases hu : u = t
    · subst hu; simpa using hp
    · simp only [hu, if_false]
      cases hi : (s.pc u).inside with
      | false => exact pos_outside hi (h.pos u)
      | true =>
        obtain ⟨h1, h2, h3⟩ := hd u hu ((h.own u).2 hi)
        rw [h1, h2, h3]; exact h.pos u

/-- The thread changes only its own place, outside. -/
theorem Ok.out {s : AqSt α} {q : FqState α} (h : Ok s q) (t : Nat) (p : AqPc α) {s' : AqSt α}
    (hpc : s'.pc = fun k => if k = t then p else s.pc k) (hown : s'.owner = s.owner) (hdq : s'.queue = s.queue)
    (hr : s'.ready = s.ready) (ht : (s.pc t).inside = false) (hi : p.inside = false)
    (hp : Pos s'.queue s'.ready q p) : Ok s' q := by
  refine h.upd t p hpc (by rw [hown, hdq, hr]; exact h.free) ?_ (by rw [hown]; simp) (by simp [hdq, hr]) hp
  rw [hown, h.own t, ht, hi]

/-- The owner moves on inside. -/
theorem Ok.inn {s : AqSt α} {q : FqState α} (h : Ok s q) (t : Nat) (p : AqPc α) {s' : AqSt α}
    (hpc : s'.pc = fun k => if k = t then p else s.pc k) (hown : s'.owner = s.owner)
    (ht : (s.pc t).inside = true) (hi : p.inside = true) (hp : Pos s'.queue s'.ready q p) : Ok s' q := by
  have hot := (h.own t).2 ht
  refine h.upd t p hpc (by rw [hown, hot]; simp) (by rw [hown, hot]; simp [hi]) (by rw [hown]; simp) ?_ hp
  intro u hu h2; rw [hot] at h2; injection h2 with h2; exact absurd h2.symm hu

/-- The owner leaves. -/
theorem Ok.leave {s : AqSt α} {q q' : FqState α} (h : Ok s q) (t : Nat) (p : AqPc α) {s' : AqSt α}
    (hpc : s'.pc = fun k => if k = t then p else s.pc k) (hown : s'.owner = none) (ht : (s.pc t).inside = true)
    (hi : p.inside = false) (hq : q' = (s'.queue, s'.ready)) (hp : Pos s'.queue s'.ready q' p) : Ok s' q' := by
  have hot := (h.own t).2 ht
  refine h.upd t p hpc (fun _ => hq) (by rw [hown]; simp [hi]) ?_ ?_ hp
  · intro u hu; rw [hown, hot]; simp; exact fun h => hu h.symm
  · intro u hu h2; rw [hot] at h2; injection h2 with h2; exact absurd h2.symm hu

/-- Sleeping threads wake up. -/
theorem Ok.wakeup {s : AqSt α} {q : FqState α} (h : Ok s q) {s' : AqSt α} (hown : s'.owner = s.owner)
    (hdq : s'.queue = s.queue) (hr : s'.ready = s.ready)
    (hpc : ∀ u, s'.pc u = s.pc u ∨ s'.pc u = (s.pc u).wake) : Ok s' q := by
  have key : ∀ u, (s'.pc u).inside = (s.pc u).inside ∧ Pos s.queue s.ready q (s'.pc u) := by
    intro u
    have hp := h.pos u
    rcases hpc u with e | e
    · rw [e]; exact ⟨rfl, hp⟩
    · rw [e]
      cases hu : s.pc u <;> rw [hu] at hp <;> exact ⟨rfl, hp⟩
  exact ⟨by rw [hown, hdq, hr]; exact h.free, fun t => by rw [hown, (key t).1]; exact h.own t,
    fun t => by rw [hdq, hr]; exact (key t).2⟩

theorem hist_finish (s : AqSt α) (t : Nat) (c : AqCall α) (r : AqRes α) (p : AqPc α) :
    (s.finish t c r p).hist = s.hist ++ [(t, c.spec, r.spec)] := by simp [AqSt.hist, AqSt.finish, AqSt.setPc]

theorem notify_pc (n : Nat) (s : AqSt α) (all : Bool) (k u : Nat) :
    (s.notify n all k).pc u = s.pc u ∨ (s.notify n all k).pc u = (s.pc u).wake := by
  unfold AqSt.notify
  split
  · exact .inr rfl
  · split
    · exact .inl rfl
    · rename_i i _
      by_cases hu : u = i
      · subst hu; right; simp [AqSt.setPc]
      · left; simp [AqSt.setPc, hu]

theorem notify_rest (n : Nat) (s : AqSt α) (all : Bool) (k : Nat) :
    (s.notify n all k).owner = s.owner ∧ (s.notify n all k).queue = s.queue ∧ (s.notify n all k).ready = s.ready ∧
    (s.notify n all k).log = s.log ∧ (s.notify n all k).calls = s.calls := by
  unfold AqSt.notify
  split
  · exact ⟨rfl, rfl, rfl, rfl, rfl⟩
  · split <;> exact ⟨rfl, rfl, rfl, rfl, rfl⟩

/-- A removal without waiting takes nothing. -/
theorem step_nothing {q : FqState α} {c : AqCall α} (hc : c = .tryPop ∨ ∃ z, c = .tryPopN z) {met : Bool}
    (h : met = false → q.1 = []) : FqStep q c.spec (AqRes.got [] met).spec q := by
  have : ∀ k, FqStep q (.rem k) (.got [] met) q := by
    intro k
    refine ⟨rfl, ?_⟩
    cases met with
    | true => exact .inl ⟨rfl, rfl⟩
    | false => exact .inr ⟨by simp, .inl (h rfl)⟩
  rcases hc with rfl | ⟨z, rfl⟩ <;> exact this _

theorem inv_go {s : AqSt α} (n t k : Nat) (h : Inv s) : Inv (s.go n t k) := by
  obtain ⟨q, hh, h⟩ := h
  have hp := h.pos t
  have met : s.owner.isSome = false → q = (s.queue, s.ready) := by
    intro hm; apply h.free; cases ho : s.owner <;> simp [ho] at hm ⊢
  unfold AqSt.go
  cases hpc : s.pc t with
  | idle => exact ⟨q, hh, h⟩
  | sleep c => exact ⟨q, hh, h⟩
  | test c =>
    have hin : (s.pc t).inside = false := by rw [hpc]; rfl
    rw [hpc] at hp
    simp only
    split
    · rename_i he
      refine ⟨q, ?_, h.out t .idle rfl rfl rfl rfl hin rfl trivial⟩
      rw [hist_finish]
      exact .snoc t hh (step_nothing hp fun hm => by rw [met hm]; simpa using he)
    · exact ⟨q, hh, h.out t (.lock c) rfl rfl rfl rfl hin rfl trivial⟩
  | lock c =>
    have hin : (s.pc t).inside = false := by rw [hpc]; rfl
    simp only [AqSt.tryLock]
    cases ho : s.owner with
    | none =>
      simp only
      have hd := h.free ho
      refine ⟨q, hh, h.upd t c.enter rfl (by simp) ?_ ?_ ?_ ?_⟩
      · cases c <;> simp [AqCall.enter, AqPc.inside]
      · intro u hu; simp [ho]; exact fun h => hu h.symm
      · intro u _ h2; rw [ho] at h2; cases h2
      · show Pos s.queue s.ready q _
        cases c with
        | push v => exact hd
        | tryPop => exact ⟨hd, rfl⟩
        | tryPopN z => exact ⟨hd, by simp⟩
        | popPtr => exact ⟨hd, rfl⟩
        | empty => exact hd
        | waitPop => exact ⟨hd, trivial⟩
        | popTimeout => exact ⟨hd, trivial⟩
        | reset => exact hd
    | some u =>
      have hn : ∀ c : AqCall α, (c = .tryPop ∨ ∃ z, c = .tryPopN z) → Inv (s.finish t c (.got [] true) .idle) := by
        intro c hc
        refine ⟨q, ?_, h.out t .idle rfl rfl rfl rfl hin rfl trivial⟩
        rw [hist_finish]
        exact .snoc t hh (step_nothing hc (by simp))
      cases c <;> first | exact ⟨q, hh, h⟩ | exact hn _ (.inl rfl) | exact hn _ (.inr ⟨_, rfl⟩)
  | woken c late =>
    have hin : (s.pc t).inside = false := by rw [hpc]; rfl
    rw [hpc] at hp
    simp only [AqSt.tryLock]
    cases ho : s.owner with
    | none =>
      simp only
      have hd := h.free ho
      refine ⟨q, hh, h.upd t (.cond c late) rfl (by simp) (by simp [AqPc.inside]) ?_ ?_ ⟨hd, hp⟩⟩
      · intro u hu; simp [ho]; exact fun h => hu h.symm
      · intro u _ h2; rw [ho] at h2; cases h2
    | some u => cases c <;> first | exact ⟨q, hh, h⟩ | exact absurd hp (by simp [Pos, AqCall.waits])
  | put v =>
    have hin : (s.pc t).inside = true := by rw [hpc]; rfl
    rw [hpc] at hp
    refine ⟨q, hh, h.inn t (.unlock (.push v) .done) rfl rfl hin rfl ?_⟩
    have hp : q = (s.queue, s.ready) := hp
    show (s.queue ++ [v], s.ready) = (q.1 ++ [v], q.2)
    rw [hp]
  | ask =>
    have hin : (s.pc t).inside = true := by rw [hpc]; rfl
    rw [hpc] at hp
    have hp : q = (s.queue, s.ready) := hp
    refine ⟨q, hh, h.inn t (.unlock .empty (.empty s.queue.isEmpty)) rfl rfl hin rfl ⟨hp.symm, ?_⟩⟩
    rw [hp]; simp
  | flag =>
    have hin : (s.pc t).inside = true := by rw [hpc]; rfl
    rw [hpc] at hp
    have hp : q = (s.queue, s.ready) := hp
    refine ⟨q, hh, h.inn t (.unlock .reset .done) rfl rfl hin rfl ?_⟩
    show (s.queue, false) = (q.1, false)
    rw [hp]
  | cond c late =>
    have hin : (s.pc t).inside = true := by rw [hpc]; rfl
    rw [hpc] at hp
    obtain ⟨hq, hw⟩ := hp
    cases c with
    | waitPop =>
      simp only [AqSt.condStep]
      split
      · exact ⟨q, hh, h.leave t (.sleep .waitPop) rfl rfl hin rfl hq trivial⟩
      · rename_i he
        exact ⟨q, hh, h.inn t (.take .waitPop 0 []) rfl rfl hin rfl ⟨hq, by simpa [AqSt.setPc] using he, rfl⟩⟩
    | popTimeout =>
      have leave : (s.ready = false ∨ s.queue = []) →
          Inv (s.setPc t (.unlock .popTimeout (.got [] false))) := by
        intro hr
        refine ⟨q, hh, h.inn t _ rfl rfl hin rfl (.inr ⟨rfl, hq.symm, ?_⟩)⟩
        rw [hq]; exact hr
      simp only [AqSt.condStep]
      split
      · rename_i he
        have he : s.queue = [] ∧ s.ready = true := by simpa using he
        split
        · exact leave (.inr he.1)
        · exact ⟨q, hh, h.leave t (.sleep .popTimeout) rfl rfl hin rfl hq trivial⟩
      · rename_i he
        split
        · rename_i h2
          have h2 : s.queue = [] ∨ s.ready = false := by simpa using h2
          exact leave h2.symm
        · rename_i h2
          have h2 : s.queue ≠ [] ∧ s.ready = true := by simpa using h2
          exact ⟨q, hh, h.inn t (.take .popTimeout 0 []) rfl rfl hin rfl ⟨hq, h2.1, rfl, h2.2⟩⟩
    | _ => exact absurd hw (by simp [AqCall.waits])
  | look c m acc =>
    have hin : (s.pc t).inside = true := by rw [hpc]; rfl
    rw [hpc] at hp
    obtain ⟨hq, hc⟩ := hp
    have stop : ∀ k, acc.length ≤ k ∧ (s.queue = [] ∨ acc.length = k) →
        FqStep q (.rem k) (.got acc false) (s.queue, s.ready) := fun k hk => ⟨hq, .inr hk⟩
    simp only [AqSt.lookStep]
    split
    · rename_i he
      have he : s.queue = [] := by simpa using he
      refine ⟨q, hh, h.inn t (.unlock c (.got acc false)) rfl rfl hin rfl ?_⟩
      cases c with
      | tryPop => exact stop 1 ⟨by rw [hc]; simp, .inl he⟩
      | popPtr => exact stop 1 ⟨by rw [hc]; simp, .inl he⟩
      | tryPopN z =>
        refine stop _ ⟨?_, .inl he⟩
        rcases hc.2 with h1 | h1
        · rw [h1]; simp
        · have := hc.1; omega
      | _ => exact absurd hc (by simp)
    · rename_i he
      have hne : s.queue ≠ [] := by simpa using he
      cases c with
      | tryPop => exact ⟨q, hh, h.inn t _ rfl rfl hin rfl ⟨hq, hne, hc⟩⟩
      | popPtr => exact ⟨q, hh, h.inn t _ rfl rfl hin rfl ⟨hq, hne, hc⟩⟩
      | tryPopN z =>
        simp only at hc ⊢
        split
        · exact ⟨q, hh, h.inn t _ rfl rfl hin rfl ⟨hq, hne, by have := hc.1; omega, by omega⟩⟩
        · refine ⟨q, hh, h.inn t _ rfl rfl hin rfl (stop _ ?_)⟩
          have := hc.1
          rcases hc.2 with h1 | h1
          · subst h1; simp at this ⊢; omega
          · omega
      | _ => exact absurd hc (by simp)
  | take c m acc =>
    have hin : (s.pc t).inside = true := by rw [hpc]; rfl
    rw [hpc] at hp
    obtain ⟨hq, hne, hc⟩ := hp
    simp only [AqSt.takeStep]
    cases hd : s.queue with
    | nil => exact absurd hd hne
    | cons x d =>
      rw [hd] at hq
      have hq' : q = ((acc ++ [x]) ++ d, s.ready) := by rw [hq]; simp
      have one : acc = [] → q = (x :: d, s.ready) := by intro h; rw [hq, h]; rfl
      have onep : acc = [] → FqStep q (.rem 1) (.got (acc ++ [x]) false) (d, s.ready) := fun h =>
        ⟨hq', .inr ⟨by simp [h], .inr (by simp [h])⟩⟩
      simp only
      cases c with
      | tryPop => exact ⟨q, hh, h.inn t (.unlock .tryPop (.got (acc ++ [x]) false)) rfl rfl hin rfl (onep hc)⟩
      | popPtr => exact ⟨q, hh, h.inn t (.unlock .popPtr (.got (acc ++ [x]) false)) rfl rfl hin rfl (onep hc)⟩
      | tryPopN z =>
        refine ⟨q, hh, h.inn t (.look (.tryPopN z) m (acc ++ [x])) rfl rfl hin rfl ⟨hq', ?_⟩⟩
        simp only [List.length_append, List.length_singleton]
        have := hc.1; have := hc.2
        exact ⟨by omega, .inr hc.2⟩
      | waitPop =>
        exact ⟨q, hh, h.inn t (.unlock .waitPop (.got (acc ++ [x]) false)) rfl rfl hin rfl
          ⟨x, by rw [hc]; rfl, one hc⟩⟩
      | popTimeout =>
        refine ⟨q, hh, h.inn t (.unlock .popTimeout (.got (acc ++ [x]) false)) rfl rfl hin rfl
          (.inl ⟨by rw [hq]; exact hc.2, x, by rw [hc.1]; rfl, one hc.1⟩)⟩
      | _ => exact absurd hc (by simp)
  | unlock c r =>
    have hin : (s.pc t).inside = true := by rw [hpc]; rfl
    rw [hpc] at hp
    refine ⟨(s.queue, s.ready), ?_, h.leave t (AqSt.after c) rfl rfl hin (by cases c <;> rfl) rfl
      (by cases c <;> trivial)⟩
    show FqHist ([], true) (s.finish t c r (AqSt.after c)).hist _
    rw [hist_finish]; exact .snoc t hh hp
  | tell all =>
    have hin : (s.pc t).inside = false := by rw [hpc]; rfl
    have h1 : Ok (s.setPc t .idle) q := h.out t .idle rfl rfl rfl rfl hin rfl trivial
    obtain ⟨e1, e2, e3, e4, -⟩ := notify_rest n (s.setPc t .idle) all k
    refine ⟨q, ?_, h1.wakeup e1 e2 e3 (notify_pc n _ all k)⟩
    unfold AqSt.hist; simp only; rw [e4]; exact hh

theorem idle_of {p : AqPc α} (h : p.isIdle = true) : p = .idle := by
  cases p <;> first | rfl | cases h

theorem inv_step {s : AqSt α} (n : Nat) (a : AqAct α) (h : Inv s) : Inv (s.step n a) := by
  cases a with
  | go t k =>
    show Inv (if t < n then s.go n t k else s)
    split
    · exact inv_go n t k h
    · exact h
  | call t c =>
    unfold AqSt.step
    simp only
    split
    · rename_i hm
      obtain ⟨q, hh, h⟩ := h
      have hi : s.pc t = .idle := idle_of hm.2
      refine ⟨q, hh, h.out t c.first rfl rfl rfl rfl (by rw [hi]; rfl) (by cases c <;> rfl) ?_⟩
      cases c <;> simp [AqCall.first, Pos]
    · exact h
  | spurious t =>
    obtain ⟨q, hh, h⟩ := h
    refine ⟨q, hh, h.wakeup rfl rfl rfl fun u => ?_⟩
    by_cases hu : u = t
    · subst hu; right; simp [AqSt.step, AqSt.setPc]
    · left; simp [AqSt.step, AqSt.setPc, hu]
  | expire t =>
    simp only [AqSt.step]
    split
    · rename_i hpc
      obtain ⟨q, hh, h⟩ := h
      exact ⟨q, hh, h.out t _ rfl rfl rfl rfl (by rw [hpc]; rfl) rfl trivial⟩
    · rename_i hpc
      obtain ⟨q, hh, h⟩ := h
      exact ⟨q, hh, h.out t _ rfl rfl rfl rfl (by rw [hpc]; rfl) rfl trivial⟩
    · exact h

theorem inv_run (n : Nat) (l : List (AqAct α)) : Inv (AqSt.run n l) := by
  suffices ∀ s : AqSt α, Inv s → Inv (l.foldl (AqSt.step n) s) from
    this _ ⟨([], true), .nil _, fun _ => rfl, by simp [AqSt.init, AqPc.inside], fun _ => trivial⟩
  induction l with
  | nil => exact fun s h => h
  | cons a l ih => exact fun s h => ih _ (inv_step n a h)

/-! ## Every call takes effect once -/

/-- Thread `t` has begun these calls. -/
def AqSt.begun (s : AqSt α) (t : Nat) : List (AqCall α) := (s.calls.filter (·.1 == t)).map (·.2)

/-- These calls of thread `t` took effect. -/
def AqSt.done (s : AqSt α) (t : Nat) : List (AqCall α) := (s.log.filter (·.1 == t)).map (·.2.1)

/-- What was begun and has not taken effect is the call the thread is in. -/
def Acc (s : AqSt α) : Prop := ∀ t, s.begun t = s.done t ++ (s.pc t).pending.toList

theorem acc_move {s s' : AqSt α} (h : Acc s) (t : Nat) (p : AqPc α) (hpc : s'.pc = fun k => if k = t then p else s.pc k)
    (hc : s'.calls = s.calls) (hl : s'.log = s.log) (hp : p.pending = (s.pc t).pending) : Acc s' := by
  intro u
  have := h u
  simp only [AqSt.begun, AqSt.done, hc, hl, hpc] at this ⊢
  by_cases hu : u = t
  · subst hu; simp only [if_true, hp]; exact this
  · simp only [hu, if_false]; exact this

theorem acc_finish {s s' : AqSt α} (h : Acc s) (t : Nat) (c : AqCall α) (r : AqRes α) (p : AqPc α)
    (hpc : s'.pc = fun k => if k = t then p else s.pc k) (hi : p.pending = none)
    (hc : s'.calls = s.calls) (hl : s'.log = s.log ++ [(t, c, r)]) (hp : (s.pc t).pending = some c) : Acc s' := by
  intro u
  have := h u
  simp only [AqSt.begun, AqSt.done, hc, hl, hpc] at this ⊢
  by_cases hu : u = t
  · subst hu
    rw [hp] at this
    simp only [if_true, this, hi]
    simp
  · have hu' : ¬ t = u := fun h => hu h.symm
    simp only [hu, if_false, this]
    simp [hu']

theorem acc_wake {s s' : AqSt α} (h : Acc s) (hpc : ∀ u, s'.pc u = s.pc u ∨ s'.pc u = (s.pc u).wake)
    (hc : s'.calls = s.calls) (hl : s'.log = s.log) : Acc s' := by
  intro u
  have := h u
  have e : (s'.pc u).pending = (s.pc u).pending := by
    rcases hpc u with e | e
    · rw [e]
    · rw [e]; cases s.pc u <;> rfl
  simp only [AqSt.begun, AqSt.done, hc, hl, e] at this ⊢
  exact this

theorem acc_go {s : AqSt α} (n t k : Nat) (h : Acc s) : Acc (s.go n t k) := by
  unfold AqSt.go
  cases hpc : s.pc t with
  | idle => exact h
  | sleep c => exact h
  | test c =>
    simp only
    split
    · exact acc_finish h t _ _ .idle rfl rfl rfl rfl (by rw [hpc]; rfl)
    · exact acc_move h t _ rfl rfl rfl (by rw [hpc]; rfl)
  | lock c =>
    simp only [AqSt.tryLock]
    cases ho : s.owner with
    | none =>
      refine acc_move h t _ rfl rfl rfl ?_
      rw [hpc]
      cases c <;> rfl
    | some u => cases c <;> first | exact h | exact acc_finish h t _ _ .idle rfl rfl rfl rfl (by rw [hpc]; rfl)
  | woken c late =>
    simp only [AqSt.tryLock]
    cases ho : s.owner with
    | none => exact acc_move h t _ rfl rfl rfl (by rw [hpc]; rfl)
    | some u => cases c <;> first | exact h | exact acc_finish h t _ _ .idle rfl rfl rfl rfl (by rw [hpc]; rfl)
  | put v => exact acc_move h t _ rfl rfl rfl (by rw [hpc]; rfl)
  | ask => exact acc_move h t _ rfl rfl rfl (by rw [hpc]; rfl)
  | flag => exact acc_move h t _ rfl rfl rfl (by rw [hpc]; rfl)
  | look c m acc =>
    simp only [AqSt.lookStep]
    split
    · exact acc_move h t _ rfl rfl rfl (by rw [hpc]; rfl)
    · split
      · split <;> exact acc_move h t _ rfl rfl rfl (by rw [hpc]; rfl)
      · exact acc_move h t _ rfl rfl rfl (by rw [hpc]; rfl)
  | take c m acc =>
    simp only [AqSt.takeStep]
    split
    · exact h
    · refine acc_move h t _ rfl rfl rfl ?_
      rw [hpc]; cases c <;> rfl
  | cond c late =>
    simp only [AqSt.condStep]
    split
    · split <;> exact acc_move h t _ rfl rfl rfl (by rw [hpc]; rfl)
    · split
      · split <;> exact acc_move h t _ rfl rfl rfl (by rw [hpc]; rfl)
      · split <;> exact acc_move h t _ rfl rfl rfl (by rw [hpc]; rfl)
  | unlock c r =>
    exact acc_finish h t c r (AqSt.after c) rfl (by cases c <;> rfl) rfl rfl (by rw [hpc]; rfl)
  | tell all =>
    have h1 : Acc (s.setPc t .idle) := acc_move h t _ rfl rfl rfl (by rw [hpc]; rfl)
    obtain ⟨-, -, -, e4, e5⟩ := notify_rest n (s.setPc t .idle) all k
    exact acc_wake h1 (notify_pc n _ all k) e5 e4

theorem acc_step {s : AqSt α} (n : Nat) (a : AqAct α) (h : Acc s) : Acc (s.step n a) := by
  cases a with
  | call t c =>
    unfold AqSt.step
    simp only
    split
    · rename_i hm
      have hi : s.pc t = .idle := idle_of hm.2
      intro u
      have := h u
      simp only [AqSt.begun, AqSt.done] at this
      simp only [AqSt.begun, AqSt.done, AqSt.setPc]
      by_cases hu : u = t
      · subst hu
        rw [hi] at this
        simp only [if_true, List.filter_append, List.map_append, this]
        cases c <;> simp [AqPc.pending, AqCall.first]
      · have hu' : ¬ t = u := fun h => hu h.symm
        rw [if_neg hu, List.filter_append, List.map_append, this]
        simp [hu']
    · exact h
  | go t k =>
    show Acc (if t < n then s.go n t k else s)
    split
    · exact acc_go n t k h
    · exact h
  | spurious t =>
    refine acc_wake h (fun u => ?_) rfl rfl
    by_cases hu : u = t
    · subst hu; right; simp [AqSt.step, AqSt.setPc]
    · left; simp [AqSt.step, AqSt.setPc, hu]
  | expire t =>
    simp only [AqSt.step]
    split
    · rename_i hpc; exact acc_move h t _ rfl rfl rfl (by rw [hpc]; rfl)
    · rename_i hpc; exact acc_move h t _ rfl rfl rfl (by rw [hpc]; rfl)
    · exact h

theorem acc_run (n : Nat) (l : List (AqAct α)) : Acc (AqSt.run n l) := by
  suffices ∀ s : AqSt α, Acc s → Acc (l.foldl (AqSt.step n) s) from
    this _ (by simp [Acc, AqSt.init, AqSt.begun, AqSt.done, AqPc.pending])
  induction l with
  | nil => exact fun s h => h
  | cons a l ih => exact fun s h => ih _ (acc_step n a h)

/-! ## Nobody is forgotten -/

/-- Will see or pass on that there is a value. -/
def wt : AqPc α → Nat
  | .tell false => 1
  | .woken .. => 1
  | .cond .. => 1
  | .take .waitPop _ _ => 1
  | .take .popTimeout _ _ => 1
  | .unlock (.push _) _ => 1
  | _ => 0

/-- Will wake everybody. -/
def AqPc.telling : AqPc α → Bool
  | .unlock .reset _ => true
  | .tell true => true
  | _ => false

/-- Nobody sleeps in front of an open queue unless enough others are about to see or to pass on what is there; nobody
waits for a limited time at a closed queue unless somebody is about to wake everybody. -/
structure Wk (n : Nat) (s : AqSt α) : Prop where
  out : ∀ t, n ≤ t → s.pc t = .idle
  wake : s.ready = true → ∀ t, (s.pc t).asleep = true → s.queue.length ≤ sumN n fun k => wt (s.pc k)
  closed : s.ready = false → ∀ t, s.pc t = .sleep .popTimeout → ∃ u, (s.pc u).telling = true

theorem sum_upd {n : Nat} {s s' : AqSt α} {t : Nat} {p : AqPc α} (ht : t < n)
    (hpc : s'.pc = fun k => if k = t then p else s.pc k) :
    sumN n (fun k => wt (s'.pc k)) + wt (s.pc t) = sumN n (fun k => wt (s.pc k)) + wt p := by
  have := sumN_upd n (fun k => wt (s.pc k)) (fun k => wt (s'.pc k)) t ht (fun k hk => by simp [hpc, hk])
  simpa [hpc] using this

theorem Wk.one {n : Nat} {s s' : AqSt α} (h : Wk n s) {t : Nat} (p : AqPc α) (ht : t < n)
    (hpc : s'.pc = fun k => if k = t then p else s.pc k)
    (hs : p.asleep = true → s'.queue = [] ∧ s'.ready = true ∨ p ≠ .sleep .popTimeout ∧ s'.queue = [])
    (hl : s'.queue.length + wt (s.pc t) ≤ s.queue.length + wt p ∨ s'.queue = [] ∨ s.ready = false)
    (hr : s'.ready = s.ready ∨ p.telling = true ∧ s'.ready = false)
    (htl : (s.pc t).telling = true → p.telling = true) : Wk n s' := by
  refine ⟨?_, ?_, ?_⟩
  · intro u hu
    have : u ≠ t := by omega
    rw [hpc]; simp only [this, if_false]; exact h.out u hu
  · intro hr' u hu
    have hsum := sum_upd ht hpc
    have hsr : s.ready = true := by rcases hr with e | ⟨-, e⟩ <;> rw [e] at hr' <;> first | exact hr' | cases hr'
    rcases hl with hl | hl | hl
    · by_cases he : u = t
      · have : p.asleep = true := by rw [hpc] at hu; simpa [he] using hu
        have : s'.queue = [] := by rcases hs this with e | e
                                   · exact e.1
                                   · exact e.2
        rw [this]; simp
      · have : (s.pc u).asleep = true := by rw [hpc] at hu; simpa [he] using hu
        have := h.wake hsr u this
        omega
    · rw [hl]; simp
    · rw [hsr] at hl; cases hl
  · intro hr' u hu
    by_cases hp : p.telling = true
    · exact ⟨t, by rw [hpc]; simpa using hp⟩
    · have hsr : s.ready = false := by
        rcases hr with e | ⟨e, -⟩
        · rw [← e]; exact hr'
        · exact absurd e hp
      by_cases he : u = t
      · have e : p = .sleep .popTimeout := by rw [hpc] at hu; simpa [he] using hu
        rcases hs (by rw [e]; rfl) with h1 | h1
        · rw [hr'] at h1; cases h1.2
        · exact absurd e h1.1
      · have : s.pc u = .sleep .popTimeout := by rw [hpc] at hu; simpa [he] using hu
        obtain ⟨v, hv⟩ := h.closed hsr u this
        have hvt : v ≠ t := by rintro rfl; exact hp (htl hv)
        exact ⟨v, by rw [hpc]; simpa [hvt] using hv⟩

theorem pick_some {n : Nat} {s : AqSt α} {k i : Nat} (h : s.pick n k = some i) :
    i < n ∧ (s.pc i).asleep = true := by
  unfold AqSt.pick at h
  split at h
  · rename_i h1; simp only [Option.some.injEq] at h; subst h; exact h1
  · have h1 := List.find?_some h
    exact ⟨List.mem_range.1 (List.mem_of_find?_eq_some h), h1⟩

theorem pick_none {n : Nat} {s : AqSt α} {k : Nat} (h : s.pick n k = none) :
    ∀ i, i < n → (s.pc i).asleep = false := by
  unfold AqSt.pick at h
  split at h
  · simp at h
  · intro i hi
    simpa using List.find?_eq_none.1 h i (List.mem_range.2 hi)

theorem wk_tell {n : Nat} {s : AqSt α} (h : Wk n s) {t : Nat} (ht : t < n) (k : Nat) {all : Bool}
    (hpc : s.pc t = .tell all) : Wk n ((s.setPc t .idle).notify n all k) := by
  have hout : ∀ u, n ≤ u → (s.setPc t .idle).pc u = .idle := by
    intro u hu
    have : u ≠ t := by omega
    simp only [AqSt.setPc, this, if_false]; exact h.out u hu
  cases all with
  | true =>
    have hno : ∀ p : AqPc α, p.wake.asleep = false := by intro p; cases p <;> rfl
    refine ⟨?_, ?_, ?_⟩
    · intro u hu
      show ((s.setPc t .idle).pc u).wake = .idle
      rw [hout u hu]; rfl
    · intro _ u hu
      have : (((s.setPc t .idle).pc u).wake).asleep = true := hu
      rw [hno] at this; cases this
    · intro _ u hu
      have e : ((s.setPc t .idle).pc u).wake = .sleep .popTimeout := hu
      have := hno ((s.setPc t .idle).pc u)
      rw [e] at this; cases this
  | false =>
    have hsum := sum_upd (s' := s.setPc t .idle) (p := .idle) ht rfl
    rw [hpc] at hsum
    have hsum : sumN n (fun k => wt ((s.setPc t .idle).pc k)) + 1 = sumN n (fun k => wt (s.pc k)) := hsum
    have hcl : s.ready = false → ∀ u, (s.setPc t .idle).pc u = .sleep .popTimeout →
        ∃ v, ((s.setPc t .idle).pc v).telling = true := by
      intro hr u hu
      by_cases he : u = t
      · simp [AqSt.setPc, he] at hu
      · simp only [AqSt.setPc, he, if_false] at hu
        obtain ⟨v, hv⟩ := h.closed hr u hu
        have hvt : v ≠ t := by rintro rfl; rw [hpc] at hv; cases hv
        exact ⟨v, by simpa [AqSt.setPc, hvt] using hv⟩
    simp only [AqSt.notify, Bool.false_eq_true, if_false]
    cases hp : (s.setPc t .idle).pick n k with
    | none =>
      simp only
      have hno := pick_none hp
      refine ⟨hout, ?_, hcl⟩
      intro _ u hu
      by_cases hun : u < n
      · rw [hno u hun] at hu; cases hu
      · rw [hout u (by omega)] at hu; cases hu
    | some i =>
      simp only
      obtain ⟨hi, his⟩ := pick_some hp
      have hsum2 := sum_upd (s := s.setPc t .idle) (s' := (s.setPc t .idle).setPc i ((s.setPc t .idle).pc i).wake)
        (p := ((s.setPc t .idle).pc i).wake) hi rfl
      have w1 : wt ((s.setPc t .idle).pc i) = 0 := by
        revert his; cases (s.setPc t .idle).pc i <;> intro h <;> first | rfl | cases h
      have w2 : wt ((s.setPc t .idle).pc i).wake = 1 := by
        revert his; cases (s.setPc t .idle).pc i <;> intro h <;> first | rfl | cases h
      have hit : i ≠ t := by rintro rfl; simp [AqSt.setPc, AqPc.asleep] at his
      have his' : (s.pc i).asleep = true := by simpa [AqSt.setPc, hit] using his
      refine ⟨?_, ?_, ?_⟩
      · intro u hu
        have : u ≠ i := by omega
        have h2 := hout u hu
        simp only [AqSt.setPc, this, if_false] at h2 ⊢; exact h2
      · intro hr u _
        have := h.wake hr i his'
        show s.queue.length ≤ _
        omega
      · intro hr u hu
        have hui : u ≠ i := by
          rintro rfl
          have e : ((s.setPc t .idle).pc u).wake = .sleep .popTimeout := by
            have := hu; simp only [AqSt.setPc, if_true] at this ⊢; exact this
          rw [e] at w2; cases w2
        have hu' : (s.setPc t .idle).pc u = .sleep .popTimeout := by
          have := hu; simp only [AqSt.setPc, hui, if_false] at this ⊢; exact this
        obtain ⟨v, hv⟩ := hcl hr u hu'
        have hvi : v ≠ i := by
          rintro rfl
          revert his hv; cases (s.setPc t .idle).pc v <;> intro h1 h2 <;> first | cases h1 | cases h2
        refine ⟨v, ?_⟩
        have : ((s.setPc t .idle).setPc i ((s.setPc t .idle).pc i).wake).pc v = (s.setPc t .idle).pc v := by
          simp [AqSt.setPc, hvi]
        rw [this]; exact hv

theorem wk_go {n : Nat} {s : AqSt α} (hi : Inv s) (h : Wk n s) {t : Nat} (ht : t < n) (k : Nat) :
    Wk n (s.go n t k) := by
  obtain ⟨q, -, ok⟩ := hi
  have hp := ok.pos t
  unfold AqSt.go
  cases hpc : s.pc t with
  | idle => exact h
  | sleep c => exact h
  | tell all => exact wk_tell h ht k hpc
  | test c =>
    simp only
    split <;>
      exact h.one _ ht rfl (by simp [AqPc.asleep]) (.inl (by rw [hpc]; simp [AqSt.finish, AqSt.setPc, wt])) (.inl rfl)
        (by rw [hpc]; simp [AqPc.telling])
  | lock c =>
    simp only [AqSt.tryLock]
    cases ho : s.owner with
    | none =>
      refine h.one _ ht rfl (by cases c <;> simp [AqPc.asleep, AqCall.enter])
        (.inl (by rw [hpc]; simp [AqSt.setPc, wt])) (.inl rfl) (by rw [hpc]; simp [AqPc.telling])
    | some u =>
      cases c <;> first
        | exact h
        | exact h.one _ ht rfl (by simp [AqPc.asleep]) (.inl (by rw [hpc]; simp [AqSt.finish, AqSt.setPc, wt])) (.inl rfl)
            (by rw [hpc]; simp [AqPc.telling])
  | woken c late =>
    rw [hpc] at hp
    simp only [AqSt.tryLock]
    cases ho : s.owner with
    | none =>
      refine h.one _ ht rfl (by simp [AqPc.asleep])
        (.inl (by rw [hpc]; simp [AqSt.setPc, wt])) (.inl rfl) (by rw [hpc]; simp [AqPc.telling])
    | some u => cases c <;> first | exact h | exact absurd hp (by simp [Pos, AqCall.waits])
  | put v =>
    exact h.one _ ht rfl (by simp [AqPc.asleep]) (.inl (by rw [hpc]; simp [wt])) (.inl rfl)
      (by rw [hpc]; simp [AqPc.telling])
  | ask =>
    exact h.one _ ht rfl (by simp [AqPc.asleep]) (.inl (by rw [hpc]; simp [AqSt.setPc, wt])) (.inl rfl)
      (by rw [hpc]; simp [AqPc.telling])
  | flag =>
    exact h.one _ ht rfl (by simp [AqPc.asleep]) (.inl (by rw [hpc]; simp [AqSt.setPc, wt])) (.inr ⟨rfl, rfl⟩)
      (by rw [hpc]; simp [AqPc.telling])
  | look c m acc =>
    have go : ∀ p : AqPc α, p.asleep = false → Wk n (s.setPc t p) := fun p hpa =>
      h.one _ ht rfl (by simp [hpa]) (.inl (by rw [hpc]; simp [AqSt.setPc, wt])) (.inl rfl)
        (by rw [hpc]; simp [AqPc.telling])
    simp only [AqSt.lookStep]
    split
    · exact go _ rfl
    · split
      · split <;> exact go _ rfl
      · exact go _ rfl
  | take c m acc =>
    simp only [AqSt.takeStep]
    split
    · exact h
    · rename_i x d hd
      refine h.one _ ht rfl (by cases c <;> simp [AqPc.asleep]) (.inl ?_) (.inl rfl)
        (by rw [hpc]; cases c <;> simp [AqPc.telling])
      rw [hpc, hd]
      cases c <;> simp [wt] <;> omega
  | cond c late =>
    rw [hpc] at hp
    obtain ⟨-, hw⟩ := hp
    have leave : s.queue = [] ∨ s.ready = false → Wk n (s.setPc t (.unlock .popTimeout (.got [] false))) := fun hr =>
      h.one _ ht rfl (by simp [AqPc.asleep]) (.inr hr) (.inl rfl) (by rw [hpc]; simp [AqPc.telling])
    cases c with
    | waitPop =>
      simp only [AqSt.condStep]
      split
      · rename_i he
        have he : s.queue = [] := by simpa using he
        exact h.one _ ht rfl (fun _ => .inr ⟨by simp, he⟩) (.inr (.inl he)) (.inl rfl)
          (by rw [hpc]; simp [AqPc.telling])
      · exact h.one _ ht rfl (by simp [AqPc.asleep]) (.inl (by rw [hpc]; simp [AqSt.setPc, wt])) (.inl rfl)
          (by rw [hpc]; simp [AqPc.telling])
    | popTimeout =>
      simp only [AqSt.condStep]
      split
      · rename_i he
        have he : s.queue = [] ∧ s.ready = true := by simpa using he
        split
        · exact leave (.inl he.1)
        · exact h.one _ ht rfl (fun _ => .inl he) (.inr (.inl he.1)) (.inl rfl) (by rw [hpc]; simp [AqPc.telling])
      · split
        · rename_i h2
          exact leave (by simpa using h2)
        · exact h.one _ ht rfl (by simp [AqPc.asleep]) (.inl (by rw [hpc]; simp [AqSt.setPc, wt])) (.inl rfl)
            (by rw [hpc]; simp [AqPc.telling])
    | _ => exact absurd hw (by simp [AqCall.waits])
  | unlock c r =>
    refine h.one _ ht rfl (by cases c <;> simp [AqPc.asleep, AqSt.after]) (.inl ?_) (.inl rfl)
      (by rw [hpc]; cases c <;> simp [AqPc.telling, AqSt.after])
    rw [hpc]
    cases c <;> simp [wt, AqSt.after, AqSt.finish, AqSt.setPc]

theorem wk_step {n : Nat} {s : AqSt α} (hi : Inv s) (h : Wk n s) (a : AqAct α) : Wk n (s.step n a) := by
  cases a with
  | call t c =>
    unfold AqSt.step
    simp only
    split
    · rename_i hm
      have hi : s.pc t = .idle := idle_of hm.2
      exact h.one c.first hm.1 rfl (by cases c <;> simp [AqPc.asleep, AqCall.first])
        (.inl (by rw [hi]; simp [AqSt.setPc, wt])) (.inl rfl) (by rw [hi]; simp [AqPc.telling])
    · exact h
  | go t k =>
    show Wk n (if t < n then s.go n t k else s)
    split
    · rename_i ht; exact wk_go hi h ht k
    · exact h
  | spurious t =>
    by_cases ht : t < n
    · refine h.one _ ht rfl ?_ (.inl ?_) (.inl rfl) ?_
      · cases s.pc t <;> simp [AqPc.wake, AqPc.asleep]
      · show s.queue.length + _ ≤ _
        cases s.pc t <;> simp [AqPc.wake, wt]
      · cases s.pc t <;> simp [AqPc.wake, AqPc.telling]
    · have e := h.out t (by omega)
      have : s.step n (.spurious t) = s := by
        show s.setPc t _ = s
        unfold AqSt.setPc
        congr
        funext u
        by_cases hu : u = t
        · subst hu; simp [e, AqPc.wake]
        · simp [hu]
      rw [this]; exact h
  | expire t =>
    have lt : s.pc t ≠ .idle → t < n := fun hne => by
      by_cases ht : t < n
      · exact ht
      · exact absurd (h.out t (by omega)) hne
    simp only [AqSt.step]
    split
    · rename_i hpc
      exact h.one _ (lt (by rw [hpc]; simp)) rfl (by simp [AqPc.asleep]) (.inl (by rw [hpc]; simp [AqSt.setPc, wt])) (.inl rfl)
        (by rw [hpc]; simp [AqPc.telling])
    · rename_i hpc
      exact h.one _ (lt (by rw [hpc]; simp)) rfl (by simp [AqPc.asleep]) (.inl (by rw [hpc]; simp [AqSt.setPc, wt])) (.inl rfl)
        (by rw [hpc]; simp [AqPc.telling])
    · exact h

theorem wk_run (n : Nat) (l : List (AqAct α)) : Wk n (AqSt.run n l) := by
  suffices ∀ s : AqSt α, Inv s → Wk n s → Wk n (l.foldl (AqSt.step n) s) from
    this _ (inv_run n []) ⟨fun _ _ => rfl, by simp [AqSt.init, AqPc.asleep], by simp [AqSt.init]⟩
  induction l with
  | nil => exact fun s _ h => h
  | cons a l ih => exact fun s hi h => ih _ (inv_step n a hi) (wk_step hi h a)

/-! ## The owner leaves -/

/-- How many more steps the owner makes at most. -/
def AqPc.todo (d : List α) : AqPc α → Nat
  | .put _ => 2
  | .look .. => 2 * d.length + 2
  | .take .. => 2 * d.length + 1
  | .cond .. => 2 * d.length + 2
  | .ask => 2
  | .flag => 2
  | .unlock .. => 1
  | _ => 0

/-- A step of the owner: it leaves, or stays and has less to do. -/
theorem owner_step {n : Nat} {s : AqSt α} (h : Inv s) {t : Nat} (k : Nat) (ho : s.owner = some t) :
    (s.go n t k).owner = none ∨
    ((s.go n t k).owner = some t ∧ ((s.go n t k).pc t).todo (s.go n t k).queue < (s.pc t).todo s.queue) := by
  obtain ⟨q, -, ok⟩ := h
  have hin := (ok.own t).1 ho
  have hp := ok.pos t
  unfold AqSt.go
  cases hpc : s.pc t with
  | idle => rw [hpc] at hin; cases hin
  | test c => rw [hpc] at hin; cases hin
  | lock c => rw [hpc] at hin; cases hin
  | sleep c => rw [hpc] at hin; cases hin
  | woken c l => rw [hpc] at hin; cases hin
  | tell a => rw [hpc] at hin; cases hin
  | put v => right; simp [AqSt.setPc, ho, AqPc.todo]
  | ask => right; simp [AqSt.setPc, ho, AqPc.todo]
  | flag => right; simp [AqSt.setPc, ho, AqPc.todo]
  | look c m acc =>
    right
    simp only [AqSt.lookStep]
    split
    · simp [AqSt.setPc, ho, AqPc.todo]
    · split
      · split <;> simp [AqSt.setPc, ho, AqPc.todo]
      · simp [AqSt.setPc, ho, AqPc.todo]
  | cond c late =>
    simp only [AqSt.condStep]
    split
    · split
      · left; rfl
      · right; simp [AqSt.setPc, ho, AqPc.todo]
    · split
      · split
        · right; simp [AqSt.setPc, ho, AqPc.todo]
        · left; rfl
      · right; split <;> simp [AqSt.setPc, ho, AqPc.todo]
  | take c m acc =>
    right
    rw [hpc] at hp
    have hne := hp.2.1
    simp only [AqSt.takeStep]
    cases hd : s.queue with
    | nil => exact absurd hd hne
    | cons x d =>
      simp only [AqSt.setPc, ho, if_true, true_and]
      split <;> simp only [AqPc.todo, List.length_cons] <;> omega
  | unlock c r => left; simp

end CGraph.AqConc
