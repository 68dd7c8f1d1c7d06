import Verif.Lemmas.WsConc
import Verif.Props.Queues

/-! # C107 — the work stealing queue, used by many threads -/
namespace CGraph.WsConc
open Spec
variable {α : Type}

/-- **C107 (at once)** After any schedule there is an order of the calls of all threads, each at a moment between its
beginning and its end, that a queue executing one call after the other could have produced, with the same results; and
when no thread is inside, the contents are what that queue would hold. -/
theorem C107_atomic (l : List (WqAct α)) :
    ∃ q, DqHist [] (WqSt.run l).hist q ∧ ((WqSt.run l).owner = none → (WqSt.run l).deque = q) := by
  obtain ⟨q, h1, h2⟩ := inv_run l
  exact ⟨q, h1, h2.free⟩

/-- **C107 (every call once)** The calls of a thread take effect in the order in which it makes them, each once: at
most the last one, which the thread is still in, has not taken effect. -/
theorem C107_once (l : List (WqAct α)) (t : Nat) :
    (WqSt.run l).begun t = (WqSt.run l).done t ++ ((WqSt.run l).pc t).pending.toList := acc_run l t

/-- **C107 (conservation)** Whatever was pushed has been removed once or is still there. -/
theorem C107_conserved [DecidableEq α] (l : List (WqAct α)) (h : (WqSt.run l).owner = none) (v : α) :
    (((WqSt.run l).log.map fun e => match e.2.2, e.2.1.values with
      | .pushed true, some vs => vs.count v | _, _ => 0).sum) =
    (((WqSt.run l).log.map fun e => match e.2.2 with | .got vs _ => vs.count v | _ => 0).sum) +
      (WqSt.run l).deque.count v := by
  obtain ⟨q, h1, h2⟩ := inv_run l
  rw [h2.free h]
  clear h2 h
  generalize WqSt.run l = s at h1
  unfold WqSt.hist at h1
  generalize hq : ([] : List α) = q0 at h1
  suffices ∀ (log : List (Nat × WqCall α × WqRes α)) (h : List (Nat × DqCall α × DqRes α)) (q0 q : List α),
      DqHist q0 h q → h = log.map (fun e => (e.1, e.2.1.spec, e.2.2.spec)) →
      q0.count v + ((log.map fun e => match e.2.2, e.2.1.values with
        | .pushed true, some vs => vs.count v | _, _ => 0).sum) =
      ((log.map fun e => match e.2.2 with | .got vs _ => vs.count v | _ => 0).sum) + q.count v by
    have := this s.log _ q0 q h1 rfl
    subst hq
    simpa using this
  intro log h q0 q hh
  induction hh generalizing log with
  | nil =>
    intro he
    have : log = [] := by simpa using he.symm
    subst this; simp
  | snoc t a b ih =>
    intro he
    rcases List.eq_nil_or_concat log with rfl | ⟨log', e, rfl⟩
    · simp at he
    · rw [List.concat_eq_append, List.map_append] at he
      obtain ⟨he1, he2⟩ := List.append_inj' he rfl
      have ih := ih _ he1
      simp only [List.map_cons, List.map_nil, List.cons.injEq, Prod.mk.injEq, and_true] at he2
      obtain ⟨-, hc, hr⟩ := he2
      rw [hc, hr] at b
      obtain ⟨t', c, r⟩ := e
      simp only [List.concat_eq_append, List.map_append, List.sum_append, List.map_cons, List.map_nil, List.sum_cons,
        List.sum_nil]
      have key : ∀ {x y : List α} {c : WqCall α} {r : WqRes α}, DqStep x c.spec r.spec y →
          (match r, c.values with | .pushed true, some vs => vs.count v | _, _ => 0) + x.count v =
          (match r with | .got vs _ => vs.count v | _ => 0) + y.count v := by
        intro x y c r hs
        cases c with
        | rem back m =>
          cases r with
          | got vs met =>
            have : (if back then x = y ++ vs.reverse else x = vs ++ y) := by cases m <;> exact hs.1
            cases back <;> simp at this <;> subst this <;> simp [Nat.add_comm]
          | pushed b => cases m <;> cases b <;> exact absurd hs (by simp [WqCall.spec, WqRes.spec, DqStep])
          | empty b met => cases m <;> exact absurd hs (by simp [WqCall.spec, WqRes.spec, DqStep])
        | isEmpty =>
          cases r with
          | empty b met => have := hs.1; subst this; simp
          | pushed b => cases b <;> exact absurd hs (by simp [WqCall.spec, WqRes.spec, DqStep])
          | got vs met => exact absurd hs (by simp [WqCall.spec, WqRes.spec, DqStep])
        | push w =>
          cases r with
          | pushed b =>
            cases b with
            | true => have : y = x ++ [w] := hs
                      subst this; simp [WqCall.values, Nat.add_comm]
            | false => have : y = x := hs.2
                       subst this; simp
          | got vs met => exact absurd hs (by simp [WqCall.spec, WqRes.spec, DqStep])
          | empty b met => exact absurd hs (by simp [WqCall.spec, WqRes.spec, DqStep])
        | tryPush w =>
          cases r with
          | pushed b =>
            cases b with
            | true => have : y = x ++ [w] := hs
                      subst this; simp [WqCall.values, Nat.add_comm]
            | false => have : y = x := hs.2
                       subst this; simp
          | got vs met => exact absurd hs (by simp [WqCall.spec, WqRes.spec, DqStep])
          | empty b met => exact absurd hs (by simp [WqCall.spec, WqRes.spec, DqStep])
        | pushAll w =>
          cases r with
          | pushed b =>
            cases b with
            | true => have : y = x ++ w := hs
                      subst this; simp [WqCall.values, Nat.add_comm]
            | false => have : y = x := hs.2
                       subst this; simp
          | got vs met => exact absurd hs (by simp [WqCall.spec, WqRes.spec, DqStep])
          | empty b met => exact absurd hs (by simp [WqCall.spec, WqRes.spec, DqStep])
        | batch w =>
          cases r with
          | pushed b =>
            cases b with
            | true => have : y = x ++ w := hs
                      subst this; simp [WqCall.values, Nat.add_comm]
            | false => have : y = x := hs.2
                       subst this; simp
          | got vs met => exact absurd hs (by simp [WqCall.spec, WqRes.spec, DqStep])
          | empty b met => exact absurd hs (by simp [WqCall.spec, WqRes.spec, DqStep])
      have key := key b
      generalize (match r, c.values with | .pushed true, some vs => vs.count v | _, _ => 0) = A at key ⊢
      generalize (match r with | .got vs _ => vs.count v | _ => 0) = B at key ⊢
      omega

/-- What a removal may take is determined by the contents. -/
theorem step_taken {q q' vs : List α} {k : Nat} {b : Bool}
    (h : DqStep q (.rem b (some k)) (.got vs false) q') :
    (if b then q' = (q.reverse.drop k).reverse ∧ vs = q.reverse.take k else q' = q.drop k ∧ vs = q.take k) := by
  obtain ⟨h1, h2⟩ := h
  have h2 : vs.length ≤ k ∧ (q' = [] ∨ k = vs.length) := by
    rcases h2 with h2 | h2
    · exact absurd h2.1 (by simp)
    · exact ⟨h2.1 k rfl, h2.2.imp id fun e => by injection e⟩
  have gen : ∀ x y z : List α, x = y ++ z → y.length ≤ k → (z = [] ∨ k = y.length) → z = x.drop k ∧ y = x.take k := by
    intro x y z hx hl hz
    subst hx
    rcases hz with rfl | rfl
    · rw [List.append_nil, List.drop_eq_nil_of_le hl, List.take_of_length_le hl]; exact ⟨rfl, rfl⟩
    · simp
  cases b with
  | false => exact gen q vs q' h1 h2.1 h2.2
  | true =>
    have h1 : q = q' ++ vs.reverse := h1
    have := gen q.reverse vs q'.reverse (by simp [h1]) h2.1 (h2.2.imp (by simp) id)
    exact ⟨by rw [← this.1, List.reverse_reverse], this.2⟩

/-- **C107 (the pool's model)** A removal that was not disturbed took what the methods of `WsQueue`, with which the
pool is modelled, take. -/
theorem C107_pool {q q' vs : List α} (n : Nat) :
    (DqStep q (WqCall.rem false (some (n : Int))).spec (WqRes.got vs false).spec q' →
      WsQueue.tryPopN true q n = (q', vs)) ∧
    (DqStep q (WqCall.rem true (some (n : Int))).spec (WqRes.got vs false).spec q' →
      WsQueue.tryStealN true q n = (q', vs)) ∧
    (DqStep q (WqCall.rem false none).spec (WqRes.got vs false).spec q' →
      WsQueue.tryPop true q = (q', vs.head?)) ∧
    (DqStep q (WqCall.rem true none).spec (WqRes.got vs false).spec q' →
      WsQueue.trySteal true q = (q', vs.head?)) := by
  obtain ⟨e1, e2, e3, e4⟩ := C08_ends q n
  have hn : (if (n : Int) < 0 then none else some (n : Int).toNat) = some n := by simp
  refine ⟨fun h => ?_, fun h => ?_, fun h => ?_, fun h => ?_⟩
  · simp only [WqCall.spec, hn] at h
    have := step_taken h
    rw [e3, this.1, this.2]
  · simp only [WqCall.spec, hn] at h
    have := step_taken h
    rw [e4, this.1, this.2]
  · have := step_taken (k := 1) h
    rw [e1, this.1, this.2]
    cases q <;> simp
  · have := step_taken (k := 1) h
    rw [e2, this.1, this.2]
    rcases List.eq_nil_or_concat q with rfl | ⟨q, x, rfl⟩ <;> simp

/-- **C107 (released)** A thread that got the mutex gives it back after finitely many of its own steps. -/
theorem C107_release (l : List (WqAct α)) (t : Nat) (h : (WqSt.run l).owner = some t) :
    ∃ n, (WqSt.run (l ++ List.replicate n (.go t))).owner = none := by
  suffices ∀ k l, (WqSt.run l).owner = some t → ((WqSt.run l).pc t).todo (WqSt.run l).deque < k →
      ∃ n, (WqSt.run (l ++ List.replicate n (.go t))).owner = none from
    this _ l h (Nat.lt_succ_self _)
  intro k
  induction k with
  | zero => intro l _ hk; omega
  | succ k ih =>
    intro l ho hk
    have e : WqSt.run (l ++ [.go t]) = (WqSt.run l).go t := by simp [WqSt.run, WqSt.step]
    rcases owner_step (inv_run l) ho with h1 | ⟨h1, h2⟩
    · exact ⟨1, by rw [List.replicate_one, e]; exact h1⟩
    · obtain ⟨n, hn⟩ := ih (l ++ [.go t]) (by rw [e]; exact h1) (by rw [e]; omega)
      exact ⟨n + 1, by rwa [List.append_assoc, ← List.replicate_one, List.replicate_append_replicate,
        Nat.add_comm] at hn⟩

/-- Two threads are about to access the deque at the same time, one of them modifying it: a data race. -/
def Race (s : WqSt α) (t u : Nat) : Prop :=
  t ≠ u ∧ (s.pc t).access = .write ∧ (s.pc u).access ≠ .none

/-- **C107 (only the owner modifies)** Nobody but the possessor of the mutex modifies the deque, and the only accesses
that can meet a modification are the tests for emptiness made without the mutex, by `isEmpty`, `tryPop` and `trySteal`. -/
theorem C107_race_partial (l : List (WqAct α)) (t u : Nat) (h : Race (WqSt.run l) t u) :
    (WqSt.run l).owner = some t ∧
    ((WqSt.run l).pc u = .test .isEmpty ∨ ∃ b m, (WqSt.run l).pc u = .test (.rem b m)) := by
  obtain ⟨q, -, ok⟩ := inv_run l
  obtain ⟨hne, hw, hu⟩ := h
  have ht : (WqSt.run l).owner = some t := by
    rw [ok.own t]
    cases hp : (WqSt.run l).pc t <;> rw [hp] at hw <;> first | rfl | simp [WqPc.access] at hw
  refine ⟨ht, ?_⟩
  have hnu : ((WqSt.run l).pc u).inside = false := by
    cases hi : ((WqSt.run l).pc u).inside with
    | false => rfl
    | true => have := (ok.own u).2 hi; rw [ht] at this; injection this with this; exact absurd this hne
  have hpos := ok.pos u
  cases hp : (WqSt.run l).pc u with
  | test c =>
    rw [hp] at hpos
    cases c with
    | rem b m => exact .inr ⟨b, m, rfl⟩
    | isEmpty => exact .inl rfl
    | push v => cases hpos
    | tryPush v => cases hpos
    | pushAll v => cases hpos
    | batch v => cases hpos
  | idle => rw [hp] at hu; simp [WqPc.access] at hu
  | lock c => rw [hp] at hu; simp [WqPc.access] at hu
  | put c td => rw [hp] at hnu; cases hnu
  | look b m n acc => rw [hp] at hnu; cases hnu
  | take b m n acc => rw [hp] at hnu; cases hnu
  | unlock c r => rw [hp] at hnu; cases hnu

/-- **C107 (data race)** The accesses of the deque are not all protected: while one thread pushes, another reads the
deque in `tryPop`. -/
theorem C107_race_violated : ∃ l : List (WqAct Nat), Race (WqSt.run l) 0 1 :=
  ⟨[.call 0 (.push 7), .call 1 (.rem false none), .go 0], by unfold Race; decide⟩

/-! Three threads: a batch, a steal that meets it, a pop of two, a push, a steal. -/

/-- The schedule of the example. -/
def exRun : List (WqAct Nat) :=
  [.call 0 (.batch [1, 2, 3]), .go 0, .go 0, .call 1 (.rem true none), .go 1, .go 1, .call 2 (.push 4), .go 2, .go 0,
   .go 0, .go 0, .go 0, .go 2, .call 1 (.rem false (some 2)), .go 1, .go 2, .go 2, .go 2, .go 1, .go 1, .go 1, .go 1,
   .go 1, .go 1, .go 1, .call 0 (.rem true none), .go 0, .go 0, .go 0, .go 0, .go 0, .call 2 .isEmpty, .go 2]

example : (WqSt.run exRun).log =
    [(1, .rem true none, .got [] true), (0, .batch [1, 2, 3], .pushed true), (2, .push 4, .pushed true),
     (1, .rem false (some 2), .got [1, 2] false), (0, .rem true none, .got [4] false),
     (2, .isEmpty, .empty false false)] ∧
    (WqSt.run exRun).deque = [3] ∧ (WqSt.run exRun).owner = none := by decide +kernel

example : (WqSt.run (exRun.take 6)).owner = some 0 ∧ (WqSt.run (exRun.take 6)).deque = [1] := by decide +kernel

end CGraph.WsConc
