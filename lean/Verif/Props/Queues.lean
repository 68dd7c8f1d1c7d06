import Verif.Lemmas.Queues
import Verif.Lemmas.LfRing

set_option linter.unusedSectionVars false

/-! # C05 – C12: queues, semaphore, spin lock -/
namespace CGraph
open Spec

/-! ## C05, C06 — bounded channel -/

/-- The push strategy for a policy (same names in the source). -/
def strategyOf : Policy → PushStrategy
  | .wait => .WAIT
  | .replace => .REPLACE
  | .drop => .DROP

/-- Run a history of sends and receives on the concrete ring; `none` = undefined behaviour or a null
message was delivered. -/
def Ring.runOps {α : Type} (q : Ring α) : List (ChanOp α) → Option (Ring α × List (ChanOut α))
  | [] => some (q, [])
  | .send v p :: ops =>
    match q.push v (strategyOf p) with
    | none => none
    | some (q', o) => (Ring.runOps q' ops).map (fun r => (r.1, Ring.out o :: r.2))
  | .recv :: ops =>
    match q.pop with
    | none => none
    | some (_, some none) => none
    | some (q', none) => (Ring.runOps q' ops).map (fun r => (r.1, .nothing :: r.2))
    | some (q', some (some x)) => (Ring.runOps q' ops).map (fun r => (r.1, .got x :: r.2))

theorem Ring.runOps_rel {α : Type} {n : Nat} (hn : 2 ≤ n) (ops : List (ChanOp α)) (q : Ring α)
    (l : List α) (r : Ring.Rel n q l) :
    ∃ q', Ring.runOps q ops = some (q', (chanRun (n - 1) l ops).2) ∧
      Ring.Rel n q' (chanRun (n - 1) l ops).1 := by
  induction ops generalizing q l with
  | nil => exact ⟨q, rfl, r⟩
  | cons op ops ih =>
    cases op with
    | send v p =>
      have hp : Ring.pol (strategyOf p) = p := by cases p <;> rfl
      obtain ⟨q1, o, h1, h2, r1⟩ := Ring.rel_push hn r v (strategyOf p)
      rw [hp] at h2 r1
      obtain ⟨q2, h3, r2⟩ := ih q1 _ r1
      exact ⟨q2, by simp [Ring.runOps, h1, h3, chanRun, h2], r2⟩
    | recv =>
      obtain ⟨q1, h1, r1⟩ := Ring.rel_pop r
      cases l with
      | nil =>
        obtain ⟨q2, h3, r2⟩ := ih q1 _ r1
        dsimp only at h1
        exact ⟨q2, by simp [Ring.runOps, h1, h3, chanRun, chanStep], r2⟩
      | cons x l =>
        obtain ⟨q2, h3, r2⟩ := ih q1 _ r1
        dsimp only at h1
        exact ⟨q2, by simp [Ring.runOps, h1, h3, chanRun, chanStep], r2⟩

/-- **C05** (refinement): a channel created with size `n ≥ 2` never reaches undefined behaviour and
answers every history of sends (any mix of policies) and receives exactly like a FIFO channel with room
for `n - 1` messages. -/
theorem C05_channel_refines_fifo {α : Type} (n : Nat) (hn : 2 ≤ n) (ops : List (ChanOp α)) :
    ∃ q', Ring.runOps (Ring.create n) ops = some (q', (chanRun (n - 1) [] ops).2) := by
  obtain ⟨q', h, _⟩ := Ring.runOps_rel hn ops (Ring.create n) [] (Ring.rel_create n (by omega))
  exact ⟨q', h⟩

/-- **C05** (order and conservation): read off the requests and the answers alone, the delivered
messages followed by the pending ones are a subsequence of the accepted ones (no reordering, no
duplication, no invention); their number is short of the accepted ones exactly by the number of reported
replacements; and at most `n - 1` are pending. -/
theorem C05_channel_order {α : Type} (n : Nat) (hn : 2 ≤ n) (ops : List (ChanOp α)) :
    ∃ q' outs, Ring.runOps (Ring.create n) ops = some (q', outs) ∧
      ∃ pending : List α, pending.length ≤ n - 1 ∧
        (deliveredVals outs ++ pending).Sublist (acceptedVals ops outs) ∧
        (deliveredVals outs).length + pending.length + lostCount outs
          = (acceptedVals ops outs).length ∧
        Ring.Rel n q' pending := by
  obtain ⟨q', h, hr⟩ := Ring.runOps_rel hn ops (Ring.create n) [] (Ring.rel_create n (by omega))
  refine ⟨q', _, h, (chanRun (n - 1) [] ops).1, ?_, ?_, ?_, hr⟩
  · exact chan_room (n - 1) (by omega) ops [] (by simp)
  · rcases chan_fifo (n - 1) ops ([] : List α) with h1 | h1
    · simpa using h1.1
    · omega
  · rcases chan_fifo (n - 1) ops ([] : List α) with h1 | h1
    · simpa using h1.2
    · omega

/-- **C05** (nothing lost without replacement): if no send uses the replace policy, the delivered
messages followed by the pending ones are exactly the accepted ones. -/
theorem C05_channel_lossless {α : Type} (n : Nat) (hn : 2 ≤ n) (ops : List (ChanOp α))
    (hnr : ∀ v, ChanOp.send v .replace ∉ ops) :
    ∃ q' outs, Ring.runOps (Ring.create n) ops = some (q', outs) ∧
      ∃ pending : List α, Ring.Rel n q' pending ∧
        deliveredVals outs ++ pending = acceptedVals ops outs := by
  obtain ⟨q', h, hr⟩ := Ring.runOps_rel hn ops (Ring.create n) [] (Ring.rel_create n (by omega))
  refine ⟨q', _, h, _, hr, ?_⟩
  have hlost : ∀ (ops : List (ChanOp α)) (l : List α), (∀ v, ChanOp.send v .replace ∉ ops) →
      lostCount (chanRun (n - 1) l ops).2 = 0 := by
    intro ops
    induction ops with
    | nil => intro l _; rfl
    | cons op ops ih =>
      intro l hh
      have ih' := fun l => ih l (fun v hm => hh v (List.mem_cons_of_mem _ hm))
      cases op with
      | send v p =>
        by_cases hl : l.length < n - 1
        · simp only [chanRun, chanStep, hl, if_true, lostCount]; exact ih' _
        · cases p with
          | wait => simp only [chanRun, chanStep, hl, if_false, lostCount]; exact ih' _
          | drop => simp only [chanRun, chanStep, hl, if_false, lostCount]; exact ih' _
          | replace => exact absurd List.mem_cons_self (hh v)
      | recv => cases l <;> simp only [chanRun, chanStep, lostCount] <;> exact ih' _
  rcases chan_fifo (n - 1) ops ([] : List α) with h1 | h1
  · have h0 := hlost ops [] hnr
    rw [h0] at h1
    simp only [List.nil_append, List.length_nil, Nat.zero_add, Nat.add_zero] at h1
    exact h1.1.eq_of_length (by rw [List.length_append]; exact h1.2)
  · omega

example : (Ring.runOps (Ring.create 3)
    [.send 1 .wait, .send 2 .drop, .send 3 .drop, .send 4 .replace, .recv, .send 5 .wait, .recv, .recv,
     .recv]).map (·.2)
    = some [.accepted, .accepted, .refused, .acceptedOldestLost, .got 2, .accepted, .got 4, .got 5,
            .nothing] := by decide

/-- **C06** is false for every size: after `n` sends with the drop policy to a fresh channel of size
`n ≥ 2`, the last one was refused (so only `n - 1` are kept). -/
theorem C06_capacity_violated {α : Type} (n : Nat) (hn : 2 ≤ n) (v : α) :
    ∃ q' outs, Ring.runOps (Ring.create n) (List.replicate n (ChanOp.send v .drop)) = some (q', outs) ∧
      outs = List.replicate (n - 1) .accepted ++ [.refused] := by
  obtain ⟨q', h⟩ := C05_channel_refines_fifo n hn (List.replicate n (ChanOp.send v .drop))
  refine ⟨q', _, h, ?_⟩
  have gen : ∀ (k room : Nat) (l : List α), l.length + k = room →
      (chanRun room l (List.replicate (k + 1) (ChanOp.send v .drop))).2
        = List.replicate k .accepted ++ [.refused] := by
    intro k
    induction k with
    | zero =>
      intro room l hl
      have : ¬ l.length < room := by omega
      simp [List.replicate, chanRun, chanStep, this]
    | succ k ih =>
      intro room l hl
      have hlt : l.length < room := by omega
      rw [List.replicate_succ]
      simp only [chanRun, chanStep, hlt, if_true]
      rw [ih room (l ++ [v]) (by rw [List.length_append, List.length_singleton]; omega)]
      rfl
  have := gen (n - 1) (n - 1) [] (by simp)
  rw [show n - 1 + 1 = n by omega] at this
  exact this

/-- **C06** is false for size 1 in the strongest sense: no history ever delivers a message
(every send is refused, blocked, or overwritten without effect). -/
theorem C06_size_one_violated {α : Type} (ops : List (ChanOp α)) :
    ∃ q' outs, Ring.runOps (Ring.create 1) ops = some (q', outs) ∧ deliveredVals outs = [] := by
  have gen : ∀ (ops : List (ChanOp α)) (q : Ring α), q.head = 0 → q.tail = 0 → q.capacity = 1 →
      q.len = 1 → ∃ q' outs, Ring.runOps q ops = some (q', outs) ∧ deliveredVals outs = [] := by
    intro ops
    induction ops with
    | nil => intro q _ _ _ _; exact ⟨q, [], rfl, rfl⟩
    | cons op ops ih =>
      intro q h1 h2 h3 h4
      have hfull : q.isFull = some true := by simp [Ring.isFull, h1, h2, h3]
      cases op with
      | send v p =>
        cases p with
        | wait =>
          obtain ⟨q', outs, hr, hd⟩ := ih q h1 h2 h3 h4
          exact ⟨q', .mustWait :: outs, by
            simp [Ring.runOps, strategyOf, Ring.push, hfull, hr, Ring.out], by
            simp [deliveredVals, hd]⟩
        | drop =>
          obtain ⟨q', outs, hr, hd⟩ := ih q h1 h2 h3 h4
          exact ⟨q', .refused :: outs, by
            simp [Ring.runOps, strategyOf, Ring.push, hfull, hr, Ring.out], by
            simp [deliveredVals, hd]⟩
        | replace =>
          obtain ⟨q', outs, hr, hd⟩ := ih
            { q with slots := fun i => if i = q.tail then some v else q.slots i
                     head := (q.head + 1) % q.capacity, tail := (q.tail + 1) % q.capacity }
            (by simp [h3, Nat.mod_one]) (by simp [h3, Nat.mod_one]) h3 h4
          refine ⟨q', .acceptedOldestLost :: outs, ?_, by simp [deliveredVals, hd]⟩
          have hw : ({ q with head := (q.head + 1) % q.capacity } : Ring α).write v
              = some { q with slots := fun i => if i = q.tail then some v else q.slots i
                              head := (q.head + 1) % q.capacity
                              tail := (q.tail + 1) % q.capacity } := by
            simp [Ring.write, h2, h3, h4]
          simp [Ring.runOps, strategyOf, Ring.push, hfull, hw, hr, Ring.out]
      | recv =>
        obtain ⟨q', outs, hr, hd⟩ := ih q h1 h2 h3 h4
        exact ⟨q', .nothing :: outs, by
          simp [Ring.runOps, Ring.pop, Ring.isEmpty, h1, h2, hr], by simp [deliveredVals, hd]⟩
  exact gen ops (Ring.create 1) rfl rfl rfl rfl

/-- **C06** (what holds): a fresh channel of size `n ≥ 2` accepts `n - 1` messages without loss under
every policy.  Missing: the `n`-th one. -/
theorem C06_capacity_partial {α : Type} (n : Nat) (hn : 2 ≤ n) (vs : List α) (p : Policy)
    (hv : vs.length ≤ n - 1) :
    ∃ q', Ring.runOps (Ring.create n) (vs.map (fun v => ChanOp.send v p)) =
        some (q', List.replicate vs.length .accepted) ∧ Ring.Rel n q' vs := by
  have gen : ∀ (vs l : List α), l.length + vs.length ≤ n - 1 →
      chanRun (n - 1) l (vs.map (fun v => ChanOp.send v p))
        = (l ++ vs, List.replicate vs.length .accepted) := by
    intro vs
    induction vs with
    | nil => intro l _; simp [chanRun]
    | cons v vs ih =>
      intro l hl
      rw [List.length_cons] at hl
      have hlt : l.length < n - 1 := by omega
      simp only [List.map_cons, chanRun, chanStep, hlt, if_true]
      rw [ih (l ++ [v]) (by rw [List.length_append, List.length_singleton]; omega)]
      simp [List.replicate_succ]
  obtain ⟨q', h, hr⟩ := Ring.runOps_rel hn (vs.map (fun v => ChanOp.send v p)) (Ring.create n) []
    (Ring.rel_create n (by omega))
  rw [gen vs [] (by simpa using hv)] at h hr
  exact ⟨q', h, by simpa using hr⟩

/-- Sending after `clear` writes outside the emptied vector: undefined behaviour (found while modelling;
`clear` is only called by the destructor in the library itself). -/
theorem C05_push_after_clear_undefined {α : Type} (n : Nat) (hn : 2 ≤ n) (v : α) (s : PushStrategy) :
    (Ring.create n : Ring α).clear.push v s = none := by
  have h1 : 1 % n = 1 := Nat.mod_eq_of_lt hn
  have h2 : n ≠ 0 := by omega
  cases s <;> simp [Ring.create, Ring.clear, Ring.push, Ring.isFull, Ring.write, h1, h2]

/-! ## C07 — lock-free ring, one producer and one consumer -/

/-- **C07** (prefix): for every capacity ≥ 1 and every interleaving of the micro-steps of the producer and
the consumer, the popped values are exactly the first values pushed, each non-null and in order, and
fewer than `cap` values are stored. -/
theorem C07_lockfree_fifo {α : Type} (cap : Nat) (hc : 1 ≤ cap) (sched : List (LfAct α)) :
    let s := LfRing.run cap (LfRing.init : LfRing α) sched
    s.popped = (s.pushed.take s.popped.length).map some ∧
      s.popped.length ≤ s.pushed.length ∧ s.pushed.length - s.popped.length ≤ cap - 1 := by
  intro s
  have h := LfRing.inv_run (α := α) hc sched
  have hr : s.pushed.length - s.popped.length < cap := h.room
  exact ⟨h.out, h.le, by omega⟩

/-- **C07** (failure means empty): whenever the consumer has loaded its index, its emptiness test fires iff
all values pushed so far have been popped; dually the producer's fullness test fires iff `cap - 1` values
are stored. -/
theorem C07_lockfree_tests_exact {α : Type} (cap : Nat) (hc : 1 ≤ cap) (sched : List (LfAct α)) :
    let s := LfRing.run cap (LfRing.init : LfRing α) sched
    (∀ h, s.cons = .loaded h → (h = s.tail ↔ s.pushed.length = s.popped.length)) ∧
    (∀ t v, s.prod = .spin t v →
      ((t + 1) % cap = s.head ↔ s.pushed.length - s.popped.length = cap - 1)) := by
  intro s
  have hi := LfRing.inv_run (α := α) hc sched
  have hroom : s.pushed.length - s.popped.length < cap := hi.room
  have hle : s.popped.length ≤ s.pushed.length := hi.le
  constructor
  · intro h hcs
    have hcons := hi.cons
    change match s.cons with
      | .idle => True
      | .loaded h => h = s.popped.length % cap
      | .take h => h = s.popped.length % cap ∧ s.popped.length < s.pushed.length
      | .publish h v => h = s.popped.length % cap ∧ s.popped.length < s.pushed.length ∧
          v = s.pushed[s.popped.length]? at hcons
    rw [hcs] at hcons
    dsimp only at hcons
    have htl : s.tail = s.pushed.length % cap := hi.tl
    rw [hcons, htl]
    constructor
    · intro he; exact (LfRing.mod_eq_near hle hroom he).symm
    · intro he; rw [he]
  · intro t v hps
    have hprod := hi.prod
    change match s.prod with
      | .idle => True
      | .spin t _ => t = s.pushed.length % cap
      | .write t _ => t = s.pushed.length % cap ∧ s.pushed.length + 1 - s.popped.length < cap
      | .publish t v => t = s.pushed.length % cap ∧ s.pushed.length + 1 - s.popped.length < cap ∧
          s.buf t = some v at hprod
    rw [hps] at hprod
    dsimp only at hprod
    have hhd : s.head = s.popped.length % cap := hi.hd
    rw [hprod, Nat.mod_add_mod, hhd]
    constructor
    · intro he
      rcases Nat.lt_or_ge (s.pushed.length - s.popped.length) (cap - 1) with h | h
      · exact absurd he.symm (LfRing.mod_ne_near (a := s.popped.length) (b := s.pushed.length + 1)
          (by omega) (by omega))
      · omega
    · intro he
      have : s.pushed.length + 1 = s.popped.length + cap := by omega
      rw [this, Nat.add_mod_right]

example : (LfRing.run 2 (LfRing.init : LfRing Nat)
    [.startPush 7, .startPop, .prodStep, .consStep, .prodStep, .startPop, .prodStep, .consStep,
     .startPush 8, .prodStep, .consStep, .consStep, .prodStep, .prodStep, .prodStep]).popped
    = [some 7] := by decide

/-! ## C08 — work stealing queue -/

/-- Operations on a work stealing queue with the outcome of the unlocked checks. -/
inductive WsOp (α : Type) where
  | push (v : α)
  | tryPush (locked : Bool) (v : α)
  | pushAll (vs : List α)
  | pop (pre : Bool)
  | steal (pre : Bool)
  | popN (pre : Bool) (n : Int)
  | stealN (pre : Bool) (n : Int)

/-- Queue together with everything accepted and everything handed out so far. -/
structure WsLog (α : Type) where
  q : WsQueue α
  accepted : List α
  taken : List α

/-- One operation with its effect on the logs (read off the results). -/
def WsLog.step {α : Type} (s : WsLog α) : WsOp α → WsLog α
  | .push v => ⟨WsQueue.push s.q v, s.accepted ++ [v], s.taken⟩
  | .tryPush lk v =>
    ⟨(WsQueue.tryPush lk s.q v).1,
     if (WsQueue.tryPush lk s.q v).2 then s.accepted ++ [v] else s.accepted, s.taken⟩
  | .pushAll vs => ⟨WsQueue.pushAll s.q vs, s.accepted ++ vs, s.taken⟩
  | .pop pre => ⟨(WsQueue.tryPop pre s.q).1, s.accepted, s.taken ++ (WsQueue.tryPop pre s.q).2.toList⟩
  | .steal pre =>
    ⟨(WsQueue.trySteal pre s.q).1, s.accepted, s.taken ++ (WsQueue.trySteal pre s.q).2.toList⟩
  | .popN pre n => ⟨(WsQueue.tryPopN pre s.q n).1, s.accepted, s.taken ++ (WsQueue.tryPopN pre s.q n).2⟩
  | .stealN pre n =>
    ⟨(WsQueue.tryStealN pre s.q n).1, s.accepted, s.taken ++ (WsQueue.tryStealN pre s.q n).2⟩

theorem WsQueue.popLoop_split {α : Type} (q : List α) (n : Int) (acc : List α) :
    (WsQueue.popLoop q n acc).2 ++ (WsQueue.popLoop q n acc).1 = acc ++ q := by
  induction q generalizing n acc with
  | nil => simp [WsQueue.popLoop]
  | cons x q ih =>
    unfold WsQueue.popLoop
    split
    · rfl
    · rw [ih]; simp

theorem WsQueue.popLoop_nat {α : Type} (q : List α) (n : Nat) (acc : List α) :
    WsQueue.popLoop q n acc = (q.drop n, acc ++ q.take n) := by
  induction q generalizing n acc with
  | nil => simp [WsQueue.popLoop]
  | cons x q ih =>
    unfold WsQueue.popLoop
    cases n with
    | zero => simp
    | succ n =>
      rw [if_neg (by omega)]
      have : ((n + 1 : Nat) : Int) - 1 = (n : Int) := by omega
      rw [this, ih]; simp

theorem WsQueue.popLoop_neg {α : Type} (q : List α) (n : Int) (hn : n < 0) (acc : List α) :
    WsQueue.popLoop q n acc = ([], acc ++ q) := by
  induction q generalizing n acc with
  | nil => simp [WsQueue.popLoop]
  | cons x q ih =>
    unfold WsQueue.popLoop
    rw [if_neg (by omega), ih _ (by omega)]; simp

theorem WsQueue.stealLoop_eq {α : Type} (r : List α) (n : Int) (acc : List α) :
    WsQueue.stealLoop r n acc = WsQueue.popLoop r n acc := by
  induction r generalizing n acc with
  | nil => rfl
  | cons x r ih => unfold WsQueue.stealLoop WsQueue.popLoop; split <;> simp [ih]

/-- **C08** (conservation): for every history and every outcome of the unlocked checks, what was handed
out together with what is still queued is a permutation of what was accepted: every task is obtained
exactly once or still queued. -/
theorem C08_conservation {α : Type} (ops : List (WsOp α)) :
    let s := ops.foldl WsLog.step (⟨[], [], []⟩ : WsLog α)
    (s.taken ++ s.q).Perm s.accepted := by
  have gen : ∀ (ops : List (WsOp α)) (s : WsLog α), (s.taken ++ s.q).Perm s.accepted →
      ((ops.foldl WsLog.step s).taken ++ (ops.foldl WsLog.step s).q).Perm
        (ops.foldl WsLog.step s).accepted := by
    intro ops
    induction ops with
    | nil => intro s h; exact h
    | cons op ops ih =>
      intro s h
      apply ih
      cases op with
      | push v =>
        simp only [WsLog.step, WsQueue.push]
        rw [← List.append_assoc]; exact h.append_right [v]
      | tryPush lk v =>
        cases lk
        · simpa [WsLog.step, WsQueue.tryPush] using h
        · simp only [WsLog.step, WsQueue.tryPush, if_true]
          rw [← List.append_assoc]; exact h.append_right [v]
      | pushAll vs =>
        simp only [WsLog.step, WsQueue.pushAll]
        rw [← List.append_assoc]; exact h.append_right vs
      | pop pre =>
        cases pre
        · simpa [WsLog.step, WsQueue.tryPop] using h
        · simp only [WsLog.step, WsQueue.tryPop, if_true]
          cases hq : s.q with
          | nil => rw [hq] at h; simpa using h
          | cons x q => rw [hq] at h; simpa using h
      | steal pre =>
        cases pre
        · simpa [WsLog.step, WsQueue.trySteal] using h
        · simp only [WsLog.step, WsQueue.trySteal, if_true]
          cases hl : s.q.getLast? with
          | none => simpa using h
          | some x =>
            have hne : s.q ≠ [] := by intro e; rw [e] at hl; simp at hl
            have hx : s.q.getLast hne = x := by
              rw [List.getLast?_eq_some_getLast hne] at hl; exact Option.some.inj hl
            have hsplit : s.q.dropLast ++ [x] = s.q := by
              rw [← hx]; exact List.dropLast_concat_getLast hne
            refine List.Perm.trans ?_ h
            simp only [Option.toList_some]
            rw [List.append_assoc]
            apply List.Perm.append_left
            have hp : ([x] ++ s.q.dropLast).Perm (s.q.dropLast ++ [x]) := List.perm_append_comm
            rw [hsplit] at hp
            exact hp
      | popN pre n =>
        cases pre
        · simpa [WsLog.step, WsQueue.tryPopN] using h
        · simp only [WsLog.step, WsQueue.tryPopN, if_true]
          rw [List.append_assoc, WsQueue.popLoop_split]; simpa using h
      | stealN pre n =>
        cases pre
        · simpa [WsLog.step, WsQueue.tryStealN] using h
        · simp only [WsLog.step, WsQueue.tryStealN, if_true, WsQueue.stealLoop_eq]
          refine List.Perm.trans ?_ h
          rw [List.append_assoc]
          apply List.Perm.append_left
          have h1 := WsQueue.popLoop_split s.q.reverse n []
          rw [List.nil_append] at h1
          have h2 : ((WsQueue.popLoop s.q.reverse n []).2 ++
              (WsQueue.popLoop s.q.reverse n []).1.reverse).Perm s.q.reverse := by
            refine ((List.reverse_perm _).append_left _).trans ?_
            rw [h1]
          exact h2.trans (List.reverse_perm _)
  exact gen ops _ (by simp)

/-- **C08** (ends and batch sizes): with the lock obtained, the owner takes the oldest task, a thief the
newest; a batch of non-negative size `n` takes the `n` oldest (resp. newest, newest first), fewer only if
the queue is shorter. -/
theorem C08_ends {α : Type} (q : WsQueue α) (n : Nat) :
    WsQueue.tryPop true q = (q.tail, q.head?) ∧
    WsQueue.trySteal true q = (q.dropLast, q.getLast?) ∧
    WsQueue.tryPopN true q n = (q.drop n, q.take n) ∧
    WsQueue.tryStealN true q n = ((q.reverse.drop n).reverse, q.reverse.take n) := by
  refine ⟨?_, ?_, ?_, ?_⟩
  · cases q <;> rfl
  · unfold WsQueue.trySteal
    rw [if_pos rfl]
    cases hq : q.getLast? with
    | none => rw [List.getLast?_eq_none_iff] at hq; subst hq; rfl
    | some x => rfl
  · simp [WsQueue.tryPopN, WsQueue.popLoop_nat]
  · simp [WsQueue.tryStealN, WsQueue.stealLoop_eq, WsQueue.popLoop_nat]

/-- **C08** (failure has no effect): a pop or steal that does not get the lock changes nothing. -/
theorem C08_failure_no_effect {α : Type} (q : WsQueue α) (n : Int) :
    WsQueue.tryPop false q = (q, none) ∧ WsQueue.trySteal false q = (q, none) ∧
    WsQueue.tryPopN false q n = (q, []) ∧ WsQueue.tryStealN false q n = (q, []) := by
  simp [WsQueue.tryPop, WsQueue.trySteal, WsQueue.tryPopN, WsQueue.tryStealN]

/-- A negative batch size (accepted by the configuration) empties the whole queue. -/
theorem C08_negative_batch {α : Type} (q : WsQueue α) (n : Int) (hn : n < 0) :
    WsQueue.tryPopN true q n = ([], q) := by
  simp [WsQueue.tryPopN, WsQueue.popLoop_neg q n hn]

example : ([WsOp.push 1, .pushAll [2, 3, 4], .steal true, .pop true, .stealN true 1, .tryPush false 9].foldl
    WsLog.step ⟨[], [], []⟩) = (⟨[2], [1, 2, 3, 4], [4, 1, 3]⟩ : WsLog Nat) := by rfl

/-! ## C09 — pool queue -/

/-- Operations on the shared pool queue. -/
inductive AqOp (α : Type) where
  | push (v : α)
  | tryPop (pre : Bool)
  | tryPopN (pre : Bool) (n : Int)
  | popTimeout (timedOut : Bool)
  | reset

/-- Queue with logs. -/
structure AqLog (α : Type) where
  q : AQueue α
  accepted : List α
  taken : List α

/-- One operation. -/
def AqLog.step {α : Type} (s : AqLog α) : AqOp α → AqLog α
  | .push v => ⟨s.q.push v, s.accepted ++ [v], s.taken⟩
  | .tryPop pre => ⟨(AQueue.tryPop pre s.q).1, s.accepted, s.taken ++ (AQueue.tryPop pre s.q).2.toList⟩
  | .tryPopN pre n => ⟨(AQueue.tryPopN pre s.q n).1, s.accepted, s.taken ++ (AQueue.tryPopN pre s.q n).2⟩
  | .popTimeout t =>
    ⟨(AQueue.popWithTimeout t s.q).1, s.accepted, s.taken ++ (AQueue.popWithTimeout t s.q).2.toList⟩
  | .reset => ⟨s.q.reset, s.accepted, s.taken⟩

theorem AQueue.popLoop_split {α : Type} (q : List α) (n : Int) (acc : List α) :
    (AQueue.popLoop q n acc).2 ++ (AQueue.popLoop q n acc).1 = acc ++ q := by
  induction q generalizing n acc with
  | nil => simp [AQueue.popLoop]
  | cons x q ih =>
    unfold AQueue.popLoop
    split
    · rw [ih]; simp
    · rfl

/-- **C09** (FIFO, nothing lost): for every history and every outcome of the lock attempts and time-outs,
the tasks handed out followed by the queued ones are exactly the accepted ones in order. -/
theorem C09_fifo {α : Type} (ops : List (AqOp α)) :
    let s := ops.foldl AqLog.step (⟨AQueue.init, [], []⟩ : AqLog α)
    s.taken ++ s.q.queue = s.accepted := by
  have gen : ∀ (ops : List (AqOp α)) (s : AqLog α), s.taken ++ s.q.queue = s.accepted →
      (ops.foldl AqLog.step s).taken ++ (ops.foldl AqLog.step s).q.queue
        = (ops.foldl AqLog.step s).accepted := by
    intro ops
    induction ops with
    | nil => intro s h; exact h
    | cons op ops ih =>
      intro s h
      apply ih
      cases op with
      | push v => simp [AqLog.step, AQueue.push, ← h]
      | tryPop pre =>
        cases pre
        · simpa [AqLog.step, AQueue.tryPop] using h
        · cases hq : s.q.queue with
          | nil => simp [AqLog.step, AQueue.tryPop, hq] at h ⊢; exact h
          | cons x q => simp [AqLog.step, AQueue.tryPop, hq] at h ⊢; exact h
      | tryPopN pre n =>
        cases pre
        · simpa [AqLog.step, AQueue.tryPopN] using h
        · simp only [AqLog.step, AQueue.tryPopN, if_true]
          rw [List.append_assoc, AQueue.popLoop_split, List.nil_append]; exact h
      | popTimeout t =>
        cases t
        · cases hq : s.q.queue with
          | nil => simp [AqLog.step, AQueue.popWithTimeout, hq] at h ⊢; exact h
          | cons x q =>
            cases hr : s.q.ready <;> simp [AqLog.step, AQueue.popWithTimeout, hq, hr] at h ⊢ <;> exact h
        · simpa [AqLog.step, AQueue.popWithTimeout] using h
      | reset => simpa [AqLog.step, AQueue.reset] using h
  exact gen ops _ (by simp [AQueue.init])

/-- **C09** (try-pop with the lock succeeds whenever there is a task). -/
theorem C09_pop_succeeds {α : Type} (q : AQueue α) (x : α) (l : List α) (h : q.queue = x :: l) :
    AQueue.tryPop true q = ({ q with queue := l }, some x) := by
  simp [AQueue.tryPop, h]

/-- Re-initialisation (`setup`) throws away whatever is still queued. -/
theorem C09_setup_discards {α : Type} (q : AQueue α) : q.setup.queue = [] := rfl

example : ([AqOp.push 1, .push 2, .tryPop false, .push 3, .tryPopN true 2, .popTimeout false].foldl
    AqLog.step ⟨AQueue.init, [], []⟩) = (⟨⟨[], true⟩, [1, 2, 3], [1, 2, 3]⟩ : AqLog Nat) := by rfl

/-! ## C10 — priorities -/

/-- **C10** is false: a waiting task of lower priority can be taken first, because entries are compared by
heap address. -/
theorem C10_priority_violated : ∃ (q : PQueue Nat) (a b : PqEntry Nat),
    a ∈ q ∧ b ∈ q ∧ a.prio < b.prio ∧ (PQueue.tryPop true q).2 = some a :=
  ⟨PQueue.push (PQueue.push [] 16 9 1) 32 0 2, ⟨32, 0, 2⟩, ⟨16, 9, 1⟩, by decide⟩

theorem PQueue.top_map {α : Type} [DecidableEq α] (f : PqEntry α → PqEntry α)
    (hf : ∀ e, (f e).addr = e.addr) (q : PQueue α) :
    PQueue.top (q.map f) = (PQueue.top q).map f := by
  induction q with
  | nil => rfl
  | cons e q ih =>
    simp only [List.map_cons, PQueue.top, ih]
    cases PQueue.top q with
    | none => rfl
    | some m =>
      dsimp only [Option.map]
      rw [hf, hf]
      split <;> rfl

/-- **C10** (the priorities are irrelevant): changing the priorities of the waiting tasks in any way does
not change which task is taken next. -/
theorem C10_priority_ignored {α : Type} [DecidableEq α] (q : PQueue α) (g : PqEntry α → Int) :
    (PQueue.tryPop true (q.map (fun e => { e with prio := g e }))).2.map (·.addr)
      = (PQueue.tryPop true q).2.map (·.addr) := by
  unfold PQueue.tryPop
  rw [if_pos rfl, if_pos rfl, PQueue.top_map (fun e => { e with prio := g e }) (fun _ => rfl)]
  cases PQueue.top q <;> rfl

theorem PQueue.top_mem {α : Type} [DecidableEq α] (q : PQueue α) (m : PqEntry α)
    (h : PQueue.top q = some m) : m ∈ q := by
  induction q generalizing m with
  | nil => cases h
  | cons e q ih =>
    unfold PQueue.top at h
    cases ht : PQueue.top q with
    | none => rw [ht] at h; simp at h; simp [h]
    | some m' =>
      rw [ht] at h
      dsimp only at h
      split at h
      · have := Option.some.inj h; subst this; exact List.mem_cons_of_mem _ (ih _ ht)
      · have := Option.some.inj h; subst this; exact List.mem_cons_self

/-- **C10** (what holds): a pop with the lock on a non-empty queue removes exactly one waiting task and
keeps all others.  Missing: that it is one of highest priority. -/
theorem C10_pop_conserves_partial {α : Type} [DecidableEq α] (q : PQueue α) (hq : q ≠ []) :
    ∃ m, (PQueue.tryPop true q).2 = some m ∧ q.Perm (m :: (PQueue.tryPop true q).1) := by
  unfold PQueue.tryPop
  rw [if_pos rfl]
  cases ht : PQueue.top q with
  | none =>
    cases q with
    | nil => exact absurd rfl hq
    | cons e q =>
      unfold PQueue.top at ht
      cases h2 : PQueue.top q with
      | none => rw [h2] at ht; cases ht
      | some m => rw [h2] at ht; dsimp only at ht; split at ht <;> cases ht
  | some m => exact ⟨m, rfl, List.perm_cons_erase (PQueue.top_mem q m ht)⟩

/-- The comparison operator declared for tasks is not a strict order: every task is smaller than
itself. -/
theorem C10_task_lt_reflexive (p : Int) : UTask.lt p p = true := by simp [UTask.lt]

/-! ## C11 — semaphore -/

/-- **C11** is false: a `wait` on a fresh semaphore completes although no signal was ever given. -/
theorem C11_wait_without_signal_violated :
    ([SemaAct.wait 1].foldl Sema.step Sema.init).done = [1] ∧
    ([SemaAct.wait 1].foldl Sema.step Sema.init).signals = 0 := by decide

/-- **C11** is false in the other direction too: after a signal, a `wait` blocks. -/
theorem C11_wait_after_signal_violated :
    ([SemaAct.signal none, .wait 1].foldl Sema.step Sema.init).sleeping = [1] ∧
    ([SemaAct.signal none, .wait 1].foldl Sema.step Sema.init).signals = 1 := by decide

theorem Sema.recheck_sum (s : Sema) (t : Nat) :
    (s.recheck t).cnt = s.cnt ∧ (s.recheck t).signals = s.signals ∧
      (s.recheck t).done.length + (s.recheck t).sleeping.length
        = s.done.length + s.sleeping.length := by
  unfold Sema.recheck
  split
  · rename_i h
    have h1 := List.length_erase_of_mem h.1
    have h2 := List.length_pos_of_mem h.1
    refine ⟨rfl, rfl, ?_⟩
    simp only [List.length_cons, h1]; omega
  · exact ⟨rfl, rfl, rfl⟩

theorem Sema.count (l : List SemaAct) :
    (l.foldl Sema.step Sema.init).cnt = (l.foldl Sema.step Sema.init).signals
      - (((l.foldl Sema.step Sema.init).done.length
          + (l.foldl Sema.step Sema.init).sleeping.length : Nat) : Int) := by
  have gen : ∀ (l : List SemaAct) (s : Sema),
      s.cnt = s.signals - ((s.done.length + s.sleeping.length : Nat) : Int) →
      (l.foldl Sema.step s).cnt = (l.foldl Sema.step s).signals
        - (((l.foldl Sema.step s).done.length + (l.foldl Sema.step s).sleeping.length : Nat) : Int) := by
    intro l
    induction l with
    | nil => intro s h; exact h
    | cons a l ih =>
      intro s h
      apply ih
      cases a with
      | wait t =>
        simp only [Sema.step]
        split <;> simp only [List.length_cons] <;> omega
      | spurious t =>
        have := Sema.recheck_sum s t
        simp only [Sema.step]; omega
      | signal w =>
        simp only [Sema.step]
        split
        · cases w with
          | none => dsimp only; omega
          | some t =>
            have := Sema.recheck_sum { s with cnt := s.cnt + 1, signals := s.signals + 1 } t
            dsimp only at this ⊢
            omega
        · dsimp only; omega
  exact gen l Sema.init (by decide)

/-- **C11** (exact behaviour, for every history): a `wait` returns immediately iff the signals given so
far do not exceed the waits started so far — the opposite of what a semaphore should do.
Missing: the property itself, which the code violates. -/
theorem C11_exact_partial (l : List SemaAct) (t : Nat) :
    let s := l.foldl Sema.step Sema.init
    ((s.step (.wait t)).done = t :: s.done ↔ s.signals ≤ s.done.length + s.sleeping.length) := by
  intro s
  have hc : s.cnt = s.signals - ((s.done.length + s.sleeping.length : Nat) : Int) := Sema.count l
  simp only [Sema.step]
  split
  · simp only [true_iff]; omega
  · dsimp only
    constructor
    · intro h; have := congrArg List.length h; simp at this
    · intro h; omega

/-- **C11** (signals never wake): if some thread went to sleep, then no sequence of signals alone ever
wakes anyone (the counter is non-negative and only grows, so the predicate stays false). -/
theorem C11_signals_never_wake (s : Sema) (h : 0 ≤ s.cnt) (ws : List (Option Nat)) :
    ((ws.map SemaAct.signal).foldl Sema.step s).sleeping = s.sleeping := by
  induction ws generalizing s with
  | nil => rfl
  | cons w ws ih =>
    simp only [List.map_cons, List.foldl_cons]
    have hs : s.step (.signal w) = { s with cnt := s.cnt + 1, signals := s.signals + 1 } := by
      simp only [Sema.step]
      rw [if_neg (by omega)]
    rw [ih _ (by rw [hs]; dsimp only; omega), hs]

/-! ## C12 — spin lock -/

/-- Invariant of the spin lock. -/
def Spin.Inv (s : Spin) : Prop :=
  (∀ t, s.pc t = .holding → s.flag = true) ∧
  (∀ t u, s.pc t = .holding → s.pc u = .holding → t = u) ∧
  (s.flag = true → ∃ t, s.pc t = .holding)

theorem Spin.inv_step (s : Spin) (h : s.Inv) (a : SpinAct) : (s.step a).Inv := by
  obtain ⟨h1, h2, h3⟩ := h
  have acquire : ∀ t, s.flag = false → Spin.Inv { s.setPc t .holding with flag := true } := by
    intro t hf
    have hn : ∀ u, s.pc u ≠ .holding := fun u hu => by rw [h1 u hu] at hf; cases hf
    refine ⟨fun _ _ => rfl, ?_, fun _ => ⟨t, by simp [Spin.setPc]⟩⟩
    intro u v hu hv
    simp only [Spin.setPc] at hu hv
    by_cases hut : u = t <;> by_cases hvt : v = t
    · rw [hut, hvt]
    · rw [if_neg hvt] at hv; exact absurd hv (hn v)
    · rw [if_neg hut] at hu; exact absurd hu (hn u)
    · rw [if_neg hut] at hu; exact absurd hu (hn u)
  cases a with
  | enter t =>
    simp only [Spin.step]
    split
    · rename_i ho
      have hh : ∀ u, (s.setPc t .spinning).pc u = .holding → s.pc u = .holding := by
        intro u hu
        simp only [Spin.setPc] at hu
        split at hu
        · cases hu
        · exact hu
      refine ⟨fun u hu => h1 u (hh u hu), fun u v hu hv => h2 u v (hh u hu) (hh v hv), ?_⟩
      intro hf
      obtain ⟨u, hu⟩ := h3 hf
      refine ⟨u, ?_⟩
      simp only [Spin.setPc]
      rw [if_neg]
      · exact hu
      · intro e; subst e; rw [ho] at hu; cases hu
    · exact ⟨h1, h2, h3⟩
  | tas t =>
    simp only [Spin.step]
    split
    · cases hf : s.flag
      · simp only [Bool.false_eq_true, if_false]; exact acquire t hf
      · simp only [if_true]; exact ⟨h1, h2, h3⟩
    · exact ⟨h1, h2, h3⟩
  | tryLock t =>
    simp only [Spin.step]
    split
    · cases hf : s.flag
      · simp only [Bool.false_eq_true, if_false]; exact acquire t hf
      · simp only [if_true]; exact ⟨h1, h2, h3⟩
    · exact ⟨h1, h2, h3⟩
  | unlock t =>
    simp only [Spin.step]
    split
    · rename_i ht
      have hn : ∀ u, ({ s.setPc t .outside with flag := false } : Spin).pc u ≠ .holding := by
        intro u hu
        simp only [Spin.setPc] at hu
        split at hu
        · cases hu
        · rename_i hne; exact hne (h2 u t hu ht)
      exact ⟨fun u hu => absurd hu (hn u), fun u v hu _ => absurd hu (hn u), fun h => by cases h⟩
    · exact ⟨h1, h2, h3⟩

theorem Spin.inv_run (l : List SpinAct) : (Spin.run l).Inv := by
  unfold Spin.run
  have gen : ∀ s : Spin, s.Inv → (l.foldl Spin.step s).Inv := by
    induction l with
    | nil => intro s h; exact h
    | cons a l ih => intro s h; exact ih _ (Spin.inv_step s h a)
  apply gen
  refine ⟨?_, ?_, ?_⟩ <;> simp [Spin.init]

/-- **C12** (mutual exclusion): in every interleaving of any number of threads at most one thread is
between a successful `lock`/`tryLock` and its `unlock`. -/
theorem C12_mutual_exclusion (l : List SpinAct) (t u : Nat)
    (ht : (Spin.run l).pc t = .holding) (hu : (Spin.run l).pc u = .holding) : t = u :=
  (Spin.inv_run l).2.1 t u ht hu

/-- **C12** (progress): when nobody holds the lock, the next attempt of a spinning thread, and the next
`tryLock` of an outside thread, succeed. -/
theorem C12_free_lock_is_acquired (l : List SpinAct) (hfree : ∀ u, (Spin.run l).pc u ≠ .holding)
    (t : Nat) :
    ((Spin.run l).pc t = .spinning → ((Spin.run l).step (.tas t)).pc t = .holding) ∧
    ((Spin.run l).pc t = .outside → ((Spin.run l).step (.tryLock t)).pc t = .holding) := by
  have hf : (Spin.run l).flag = false := by
    cases h : (Spin.run l).flag
    · rfl
    · obtain ⟨u, hu⟩ := (Spin.inv_run l).2.2 h
      exact absurd hu (hfree u)
  constructor <;> intro hp <;> simp [Spin.step, hp, hf, Spin.setPc]

example : (Spin.run [.enter 1, .tas 1, .enter 2, .tas 2, .unlock 1, .tas 2]).pc 2 = .holding := by decide

end CGraph
