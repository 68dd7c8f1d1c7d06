import Verif.Model.Queues
import Verif.Spec.Queues

set_option linter.unusedSectionVars false

namespace CGraph
open Spec

theorem mod_two (n x : Nat) (hx : x < 2 * n) : x % n = if x < n then x else x - n := by
  split
  · rename_i h; exact Nat.mod_eq_of_lt h
  · rename_i h
    rw [Nat.mod_eq_sub_mod (by omega), Nat.mod_eq_of_lt (by omega)]

theorem mod_inj {n h i j : Nat} (hh : h < n) (hi : i < n) (hj : j < n)
    (he : (h + i) % n = (h + j) % n) : i = j := by
  rw [mod_two n (h + i) (by omega), mod_two n (h + j) (by omega)] at he
  split at he <;> split at he <;> omega

theorem mod_step (n h i : Nat) : ((h + 1) % n + i) % n = (h + (i + 1)) % n := by
  rw [Nat.mod_add_mod]; congr 1; omega

namespace Ring
variable {α : Type}

/-- The ring of capacity `n` holds exactly the list `l`. -/
structure Rel (n : Nat) (q : Ring α) (l : List α) : Prop where
  pos : 1 ≤ n
  cap : q.capacity = n
  len : q.len = n
  hd : q.head < n
  tl : q.tail = (q.head + l.length) % n
  room : l.length < n
  vals : ∀ i, i < l.length → q.slots ((q.head + i) % n) = l[i]?

theorem rel_create (n : Nat) (h : 1 ≤ n) : Rel n (create n : Ring α) [] := by
  refine ⟨h, rfl, rfl, ?_, ?_, ?_, ?_⟩ <;> simp [create] <;> omega

variable {n : Nat} {q : Ring α} {l : List α}

theorem Rel.tail_lt (r : Rel n q l) : q.tail < n := by
  rw [r.tl]; exact Nat.mod_lt _ r.pos

theorem Rel.isFull (r : Rel n q l) : q.isFull = some (decide (l.length + 1 = n)) := by
  have hp := r.pos
  have hh := r.hd
  have hr := r.room
  unfold Ring.isFull
  rw [r.cap, if_neg (by omega), r.tl]
  congr 1
  rw [Bool.eq_iff_iff, beq_iff_eq, decide_eq_true_iff, Nat.mod_add_mod]
  constructor
  · intro h
    apply Decidable.byContradiction
    intro hne
    have : (q.head + 0) % n = (q.head + (l.length + 1)) % n := by
      rw [Nat.add_zero, Nat.mod_eq_of_lt hh]; exact h
    have := mod_inj hh (by omega) (by omega) this
    omega
  · intro h
    have : q.head + l.length + 1 = q.head + n := by omega
    rw [this, Nat.add_mod_right, Nat.mod_eq_of_lt hh]

theorem Rel.isEmpty (r : Rel n q l) : q.isEmpty = l.isEmpty := by
  have hh := r.hd
  have hr := r.room
  unfold Ring.isEmpty
  rw [r.tl, Bool.eq_iff_iff, beq_iff_eq, List.isEmpty_iff_length_eq_zero]
  constructor
  · intro h
    have : (q.head + 0) % n = (q.head + l.length) % n := by
      rw [Nat.add_zero, Nat.mod_eq_of_lt hh]; exact h
    exact (mod_inj hh (by omega) hr this).symm
  · intro h; rw [h, Nat.add_zero, Nat.mod_eq_of_lt hh]

theorem Rel.write (r : Rel n q l) (hroom : l.length + 1 < n) (v : α) :
    ∃ q', q.write v = some q' ∧ Rel n q' (l ++ [v]) := by
  have ht := r.tail_lt
  have hp := r.pos
  have hh := r.hd
  refine ⟨_, by
    unfold Ring.write
    rw [if_pos ⟨by rw [r.len]; exact ht, by rw [r.cap]; omega⟩], ?_⟩
  refine ⟨r.pos, r.cap, r.len, r.hd, ?_, ?_, ?_⟩
  · dsimp only
    rw [r.cap, r.tl, Nat.mod_add_mod, List.length_append, List.length_singleton]
    congr 1
  · rw [List.length_append, List.length_singleton]; exact hroom
  · intro i hi
    dsimp only
    rw [List.length_append, List.length_singleton] at hi
    rcases Nat.lt_or_ge i l.length with hlt | hge
    · rw [if_neg, r.vals i hlt, List.getElem?_append_left hlt]
      rw [r.tl]
      intro he
      have := mod_inj hh (by omega) (by omega) he
      omega
    · have : i = l.length := by omega
      subst this
      rw [if_pos r.tl.symm, List.getElem?_append_right (Nat.le_refl _)]
      simp

theorem Rel.dropHead {x : α} (r : Rel n q (x :: l)) (f : Nat → Option α)
    (hf : ∀ i, i ≠ q.head → f i = q.slots i) :
    Rel n { q with head := (q.head + 1) % q.capacity, slots := f } l := by
  have hp := r.pos
  have hh := r.hd
  have hr := r.room
  rw [List.length_cons] at hr
  refine ⟨r.pos, r.cap, r.len, ?_, ?_, by omega, ?_⟩
  · dsimp only; rw [r.cap]; exact Nat.mod_lt _ r.pos
  · dsimp only; rw [r.tl, r.cap, mod_step]; rfl
  · intro i hi
    dsimp only
    rw [r.cap, mod_step, hf, r.vals (i + 1) (by rw [List.length_cons]; omega)]
    · simp
    · intro he
      have : (q.head + (i + 1)) % n = (q.head + 0) % n := by
        rw [he, Nat.add_zero, Nat.mod_eq_of_lt hh]
      have := mod_inj hh (by omega) (by omega) this
      omega

/-- Translation of the model's strategy to the specification's policy. -/
def pol : PushStrategy → Policy
  | .WAIT => .wait
  | .REPLACE => .replace
  | .DROP => .drop

/-- Translation of the outcome of a push. -/
def out : PushOut → ChanOut α
  | .pushed => .accepted
  | .replaced => .acceptedOldestLost
  | .dropped => .refused
  | .blocked => .mustWait

theorem rel_push (hn : 2 ≤ n) (r : Rel n q l) (v : α) (s : PushStrategy) :
    ∃ q' o, q.push v s = some (q', o) ∧ out o = (chanStep (n - 1) l (.send v (pol s))).2 ∧
      Rel n q' (chanStep (n - 1) l (.send v (pol s))).1 := by
  have hr := r.room
  unfold Ring.push chanStep
  rw [r.isFull]
  by_cases hfull : l.length + 1 = n
  · rw [decide_eq_true hfull]
    dsimp only
    rw [if_neg (by omega)]
    cases s with
    | WAIT => exact ⟨q, .blocked, rfl, rfl, r⟩
    | DROP => exact ⟨q, .dropped, rfl, rfl, r⟩
    | REPLACE =>
      cases l with
      | nil => simp at hfull; omega
      | cons x l =>
        have r' := Rel.dropHead r q.slots (fun _ _ => rfl)
        obtain ⟨q', hq', rq'⟩ := r'.write (by rw [List.length_cons] at hfull; omega) v
        refine ⟨q', .replaced, ?_, rfl, rq'⟩
        dsimp only
        have : ({ q with head := (q.head + 1) % q.capacity } : Ring α).write v = some q' := hq'
        rw [this]; rfl
  · rw [decide_eq_false hfull]
    dsimp only
    rw [if_pos (by omega)]
    obtain ⟨q', hq', rq'⟩ := r.write (by omega) v
    exact ⟨q', .pushed, by rw [hq']; rfl, rfl, rq'⟩

theorem rel_pop (r : Rel n q l) :
    ∃ q', q.pop = some (q', match l with | [] => none | x :: _ => some (some x)) ∧
      Rel n q' l.tail := by
  have hp := r.pos
  unfold Ring.pop
  cases l with
  | nil => rw [r.isEmpty]; exact ⟨q, rfl, r⟩
  | cons x l =>
    rw [r.isEmpty]
    have hlt : q.head < q.len ∧ q.capacity ≠ 0 := ⟨by rw [r.len]; exact r.hd, by rw [r.cap]; omega⟩
    have hv := r.vals 0 (by simp)
    rw [Nat.add_zero, Nat.mod_eq_of_lt r.hd] at hv
    refine ⟨_, by
      rw [if_neg (by simp), if_pos hlt, hv]; rfl, ?_⟩
    exact Rel.dropHead r _ (fun i hi => by rw [if_neg hi])

end Ring

/-! ### lists as specified channels -/

theorem chan_fifo {α : Type} (room : Nat) (ops : List (ChanOp α)) (l : List α) :
    (deliveredVals (chanRun room l ops).2 ++ (chanRun room l ops).1).Sublist
        (l ++ acceptedVals ops (chanRun room l ops).2) ∧
      (deliveredVals (chanRun room l ops).2).length + (chanRun room l ops).1.length
        + lostCount (chanRun room l ops).2
        = l.length + (acceptedVals ops (chanRun room l ops).2).length
        ∨ room = 0 := by
  rcases Nat.eq_zero_or_pos room with h0 | hroom
  · exact Or.inr h0
  left
  induction ops generalizing l with
  | nil => simp [chanRun, deliveredVals, acceptedVals, lostCount]
  | cons op ops ih =>
    cases op with
    | send v p =>
      by_cases hl : l.length < room
      · have h1 := ih (l ++ [v])
        simp only [chanRun, chanStep, hl, if_true, deliveredVals, acceptedVals, lostCount]
        rw [List.append_assoc] at h1
        simp only [List.length_append, List.length_cons, List.length_nil] at h1 ⊢
        exact ⟨h1.1, by omega⟩
      · cases p with
        | wait =>
          have h1 := ih l
          simp only [chanRun, chanStep, hl, if_false, deliveredVals, acceptedVals, lostCount]
          exact h1
        | drop =>
          have h1 := ih l
          simp only [chanRun, chanStep, hl, if_false, deliveredVals, acceptedVals, lostCount]
          exact h1
        | replace =>
          have h1 := ih (l.tail ++ [v])
          simp only [chanRun, chanStep, hl, if_false, deliveredVals, acceptedVals, lostCount]
          rw [List.append_assoc] at h1
          simp only [List.length_append, List.length_cons, List.length_nil, List.length_tail] at h1 ⊢
          exact ⟨h1.1.trans ((List.tail_sublist l).append_right _), by omega⟩
    | recv =>
      cases l with
      | nil =>
        have h1 := ih []
        simp only [chanRun, chanStep, deliveredVals, acceptedVals, lostCount]
        exact h1
      | cons x l =>
        have h1 := ih l
        simp only [chanRun, chanStep, deliveredVals, acceptedVals, lostCount, List.cons_append,
          List.length_cons]
        exact ⟨h1.1.cons₂ x, by omega⟩

theorem chan_room {α : Type} (room : Nat) (hroom : 0 < room) (ops : List (ChanOp α)) (l : List α)
    (h : l.length ≤ room) : (chanRun room l ops).1.length ≤ room := by
  induction ops generalizing l with
  | nil => simpa [chanRun] using h
  | cons op ops ih =>
    simp only [chanRun]
    apply ih
    cases op with
    | send v p =>
      by_cases hl : l.length < room
      · simp [chanStep, hl]; omega
      · cases p <;> simp [chanStep, hl] <;> omega
    | recv => cases l <;> simp_all [chanStep]; omega

end CGraph
