import Verif.Model.Message
import Verif.Spec.Message
import Verif.Lemmas.Queues
import Mathlib.Data.List.Forall2
import Mathlib.Data.List.Nodup

namespace CGraph
open Spec

/-! ## Association lists -/
section Assoc
variable {κ β : Type} [DecidableEq κ]

theorem assocGet_del_self (k : κ) (l : List (κ × β)) : assocGet k (assocDel k l) = none := by
  induction l with
  | nil => rfl
  | cons p l ih =>
    simp only [assocDel, List.filter_cons]
    by_cases h : p.1 = k
    · simp only [h, ne_eq, not_true_eq_false, decide_false, Bool.false_eq_true, if_false]; exact ih
    · simp only [ne_eq, h, not_false_eq_true, decide_true, if_true, assocGet, if_false]; exact ih

theorem assocGet_del_ne {k k' : κ} (h : k' ≠ k) (l : List (κ × β)) : assocGet k' (assocDel k l) = assocGet k' l := by
  induction l with
  | nil => rfl
  | cons p l ih =>
    simp only [assocDel, List.filter_cons]
    by_cases hp : p.1 = k
    · simp only [hp, ne_eq, not_true_eq_false, decide_false, Bool.false_eq_true, if_false, assocGet, Ne.symm h]
      exact ih
    · simp only [ne_eq, hp, not_false_eq_true, decide_true, if_true, assocGet]
      split
      · rfl
      · exact ih

theorem assocGet_put_self (k : κ) (v : β) (l : List (κ × β)) : assocGet k (assocPut k v l) = some v := by
  simp [assocPut, assocGet]

theorem assocGet_put_ne {k k' : κ} (h : k' ≠ k) (v : β) (l : List (κ × β)) :
    assocGet k' (assocPut k v l) = assocGet k' l := by
  simp only [assocPut, assocGet, Ne.symm h, if_false]
  exact assocGet_del_ne h l

theorem assocDel_keys {k : κ} {l : List (κ × β)} (h : (l.map (·.1)).Nodup) : ((assocDel k l).map (·.1)).Nodup :=
  h.sublist ((List.filter_sublist (p := fun p : κ × β => decide (p.1 ≠ k))).map _)

theorem assocPut_keys {k : κ} {v : β} {l : List (κ × β)} (h : (l.map (·.1)).Nodup) :
    ((assocPut k v l).map (·.1)).Nodup := by
  simp only [assocPut, List.map_cons, List.nodup_cons]
  refine ⟨?_, assocDel_keys h⟩
  simp

theorem assocGet_of_mem {k : κ} {v : β} {l : List (κ × β)} (h : (l.map (·.1)).Nodup) (hm : (k, v) ∈ l) :
    assocGet k l = some v := by
  induction l with
  | nil => simp at hm
  | cons p l ih =>
    simp only [List.map_cons, List.nodup_cons] at h
    rcases List.mem_cons.mp hm with rfl | hm
    · simp [assocGet]
    · have : p.1 ≠ k := fun e => h.1 (e ▸ List.mem_map_of_mem (f := (·.1)) hm)
      simp [assocGet, this, ih h.2 hm]

theorem assocGet_none {k : κ} {l : List (κ × β)} : assocGet k l = none ↔ ∀ v, (k, v) ∉ l := by
  induction l with
  | nil => simp [assocGet]
  | cons p l ih =>
    obtain ⟨a, b⟩ := p
    simp only [assocGet]
    by_cases h : a = k
    · subst h; simp only [if_true, reduceCtorEq, false_iff, not_forall, Classical.not_not]; exact ⟨b, List.mem_cons_self ..⟩
    · simp [h, ih, Ne.symm h]

end Assoc

namespace MsgMgr
variable {α : Type}

/-! ## Freeing -/

theorem deref_some {s : MsgMgr α} {a : Nat} {c : MCell α} : s.deref a = some c ↔ s.heap[a]? = some c ∧ c.freed = false := by
  unfold deref
  cases h : s.heap[a]? with
  | none => simp
  | some d =>
    cases hd : d.freed with
    | true => simp only [hd, if_true, Option.some.injEq]; constructor
              · intro h; simp at h
              · rintro ⟨rfl, h⟩; rw [hd] at h; simp at h
    | false =>
      simp only [hd, Bool.false_eq_true, if_false, Option.some.injEq]
      exact ⟨fun h => ⟨h, h ▸ hd⟩, fun h => h.1⟩

/-- The heap after freeing the cells of a list. -/
def freedHeap (h : List (MCell α)) (l : List Nat) : List (MCell α) :=
  h.mapIdx fun i c => if i ∈ l then { c with freed := true } else c

theorem freeAll_eq (l : List Nat) (s : MsgMgr α) (hn : l.Nodup) (hl : ∀ a ∈ l, ∃ c, s.deref a = some c) :
    s.freeAll l = some { s with heap := freedHeap s.heap l } := by
  induction l generalizing s with
  | nil =>
    have : freedHeap s.heap [] = s.heap := by
      apply List.ext_getElem?
      intro i; simp [freedHeap]
    simp [freeAll, this]
  | cons a l ih =>
    obtain ⟨c, hc⟩ := hl a (List.mem_cons_self ..)
    have hc' := deref_some.mp hc
    rw [List.nodup_cons] at hn
    simp only [freeAll, hc]
    rw [ih]
    · simp only [Option.some.injEq]
      congr 1
      apply List.ext_getElem?
      intro i
      simp only [freedHeap, List.getElem?_mapIdx, List.getElem?_set]
      have hlen : a < s.heap.length := by
        rcases Nat.lt_or_ge a s.heap.length with h | h
        · exact h
        · rw [List.getElem?_eq_none h] at hc'; simp at hc'
      by_cases hi : a = i
      · subst hi
        simp only [if_true, hlen, hc'.1, Option.map_some, List.mem_cons, true_or]
        by_cases h : a ∈ l <;> simp [h]
      · simp only [hi, if_false, List.mem_cons, Ne.symm hi, false_or]
    · exact hn.2
    · intro b hb
      obtain ⟨d, hd⟩ := hl b (List.mem_cons_of_mem _ hb)
      refine ⟨d, ?_⟩
      have hne : a ≠ b := fun e => hn.1 (e ▸ hb)
      have := deref_some.mp hd
      refine deref_some.mpr ⟨?_, this.2⟩
      simp only [List.getElem?_set, hne, if_false]
      exact this.1

/-- Freeing fails when a cell is freed already. -/
theorem freeAll_none (l : List Nat) (s : MsgMgr α) (h : ∃ a ∈ l, s.deref a = none) : s.freeAll l = none := by
  induction l generalizing s with
  | nil => simp at h
  | cons a l ih =>
    simp only [freeAll]
    cases hd : s.deref a with
    | none => rfl
    | some c =>
      simp only
      obtain ⟨b, hb, hn⟩ := h
      rcases List.mem_cons.mp hb with rfl | hb
      · rw [hd] at hn; simp at hn
      · refine ih _ ⟨b, hb, ?_⟩
        unfold deref at hn ⊢
        simp only [List.getElem?_set]
        by_cases hab : a = b
        · subst hab
          rw [if_pos rfl]
          split <;> rename_i h <;> split at h <;> simp_all
          rw [← h]
        · rw [if_neg hab]; exact hn

/-! ## The topics with senders and receivers -/

/-- The queue of a topic against its specification. -/
inductive TRel : Option (MTopic α) → Option (Nat × Nat × List α) → Prop
  | none : TRel none none
  | some {m : MTopic α} {n : Nat} {l : List α} : 2 ≤ n → Ring.Rel n m.ring l → TRel (some m) (some (m.ty, n, l))

/-- The requests of a history for one topic. -/
def topicOp (t : String) : MsgOp α → Option (TopicOp α)
  | .create t' ty n => if t' = t then some (.create ty n) else none
  | .remove t' => if t' = t then some .remove else none
  | .send t' v st => if t' = t then some (.send v (Ring.pol st)) else none
  | .recv t' => if t' = t then some .recv else none
  | .clear => some .clear
  | _ => none

/-- An answer read as the answer of a topic; a null pointer is none. -/
def topicAns : MsgAns α → Option (TopicAns α)
  | .ok => some .done
  | .err => some .refused
  | .pushed o => some (.chan (Ring.out o))
  | .value (some v) => some (.chan (.got v))
  | .timeout => some (.chan .nothing)
  | _ => none

/-- The sizes asked for are at least two. -/
def SizeOk : MsgOp α → Prop
  | .create _ _ n | .bind _ n => 2 ≤ n
  | _ => True

/-- All topics against their specifications. -/
def SRel (f : String → Option (Nat × Nat × List α)) (s : MsgMgr α) : Prop := ∀ t, TRel (assocGet t s.sr) (f t)

/-- What a request does to the specification of all topics. -/
def topicsAfter (f : String → Option (Nat × Nat × List α)) (op : MsgOp α) (t : String) : Option (Nat × Nat × List α) :=
  match topicOp t op with
  | none => f t
  | some o => (topicStep (f t) o).1

theorem freeAll_sr {l : List Nat} {s s' : MsgMgr α} (h : s.freeAll l = some s') : s'.sr = s.sr ∧ s'.ps = s.ps ∧
    s'.conn = s.conn ∧ s'.cur = s.cur ∧ s'.flights = s.flights := by
  induction l generalizing s with
  | nil => simp only [freeAll, Option.some.injEq] at h; subst h; simp
  | cons a l ih =>
    simp only [freeAll] at h
    cases hd : s.deref a with
    | none => simp [hd] at h
    | some c => simp only [hd] at h; have := ih h; exact this

theorem topicStep_clear (x : Option (Nat × Nat × List α)) : topicStep x .clear = (none, .done) := by
  rcases x with _ | ⟨_, _, _⟩ <;> rfl

/-- One call against the specifications of all topics. -/
theorem sr_step {f : String → Option (Nat × Nat × List α)} {s : MsgMgr α} (h : SRel f s) (op : MsgOp α) (hz : SizeOk op)
    {s' : MsgMgr α} {a : MsgAns α} (hs : s.step op = some (s', a)) :
    SRel (topicsAfter f op) s' ∧ ∀ t o, topicOp t op = some o → topicAns a = some (topicStep (f t) o).2 := by
  have same : ∀ {s'' : MsgMgr α}, s''.sr = s.sr → (∀ t, topicOp t op = none) →
      SRel (topicsAfter f op) s'' ∧ ∀ t o, topicOp t op = some o → topicAns a = some (topicStep (f t) o).2 := by
    intro s'' he hn
    refine ⟨fun t => ?_, fun t o ho => by rw [hn t] at ho; simp at ho⟩
    simp only [topicsAfter, hn t, he]; exact h t
  -- an operation on one topic
  have one : ∀ t (o : TopicOp α), (∀ t', topicOp t' op = if t = t' then some o else none) →
      (∀ t', t' ≠ t → assocGet t' s'.sr = assocGet t' s.sr) →
      TRel (assocGet t s'.sr) (topicStep (f t) o).1 → topicAns a = some (topicStep (f t) o).2 →
      SRel (topicsAfter f op) s' ∧ ∀ t o, topicOp t op = some o → topicAns a = some (topicStep (f t) o).2 := by
    intro t o ho hne ht ha
    refine ⟨fun t' => ?_, fun t' o' ho' => ?_⟩
    · by_cases he : t = t'
      · subst he; simp only [topicsAfter, ho, if_true]; exact ht
      · simp only [topicsAfter, ho, he, if_false]
        rw [hne t' (Ne.symm he)]; exact h t'
    · rw [ho] at ho'
      by_cases he : t = t'
      · subst he; simp only [if_true, Option.some.injEq] at ho'; subst ho'; exact ha
      · simp [he] at ho'
  cases op with
  | create t ty n =>
    simp only [step, create, Option.some.injEq] at hs
    have ht := h t
    refine one t (.create ty n) (fun _ => rfl) ?_ ?_ ?_
    · intro t' hne
      cases hg : assocGet t s.sr with
      | some m => simp only [hg, Prod.mk.injEq] at hs; rw [← hs.1]
      | none => simp only [hg, Prod.mk.injEq] at hs; rw [← hs.1]; exact assocGet_put_ne hne _ _
    · cases hg : assocGet t s.sr with
      | some m =>
        simp only [hg, Prod.mk.injEq] at hs
        rw [← hs.1, hg]
        rw [hg] at ht
        cases hf : f t with
        | none => rw [hf] at ht; cases ht
        | some x => rw [hf] at ht; obtain ⟨a, b, c⟩ := x; exact ht
      | none =>
        simp only [hg, Prod.mk.injEq] at hs
        rw [← hs.1]
        rw [hg] at ht
        cases hf : f t with
        | some x => rw [hf] at ht; cases ht
        | none =>
          simp only [assocGet_put_self, topicStep]
          exact TRel.some (m := ⟨ty, Ring.create n⟩) hz (Ring.rel_create n (by simp only [SizeOk] at hz; omega))
    · cases hg : assocGet t s.sr with
      | some m =>
        simp only [hg, Prod.mk.injEq] at hs
        rw [← hs.2]
        rw [hg] at ht
        cases hf : f t with
        | none => rw [hf] at ht; cases ht
        | some x =>
          rw [hf] at ht
          obtain ⟨a, b, c⟩ := x
          cases ht with
          | some h2 hr =>
            simp only [hr.cap, topicStep]
            by_cases hc : m.ty = ty ∧ b = n <;> simp [hc, topicAns]
      | none =>
        simp only [hg, Prod.mk.injEq] at hs
        rw [← hs.2]
        rw [hg] at ht
        cases hf : f t with
        | some x => rw [hf] at ht; cases ht
        | none => rfl
  | remove t =>
    simp only [step, remove, Option.some.injEq] at hs
    have ht := h t
    cases hg : assocGet t s.sr with
    | none =>
      simp only [hg, Prod.mk.injEq] at hs
      obtain ⟨rfl, rfl⟩ := hs
      rw [hg] at ht
      cases hf : f t with
      | some x => rw [hf] at ht; cases ht
      | none =>
        refine one t .remove (fun _ => rfl) (fun _ _ => rfl) ?_ ?_
        · rw [hg, hf]; exact TRel.none
        · rw [hf]; rfl
    | some m =>
      simp only [hg, Prod.mk.injEq] at hs
      obtain ⟨rfl, rfl⟩ := hs
      rw [hg] at ht
      cases hf : f t with
      | none => rw [hf] at ht; cases ht
      | some x =>
        refine one t .remove (fun _ => rfl) (fun t' hne => assocGet_del_ne hne _) ?_ ?_
        · rw [hf]; simp only [assocGet_del_self, topicStep]; exact TRel.none
        · rw [hf]; rfl
  | send t v st =>
    have ht := h t
    simp only [step, send] at hs
    cases hg : assocGet t s.sr with
    | none =>
      simp only [hg, Option.some.injEq, Prod.mk.injEq] at hs
      obtain ⟨rfl, rfl⟩ := hs
      rw [hg] at ht
      cases hf : f t with
      | some x => rw [hf] at ht; cases ht
      | none =>
        refine one t (.send v (Ring.pol st)) (fun _ => rfl) (fun _ _ => rfl) ?_ ?_
        · rw [hg, hf]; exact TRel.none
        · rw [hf]; rfl
    | some m =>
      rw [hg] at ht
      cases hf : f t with
      | none => rw [hf] at ht; cases ht
      | some x =>
        rw [hf] at ht
        obtain ⟨a₁, n, l⟩ := x
        cases ht with
        | some h2 hr =>
          obtain ⟨q', o, h3, h4, h5⟩ := Ring.rel_push h2 hr v st
          simp only [hg, h3, Option.some.injEq, Prod.mk.injEq] at hs
          obtain ⟨rfl, rfl⟩ := hs
          refine one t (.send v (Ring.pol st)) (fun _ => rfl) (fun t' hne => assocGet_put_ne hne _ _) ?_ ?_
          · rw [hf]
            simp only [assocGet_put_self, topicStep]
            exact TRel.some (m := { m with ring := q' }) h2 h5
          · rw [hf]; simp only [topicAns, topicStep, h4]
  | recv t =>
    have ht := h t
    simp only [step, recv] at hs
    cases hg : assocGet t s.sr with
    | none =>
      simp only [hg, Option.some.injEq, Prod.mk.injEq] at hs
      obtain ⟨rfl, rfl⟩ := hs
      rw [hg] at ht
      cases hf : f t with
      | some x => rw [hf] at ht; cases ht
      | none =>
        refine one t .recv (fun _ => rfl) (fun _ _ => rfl) ?_ ?_
        · rw [hg, hf]; exact TRel.none
        · rw [hf]; rfl
    | some m =>
      rw [hg] at ht
      cases hf : f t with
      | none => rw [hf] at ht; cases ht
      | some x =>
        rw [hf] at ht
        obtain ⟨a₁, n, l⟩ := x
        cases ht with
        | some h2 hr =>
          obtain ⟨q', h3, h5⟩ := Ring.rel_pop hr
          simp only [hg, h3, Option.some.injEq, Prod.mk.injEq] at hs
          obtain ⟨rfl, rfl⟩ := hs
          refine one t .recv (fun _ => rfl) (fun t' hne => assocGet_put_ne hne _ _) ?_ ?_
          · rw [hf]
            simp only [assocGet_put_self, topicStep]
            have : (chanStep (n - 1) l .recv).1 = l.tail := by cases l <;> rfl
            rw [this]
            exact TRel.some (m := { m with ring := q' }) h2 h5
          · rw [hf]; cases l <;> rfl
  | bind t n =>
    simp only [step, bind, Option.some.injEq, Prod.mk.injEq] at hs
    exact same (by rw [← hs.1]) (fun _ => rfl)
  | detach t c =>
    simp only [step, detach] at hs
    refine same ?_ (fun _ => rfl)
    cases hg : assocGet t s.ps with
    | none => simp only [hg, Option.some.injEq, Prod.mk.injEq] at hs; rw [← hs.1]
    | some l =>
      simp only [hg] at hs
      cases hc : s.findConn c l with
      | none => simp [hc] at hs
      | some x =>
        cases x with
        | none => simp only [hc, Option.some.injEq, Prod.mk.injEq] at hs; rw [← hs.1]
        | some x =>
          simp only [hc] at hs
          cases hf : s.freeAll [x] with
          | none => simp [hf] at hs
          | some s₁ =>
            simp only [hf, Option.map_some, Option.some.injEq, Prod.mk.injEq] at hs
            rw [← hs.1]; exact (freeAll_sr hf).1
  | pub t v st =>
    simp only [step, pub, Option.some.injEq] at hs
    refine same ?_ (fun _ => rfl)
    cases hg : assocGet t s.ps with
    | none => simp only [hg, Prod.mk.injEq] at hs; rw [← hs.1]
    | some l => simp only [hg, Prod.mk.injEq] at hs; rw [← hs.1]
  | go i =>
    simp only [step, go] at hs
    refine same ?_ (fun _ => rfl)
    split at hs
    · simp only [Option.some.injEq, Prod.mk.injEq] at hs; rw [← hs.1]
    · simp only [Option.some.injEq, Prod.mk.injEq] at hs; rw [← hs.1]
    · rename_i v st x l hfl
      unfold pushTo at hs
      cases hd : s.deref x with
      | none => simp [hd] at hs
      | some m =>
        simp only [hd] at hs
        cases hp : m.ring.push v st with
        | none => simp [hp] at hs
        | some y =>
          obtain ⟨r, o⟩ := y
          cases o <;> simp only [hp, Option.some.injEq, Prod.mk.injEq] at hs <;> rw [← hs.1]
  | sub c =>
    simp only [step, sub] at hs
    refine same ?_ (fun _ => rfl)
    split at hs
    · simp only [Option.some.injEq, Prod.mk.injEq] at hs; rw [← hs.1]
    · split at hs
      · simp at hs
      · split at hs
        · simp at hs
        · simp only [Option.some.injEq, Prod.mk.injEq] at hs; rw [← hs.1]
  | drop t =>
    simp only [step, drop] at hs
    refine same ?_ (fun _ => rfl)
    split at hs
    · simp only [Option.some.injEq, Prod.mk.injEq] at hs; rw [← hs.1]
    · rename_i l _
      cases hf : s.freeAll l with
      | none => simp [hf] at hs
      | some s₁ =>
        simp only [hf, Option.map_some, Option.some.injEq, Prod.mk.injEq] at hs
        rw [← hs.1]; exact (freeAll_sr hf).1
  | clear =>
    simp only [step, clear] at hs
    cases hf : s.freeAll (s.ps.map (·.2)).flatten with
    | none => simp [hf] at hs
    | some s₁ =>
      simp only [hf, Option.map_some, Option.some.injEq, Prod.mk.injEq] at hs
      obtain ⟨rfl, rfl⟩ := hs
      refine ⟨fun t => ?_, fun t o ho => ?_⟩
      · simp only [topicsAfter, topicOp, topicStep_clear]; exact TRel.none
      · simp only [topicOp, Option.some.injEq] at ho; subst ho; rw [topicStep_clear]; rfl

/-- Calls for topics with senders and receivers are never undefined. -/
theorem sr_defined {f : String → Option (Nat × Nat × List α)} {s : MsgMgr α} (h : SRel f s) {op : MsgOp α} {t : String}
    {o : TopicOp α} (ho : topicOp t op = some o) (hc : op ≠ .clear) : ∃ x, s.step op = some x := by
  cases op with
  | create t' ty n => exact ⟨_, rfl⟩
  | remove t' => exact ⟨_, rfl⟩
  | send t' v st =>
    have ht := h t'
    simp only [step, send]
    cases hg : assocGet t' s.sr with
    | none => exact ⟨_, rfl⟩
    | some m =>
      rw [hg] at ht
      cases hf : f t' with
      | none => rw [hf] at ht; cases ht
      | some x =>
        rw [hf] at ht
        cases ht with
        | some h2 hr =>
          obtain ⟨q', o, h3, _, _⟩ := Ring.rel_push h2 hr v st
          simp only [h3]; exact ⟨_, rfl⟩
  | recv t' =>
    have ht := h t'
    simp only [step, recv]
    cases hg : assocGet t' s.sr with
    | none => exact ⟨_, rfl⟩
    | some m =>
      rw [hg] at ht
      cases hf : f t' with
      | none => rw [hf] at ht; cases ht
      | some x =>
        rw [hf] at ht
        cases ht with
        | some h2 hr =>
          obtain ⟨q', h3, _⟩ := Ring.rel_pop hr
          simp only [h3]; exact ⟨_, rfl⟩
  | clear => exact absurd rfl hc
  | _ => simp [topicOp] at ho

end MsgMgr
end CGraph
