import Verif.Lemmas.Message

namespace CGraph
open Spec

namespace Spec.Board
variable {α : Type}

theorem mem_idsFrom {t : String} {c k : Nat} {ls : List (Link α)} :
    c ∈ idsFrom t k ls ↔ ∃ i l, ls[i]? = some l ∧ c = k + i + 1 ∧ l.topic = t ∧ l.live = true := by
  induction ls generalizing k with
  | nil => simp [idsFrom]
  | cons l ls ih =>
    have tl : c ∈ idsFrom t (k + 1) ls ↔
        ∃ i m, (l :: ls)[i + 1]? = some m ∧ c = k + (i + 1) + 1 ∧ m.topic = t ∧ m.live = true := by
      rw [ih]
      simp only [List.getElem?_cons_succ]
      constructor <;> rintro ⟨i, m, h1, h2, h3⟩ <;> exact ⟨i, m, h1, by omega, h3⟩
    simp only [idsFrom]
    constructor
    · intro h
      split at h
      · rename_i hl
        rcases List.mem_cons.mp h with rfl | h
        · exact ⟨0, l, rfl, rfl, hl.1, hl.2⟩
        · obtain ⟨i, m, h⟩ := tl.mp h; exact ⟨i + 1, m, h⟩
      · obtain ⟨i, m, h⟩ := tl.mp h; exact ⟨i + 1, m, h⟩
    · rintro ⟨i, m, h1, h2, h3, h4⟩
      cases i with
      | zero =>
        simp only [List.getElem?_cons_zero, Option.some.injEq] at h1
        subst h1
        simp [h3, h4, h2]
      | succ i =>
        have := tl.mpr ⟨i, m, h1, h2, h3, h4⟩
        split
        · exact List.mem_cons_of_mem _ this
        · exact this

theorem idsFrom_gt {t : String} {c k : Nat} {ls : List (Link α)} (h : c ∈ idsFrom t k ls) : k < c := by
  obtain ⟨i, l, _, h, _⟩ := mem_idsFrom.mp h; omega

theorem idsFrom_nodup (t : String) (k : Nat) (ls : List (Link α)) : (idsFrom t k ls).Nodup := by
  induction ls generalizing k with
  | nil => simp [idsFrom]
  | cons l ls ih =>
    simp only [idsFrom]
    split
    · exact List.nodup_cons.mpr ⟨fun h => by have := idsFrom_gt h; omega, ih _⟩
    · exact ih _

theorem idsFrom_append (t : String) (k : Nat) (ls ms : List (Link α)) :
    idsFrom t k (ls ++ ms) = idsFrom t k ls ++ idsFrom t (k + ls.length) ms := by
  induction ls generalizing k with
  | nil => simp [idsFrom]
  | cons l ls ih =>
    simp only [List.cons_append, idsFrom, ih]
    have : k + 1 + ls.length = k + (l :: ls).length := by simp; omega
    rw [this]
    split <;> simp

theorem idsFrom_congr (t : String) (k : Nat) (ls ms : List (Link α)) (hl : ls.length = ms.length)
    (h : ∀ (i : Nat) l m, ls[i]? = some l → ms[i]? = some m → ((l.topic = t ∧ l.live = true) ↔ (m.topic = t ∧ m.live = true))) :
    idsFrom t k ls = idsFrom t k ms := by
  induction ls generalizing k ms with
  | nil => cases ms with
    | nil => rfl
    | cons m ms => simp at hl
  | cons l ls ih =>
    cases ms with
    | nil => simp at hl
    | cons m ms =>
      have h0 := h 0 l m rfl rfl
      have ht := ih (k + 1) ms (by simpa using hl) (fun i l' m' h1 h2 => h (i + 1) l' m' h1 h2)
      simp only [idsFrom, ht]
      by_cases hm : m.topic = t ∧ m.live = true
      · rw [if_pos hm, if_pos (h0.mpr hm)]
      · rw [if_neg hm, if_neg (fun h => hm (h0.mp h))]

theorem mem_subscribers {b : Board α} {t : String} {c : Nat} :
    c ∈ b.subscribers t ↔ ∃ l, b.link c = some l ∧ l.topic = t ∧ l.live = true := by
  unfold subscribers link
  rw [mem_idsFrom]
  constructor
  · rintro ⟨i, l, h1, rfl, h2, h3⟩
    exact ⟨l, by simpa using h1, h2, h3⟩
  · rintro ⟨l, h1, h2, h3⟩
    split at h1
    · simp at h1
    · exact ⟨c - 1, l, h1, by omega, h2, h3⟩

end Spec.Board

namespace MsgMgr
variable {α : Type}

/-- The requests of a history for the board. -/
def boardOp : MsgOp α → Option (BoardOp α)
  | .bind t n => some (.bind t n)
  | .pub t v st => some (.pub t v (Ring.pol st))
  | .go i => some (.go i)
  | .sub c => some (.sub c)
  | .drop t => some (.drop t)
  | .clear => some .clear
  | _ => none

/-- An answer read as the answer of a board; a null pointer is none. -/
def boardAns : MsgAns α → Option (BoardAns α)
  | .ok => some .done
  | .err => some .refused
  | .id c => some (.id c)
  | .pushed o => some (.chan (Ring.out o))
  | .value (some v) => some (.chan (.got v))
  | .value none => none
  | .timeout => some (.chan .nothing)
  | .returned => some .returned

/-- A publisher against a publication: ids are addresses, counted from `base`. -/
structure FRel (base n : Nat) (f : Flight α) (l : Letter α) : Prop where
  value : f.value = l.value
  policy : Ring.pol f.strategy = l.policy
  todo : List.Forall₂ (fun a c => c ≠ 0 → a + 1 = base + c ∧ c ≤ n) f.todo l.todo

/-- The manager against the board. -/
structure BRel (base : Nat) (b : Board α) (s : MsgMgr α) : Prop where
  len : s.heap.length = base + b.links.length
  cell : ∀ (i : Nat) l, b.links[i]? = some l → ∃ r, s.heap[base + i]? = some ⟨r, i + 1, !l.live⟩ ∧
    (l.live = true → 1 ≤ l.room ∧ Ring.Rel (l.room + 1) r l.queue)
  ps : ∀ t, assocGet t s.ps =
    if b.subscribers t = [] then none else some ((b.subscribers t).map fun c => base + c - 1)
  keys : (s.ps.map (·.1)).Nodup
  conn : ∀ c, assocGet c s.conn = if 1 ≤ c ∧ c ≤ b.links.length then some (base + c - 1) else none
  cur : s.cur = b.links.length
  flights : List.Forall₂ (FRel base b.links.length) s.flights b.letters

variable {base : Nat} {b : Board α} {s : MsgMgr α}

theorem FRel.mono {base n m : Nat} {f : Flight α} {l : Letter α} (h : FRel base n f l) (hm : n ≤ m) : FRel base m f l :=
  ⟨h.value, h.policy, h.todo.imp fun _ _ h hc => ⟨(h hc).1, Nat.le_trans (h hc).2 hm⟩⟩

theorem BRel.link_cell (h : BRel base b s) {c : Nat} {l : Link α} (hl : b.link c = some l) :
    1 ≤ c ∧ c ≤ b.links.length ∧ b.links[c - 1]? = some l ∧
    ∃ r, s.heap[base + c - 1]? = some ⟨r, c, !l.live⟩ ∧
      (l.live = true → 1 ≤ l.room ∧ Ring.Rel (l.room + 1) r l.queue) := by
  unfold Board.link at hl
  split at hl
  · simp at hl
  · rename_i hc
    obtain ⟨r, h1, h2⟩ := h.cell (c - 1) l hl
    have hlt : c - 1 < b.links.length := by
      rcases Nat.lt_or_ge (c - 1) b.links.length with h | h
      · exact h
      · rw [List.getElem?_eq_none h] at hl; simp at hl
    refine ⟨by omega, by omega, hl, r, ?_, h2⟩
    rw [show base + c - 1 = base + (c - 1) by omega, h1, show c - 1 + 1 = c by omega]

/-- The cells of subscribers are alive. -/
theorem BRel.subscriber_deref (h : BRel base b s) {t : String} {a : Nat}
    (ha : a ∈ (b.subscribers t).map fun c => base + c - 1) : ∃ c, s.deref a = some c := by
  obtain ⟨c, hc, rfl⟩ := List.mem_map.mp ha
  obtain ⟨l, hl, _, hlive⟩ := Board.mem_subscribers.mp hc
  obtain ⟨_, _, _, r, hr, _⟩ := h.link_cell hl
  exact ⟨_, deref_some.mpr ⟨hr, by simp [hlive]⟩⟩

theorem addrs_nodup (base : Nat) (b : Board α) (t : String) : ((b.subscribers t).map fun c => base + c - 1).Nodup := by
  refine List.Nodup.map_on ?_ (Board.idsFrom_nodup t 0 b.links)
  intro x hx y hy h
  have h1 := Board.idsFrom_gt hx
  have h2 := Board.idsFrom_gt hy
  omega

/-- A queue is replaced by a related one. -/
theorem BRel.set_queue (h : BRel base b s) {c : Nat} {l : Link α} (hl : b.link c = some l) (hlive : l.live = true)
    {r : Ring α} {q : List α} (hr : Ring.Rel (l.room + 1) r q) :
    BRel base (b.setQueue c q) { s with heap := s.heap.set (base + c - 1) ⟨r, c, false⟩ } := by
  obtain ⟨h1, h2, h3, r₀, h4, h5⟩ := h.link_cell hl
  have hlen : (b.setQueue c q).links.length = b.links.length := by simp [Board.setQueue]
  have hsub : ∀ t, (b.setQueue c q).subscribers t = b.subscribers t := by
    intro t
    refine Board.idsFrom_congr t 0 _ _ (by simp [Board.setQueue]) fun i l' m hl' hm => ?_
    simp only [Board.setQueue, List.getElem?_modify] at hl'
    split at hl'
    · simp only [hm, Option.map_some, Option.map_eq_map, Option.some.injEq] at hl'; rw [← hl']
    · simp only [hm, Option.map_some, Option.map_eq_map, id, Option.some.injEq] at hl'; rw [← hl']
  refine ⟨by rw [hlen]; simpa using h.len, ?_, ?_, h.keys, ?_, by rw [hlen]; exact h.cur, by rw [hlen]; exact h.flights⟩
  · intro i l' hl'
    simp only [Board.setQueue, List.getElem?_modify] at hl'
    by_cases hi : c - 1 = i
    · subst hi
      simp only [if_true, h3, Option.map_eq_map, Option.map_some, Option.some.injEq] at hl'
      subst hl'
      refine ⟨r, ?_, fun _ => ⟨(h5 hlive).1, hr⟩⟩
      rw [show base + (c - 1) = base + c - 1 by omega, List.getElem?_set, if_pos rfl, if_pos (by rw [h.len]; omega)]
      simp only [hlive, Bool.not_true, show c - 1 + 1 = c by omega]
    · simp only [hi, if_false, Option.map_eq_map, Option.map_id_fun', id] at hl'
      obtain ⟨r', h6, h7⟩ := h.cell i l' hl'
      refine ⟨r', ?_, h7⟩
      rw [List.getElem?_set, if_neg (by omega)]
      exact h6
  · intro t; rw [hsub]; exact h.ps t
  · intro c'; rw [hlen]; exact h.conn c'

theorem BRel.new : BRel 0 ⟨[], []⟩ (MsgMgr.new : MsgMgr α) := by
  refine ⟨rfl, by simp, fun t => by simp [Board.subscribers, Board.idsFrom, MsgMgr.new, assocGet], by simp [MsgMgr.new],
    fun c => ?_, rfl, List.Forall₂.nil⟩
  simp only [MsgMgr.new, assocGet, List.length_nil]
  rw [if_neg (by omega)]

theorem forall₂_getElem? {β γ : Type} {R : β → γ → Prop} {l : List β} {m : List γ} (h : List.Forall₂ R l m) (i : Nat) :
    (l[i]? = none ∧ m[i]? = none) ∨ ∃ x y, l[i]? = some x ∧ m[i]? = some y ∧ R x y := by
  induction h generalizing i with
  | nil => simp
  | cons hr _ ih =>
    cases i with
    | zero => exact .inr ⟨_, _, rfl, rfl, hr⟩
    | succ i => simpa using ih i

theorem forall₂_set {β γ : Type} {R : β → γ → Prop} {l : List β} {m : List γ} (h : List.Forall₂ R l m) (i : Nat)
    {x : β} {y : γ} (hr : R x y) : List.Forall₂ R (l.set i x) (m.set i y) := by
  induction h generalizing i with
  | nil => simp
  | cons h₁ h₂ ih =>
    cases i with
    | zero => exact List.Forall₂.cons hr h₂
    | succ i => exact List.Forall₂.cons h₁ (ih i)

/-- One call against the board. -/
theorem board_step (h : BRel base b s) {op : MsgOp α} {o : BoardOp α} (ho : boardOp op = some o) (hz : SizeOk op)
    (hd : (b.step o).2 ≠ .dangling) :
    ∃ s' a base', s.step op = some (s', a) ∧ BRel base' (b.step o).1 s' ∧ boardAns a = some (b.step o).2 := by
  cases op with
  | bind t n =>
    simp only [boardOp, Option.some.injEq] at ho
    subst ho
    refine ⟨_, _, base, rfl, ?_, by simp [bind, boardAns, Board.step, h.cur]⟩
    have hn : 2 ≤ n := hz
    have hsub : ∀ t', Board.subscribers ⟨b.links ++ [⟨t, n - 1, [], true⟩], b.letters⟩ t' =
        b.subscribers t' ++ if t = t' then [b.links.length + 1] else [] := by
      intro t'
      simp only [Board.subscribers, Board.idsFrom_append, Board.idsFrom, Nat.zero_add, and_true]
    constructor
    · simp [Board.step, bind, h.len]; omega
    · intro i l hl
      simp only [Board.step, List.getElem?_append] at hl
      split at hl
      · rename_i hi
        obtain ⟨r, h1, h2⟩ := h.cell i l hl
        refine ⟨r, ?_, h2⟩
        simp only [bind]
        rw [List.getElem?_append_left (by rw [h.len]; omega)]
        exact h1
      · rename_i hi
        have hi0 : i - b.links.length = 0 := by
          rcases Nat.eq_zero_or_pos (i - b.links.length) with h | h
          · exact h
          · rw [List.getElem?_eq_none (by simp; omega)] at hl; simp at hl
        rw [hi0] at hl
        simp only [List.getElem?_cons_zero, Option.some.injEq] at hl
        subst hl
        have hi' : i = b.links.length := by omega
        subst hi'
        refine ⟨Ring.create n, ?_, fun _ => ⟨by simp only; omega, ?_⟩⟩
        · simp only [bind]
          rw [List.getElem?_append_right (by rw [h.len]; exact Nat.le_refl _)]
          simp [h.len, h.cur]
        · simp only [show n - 1 + 1 = n by omega]
          exact Ring.rel_create n (by omega)
    · intro t'
      simp only [Board.step, hsub, bind]
      by_cases ht : t = t'
      · subst ht
        rw [assocGet_put_self, h.ps t]
        simp only [if_true, List.append_eq_nil_iff, List.cons_ne_nil, and_false, if_false, List.map_append, List.map_cons,
          List.map_nil, Option.some.injEq]
        rw [h.len]
        split
        · rename_i he; simp [he]
        · simp
      · rw [assocGet_put_ne (Ne.symm ht), h.ps t']
        simp [ht]
    · exact assocPut_keys h.keys
    · intro c
      simp only [bind, Board.step, List.length_append, List.length_cons, List.length_nil]
      by_cases hc : c = s.cur + 1
      · subst hc
        rw [assocGet_put_self, h.cur, h.len, if_pos (by omega)]
        simp only [Option.some.injEq]; omega
      · rw [assocGet_put_ne hc, h.conn c]
        rw [h.cur] at hc
        by_cases h1 : 1 ≤ c ∧ c ≤ b.links.length
        · rw [if_pos h1, if_pos (by omega)]
        · rw [if_neg h1, if_neg (by omega)]
    · simp [bind, Board.step, h.cur]
    · simp only [bind, Board.step, List.length_append]
      exact h.flights.imp fun _ _ h => h.mono (by omega)
  | pub t v st =>
    simp only [boardOp, Option.some.injEq] at ho
    subst ho
    simp only [step, pub, h.ps t]
    by_cases he : b.subscribers t = []
    · simp only [he, if_true]
      exact ⟨_, _, base, rfl, by simpa [Board.step, he] using h, by simp [boardAns, Board.step, he]⟩
    · simp only [he, if_false]
      refine ⟨_, _, base, rfl, ?_, by simp [boardAns, Board.step, he]⟩
      simp only [Board.step, he, if_false]
      refine ⟨h.len, h.cell, h.ps, h.keys, h.conn, h.cur, ?_⟩
      refine List.rel_append h.flights (List.Forall₂.cons ⟨rfl, rfl, ?_⟩ List.Forall₂.nil)
      simp only
      have : ∀ l : List Nat, (∀ c ∈ l, c ≤ b.links.length ∧ 0 < c) →
          List.Forall₂ (fun a c => c ≠ 0 → a + 1 = base + c ∧ c ≤ b.links.length) (l.map fun c => base + c - 1) l := by
        intro l
        induction l with
        | nil => intro _; exact List.Forall₂.nil
        | cons c l ih =>
          intro hc
          have := hc c (List.mem_cons_self ..)
          exact List.Forall₂.cons (fun _ => ⟨by simp only; omega, this.1⟩) (ih fun c h => hc c (List.mem_cons_of_mem _ h))
      refine this _ fun c hc => ?_
      obtain ⟨l, hl, _⟩ := Board.mem_subscribers.mp hc
      have := h.link_cell hl
      exact ⟨this.2.1, this.1⟩
  | go i =>
    simp only [boardOp, Option.some.injEq] at ho
    subst ho
    simp only [step, go]
    rcases forall₂_getElem? h.flights i with ⟨h1, h2⟩ | ⟨f, lt, h1, h2, h3⟩
    · simp only [h1]
      exact ⟨_, _, base, rfl, by simpa [Board.step, h2] using h, by simp [boardAns, Board.step, h2]⟩
    · obtain ⟨v, st, todo⟩ := f
      obtain ⟨v', p, ids⟩ := lt
      obtain ⟨hv, hp, htodo⟩ := h3
      simp only at hv hp htodo
      subst hv
      cases htodo with
      | nil =>
        simp only [h1]
        exact ⟨_, _, base, rfl, by simpa [Board.step, h2] using h, by simp [boardAns, Board.step, h2]⟩
      | @cons a c l cs hac hrest =>
        simp only [Board.step, h2] at hd ⊢
        cases hl : b.link c with
        | none => simp [hl] at hd
        | some k =>
          simp only [hl] at hd ⊢
          cases hlive : k.live with
          | false => simp [hlive] at hd
          | true =>
            obtain ⟨hc1, hc2, hc3, r, hc4, hc5⟩ := h.link_cell hl
            obtain ⟨hroom, hrel⟩ := hc5 hlive
            have ha : a = base + c - 1 := by have := hac (by omega); omega
            subst ha
            have hder : s.deref (base + c - 1) = some ⟨r, c, false⟩ :=
              deref_some.mpr ⟨by rw [hc4, hlive]; rfl, rfl⟩
            obtain ⟨r', o, hpush, hout, hrel'⟩ := Ring.rel_push (n := k.room + 1) (by omega) hrel v st
            simp only [Nat.add_sub_cancel, hp] at hout hrel'
            simp only [h1, pushTo, hder, hpush, if_true]
            have hset := h.set_queue hl hlive hrel'
            cases ho : o with
            | blocked =>
              rw [ho] at hout
              have hstep : chanStep k.room k.queue (.send v p) = (k.queue, .mustWait) := by
                simp only [Ring.out, chanStep] at hout ⊢
                split
                · rename_i hh; simp [hh] at hout
                · rename_i hh
                  cases p <;> simp [hh] at hout ⊢
              rw [hstep] at hset ⊢
              simp only at hset ⊢
              refine ⟨_, _, base, rfl, ?_, rfl⟩
              have hself : b.setQueue c k.queue = b := by
                unfold Board.setQueue
                have : b.links.modify (c - 1) (fun l => { l with queue := k.queue }) = b.links := by
                  apply List.ext_getElem?
                  intro j
                  rw [List.getElem?_modify]
                  by_cases hj : c - 1 = j
                  · subst hj; simp [hc3]
                  · simp [hj]
                rw [this]
              rwa [hself] at hset
            | _ =>
              rw [ho] at hout
              obtain ⟨⟨q, u⟩, hx⟩ : ∃ x, chanStep k.room k.queue (.send v p) = x := ⟨_, rfl⟩
              rw [hx] at hout hset ⊢
              simp only [Ring.out] at hout hset
              subst hout
              refine ⟨_, _, base, rfl, ?_, rfl⟩
              refine ⟨hset.len, hset.cell, hset.ps, hset.keys, hset.conn, hset.cur, ?_⟩
              refine forall₂_set hset.flights i ⟨rfl, hp, ?_⟩
              simp only [Board.setQueue, List.length_modify]
              exact hrest
  | sub c =>
    simp only [boardOp, Option.some.injEq] at ho
    subst ho
    simp only [step, sub, h.conn c, Board.step] at hd ⊢
    cases hl : b.link c with
    | none =>
      have hn : ¬ (1 ≤ c ∧ c ≤ b.links.length) := by
        rintro ⟨h1, h2⟩
        simp only [Board.link, show c ≠ 0 by omega, if_false] at hl
        rw [List.getElem?_eq_none_iff] at hl; omega
      simp only [hn, if_false]
      exact ⟨_, _, base, rfl, h, rfl⟩
    | some k =>
      simp only [hl] at hd ⊢
      obtain ⟨hc1, hc2, hc3, r, hc4, hc5⟩ := h.link_cell hl
      cases hlive : k.live with
      | false => simp [hlive] at hd
      | true =>
        obtain ⟨hroom, hrel⟩ := hc5 hlive
        have hder : s.deref (base + c - 1) = some ⟨r, c, false⟩ :=
          deref_some.mpr ⟨by rw [hc4, hlive]; rfl, rfl⟩
        obtain ⟨r', hpop, hrel'⟩ := Ring.rel_pop hrel
        simp only [show 1 ≤ c ∧ c ≤ b.links.length from ⟨hc1, hc2⟩, if_true, hder, hpop, and_self]
        refine ⟨_, _, base, rfl, ?_, ?_⟩
        · have : (chanStep k.room k.queue .recv).1 = k.queue.tail := by cases k.queue <;> rfl
          rw [this]
          exact h.set_queue hl hlive hrel'
        · clear hpop
          generalize k.queue = q at hrel hrel'
          cases q <;> rfl
  | drop t =>
    simp only [boardOp, Option.some.injEq] at ho
    subst ho
    simp only [step, drop, h.ps t, Board.step]
    by_cases he : b.subscribers t = []
    · simp only [he, if_true]
      exact ⟨_, _, base, rfl, h, rfl⟩
    · simp only [he, if_false]
      rw [freeAll_eq _ s (addrs_nodup base b t) (fun a ha => h.subscriber_deref ha)]
      refine ⟨_, _, base, rfl, ?_, rfl⟩
      have hget : ∀ i : Nat, (b.links.map fun l => if l.topic = t then { l with live := false } else l)[i]? =
          b.links[i]?.map fun l => if l.topic = t then { l with live := false } else l := fun i => List.getElem?_map ..
      constructor
      · simp [freedHeap, h.len]
      · intro i l hl
        rw [hget] at hl
        cases hbi : b.links[i]? with
        | none => simp [hbi] at hl
        | some l₀ =>
          simp only [hbi, Option.map_some, Option.some.injEq] at hl
          obtain ⟨r, h1, h2⟩ := h.cell i l₀ hbi
          simp only [freedHeap, List.getElem?_mapIdx, h1, Option.map_some]
          have hmem : base + i ∈ (b.subscribers t).map (fun c => base + c - 1) ↔ l₀.topic = t ∧ l₀.live = true := by
            constructor
            · intro hm
              obtain ⟨c, hc, hci⟩ := List.mem_map.mp hm
              obtain ⟨l', hl', hh⟩ := Board.mem_subscribers.mp hc
              obtain ⟨q1, q2, q3, _⟩ := h.link_cell hl'
              have : c - 1 = i := by omega
              rw [this, hbi] at q3
              simp only [Option.some.injEq] at q3
              rw [q3]; exact hh
            · intro hh
              refine List.mem_map.mpr ⟨i + 1, Board.mem_subscribers.mpr ⟨l₀, ?_, hh⟩, by omega⟩
              simp [Board.link, hbi]
          by_cases ht : l₀.topic = t
          · simp only [ht, if_true] at hl
            subst hl
            refine ⟨r, ?_, by simp⟩
            simp only [hmem, ht, true_and]
            cases l₀.live <;> simp
          · simp only [ht, if_false] at hl
            subst hl
            refine ⟨r, ?_, h2⟩
            simp only [hmem, ht, false_and, if_false]
      · intro t'
        by_cases ht : t' = t
        · subst ht
          rw [assocGet_del_self, if_pos]
          apply List.eq_nil_iff_forall_not_mem.mpr
          intro c hc
          obtain ⟨i, l, h1, _, h2, h3⟩ := Board.mem_idsFrom.mp hc
          simp only at h1
          rw [hget] at h1
          cases hbi : b.links[i]? with
          | none => simp [hbi] at h1
          | some l₀ =>
            simp only [hbi, Option.map_some, Option.some.injEq] at h1
            subst h1
            split at h2 <;> split at h3 <;> simp_all
        · rw [assocGet_del_ne ht, h.ps t']
          have : Board.subscribers ⟨b.links.map fun l => if l.topic = t then { l with live := false } else l, b.letters⟩ t' =
              b.subscribers t' := by
            refine Board.idsFrom_congr t' 0 _ _ (by simp) fun i l m hl hm => ?_
            simp only at hl
            rw [hget, hm] at hl
            simp only [Option.map_some, Option.some.injEq] at hl
            subst hl
            by_cases hmt : m.topic = t
            · have : m.topic ≠ t' := fun e => ht (e.symm.trans hmt)
              simp [hmt, Ne.symm ht]
            · simp [hmt]
          rw [this]
      · exact assocDel_keys h.keys
      · intro c; simp only [List.length_map]; exact h.conn c
      · simp only [List.length_map]; exact h.cur
      · simp only [List.length_map]; exact h.flights
  | clear =>
    simp only [boardOp, Option.some.injEq] at ho
    subst ho
    have hall : ∀ p ∈ s.ps, p.2 = (b.subscribers p.1).map fun c => base + c - 1 := by
      intro p hp
      have := assocGet_of_mem h.keys (show (p.1, p.2) ∈ s.ps from hp)
      rw [h.ps] at this
      split at this
      · simp at this
      · simp only [Option.some.injEq] at this; exact this.symm
    have hnd : (s.ps.map (·.2)).flatten.Nodup := by
      rw [List.nodup_flatten]
      constructor
      · intro l hl
        obtain ⟨p, hp, rfl⟩ := List.mem_map.mp hl
        rw [hall p hp]; exact addrs_nodup _ _ _
      · rw [List.pairwise_map]
        have hk := h.keys
        rw [List.Nodup, List.pairwise_map] at hk
        refine List.Pairwise.imp_of_mem ?_ hk
        intro p q hp hq hpq a ha ha'
        rw [hall p hp] at ha
        rw [hall q hq] at ha'
        obtain ⟨c, hc, rfl⟩ := List.mem_map.mp ha
        obtain ⟨c', hc', he⟩ := List.mem_map.mp ha'
        obtain ⟨l, hl, h1, _⟩ := Board.mem_subscribers.mp hc
        obtain ⟨l', hl', h1', _⟩ := Board.mem_subscribers.mp hc'
        have q1 := h.link_cell hl
        have q2 := h.link_cell hl'
        have : c' = c := by omega
        subst this
        rw [hl] at hl'
        simp only [Option.some.injEq] at hl'
        exact hpq (by rw [← h1, ← h1', hl'])
    have hdr : ∀ a ∈ (s.ps.map (·.2)).flatten, ∃ c, s.deref a = some c := by
      intro a ha
      obtain ⟨l, hl, ha⟩ := List.mem_flatten.mp ha
      obtain ⟨p, hp, rfl⟩ := List.mem_map.mp hl
      rw [hall p hp] at ha
      exact h.subscriber_deref ha
    simp only [step, clear]
    rw [freeAll_eq _ s hnd hdr]
    refine ⟨_, _, s.heap.length, rfl, ?_, rfl⟩
    refine ⟨by simp [Board.step, freedHeap], by simp [Board.step], ?_, by simp, ?_, rfl, ?_⟩
    · intro t; simp [Board.step, Board.subscribers, Board.idsFrom, assocGet]
    · intro c
      have : ¬ (1 ≤ c ∧ c ≤ (b.step .clear).1.links.length) := by simp only [Board.step, List.length_nil]; omega
      rw [if_neg this]; rfl
    · simp only [Board.step]
      rw [List.forall₂_map_right_iff]
      refine h.flights.imp fun f l hf => ⟨hf.value, hf.policy, ?_⟩
      simp only
      rw [List.forall₂_map_right_iff]
      exact hf.todo.imp fun _ _ _ h => absurd rfl h
  | _ => simp [boardOp] at ho

end MsgMgr
end CGraph
