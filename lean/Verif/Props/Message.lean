import Verif.Lemmas.Board

/-! # C53, C54, C55: messages -/
namespace CGraph.MsgMgr
open Spec
variable {α : Type}

/-- The answers to the selected calls of a history. -/
def seen {β γ : Type} (sel : MsgOp α → Option β) (tr : MsgAns α → γ) : List (MsgOp α) → List (MsgAns α) → List γ
  | op :: ops, a :: as => if (sel op).isSome then tr a :: seen sel tr ops as else seen sel tr ops as
  | _, _ => []

/-! ## C53 -/

theorem srel_new : SRel (fun _ => none) (new : MsgMgr α) := fun _ => TRel.none

theorem sr_run {f : String → Option (Nat × Nat × List α)} {s s' : MsgMgr α} (h : SRel f s) (ops : List (MsgOp α))
    (hz : ∀ op ∈ ops, SizeOk op) {as : List (MsgAns α)} (hr : s.run ops = some (s', as)) (t : String) :
    seen (topicOp t) topicAns ops as = (topicRun (f t) (ops.filterMap (topicOp t))).map some := by
  induction ops generalizing s f as with
  | nil => cases as <;> rfl
  | cons op ops ih =>
    simp only [run] at hr
    cases hs : s.step op with
    | none => simp [hs] at hr
    | some x =>
      obtain ⟨s₁, a⟩ := x
      simp only [hs] at hr
      cases hr' : s₁.run ops with
      | none => simp [hr'] at hr
      | some y =>
        obtain ⟨s₂, as'⟩ := y
        simp only [hr', Option.map_some, Option.some.injEq, Prod.mk.injEq] at hr
        obtain ⟨rfl, rfl⟩ := hr
        obtain ⟨h1, h2⟩ := sr_step h op (hz op (List.mem_cons_self ..)) hs
        have := ih h1 (fun o ho => hz o (List.mem_cons_of_mem _ ho)) hr'
        simp only [seen, List.filterMap_cons]
        cases ho : topicOp t op with
        | none =>
          simp only [Option.isSome_none, Bool.false_eq_true, if_false]
          rw [this]; simp [topicsAfter, ho]
        | some o =>
          simp only [Option.isSome_some, if_true, topicRun, List.map_cons]
          rw [h2 t o ho, this]; simp [topicsAfter, ho]

/-- In every history of calls - for any number of topics, with publications in between - the answers a topic gives are those
of a channel of its own which is told the calls for this topic and nothing else.  (Sizes are at least two; see C06.) -/
theorem C53_topics (ops : List (MsgOp α)) (hz : ∀ op ∈ ops, SizeOk op) (s : MsgMgr α) (as : List (MsgAns α))
    (hr : (new : MsgMgr α).run ops = some (s, as)) (t : String) :
    seen (topicOp t) topicAns ops as = (topicRun none (ops.filterMap (topicOp t))).map some :=
  sr_run srel_new ops hz hr t

/-- Between its creation and its removal a topic is a first-in-first-out channel (C05). -/
theorem C53_channel (ty n : Nat) (l : List α) (ops : List (ChanOp α)) :
    topicRun (some (ty, n, l)) (ops.map fun | .send v p => .send v p | .recv => .recv) =
      (chanRun (n - 1) l ops).2.map .chan := by
  induction ops generalizing l with
  | nil => rfl
  | cons op ops ih =>
    cases op <;> simp only [List.map_cons, topicRun, topicStep, chanRun, ih]

/-! ## C54 -/

theorem all_run {f : String → Option (Nat × Nat × List α)} {base : Nat} {b : Board α} {s : MsgMgr α} (hs : SRel f s)
    (hb : BRel base b s) (ops : List (MsgOp α)) (hz : ∀ op ∈ ops, SizeOk op) (hd : ∀ t c, MsgOp.detach t c ∉ ops)
    (hn : BoardAns.dangling ∉ b.run (ops.filterMap boardOp)) :
    ∃ s' as, s.run ops = some (s', as) ∧
      seen boardOp boardAns ops as = (b.run (ops.filterMap boardOp)).map some := by
  induction ops generalizing s f b base with
  | nil => exact ⟨s, [], rfl, rfl⟩
  | cons op ops ih =>
    have hz1 := hz op (List.mem_cons_self ..)
    have hz2 : ∀ o ∈ ops, SizeOk o := fun o ho => hz o (List.mem_cons_of_mem _ ho)
    have hd2 : ∀ t c, MsgOp.detach t c ∉ ops := fun t c h => hd t c (List.mem_cons_of_mem _ h)
    cases ho : boardOp op with
    | some o =>
      simp only [List.filterMap_cons, ho, Board.run, List.mem_cons, not_or] at hn ⊢
      obtain ⟨s₁, a, base', h1, h2, h3⟩ := board_step hb ho hz1 (Ne.symm hn.1)
      have h4 := (sr_step hs op hz1 h1).1
      obtain ⟨s₂, as, h5, h6⟩ := ih h4 h2 hz2 hd2 hn.2
      refine ⟨s₂, a :: as, ?_, ?_⟩
      · simp only [run, h1, h5, Option.map_some]
      · simp only [seen, ho, Option.isSome_some, if_true, h3, h6, List.map_cons]
    | none =>
      simp only [List.filterMap_cons, ho] at hn ⊢
      have key : ∃ s₁ a, s.step op = some (s₁, a) ∧ BRel base b s₁ := by
        have frame : ∀ {s₁ : MsgMgr α}, s₁.heap = s.heap → s₁.ps = s.ps → s₁.conn = s.conn → s₁.cur = s.cur →
            s₁.flights = s.flights → BRel base b s₁ := by
          intro s₁ e1 e2 e3 e4 e5
          exact ⟨by rw [e1]; exact hb.len, by rw [e1]; exact hb.cell, by rw [e2]; exact hb.ps, by rw [e2]; exact hb.keys,
            by rw [e3]; exact hb.conn, by rw [e4]; exact hb.cur, by rw [e5]; exact hb.flights⟩
        have def' : ∀ t, (topicOp t op).isSome → op ≠ .clear → ∃ x, s.step op = some x := by
          intro t ht hc
          obtain ⟨o, ho⟩ := Option.isSome_iff_exists.mp ht
          exact sr_defined hs ho hc
        cases op with
        | create t ty n =>
          refine ⟨_, _, rfl, ?_⟩
          split <;> exact frame rfl rfl rfl rfl rfl
        | remove t =>
          refine ⟨_, _, rfl, ?_⟩
          split <;> exact frame rfl rfl rfl rfl rfl
        | send t v st =>
          obtain ⟨⟨s₁, a⟩, hx⟩ := def' t (by simp [topicOp]) (by simp)
          refine ⟨s₁, a, hx, ?_⟩
          simp only [step, send] at hx
          split at hx
          · simp only [Option.some.injEq, Prod.mk.injEq] at hx; rw [← hx.1]; exact hb
          · split at hx
            · simp at hx
            · simp only [Option.some.injEq, Prod.mk.injEq] at hx; rw [← hx.1]; exact frame rfl rfl rfl rfl rfl
        | recv t =>
          obtain ⟨⟨s₁, a⟩, hx⟩ := def' t (by simp [topicOp]) (by simp)
          refine ⟨s₁, a, hx, ?_⟩
          simp only [step, recv] at hx
          split at hx
          · simp only [Option.some.injEq, Prod.mk.injEq] at hx; rw [← hx.1]; exact hb
          · split at hx
            · simp at hx
            · simp only [Option.some.injEq, Prod.mk.injEq] at hx; rw [← hx.1]; exact frame rfl rfl rfl rfl rfl
        | detach t c => exact absurd (List.mem_cons_self ..) (hd t c)
        | _ => simp [boardOp] at ho
      obtain ⟨s₁, a, h1, h2⟩ := key
      have h4 := (sr_step hs op hz1 h1).1
      obtain ⟨s₂, as, h5, h6⟩ := ih h4 h2 hz2 hd2 hn
      refine ⟨s₂, a :: as, ?_, ?_⟩
      · simp only [run, h1, h5, Option.map_some]
      · simp only [seen, ho, Option.isSome_none, Bool.false_eq_true, if_false, h6]

/-- Histories without `detachConnId` in which no dropped connection is used: nothing is undefined, and binding, publishing
(step by step), receiving and dropping answer exactly like the board of the specification, in which a publication goes to
the connections bound at that time.  Partial: see `C54_ids_violated` and C55. -/
theorem C54_board_partial (ops : List (MsgOp α)) (hz : ∀ op ∈ ops, SizeOk op) (hd : ∀ t c, MsgOp.detach t c ∉ ops)
    (hn : BoardAns.dangling ∉ (⟨[], []⟩ : Board α).run (ops.filterMap boardOp)) :
    ∃ s as, (new : MsgMgr α).run ops = some (s, as) ∧
      seen boardOp boardAns ops as = ((⟨[], []⟩ : Board α).run (ops.filterMap boardOp)).map some :=
  all_run srel_new BRel.new ops hz hd hn

/-- The ids in a list of answers. -/
def ids : List (BoardAns α) → List Nat
  | [] => []
  | .id c :: l => c :: ids l
  | _ :: l => ids l

theorem board_ids (b : Board α) (ops : List (BoardOp α)) (h : BoardOp.clear ∉ ops) :
    ∃ k, ids (b.run ops) = List.range' (b.links.length + 1) k := by
  induction ops generalizing b with
  | nil => exact ⟨0, rfl⟩
  | cons op ops ih =>
    simp only [List.mem_cons, not_or] at h
    obtain ⟨k, hk⟩ := ih (b.step op).1 h.2
    simp only [Board.run]
    have keep : (b.step op).1.links.length = b.links.length → (∀ c, (b.step op).2 ≠ .id c) →
        ∃ k, ids ((b.step op).2 :: (b.step op).1.run ops) = List.range' (b.links.length + 1) k := by
      intro h1 h2
      refine ⟨k, ?_⟩
      rw [h1] at hk
      rw [← hk]
      cases ha : (b.step op).2 <;> simp_all [ids]
    cases op with
    | bind t n =>
      simp only [Board.step, List.length_append, List.length_cons, List.length_nil, Nat.zero_add, ids] at hk ⊢
      exact ⟨k + 1, by rw [hk]; rfl⟩
    | pub t v p => apply keep <;> (simp only [Board.step]; split <;> simp)
    | go i =>
      have : (b.step (.go i)).1.links.length = b.links.length ∧ ∀ c, (b.step (.go i)).2 ≠ .id c := by
        simp only [Board.step]
        split
        · simp
        · simp
        · split
          · simp
          · split
            · split <;> simp [Board.setQueue]
            · simp
      exact keep this.1 this.2
    | sub c =>
      have : (b.step (.sub c)).1.links.length = b.links.length ∧ ∀ i, (b.step (.sub c)).2 ≠ .id i := by
        simp only [Board.step]
        split
        · simp
        · split <;> simp [Board.setQueue]
      exact keep this.1 this.2
    | drop t => apply keep <;> (simp only [Board.step]; split <;> simp)
    | clear => exact absurd rfl h.1

/-- As long as `clear` is not called the ids are counted upwards: none is given twice. -/
theorem C54_ids (ops : List (MsgOp α)) (hz : ∀ op ∈ ops, SizeOk op) (hd : ∀ t c, MsgOp.detach t c ∉ ops)
    (hc : MsgOp.clear ∉ ops) (hn : BoardAns.dangling ∉ (⟨[], []⟩ : Board α).run (ops.filterMap boardOp)) :
    ∃ s as k, (new : MsgMgr α).run ops = some (s, as) ∧
      (seen boardOp boardAns ops as).filterMap (fun | some (.id c) => some c | _ => none) = List.range' 1 k := by
  obtain ⟨s, as, h1, h2⟩ := C54_board_partial ops hz hd hn
  have hc' : BoardOp.clear ∉ ops.filterMap (boardOp (α := α)) := by
    intro h
    obtain ⟨op, ho, h⟩ := List.mem_filterMap.mp h
    cases op <;> simp [boardOp] at h
    exact hc ho
  obtain ⟨k, hk⟩ := board_ids ⟨[], []⟩ _ hc'
  refine ⟨s, as, k, h1, ?_⟩
  have : ∀ l : List (BoardAns α), (l.map some).filterMap (fun | some (.id c) => some c | _ => none) = ids l := by
    intro l
    induction l with
    | nil => rfl
    | cons a l ih => cases a <;> simp_all [ids]
  rw [h2, this, hk]
  rfl

/-- After `clear` the ids start again: an id that was given before is given a second time. -/
theorem C54_ids_violated (s s' : MsgMgr α) (a : MsgAns α) (t : String) (n : Nat) (h : s.step .clear = some (s', a)) :
    ∃ s'', s'.step (.bind t n) = some (s'', .id 1) := by
  simp only [step, clear] at h
  cases hf : s.freeAll (s.ps.map (·.2)).flatten with
  | none => simp [hf] at h
  | some s₁ =>
    simp only [hf, Option.map_some, Option.some.injEq, Prod.mk.injEq] at h
    obtain ⟨rfl, _⟩ := h
    exact ⟨_, rfl⟩

theorem setQueue_link (b : Board α) (c c' : Nat) (q : List α) (l : Link α) (hc : b.link c = some l) :
    (b.setQueue c q).link c' = if c' = c then some { l with queue := q } else b.link c' := by
  unfold Board.link Board.setQueue at *
  split at hc
  · simp at hc
  · simp only [List.getElem?_modify]
    by_cases h0 : c' = 0
    · simp only [h0, if_true]
      rw [if_neg (by omega)]
    · simp only [h0, if_false]
      by_cases h : c' = c
      · subst h; simp [hc]
      · have : c - 1 ≠ c' - 1 := by omega
        simp [h, this]

/-- The deliveries of one publication. -/
theorem deliver_all (b : Board α) (i : Nat) (v : α) (p : Policy) (cs : List Nat) (hn : cs.Nodup)
    (hi : b.letters[i]? = some ⟨v, p, cs⟩)
    (hroom : ∀ c ∈ cs, ∃ l, b.link c = some l ∧ l.live = true ∧ l.queue.length < l.room) (c : Nat) :
    ((List.replicate cs.length (BoardOp.go i)).foldl (fun b op => (b.step op).1) b).link c =
      (b.link c).map fun l => if c ∈ cs then { l with queue := l.queue ++ [v] } else l := by
  induction cs generalizing b with
  | nil => cases h : b.link c <;> simp [h]
  | cons d cs ih =>
    obtain ⟨l, hl, hlive, hlt⟩ := hroom d (List.mem_cons_self ..)
    rw [List.nodup_cons] at hn
    have hstep : (b.step (.go i)).1 = { b.setQueue d (l.queue ++ [v]) with letters := b.letters.set i ⟨v, p, cs⟩ } := by
      simp only [Board.step, hi, hl, hlive, if_true, chanStep, hlt]
    simp only [List.length_cons, List.replicate_succ, List.foldl_cons, hstep]
    have hlink : ∀ c', Board.link { b.setQueue d (l.queue ++ [v]) with letters := b.letters.set i ⟨v, p, cs⟩ } c' =
        if c' = d then some { l with queue := l.queue ++ [v] } else b.link c' := fun c' => setQueue_link b d c' _ l hl
    rw [ih _ hn.2]
    · rw [hlink]
      by_cases hc : c = d
      · subst hc; simp [hn.1, hl]
      · simp [hc]
    · have hlt : i < b.letters.length := by
        rcases Nat.lt_or_ge i b.letters.length with h | h
        · exact h
        · rw [List.getElem?_eq_none h] at hi; simp at hi
      simp [hlt]
    · intro c' hc'
      have hne : c' ≠ d := fun e => hn.1 (e ▸ hc')
      rw [hlink, if_neg hne]
      exact hroom c' (List.mem_cons_of_mem _ hc')

/-- On the board: a publication for which there is room everywhere, once carried out, has added the value at the end of the
channel of every connection bound to the topic and has changed no other connection. -/
theorem C54_delivery (b : Board α) (t : String) (v : α) (p : Policy) (hs : b.subscribers t ≠ [])
    (hroom : ∀ c l, b.link c = some l → l.topic = t → l.live = true → l.queue.length < l.room) (c : Nat) :
    ((List.replicate (b.subscribers t).length (BoardOp.go b.letters.length)).foldl (fun b op => (b.step op).1)
        (b.step (.pub t v p)).1).link c =
      (b.link c).map fun l => if l.topic = t ∧ l.live = true then { l with queue := l.queue ++ [v] } else l := by
  have hp : (b.step (.pub t v p)).1 = { b with letters := b.letters ++ [⟨v, p, b.subscribers t⟩] } := by
    simp [Board.step, hs]
  rw [hp, deliver_all _ _ v p (b.subscribers t) (Board.idsFrom_nodup _ _ _)]
  · show (b.link c).map _ = _
    cases hl : b.link c with
    | none => rfl
    | some l =>
      have : c ∈ b.subscribers t ↔ l.topic = t ∧ l.live = true := by
        rw [Board.mem_subscribers]
        constructor
        · rintro ⟨l', h, h2⟩; rw [hl] at h; simp only [Option.some.injEq] at h; rw [h]; exact h2
        · intro h; exact ⟨l, hl, h⟩
      simp only [Option.map_some, this]
  · simp
  · intro c hc
    obtain ⟨l, h1, h2, h3⟩ := Board.mem_subscribers.mp hc
    exact ⟨l, h1, h3, hroom c l h1 h2 h3⟩

/-! ## C55 -/

theorem deref_none_of_freed {s : MsgMgr α} {a : Nat} {c : MCell α} (h : s.heap[a]? = some c) (hf : c.freed = true) :
    s.deref a = none := by
  simp [deref, h, hf]

/-- Once freed, always freed. -/
theorem freeAll_keeps {l : List Nat} {s s' : MsgMgr α} (h : s.freeAll l = some s') {a : Nat} (ha : s.deref a = none) :
    s'.deref a = none := by
  induction l generalizing s with
  | nil => simp only [freeAll, Option.some.injEq] at h; exact h ▸ ha
  | cons b l ih =>
    simp only [freeAll] at h
    cases hd : s.deref b with
    | none => simp [hd] at h
    | some c =>
      simp only [hd] at h
      refine ih h ?_
      have hne : b ≠ a := by rintro rfl; rw [hd] at ha; simp at ha
      unfold deref at ha ⊢
      simp only [List.getElem?_set, hne, if_false]
      exact ha

theorem freeAll_frees {l : List Nat} {s s' : MsgMgr α} (h : s.freeAll l = some s') {a : Nat} (ha : a ∈ l) :
    s'.deref a = none := by
  induction l generalizing s with
  | nil => simp at ha
  | cons b l ih =>
    simp only [freeAll] at h
    cases hd : s.deref b with
    | none => simp [hd] at h
    | some c =>
      simp only [hd] at h
      rcases List.mem_cons.mp ha with rfl | ha
      · refine freeAll_keeps h ?_
        have := (deref_some.mp hd).1
        have hlen : a < s.heap.length := by
          rcases Nat.lt_or_ge a s.heap.length with h | h
          · exact h
          · rw [List.getElem?_eq_none h] at this; simp at this
        exact deref_none_of_freed (c := { c with freed := true }) (by simp [hlen]) rfl
      · exact ih h ha

/-- Receiving from a connection whose topic was dropped is undefined: the connection still leads to the deleted queue. -/
theorem C55_drop_violated (s s' : MsgMgr α) (t : String) (c a : Nat) (l : List Nat) (x : MsgAns α)
    (ht : assocGet t s.ps = some l) (hc : assocGet c s.conn = some a) (ha : a ∈ l)
    (hd : s.step (.drop t) = some (s', x)) : s'.step (.sub c) = none := by
  simp only [step, drop, ht] at hd
  cases hf : s.freeAll l with
  | none => simp [hf] at hd
  | some s₁ =>
    simp only [hf, Option.map_some, Option.some.injEq, Prod.mk.injEq] at hd
    obtain ⟨rfl, _⟩ := hd
    have h1 : s₁.deref a = none := freeAll_frees hf ha
    have h2 : s₁.conn = s.conn := (freeAll_sr hf).2.2.1
    simp only [step, sub, h2, hc]
    have : deref { s₁ with ps := assocDel t s₁.ps, conn := s.conn } a = none := h1
    rw [this]

/-- What detaching a connection leaves behind. -/
theorem detach_leaves {s s' : MsgMgr α} {t : String} {c a : Nat} {l : List Nat} {x : MsgAns α}
    (ht : assocGet t s.ps = some l) (hf : s.findConn c l = some (some a)) (hd : s.step (.detach t c) = some (s', x)) :
    a ∈ l ∧ assocGet t s'.ps = some l ∧ s'.deref a = none ∧ s'.flights = s.flights := by
  have hmem : ∀ l : List Nat, s.findConn c l = some (some a) → a ∈ l := by
    intro l
    induction l with
    | nil => simp [findConn]
    | cons b l ih =>
      intro h
      simp only [findConn] at h
      cases hb : s.deref b with
      | none => simp [hb] at h
      | some m =>
        simp only [hb] at h
        split at h
        · simp only [Option.some.injEq] at h; simp [h]
        · exact List.mem_cons_of_mem _ (ih h)
  simp only [step, detach, ht, hf] at hd
  cases hfr : s.freeAll [a] with
  | none => simp [hfr] at hd
  | some s₁ =>
    simp only [hfr, Option.map_some, Option.some.injEq, Prod.mk.injEq] at hd
    obtain ⟨rfl, _⟩ := hd
    have := freeAll_sr hfr
    refine ⟨hmem l hf, by simp only; rw [this.2.1]; exact ht, ?_, by simp only; rw [this.2.2.2.2]⟩
    exact freeAll_frees (a := a) hfr (by simp)

theorem mem_of_assocGet {κ β : Type} [DecidableEq κ] {k : κ} {v : β} {l : List (κ × β)} (h : assocGet k l = some v) :
    (k, v) ∈ l := by
  induction l with
  | nil => simp [assocGet] at h
  | cons p l ih =>
    simp only [assocGet] at h
    split at h
    · rename_i hp; simp only [Option.some.injEq] at h; rw [← hp, ← h]; exact List.mem_cons_self ..
    · exact List.mem_cons_of_mem _ (ih h)

theorem go_to_freed (i : Nat) (v : α) (st : PushStrategy) (hst : st ≠ .WAIT) (a : Nat) (l : List Nat) (ha : a ∈ l)
    (s : MsgMgr α) (hd : s.deref a = none) (hi : s.flights[i]? = some ⟨v, st, l⟩) :
    s.run (List.replicate l.length (.go i)) = none := by
  induction l generalizing s with
  | nil => simp at ha
  | cons b l ih =>
    simp only [List.length_cons, List.replicate_succ, run]
    cases hs : s.step (.go i) with
    | none => rfl
    | some x =>
      obtain ⟨s₁, r⟩ := x
      simp only [step, go, hi, pushTo] at hs
      cases hb : s.deref b with
      | none => simp [hb] at hs
      | some m =>
        simp only [hb] at hs
        have hab : a ≠ b := by rintro rfl; rw [hb] at hd; simp at hd
        have ha' : a ∈ l := by simpa [hab] using ha
        cases hp : m.ring.push v st with
        | none => simp [hp] at hs
        | some y =>
          obtain ⟨q, o⟩ := y
          have hnb : o ≠ .blocked := by
            intro e
            subst e
            unfold Ring.push at hp
            split at hp
            · simp at hp
            · cases hw : m.ring.write v <;> simp [hw] at hp
            · cases st with
              | WAIT => exact hst rfl
              | REPLACE =>
                simp only at hp
                cases hw : Ring.write { m.ring with head := (m.ring.head + 1) % m.ring.capacity } v <;> simp [hw] at hp
              | DROP => simp at hp
          have hs' : s₁ = { s with heap := s.heap.set b { m with ring := q }, flights := s.flights.set i ⟨v, st, l⟩ } := by
            cases o with
            | blocked => exact absurd rfl hnb
            | _ => simp only [hp, Option.some.injEq, Prod.mk.injEq] at hs; exact hs.1.symm
          have hlt : i < s.flights.length := by
            rcases Nat.lt_or_ge i s.flights.length with h | h
            · exact h
            · rw [List.getElem?_eq_none h] at hi; simp at hi
          have := ih ha' s₁ (by
              rw [hs']
              unfold deref at hd ⊢
              simp only [List.getElem?_set, Ne.symm hab, if_false]
              exact hd) (by rw [hs']; simp [hlt])
          simp only [this, Option.map_none]

/-- After a connection was detached, publishing to its topic, dropping the topic and clearing are undefined: the topic keeps
the deleted queue in its set. -/
theorem C55_detach_violated (s s' : MsgMgr α) (t : String) (c a : Nat) (l : List Nat) (x : MsgAns α)
    (ht : assocGet t s.ps = some l) (hf : s.findConn c l = some (some a))
    (hd : s.step (.detach t c) = some (s', x)) :
    s'.step (.drop t) = none ∧ s'.step .clear = none ∧
    ∀ v st, st ≠ .WAIT → s'.run (.pub t v st :: List.replicate l.length (.go s.flights.length)) = none := by
  obtain ⟨h1, h2, h3, h4⟩ := detach_leaves ht hf hd
  refine ⟨?_, ?_, ?_⟩
  · simp only [step, drop, h2, freeAll_none l s' ⟨a, h1, h3⟩, Option.map_none]
  · have : a ∈ (s'.ps.map (·.2)).flatten :=
      List.mem_flatten.mpr ⟨l, List.mem_map.mpr ⟨(t, l), mem_of_assocGet h2, rfl⟩, h1⟩
    simp only [step, clear, freeAll_none _ s' ⟨a, this, h3⟩, Option.map_none]
  · intro v st hst
    simp only [run, step, pub, h2]
    rw [go_to_freed _ v st hst a l h1 { s' with flights := s'.flights ++ [⟨v, st, l⟩] } h3 (by rw [h4]; simp)]
    rfl

/-! ## Examples -/

/-- The answers of a history. -/
def answersOf (ops : List (MsgOp Nat)) : Option (List (MsgAns Nat)) := ((new : MsgMgr Nat).run ops).map (·.2)

/-- Two topics and two subscribers of one board topic. -/
def sampleOps : List (MsgOp Nat) :=
  [.create "a" 1 3, .bind "p" 3, .create "b" 1 3, .bind "p" 3, .send "a" 10 .DROP, .send "b" 20 .DROP, .pub "p" 7 .DROP,
   .go 0, .go 0, .go 0, .create "a" 1 3, .create "a" 2 3, .recv "b", .recv "a", .recv "a", .sub 2, .sub 1, .sub 1, .recv "c",
   .drop "p", .pub "p" 8 .DROP]

example : answersOf sampleOps = some [.ok, .id 1, .ok, .id 2, .pushed .pushed, .pushed .pushed, .ok,
    .pushed .pushed, .pushed .pushed, .returned, .ok, .err, .value (some 20), .value (some 10), .timeout, .value (some 7),
    .value (some 7), .timeout, .err, .ok, .err] := by decide +kernel

/-- The sample meets the hypotheses of C53 and C54. -/
example : BoardAns.dangling ∉ (⟨[], []⟩ : Board Nat).run (sampleOps.filterMap boardOp) ∧
    (sampleOps.filterMap (topicOp "a")).length = 6 ∧ (sampleOps.filterMap boardOp).length = 11 := by decide +kernel

/-- Publishing while one subscriber is full: the publisher waits for it and goes on after a receive. -/
example : answersOf [.bind "p" 2, .bind "p" 2, .pub "p" 1 .WAIT, .go 0, .pub "p" 2 .WAIT, .go 1, .go 0, .sub 1, .go 1, .go 1] =
    some [.id 1, .id 2, .ok, .pushed .pushed, .ok, .pushed .blocked, .pushed .pushed, .value (some 1), .pushed .pushed,
      .pushed .blocked] := by decide +kernel

/-- Receiving after `dropTopic`, publishing after `detachConnId`. -/
example : answersOf [.bind "p" 3, .drop "p", .sub 1] = none ∧
    answersOf [.bind "p" 3, .bind "p" 3, .detach "p" 2, .pub "p" 1 .DROP, .go 0] ≠ none ∧
    answersOf [.bind "p" 3, .bind "p" 3, .detach "p" 2, .pub "p" 1 .DROP, .go 0, .go 0] = none ∧
    answersOf [.bind "p" 3, .detach "p" 1, .clear] = none ∧
    answersOf [.bind "p" 3, .clear, .bind "q" 3] = some [.id 1, .ok, .id 1] := by decide +kernel

end CGraph.MsgMgr
