import Verif.Lemmas.TopicConc
import Verif.Props.Channel

/-! # C114 — topics created, used and removed by many threads -/
namespace CGraph.TopicConc
open Spec TcSt Chan
open ParamConc (lookup_some lookup_none snd_inj filter_snoc_self filter_snoc_other)

set_option maxHeartbeats 1000000

variable {α : Type}

/-- **C114 (at once)** After any schedule there is an order of the calls of all threads in which each took effect at once on the
directory of the topics; the calls of a thread are in the order in which it made them, each took effect after it began
and before it returned, and it returned what this order says. -/
theorem C114_atomic (n : Nat) (l : List (TcAct α)) :
    TdHist [] (run n l).hist (run n l).abs ∧
    ∀ t, ∃ x y, (run n l).log.filter (fun e => e.1 = t) = (run n l).rets.filter (fun e => e.1 = t) ++ x ∧
      ((run n l).calls.filter (fun e => e.1 = t)).map Prod.snd =
        ((run n l).log.filter (fun e => e.1 = t)).map (fun e => e.2.1) ++ y ∧
      x.length + y.length = if ((run n l).pc t).isOut then 0 else 1 := by
  have h := inv_run n l
  refine ⟨h.hist, fun t => ⟨_, _, h.pend t, h.calls t, ?_⟩⟩
  cases (run n l).pc t <;> simp [pend, TcPc.open, TcPc.isOut]

/-! ### a topic is one queue -/

theorem hist_split {a b : List (Nat × TdCall × TdRes)} {m m'' : TdDir} (h : TdHist m (a ++ b) m'') :
    ∃ m', TdHist m a m' ∧ TdHist m' b m'' := by
  generalize hz : a ++ b = z at h
  induction h generalizing b with
  | nil =>
    obtain ⟨rfl, rfl⟩ := List.append_eq_nil_iff.1 hz
    exact ⟨m, .nil, .nil⟩
  | @snoc m1 m2 h t c r a' s ih =>
    rcases List.eq_nil_or_concat b with rfl | ⟨b', x, rfl⟩
    · rw [List.append_nil] at hz
      exact ⟨m2, hz ▸ .snoc t a' s, .nil⟩
    · rw [List.concat_eq_append, ← List.append_assoc] at hz
      obtain ⟨h1, h2⟩ := List.append_inj' hz rfl
      obtain ⟨m', h3, h4⟩ := ih h1
      simp only [List.cons.injEq, and_true] at h2
      rw [List.concat_eq_append, h2]
      exact ⟨m', h3, .snoc t h4 s⟩

theorem hist_nil {m m' : TdDir} (h : TdHist m [] m') : m' = m := by
  generalize hz : ([] : List (Nat × TdCall × TdRes)) = z at h
  cases h with
  | nil => rfl
  | snoc t a b => exact absurd hz (by simp)

theorem hist_one {x : Nat × TdCall × TdRes} {m m' : TdDir} (h : TdHist m [x] m') : TdStep m x.2.1 x.2.2 m' := by
  generalize hz : [x] = z at h
  cases h with
  | nil => exact absurd hz (by simp)
  | snoc t a b =>
    rw [show [x] = [] ++ [x] from rfl] at hz
    obtain ⟨h1, h2⟩ := List.append_inj' hz rfl
    subst h1
    simp only [List.cons.injEq, and_true] at h2
    subst h2
    rw [← hist_nil a]; exact b

/-- A name stands for one queue. -/
def Uniq (m : TdDir) : Prop := ∀ k ty sz p ty' sz' p', TdHas m k ty sz p → TdHas m k ty' sz' p' → p = p'

theorem step_uniq {m m' : TdDir} {c r} (b : TdStep m c r m') (ih : Uniq m) : Uniq m' := by
  intro k ty sz p ty' sz' p' h1 h2
  unfold TdStep at b
  split at b
  · rcases b with ⟨rfl, -⟩ | ⟨hf, q, hq, rfl⟩
    · exact ih _ _ _ _ _ _ _ h1 h2
    · simp only [TdHas, List.mem_append, List.mem_singleton, Prod.mk.injEq] at h1 h2
      rcases h1 with h1 | ⟨rfl, rfl, rfl, rfl⟩ <;> rcases h2 with h2 | ⟨h3, rfl, rfl, rfl⟩
      · exact ih _ _ _ _ _ _ _ h1 h2
      · subst h3; exact absurd h1 (hf _ _ _)
      · exact absurd h2 (hf _ _ _)
      · rfl
  · rw [b.1] at h1 h2; exact ih _ _ _ _ _ _ _ h1 h2
  · rw [b.2] at h1 h2
    exact ih _ _ _ _ _ _ _ (List.mem_filter.1 h1).1 (List.mem_filter.1 h2).1
  · rw [b.2] at h1 h2; exact ih _ _ _ _ _ _ _ h1 h2
  · rw [b] at h1; simp [TdHas] at h1
  · rw [b.1] at h1 h2; exact ih _ _ _ _ _ _ _ h1 h2
  · rw [b.1] at h1 h2; exact ih _ _ _ _ _ _ _ h1 h2
  · exact absurd b id

theorem hist_uniq {h m m'} (hh : TdHist m h m') (hu : Uniq m) : Uniq m' := by
  induction hh with
  | nil => exact hu
  | snoc t a b ih => exact step_uniq b ih

theorem step_stays {m m' : TdDir} {c r key ty sz p} (b : TdStep m c r m') (hc : c.takes key = false)
    (h : TdHas m key ty sz p) : TdHas m' key ty sz p := by
  unfold TdStep at b
  split at b
  · rcases b with ⟨rfl, -⟩ | ⟨hf, q, hq, rfl⟩
    · exact h
    · exact List.mem_append_left _ h
  · rw [b.1]; exact h
  · rw [b.2]
    refine List.mem_filter.2 ⟨h, ?_⟩
    simp only [TdCall.takes, beq_eq_false_iff_ne] at hc
    simpa using Ne.symm hc
  · rw [b.2]; exact h
  · simp [TdCall.takes] at hc
  · rw [b.1]; exact h
  · rw [b.1]; exact h
  · exact absurd b id

/-- An entry stays until its name is taken away. -/
theorem hist_stays {h m m' key ty sz p} (hh : TdHist m h m') (ht : ∀ e ∈ h, e.2.1.takes key = false)
    (hp : TdHas m key ty sz p) : TdHas m' key ty sz p := by
  induction hh with
  | nil => exact hp
  | snoc t a b ih => exact step_stays b (ht _ (List.mem_append_right _ (List.mem_singleton.2 rfl))) (ih fun e he => ht e (by simp [he]))

theorem look_is {m m' : TdDir} {key r ty sz p} (hu : Uniq m) (h : TdStep m (.look key) r m')
    (hp : TdHas m key ty sz p) : r = .at (some p) := by
  unfold TdStep at h
  split at h
  case h_6 hh =>
    cases hh
    obtain ⟨_, ty', sz', h⟩ := h
    rw [hu _ _ _ _ _ _ _ h hp]
  case h_7 hh => cases hh; exact absurd hp (h.2 _ _ _)
  all_goals first | contradiction | exact absurd h id

theorem made {m m' : TdDir} {ty sz key} (h : TdStep m (.make key ty sz) (.done true) m') :
    ∃ p, TdHas m' key ty sz p := by
  rcases h with ⟨rfl, h⟩ | ⟨-, p, -, rfl⟩
  · exact h
  · exact ⟨p, by simp [TdHas]⟩

/-- **C114 (one queue)** After a `createTopic` that returned OK, whoever created the topic first, and as long as no call takes it
away, every `sendTopicValue` and every `recvTopicValue` of this topic by any thread works on the same queue. -/
theorem C114_same (n : Nat) (l : List (TcAct α)) (a b c : List (Nat × TcCall α × TcRes)) (t : Nat) (key : String) (ty size : Nat)
    (hl : (run n l).log = a ++ [(t, .create key ty size, .done true)] ++ b ++ c)
    (hb : ∀ e ∈ b, e.2.1 ≠ .remove key ∧ e.2.1 ≠ .clear) :
    ∃ p, ∀ u d r, (u, d, r) ∈ b → d.topic = some key → r = .at (some p) := by
  have h := (inv_run n l).hist
  rw [TcSt.hist, hl] at h
  simp only [List.map_append, List.map_cons, List.map_nil] at h
  obtain ⟨m3, h, -⟩ := hist_split h
  obtain ⟨m2, h, hB⟩ := hist_split h
  obtain ⟨m1, hA, hC⟩ := hist_split h
  have hu2 : Uniq m2 := step_uniq (hist_one hC) (hist_uniq hA (by intro k ty sz p ty' sz' p' h; simp [TdHas] at h))
  obtain ⟨p, hp⟩ := made (hist_one hC)
  refine ⟨p, fun u d r hm hd => ?_⟩
  obtain ⟨b1, b2, rfl⟩ := List.append_of_mem hm
  have hsp : d.spec = .look key := by cases d <;> simp [TcCall.topic] at hd <;> rw [hd] <;> rfl
  have hB' : TdHist m2 (b1.map (fun e => (e.1, e.2.1.spec, e.2.2.spec)) ++ ([(u, TdCall.look key, r.spec)] ++
      b2.map (fun e => (e.1, e.2.1.spec, e.2.2.spec)))) m3 := by simpa [hsp] using hB
  obtain ⟨m4, h4, h5⟩ := hist_split hB'
  obtain ⟨m5, h5, -⟩ := hist_split h5
  have hno : ∀ e ∈ b1.map (fun e : Nat × TcCall α × TcRes => (e.1, e.2.1.spec, e.2.2.spec)), e.2.1.takes key = false := by
    intro e he
    obtain ⟨⟨v, c', r'⟩, hx, rfl⟩ := List.mem_map.1 he
    have := hb (v, c', r') (by simp [hx])
    cases c' <;> simp_all [TcCall.spec, TdCall.takes]
  have hr := look_is (hist_uniq h4 hu2) (hist_one h5) (hist_stays h4 hno hp)
  cases r <;> simp_all [TcRes.spec]

/-- Threads 0 and 1 both create the topic, thread 0 sends, thread 1 receives: the hypotheses of `C114_same` are met. -/
example : (run 2 [.call 0 (.create "a" 7 4), .call 1 (.create "a" 7 4), .go 0 0, .go 1 0, .go 0 0, .go 0 0, .go 0 0, .go 0 0, .go 1 0, .go 1 0, .go 1 0, .go 1 0,
      .call 1 (.recv "a"), .call 0 (.send "a" 5 .WAIT), .go 1 0, .go 1 0, .go 1 0, .go 0 0]).log =
    [] ++ [(0, .create "a" 7 4, .done true)] ++
      [(1, .create "a" 7 4, .done true), (1, .recv "a", .at (some 0)), (0, .send "a" 5 .WAIT, .at (some 0))] ++
      ([] : List (Nat × TcCall Nat × TcRes)) := by
  decide

/-! ### inside the queues -/

/-- What a queue is asked. -/
inductive Ask (α : Type) where
  | send (v : α) (st : PushStrategy)
  | recv

/-- What a call asks the queue. -/
def TcCall.asks : TcCall α → List (Ask α)
  | .send _ v st => [.send v st]
  | .recv _ => [.recv]
  | _ => []

/-- What an event in a queue answers. -/
def evAsk : ChEv α → Ask α
  | .sent v st _ => .send v st
  | .got _ => .recv
  | .timeout => .recv

/-- What a thread in a queue waits for. -/
def pcAsk : ChPc α → List (Ask α)
  | .send v st => [.send v st]
  | .sendSleep v => [.send v .WAIT]
  | .sendWoken v => [.send v .WAIT]
  | .recv => [.recv]
  | .recvSleep => [.recv]
  | .recvWoken => [.recv]
  | .recvLate => [.recv]
  | _ => []

/-- What thread `t` was answered by a queue, in this order. -/
def answered (q : ChSt α) (t : Nat) : List (Ask α) := (q.log.filter (fun e => e.1 = t)).map fun e => evAsk e.2

/-- What thread `t` asked a queue. -/
def asked (q : ChSt α) (t : Nat) : List (Ask α) := answered q t ++ pcAsk (q.pc t)

/-- What thread `t`, according to the history of the manager, was to ask queue `p`. -/
def wanted (log : List (Nat × TcCall α × TcRes)) (t p : Nat) : List (Ask α) :=
  ((log.filter (fun e => e.1 = t)).filter (fun e => e.2.2 = .at (some p))).flatMap fun e => e.2.1.asks

theorem asked_stay {q q' : ChSt α} (hl : q'.log = q.log) (hp : ∀ w, pcAsk (q'.pc w) = pcAsk (q.pc w)) (w : Nat) :
    asked q' w = asked q w := by simp only [asked, answered, hl, hp]

theorem asked_done {q q' : ChSt α} {t : Nat} {e : ChEv α} (hl : q'.log = q.log ++ [(t, e)])
    (ht : pcAsk (q.pc t) = [evAsk e]) (ht' : pcAsk (q'.pc t) = []) (hp : ∀ w, w ≠ t → q'.pc w = q.pc w) (w : Nat) :
    asked q' w = asked q w := by
  by_cases hw : w = t
  · subst hw
    simp only [asked, answered, hl, filter_snoc_self, List.map_append, ht, ht', List.map_cons, List.map_nil, List.append_nil]
  · simp only [asked, answered, hl, filter_snoc_other _ hw, hp w hw]

theorem pcAsk_woken (p : ChPc α) : pcAsk p.woken = pcAsk p := by cases p <;> rfl
theorem idle_woken (p : ChPc α) : p.woken.isIdle = p.isIdle := by cases p <;> rfl

theorem notify_pc (n : Nat) (q : ChSt α) (on : ChPc α → Bool) (k w : Nat) :
    (q.notify n on k).pc w = q.pc w ∨ (q.notify n on k).pc w = (q.pc w).woken := by
  unfold ChSt.notify
  split
  · exact .inl rfl
  · simp only [ChSt.setPc]
    split
    · rename_i h; rw [h]; exact .inr rfl
    · exact .inl rfl

theorem send_asked {q q' : ChSt α} {t : Nat} {v : α} {st : PushStrategy} (hp : pcAsk (q.pc t) = [.send v st])
    (h : q.doSend t v st = some q') : (∀ w, asked q' w = asked q w) ∧ ∀ w, w ≠ t → q'.pc w = q.pc w := by
  unfold ChSt.doSend at h
  split at h
  · simp at h
  · rename_i x hpush
    cases h
    have hst : st = .WAIT := by
      unfold Ring.push at hpush
      split at hpush
      · simp at hpush
      · cases hq : q.ring.write v <;> simp [hq] at hpush
      · cases st with
        | WAIT => rfl
        | REPLACE => simp only at hpush; cases hq : ({ q.ring with head := (q.ring.head + 1) % q.ring.capacity } : Ring α).write v <;> simp [hq] at hpush
        | DROP => simp at hpush
    subst hst
    refine ⟨asked_stay rfl fun w => ?_, fun w hw => by simp [ChSt.setPc, hw]⟩
    simp only [ChSt.setPc]
    split
    · rename_i h; rw [h, hp]; rfl
    · rfl
  · cases h
    exact ⟨asked_done (e := .sent v st .dropped) rfl hp (by simp [ChSt.setPc, pcAsk]) (fun w hw => by simp [ChSt.setPc, hw]), fun w hw => by simp [ChSt.setPc, hw]⟩
  · cases h
    exact ⟨asked_done rfl hp (by simp [ChSt.setPc, pcAsk]) (fun w hw => by simp [ChSt.setPc, hw]), fun w hw => by simp [ChSt.setPc, hw]⟩

theorem recv_asked {q q' : ChSt α} {t : Nat} {late : Bool} (hp : pcAsk (q.pc t) = [.recv])
    (h : q.doRecv t late = some q') : (∀ w, asked q' w = asked q w) ∧ ∀ w, w ≠ t → q'.pc w = q.pc w := by
  unfold ChSt.doRecv at h
  split at h
  · simp at h
  · split at h
    · cases h
      exact ⟨asked_done (e := .timeout) rfl hp (by simp [ChSt.setPc, pcAsk]) (fun w hw => by simp [ChSt.setPc, hw]), fun w hw => by simp [ChSt.setPc, hw]⟩
    · cases h
      refine ⟨asked_stay rfl fun w => ?_, fun w hw => by simp [ChSt.setPc, hw]⟩
      simp only [ChSt.setPc]
      split
      · rename_i h; rw [h, hp]; rfl
      · rfl
  · cases h
    exact ⟨asked_done rfl hp (by simp [ChSt.setPc, pcAsk]) (fun w hw => by simp [ChSt.setPc, hw]), fun w hw => by simp [ChSt.setPc, hw]⟩

/-- Who steps inside a queue. -/
def who : ChAct α → Nat
  | .callSend t _ _ => t
  | .callRecv t => t
  | .step t _ => t
  | .spurious t => t
  | .expire t => t

/-- A step inside a queue neither adds nor loses a request, and lets nobody else in or out. -/
theorem chan_asked {n : Nat} {q q' : ChSt α} {a : ChAct α} (ha : PubSub.inner a = true) (h : q.step n a = some q') :
    (∀ w, asked q' w = asked q w) ∧ ∀ w, w ≠ who a → (q'.pc w).isIdle = (q.pc w).isIdle := by
  have tell : ∀ t on k, q.pc t = .tellRecv ∨ q.pc t = .tellSend → (∀ w, asked ((q.setPc t .idle).notify n on k) w = asked q w) ∧
      ∀ w, w ≠ t → (((q.setPc t .idle).notify n on k).pc w).isIdle = (q.pc w).isIdle := by
    intro t on k hp
    refine ⟨asked_stay (step_ring_notify ..).2 fun w => ?_, fun w hw => ?_⟩
    · have h1 : pcAsk ((q.setPc t .idle).pc w) = pcAsk (q.pc w) := by
        simp only [ChSt.setPc]
        split
        · rename_i h; rw [h]; rcases hp with h | h <;> rw [h] <;> rfl
        · rfl
      rcases notify_pc n (q.setPc t .idle) on k w with h | h <;> rw [h]
      · exact h1
      · rw [pcAsk_woken]; exact h1
    · rcases notify_pc n (q.setPc t .idle) on k w with h | h <;> rw [h]
      · simp [ChSt.setPc, hw]
      · rw [idle_woken]; simp [ChSt.setPc, hw]
  have weak : ∀ {t : Nat} {q' : ChSt α}, ((∀ w, asked q' w = asked q w) ∧ ∀ w, w ≠ t → q'.pc w = q.pc w) →
      (∀ w, asked q' w = asked q w) ∧ ∀ w, w ≠ t → (q'.pc w).isIdle = (q.pc w).isIdle :=
    fun h => ⟨h.1, fun w hw => by rw [h.2 w hw]⟩
  cases a with
  | callSend => simp [PubSub.inner] at ha
  | callRecv => simp [PubSub.inner] at ha
  | step t k =>
    simp only [ChSt.step] at h
    split at h
    · split at h
      · rename_i hp; exact weak (t := t) (send_asked (by rw [hp]; rfl) h)
      · rename_i hp; exact weak (t := t) (send_asked (by rw [hp]; rfl) h)
      · rename_i hp; cases h; exact tell t _ k (.inl hp)
      · rename_i hp; exact weak (t := t) (recv_asked (by rw [hp]; rfl) h)
      · rename_i hp; exact weak (t := t) (recv_asked (by rw [hp]; rfl) h)
      · rename_i hp; exact weak (t := t) (recv_asked (by rw [hp]; rfl) h)
      · rename_i hp; cases h; exact tell t _ k (.inr hp)
      · simp at h
    · simp at h
  | spurious t =>
    simp only [ChSt.step] at h
    split at h
    · cases h
      refine ⟨asked_stay rfl fun w => ?_, fun w hw => ?_⟩
      · simp only [ChSt.setPc]
        split
        · rename_i h; rw [h, pcAsk_woken]
        · rfl
      · have hw : w ≠ t := hw
        simp [ChSt.setPc, hw]
    · simp at h
  | expire t =>
    simp only [ChSt.step] at h
    split at h
    · rename_i hh
      cases h
      refine ⟨asked_stay rfl fun w => ?_, fun w hw => ?_⟩
      · simp only [ChSt.setPc]
        split
        · rename_i h
          have := hh.2
          rw [h]
          cases hp : q.pc t <;> rw [hp] at this <;> first | rfl | simp [ChPc.inPop] at this
        · rfl
      · have hw : w ≠ t := hw
        simp [ChSt.setPc, hw]
    · simp at h

theorem idle_of {p : ChPc α} (h : p.isIdle = true) : p = .idle := by cases p <;> simp [ChPc.isIdle] at h ⊢

/-- About to ask queue `p`. -/
def TcPc.toAsk (p : Nat) : TcPc α → List (Ask α)
  | .enter c q => if q = p then c.asks else []
  | _ => []

/-- The queues and the manager agree. -/
structure Seen (n : Nat) (s : TcSt α) : Prop where
  seat : ∀ t p, ((s.chan p).pc t).isIdle = false → ∃ c, s.pc t = .inside c p
  lt : ∀ t, (s.pc t).isOut = false → t < n
  asked : ∀ t p, asked (s.chan p) t ++ (s.pc t).toAsk p = wanted s.log t p
  fit : ∀ p, p < s.next → 2 ≤ (s.obj p).size → ∃ l, Chan.Inv n (s.obj p).size (s.chan p) l
  fresh : ∀ p, s.next ≤ p → (s.chan p).log = [] ∧ ∀ t, (s.chan p).pc t = .idle

/-- A step outside of the queues. -/
theorem Seen.upd {n : Nat} {s s' : TcSt α} (h : Seen n s) (t : Nat) (q : TcPc α) (hpc : s'.pc = fun k => if k = t then q else s.pc k)
    (hchan : s'.chan = s.chan) (hobj : s'.obj = s.obj) (hnext : s'.next = s.next) (ht : q.isOut = false → t < n)
    (hs : ∀ p, ((s.chan p).pc t).isIdle = true)
    (hlog : ∀ u p, u ≠ t → wanted s'.log u p = wanted s.log u p)
    (hask : ∀ p, TopicConc.asked (s.chan p) t ++ q.toAsk p = wanted s'.log t p) : Seen n s' := by
  refine ⟨fun u p hu => ?_, fun u hu => ?_, fun u p => ?_, by rw [hchan, hobj, hnext]; exact h.fit, by rw [hchan, hnext]; exact h.fresh⟩
  · rw [hchan] at hu
    by_cases hut : u = t
    · subst hut; rw [hs] at hu; simp at hu
    · rw [hpc]; simp only [hut, if_false]; exact h.seat u p hu
  · rw [hpc] at hu
    by_cases hut : u = t
    · subst hut; simp only [if_true] at hu; exact ht hu
    · simp only [hut, if_false] at hu; exact h.lt u hu
  · rw [hpc, hchan]
    by_cases hut : u = t
    · subst hut; simp only [if_true]; exact hask p
    · simp only [hut, if_false, hlog u p hut]; exact h.asked u p

theorem Seen.quiet {n : Nat} {s : TcSt α} (h : Seen n s) {t : Nat} (hp : ∀ c p, s.pc t ≠ .inside c p) (p : Nat) :
    ((s.chan p).pc t).isIdle = true := by
  cases hi : ((s.chan p).pc t).isIdle with
  | true => rfl
  | false => obtain ⟨c, hc⟩ := h.seat t p hi; exact absurd hc (hp c p)

/-- A step that asks no queue. -/
theorem Seen.move {n : Nat} {s s' : TcSt α} (h : Seen n s) (t : Nat) (q : TcPc α) (hpc : s'.pc = fun k => if k = t then q else s.pc k)
    (hchan : s'.chan = s.chan) (hobj : s'.obj = s.obj) (hnext : s'.next = s.next) (ho : (s.pc t).isOut = false)
    (hs : ∀ p, ((s.chan p).pc t).isIdle = true) (hlog : ∀ u p, wanted s'.log u p = wanted s.log u p)
    (hq : ∀ p, q.toAsk p = (s.pc t).toAsk p) : Seen n s' :=
  h.upd t q hpc hchan hobj hnext (fun _ => h.lt t ho) hs (fun u p _ => hlog u p) (fun p => by rw [hq, hlog]; exact h.asked t p)

theorem wanted_other {log : List (Nat × TcCall α × TcRes)} {t u p : Nat} (h : u ≠ t) (x : TcCall α × TcRes) :
    wanted (log ++ [(t, x)]) u p = wanted log u p := by simp only [wanted, filter_snoc_other _ h]

theorem wanted_self {log : List (Nat × TcCall α × TcRes)} {t p : Nat} (c : TcCall α) (r : TcRes) :
    wanted (log ++ [(t, c, r)]) t p = wanted log t p ++ if r = .at (some p) then c.asks else [] := by
  simp only [wanted, filter_snoc_self, List.filter_append, List.flatMap_append]
  congr 1
  by_cases h : r = .at (some p) <;> simp [h]

theorem wanted_none {log : List (Nat × TcCall α × TcRes)} {t : Nat} (c : TcCall α) {r : TcRes} (hr : ∀ p, r ≠ .at (some p)) (u p : Nat) :
    wanted (log ++ [(t, c, r)]) u p = wanted log u p := by
  by_cases h : u = t
  · subst h; rw [wanted_self, if_neg (hr p), List.append_nil]
  · exact wanted_other h _

theorem Seen.touch {n : Nat} {s s' : TcSt α} (h : Seen n s) (p : Nat) (h' : Seen n s') : Seen n (s.touch p s') := by
  unfold TcSt.touch
  split
  · exact h'
  · exact ⟨h.seat, h.lt, h.asked, h.fit, h.fresh⟩

theorem chan_inv {n size : Nat} (hn : 2 ≤ size) {q q' : ChSt α} {l : List α} {a : ChAct α} (h : Chan.Inv n size q l)
    (hs : q.step n a = some q') : ∃ l', Chan.Inv n size q' l' := by
  obtain ⟨l', h1, h2⟩ := eff hn h.rel hs
  exact ⟨l', Chan.inv_step hn h h1 h2⟩

/-- A step inside a queue. -/
theorem Seen.inQueue {n : Nat} {s : TcSt α} (h : Seen n s) {t p : Nat} {c : TcCall α} {a : ChAct α} (hp : s.pc t = .inside c p)
    (hlt : p < s.next) (ha : PubSub.inner a = true) (hw : who a = t) : Seen n (s.inQueue n t c p a) := by
  unfold TcSt.inQueue
  split
  · rename_i q hq
    refine h.touch p ?_
    obtain ⟨h1, h2⟩ := chan_asked ha hq
    rw [hw] at h2
    have hsame : (s.setPc t (.inside c p)).pc = s.pc := by
      funext k
      simp only [setPc]
      split
      · rename_i h; rw [h, hp]
      · rfl
    refine ⟨fun u r hu => ?_, fun u hu => h.lt u (hsame ▸ hu), fun u r => ?_, fun r hr hsz => ?_, fun r hr => ?_⟩
    · simp only [hsame] at hu ⊢
      split at hu
      · rename_i hrp
        subst hrp
        by_cases hut : u = t
        · subst hut; exact ⟨c, hp⟩
        · rw [h2 u hut] at hu; exact h.seat u r hu
      · exact h.seat u r hu
    · simp only [hsame]
      split
      · rename_i hrp; subst hrp; rw [h1 u]; exact h.asked u r
      · exact h.asked u r
    · simp only
      split
      · rename_i hrp
        subst hrp
        obtain ⟨l, hl⟩ := h.fit r hr hsz
        exact chan_inv hsz hl hq
      · exact h.fit r hr hsz
    · have : r ≠ p := by have : s.next ≤ r := hr; omega
      simp only [this, if_false]
      exact h.fresh r hr
  · exact h

theorem ask_step {n : Nat} {q : ChSt α} {t : Nat} {c : TcCall α} {a : ChAct α} (ht : t < n) (hq : q.pc t = .idle)
    (ha : c.ask t = some a) : ∃ x, q.step n a = some (q.setPc t x) ∧ pcAsk x = c.asks ∧ x.isIdle = false := by
  cases c <;> simp only [TcCall.ask, Option.some.injEq, reduceCtorEq] at ha <;> subst ha
  · exact ⟨_, by simp only [ChSt.step, ht, hq, if_true]; rfl, rfl, rfl⟩
  · exact ⟨_, by simp only [ChSt.step, ht, hq, if_true]; rfl, rfl, rfl⟩

/-- A send or a receive calls the queue. -/
theorem Seen.enter {n : Nat} {s : TcSt α} (h : Seen n s) {t p : Nat} {c : TcCall α} {a : ChAct α} (hp : s.pc t = .enter c p)
    (hlt : p < s.next) (ha : c.ask t = some a) : Seen n (s.inQueue n t c p a) := by
  have ht : t < n := h.lt t (by rw [hp]; rfl)
  have hid := fun r => h.quiet (t := t) (fun c' p' h' => by rw [hp] at h'; simp at h') r
  obtain ⟨x, hx, hx1, hx2⟩ := ask_step ht (idle_of (hid p)) ha
  have hnow : ∀ s' : TcSt α, s'.pc = (fun k => if k = t then .inside c p else s.pc k) → s'.log = s.log → s'.obj = s.obj → s'.next = s.next →
      s'.chan = (fun i => if i = p then (s.chan p).setPc t x else s.chan i) → Seen n s' := by
    intro s' e1 e2 e3 e4 e5
    refine ⟨fun u r hu => ?_, fun u hu => ?_, fun u r => ?_, fun r hr hsz => ?_, fun r hr => ?_⟩
    · rw [e5] at hu
      rw [e1]
      by_cases hut : u = t
      · subst hut
        simp only at hu
        split at hu
        · rename_i hrp; exact ⟨c, by simp [hrp]⟩
        · rw [hid] at hu; simp at hu
      · simp only [hut, if_false]
        refine h.seat u r ?_
        simp only at hu
        split at hu
        · rename_i hrp; subst hrp; simpa [ChSt.setPc, hut] using hu
        · exact hu
    · rw [e1] at hu
      by_cases hut : u = t
      · rw [hut]; exact ht
      · simp only [hut, if_false] at hu; exact h.lt u hu
    · have h0 := h.asked u r
      rw [e1, e5, e2, ← h0]
      by_cases hut : u = t
      · subst hut
        simp only [if_true, hp, TcPc.toAsk, List.append_nil]
        by_cases hrp : r = p
        · subst hrp
          have e6 := idle_of (hid r)
          simp only [TopicConc.asked, answered, ChSt.setPc, if_true, hx1, e6, show pcAsk (.idle : ChPc α) = [] from rfl, List.append_nil]
        · simp [hrp, Ne.symm hrp]
      · simp only [hut, if_false]
        split
        · rename_i hrp; subst hrp; simp [TopicConc.asked, answered, ChSt.setPc, hut]
        · rfl
    · rw [e3] at hsz ⊢
      rw [e4] at hr
      rw [e5]
      simp only
      split
      · rename_i hrp
        subst hrp
        obtain ⟨l, hl⟩ := h.fit r hr hsz
        exact chan_inv hsz hl hx
      · exact h.fit r hr hsz
    · rw [e4] at hr
      have : r ≠ p := by omega
      rw [e5]
      simp only [this, if_false]
      exact h.fresh r hr
  unfold TcSt.inQueue
  simp only [hx]
  exact h.touch p (hnow _ rfl rfl rfl rfl rfl)

theorem Seen.leave {n : Nat} {s s' : TcSt α} (h : Seen n s) {t : Nat} {c : TcCall α} {r : TcRes} (m' : List (String × Nat))
    (hs' : s' = { s.leave t c r with map := m' }) (hi : (s.pc t).inside? = true) (hr : ∀ p, r ≠ .at (some p)) : Seen n s' := by
  subst hs'
  refine h.move t (.unlock c r) rfl rfl rfl rfl ?_ (h.quiet fun c p h' => ?_) (fun u p => wanted_none c hr u p) (fun p => ?_)
  · cases hp : s.pc t <;> rw [hp] at hi <;> first | rfl | simp [TcPc.inside?] at hi
  · rw [h'] at hi; simp [TcPc.inside?] at hi
  · cases hp : s.pc t <;> rw [hp] at hi <;> first | rfl | simp [TcPc.inside?] at hi

theorem seen_use {n : Nat} {s : TcSt α} (h : Seen n s) {t : Nat} {c : TcCall α} (k : String) (hp : s.pc t = .find c) :
    Seen n (s.useStep t c k) := by
  have hq := h.quiet (t := t) fun c p h' => by rw [hp] at h'; simp at h'
  have ha := fun p => h.asked t p
  simp only [hp, TcPc.toAsk, List.append_nil] at ha
  unfold useStep
  split
  · rename_i p _
    refine h.upd t (.enter c p) rfl rfl rfl rfl (fun _ => h.lt t (by rw [hp]; rfl)) hq (fun u q hu => wanted_other hu _) (fun q => ?_)
    show _ = wanted (s.log ++ [(t, c, .at (some p))]) t q
    rw [wanted_self, ha]
    simp [TcPc.toAsk]
  · refine h.upd t .out rfl rfl rfl rfl (fun h => by simp [TcPc.isOut] at h) hq (fun u q hu => wanted_other hu _) (fun q => ?_)
    show _ = wanted (s.log ++ [(t, c, .at none)]) t q
    rw [wanted_self, ha]
    simp [TcPc.toAsk]

theorem seen_find {n : Nat} {s : TcSt α} (h : Seen n s) {t : Nat} {c : TcCall α} (hp : s.pc t = .find c) : Seen n (s.findStep t c) := by
  have hq := h.quiet (t := t) fun c p h' => by rw [hp] at h'; simp at h'
  cases c with
  | create k ty sz =>
    simp only [findStep]
    split <;> exact h.move t _ rfl rfl rfl rfl (by rw [hp]; rfl) hq (fun u p => rfl) (fun p => by rw [hp]; rfl)
  | remove k =>
    simp only [findStep]
    split
    · exact h.move t _ rfl rfl rfl rfl (by rw [hp]; rfl) hq (fun u p => rfl) (fun p => by rw [hp]; rfl)
    · exact h.leave s.map rfl (by rw [hp]; rfl) (by simp)
  | clear => exact h.move t _ rfl rfl rfl rfl (by rw [hp]; rfl) hq (fun u p => rfl) (fun p => by rw [hp]; rfl)
  | send k v st => exact seen_use h k hp
  | recv k => exact seen_use h k hp

theorem asked_fresh {q : ChSt α} (h1 : q.log = []) (h2 : ∀ t, q.pc t = .idle) (t : Nat) : asked q t = [] := by
  simp [asked, answered, h1, h2, pcAsk]

theorem seen_go {n : Nat} {s : TcSt α} (inv : Inv s) (h : Seen n s) (t j : Nat) : Seen n (s.go n t j) := by
  have hpos := inv.pos t
  unfold go
  split
  · exact h
  · rename_i c hp
    split
    · exact h.move t _ rfl rfl rfl rfl (by rw [hp]; rfl) (h.quiet fun c p h' => by rw [hp] at h'; simp at h') (fun u p => rfl) (fun p => by rw [hp]; rfl)
    · exact h
  · rename_i c hp; exact seen_find h hp
  · rename_i hp
    exact h.touch _ (h.leave s.map rfl (by rw [hp]; rfl) (by simp))
  · -- alloc
    rename_i k ty sz hp
    have hq := h.quiet (t := t) fun c p h' => by rw [hp] at h'; simp at h'
    have hf := h.fresh s.next (Nat.le_refl _)
    refine ⟨fun u p hu => ?_, fun u hu => ?_, fun u p => ?_, fun p hlt hsz => ?_, fun p hle => ?_⟩
    · simp only [setPc] at hu ⊢
      split at hu
      · simp [ChSt.init, ChPc.isIdle] at hu
      · by_cases hut : u = t
        · subst hut; rw [hq] at hu; simp at hu
        · simp only [hut, if_false]; exact h.seat u p hu
    · simp only [setPc] at hu
      by_cases hut : u = t
      · rw [hut]; exact h.lt t (by rw [hp]; rfl)
      · simp only [hut, if_false] at hu; exact h.lt u hu
    · have h0 := h.asked u p
      simp only [setPc]
      have e1 : (if u = t then TcPc.insert k ty sz s.next else s.pc u).toAsk p = (s.pc u).toAsk p := by
        split
        · rename_i hut; rw [hut, hp]; rfl
        · rfl
      rw [e1, ← h0]
      split
      · rename_i hpn
        subst hpn
        rw [asked_fresh hf.1 hf.2, asked_fresh (q := ChSt.init sz) rfl (fun _ => rfl)]
      · rfl
    · simp only at hsz ⊢
      by_cases hpn : p = s.next
      · subst hpn
        simp only [if_true] at hsz ⊢
        exact ⟨[], Chan.inv_init n sz hsz⟩
      · simp only [hpn, if_false] at hsz ⊢
        exact h.fit p (by have : p < s.next + 1 := hlt; omega) hsz
    · have hle : s.next + 1 ≤ p := hle
      have hpn : p ≠ s.next := by omega
      simp only [hpn, if_false]
      exact h.fresh p (by omega)
  · rename_i hp; exact h.leave _ rfl (by rw [hp]; rfl) (by simp)
  · rename_i hp
    exact h.move t _ rfl rfl rfl rfl (by rw [hp]; rfl) (h.quiet fun c p h' => by rw [hp] at h'; simp at h') (fun u p => rfl) (fun p => by rw [hp]; rfl)
  · rename_i hp; exact h.leave _ rfl (by rw [hp]; rfl) (by simp)
  · rename_i hp
    exact h.move t _ rfl rfl rfl rfl (by rw [hp]; rfl) (h.quiet fun c p h' => by rw [hp] at h'; simp at h') (fun u p => rfl) (fun p => by rw [hp]; rfl)
  · rename_i hp; exact h.leave _ rfl (by rw [hp]; rfl) (by simp)
  · rename_i hp
    exact h.move t _ rfl rfl rfl rfl (by rw [hp]; rfl) (h.quiet fun c p h' => by rw [hp] at h'; simp at h') (fun u p => rfl) (fun p => by rw [hp]; rfl)
  · rename_i hp
    rw [hp] at hpos
    split
    · rename_i ha; exact h.enter hp hpos.1 ha
    · exact h
  · rename_i c p hp
    rw [hp] at hpos
    split
    · rename_i hid
      refine h.move t .out rfl rfl rfl rfl (by rw [hp]; rfl) (fun q => ?_) (fun u p => rfl) (fun p => by rw [hp]; rfl)
      by_cases hqp : q = p
      · rw [hqp]; exact hid
      · cases hi : ((s.chan q).pc t).isIdle with
        | true => rfl
        | false =>
          obtain ⟨c', hc⟩ := h.seat t q hi
          rw [hp] at hc
          simp only [TcPc.inside.injEq] at hc
          exact absurd hc.2.symm hqp
    · exact h.inQueue hp hpos.1 rfl rfl

theorem seen_run (n : Nat) (l : List (TcAct α)) : Seen n (run n l) := by
  refine (run_ind (n := n) (P := Seen n) ?_ (fun s a inv h => ?_) l).2
  · exact ⟨fun t p h => by simp [init, ChSt.init, ChPc.isIdle] at h, fun t h => by simp [init, TcPc.isOut] at h,
      fun t p => rfl, fun p h => by simp [init] at h, fun p _ => ⟨rfl, fun _ => rfl⟩⟩
  · unfold step
    split
    · exact h
    · split
      · split
        · rename_i t c hc
          have hp := out_of hc.2
          refine h.upd t c.first rfl rfl rfl rfl (fun _ => hc.1) (h.quiet fun c p h' => by rw [hp] at h'; simp at h')
            (fun u p _ => rfl) (fun p => ?_)
          have := h.asked t p
          rw [hp] at this
          refine Eq.trans ?_ this
          cases c <;> rfl
        · exact h
      · exact seen_go inv h _ _
      · split
        · rename_i t _ _ c p hp
          have hpos := inv.pos t
          rw [hp] at hpos
          refine h.inQueue hp hpos.1 ?_ ?_ <;> split <;> rfl
        · exact h

/-- **C114 (channel)** What happened to each queue, in the order in which it took effect, is a history of the channel of C05,
whatever the other threads do with the manager meanwhile. -/
theorem C114_channel (n : Nat) (l : List (TcAct α)) (p : Nat) (hp : p < (run n l).next) (hs : 2 ≤ ((run n l).obj p).size) :
    (chanRun (((run n l).obj p).size - 1) [] (((run n l).chan p).log.map fun e => e.2.op)).2 =
      ((run n l).chan p).log.map fun e => e.2.out := by
  obtain ⟨x, h⟩ := (seen_run n l).fit p hp hs
  rw [h.hist]

/-- **C114 (delivered)** Each queue is asked exactly what the calls that found it say: the requests of a thread in the order of
its calls, none twice, none lost and none of another topic; only its current call may still be unanswered. -/
theorem C114_delivered (n : Nat) (l : List (TcAct α)) (t p : Nat) :
    ∃ x, wanted (run n l).log t p = answered ((run n l).chan p) t ++ x ∧ x.length ≤ 1 ∧
      (((run n l).pc t).isOut = true → x = []) := by
  have h := seen_run n l
  refine ⟨_, ((h.asked t p).symm.trans (List.append_assoc ..)), ?_, fun ho => ?_⟩
  · cases hi : (((run n l).chan p).pc t).isIdle with
    | true =>
      rw [idle_of hi]
      simp only [pcAsk, List.nil_append]
      cases (run n l).pc t with
      | enter c q =>
        simp only [TcPc.toAsk]
        split
        · cases c <;> simp [TcCall.asks]
        · simp
      | _ => simp [TcPc.toAsk]
    | false =>
      obtain ⟨c, hc⟩ := h.seat t p hi
      rw [hc]
      simp only [TcPc.toAsk, List.append_nil]
      cases ((run n l).chan p).pc t <;> simp [pcAsk]
  · have hp := out_of ho
    have := h.quiet (t := t) (fun c p h' => by rw [hp] at h'; simp at h') p
    rw [idle_of this, hp]
    rfl

/-- The topic is created, the receiver sleeps, the sender wakes it, the message is received. -/
def exRun : List (TcAct Nat) :=
  [.call 0 (.create "a" 7 4), .go 0 0, .go 0 0, .go 0 0, .go 0 0, .go 0 0, .call 1 (.recv "a"), .go 1 0, .go 1 0, .go 1 0,
    .call 0 (.send "a" 5 .WAIT), .go 0 0, .go 0 0, .go 0 0, .go 0 1, .go 0 0, .go 1 0, .go 1 0, .go 1 0]

example : 0 < (run 2 exRun).next ∧ 2 ≤ ((run 2 exRun).obj 0).size ∧
    ((run 2 exRun).chan 0).log = [(0, .sent 5 .WAIT .pushed), (1, .got (some 5))] ∧ (run 2 exRun).pc 1 = .out := by decide

/-! ### freed queues -/

/-- In `sendTopicValue` or `recvTopicValue` of this topic. -/
def TcPc.uses (k : String) : TcPc α → Bool
  | .find c => c.topic == some k
  | .enter c _ => c.topic == some k
  | .inside c _ => c.topic == some k
  | _ => false

/-- Deleting the queue of this topic, in `removeTopic` or `clear`. -/
def TcPc.removes (k : String) : TcPc α → Bool
  | .del k' _ => k' == k
  | .erase k' => k' == k
  | .wipe _ => true
  | _ => false

/-- **C114 (freed)** A receiver sleeps in a topic; another thread removes the topic, which succeeds and returns; when the time of the
receiver is over it goes on in the freed queue. -/
theorem C114_freed_violated : ∃ l : List (TcAct Nat), (run 2 l).calls = [(0, .create "a" 7 4), (1, .recv "a"), (0, .remove "a")] ∧
    ((run 2 l).chan 0).pc 1 = .recvSleep ∧ (run 2 l).rets = [(0, .create "a" 7 4, .done true), (0, .remove "a", .done true)] ∧
    (run 2 l).bad = false ∧ (run 2 (l ++ [.wake 1 true])).bad = true :=
  ⟨[.call 0 (.create "a" 7 4), .go 0 0, .go 0 0, .go 0 0, .go 0 0, .go 0 0, .call 1 (.recv "a"), .go 1 0, .go 1 0, .go 1 0,
    .call 0 (.remove "a"), .go 0 0, .go 0 0, .go 0 0, .go 0 0, .go 0 0], by decide⟩

theorem touch_live {s s' : TcSt α} {p : Nat} (hp : s.live p = true) : s.touch p s' = s' := by simp [TcSt.touch, hp]

theorem find_bad (s : TcSt α) (t : Nat) (c : TcCall α) : (s.findStep t c).bad = s.bad := by
  cases c <;> simp only [findStep, useStep] <;> first | rfl | (split <;> rfl)

/-- Who makes the step. -/
def TcAct.who : TcAct α → Nat
  | .call t _ => t
  | .go t _ => t
  | .wake t _ => t

/-- **C114 (only users)** Only a send or a receive ever accesses a freed queue; `createTopic`, `removeTopic`, `clear` do not. -/
theorem C114_only_use (n : Nat) (l : List (TcAct α)) (a : TcAct α) (h0 : (run n l).bad = false) (h1 : ((run n l).step n a).bad = true) :
    ∃ k, ((run n l).pc a.who).uses k = true := by
  have inv := inv_run n l
  generalize run n l = s at *
  unfold step at h1
  simp only [h0, Bool.false_eq_true, if_false] at h1
  cases a with
  | call t c =>
    simp only at h1
    split at h1
    · simp [setPc, h0] at h1
    · simp [h0] at h1
  | wake t late =>
    simp only at h1
    have hpos := inv.pos t
    split at h1
    · rename_i c p hp
      refine ⟨(s.obj p).key, ?_⟩
      rw [hp] at hpos
      show (s.pc t).uses _ = true
      rw [hp]
      simp only [TcPc.uses, hpos.2]
      exact beq_self_eq_true _
    · simp [h0] at h1
  | go t j =>
    have hpos := inv.pos t
    show ∃ k, (s.pc t).uses k = true
    simp only [go] at h1
    split at h1 <;> rename_i hp <;> rw [hp] at hpos ⊢
    all_goals try (simp [h0, setPc, TcSt.leave, effect, TcSt.ret] at h1; done)
    · split at h1 <;> simp [setPc, h0] at h1
    · rw [find_bad, h0] at h1; simp at h1
    · rw [touch_live hpos.2] at h1; simp [TcSt.leave, effect, setPc, h0] at h1
    · exact ⟨_, by simp only [TcPc.uses, hpos.2]; exact beq_self_eq_true _⟩
    · exact ⟨_, by simp only [TcPc.uses, hpos.2]; exact beq_self_eq_true _⟩

/-- **C114 (freed once)** A queue that `removeTopic` or `clear` is about to delete has not been deleted before. -/
theorem C114_freed_once (n : Nat) (l : List (TcAct α)) (t p : Nat) (h : ((run n l).pc t).acc = .free p) : (run n l).live p = true := by
  have inv := inv_run n l
  generalize run n l = s at *
  have hpos := inv.pos t
  cases hp : s.pc t with
  | del k q =>
    rw [hp] at h hpos
    cases h
    exact inv.all (t := t) (by rw [hp]; rfl) (fun p => by rw [hp]; rfl) (k, p) ((lookup_some inv.keys).1 hpos)
  | wipe ps =>
    rw [hp] at h hpos
    cases ps with
    | nil => simp [TcPc.acc] at h
    | cons q ps =>
      simp only [TcPc.acc, Acc.free.injEq] at h
      subst h
      obtain ⟨k, hk⟩ := hpos.1 q (by simp)
      rcases inv.alive _ hk with h1 | ⟨u, h1⟩
      · exact h1
      · have := inv.killer (t := t) (by rw [hp]; rfl) h1
        subst this
        rw [hp] at h1; simp [TcPc.kills] at h1
  | _ => rw [hp] at h; simp [TcPc.acc] at h

/-- A removal about to delete. -/
example : ((run 2 [.call 0 (.create "a" 7 4), .go 0 0, .go 0 0, .go 0 0, .go 0 0, .go 0 0, .call 0 (.remove "a"), .go 0 0,
    (.go 0 0 : TcAct Nat)]).pc 0).acc = .free 0 := by decide

/-- The queue that a send or a receive has found. -/
def TcPc.holds : TcPc α → Option Nat
  | .enter _ p => some p
  | .inside _ p => some p
  | _ => none

/-- Nothing is freed under a send or a receive. -/
def Held (s : TcSt α) : Prop := s.bad = false ∧ ∀ t p, (s.pc t).holds = some p → s.live p = true

/-- Nobody uses a topic that somebody deletes. -/
def Apart (s : TcSt α) : Prop := ∀ t u k, ¬ ((s.pc t).uses k = true ∧ (s.pc u).removes k = true)

theorem holds_uses {s : TcSt α} (inv : Inv s) {t p : Nat} (h : (s.pc t).holds = some p) : (s.pc t).uses (s.obj p).key = true := by
  have hpos := inv.pos t
  cases hp : s.pc t <;> rw [hp] at h hpos <;> simp only [TcPc.holds, Option.some.injEq, reduceCtorEq] at h <;> subst h <;>
    simp only [TcPc.uses, hpos.2] <;> exact beq_self_eq_true _

theorem held_upd {s s' : TcSt α} (h : Held s) (t : Nat) (q : TcPc α) (hpc : s'.pc = fun k => if k = t then q else s.pc k)
    (hb : s'.bad = s.bad) (hl : ∀ p, s.live p = true → s'.live p = true) (hq : ∀ p, q.holds = some p → s'.live p = true) : Held s' := by
  refine ⟨hb.trans h.1, fun u p hp => ?_⟩
  rw [hpc] at hp
  by_cases hu : u = t
  · simp only [hu, if_true] at hp; exact hq p hp
  · simp only [hu, if_false] at hp; exact hl p (h.2 u p hp)

theorem held_use {s : TcSt α} (inv : Inv s) (h : Held s) (hno : Apart s) (t : Nat) (c : TcCall α) (k : String)
    (hp : s.pc t = .find c) (hc : c.topic = some k) : Held (s.useStep t c k) := by
  unfold useStep
  split
  · rename_i p hl
    refine held_upd h t _ rfl rfl (fun p h => h) (fun q hq => ?_)
    cases hq
    have hm := (lookup_some inv.keys).1 hl
    rcases inv.alive _ hm with h1 | ⟨u, h1⟩
    · exact h1
    · refine absurd ⟨?_, ?_⟩ (hno t u k)
      · rw [hp]; simp only [TcPc.uses, hc]; exact beq_self_eq_true _
      · cases hu : s.pc u <;> rw [hu] at h1 <;> first | rfl | (simp [TcPc.kills] at h1; done) | skip
        rename_i k'
        simp only [TcPc.kills, beq_iff_eq] at h1
        have := snd_inj inv.ptrs ((lookup_some inv.keys).1 h1) hm rfl
        simp only [Prod.mk.injEq, and_true] at this
        simp [TcPc.removes, this]
  · exact held_upd h t _ rfl rfl (fun p h => h) (fun q hq => by simp [TcPc.holds] at hq)

theorem held_find {s : TcSt α} (inv : Inv s) (h : Held s) (hno : Apart s)
    (t : Nat) (c : TcCall α) (hp : s.pc t = .find c) : Held (s.findStep t c) := by
  cases c <;> simp only [findStep]
  case send k v st => exact held_use inv h hno t _ k hp rfl
  case recv k => exact held_use inv h hno t _ k hp rfl
  all_goals
    first
    | exact held_upd h t _ rfl rfl (fun p h => h) (fun q hq => by simp [TcPc.holds] at hq)
    | (split <;> exact held_upd h t _ rfl rfl (fun p h => h) (fun q hq => by simp [TcPc.holds] at hq))

/-- Queue `p` of topic `k` is deleted. -/
theorem held_free {s s' : TcSt α} (inv : Inv s) (h : Held s) (hno : Apart s)
    (t p : Nat) (k : String) (hm : (k, p) ∈ s.map) (hd : (s.pc t).removes k = true) (q : TcPc α) (hq : q.holds = none)
    (hpc : s'.pc = fun k => if k = t then q else s.pc k) (hb : s'.bad = s.bad)
    (hl : ∀ r, r ≠ p → s.live r = true → s'.live r = true) : Held s' := by
  refine ⟨hb.trans h.1, fun u r hr => ?_⟩
  rw [hpc] at hr
  by_cases hu : u = t
  · simp [hu, hq] at hr
  · simp only [hu, if_false] at hr
    by_cases hrp : r = p
    · subst hrp
      have := holds_uses inv hr
      rw [(inv.lt _ hm).2] at this
      exact absurd ⟨this, hd⟩ (hno u t k)
    · exact hl r hrp (h.2 u r hr)

theorem held_queue {n : Nat} {s : TcSt α} (h : Held s) (t : Nat) (c : TcCall α) (p : Nat) (a : ChAct α) (hp : (s.pc t).holds = some p) :
    Held (s.inQueue n t c p a) := by
  unfold inQueue
  split
  · rw [touch_live (h.2 t p hp)]
    exact held_upd h t _ rfl rfl (fun p h => h) (fun q hq => by cases hq; exact h.2 t p hp)
  · exact h

theorem held_go {n : Nat} {s : TcSt α} (inv : Inv s) (h : Held s) (hno : Apart s) (t j : Nat) : Held (s.go n t j) := by
  have hpos := inv.pos t
  have hh := h.2 t
  unfold go
  split
  · exact h
  · split
    · exact held_upd h t _ rfl rfl (fun p h => h) (fun q hq => by simp [TcPc.holds] at hq)
    · exact h
  · exact held_find inv h hno t _ (by assumption)
  · rename_i hp
    rw [hp] at hpos
    rw [touch_live hpos.2]
    exact held_upd h t _ rfl rfl (fun p h => h) (fun q hq => by simp [TcPc.holds] at hq)
  · refine held_upd h t _ rfl rfl (fun p h => ?_) (fun q hq => by simp [TcPc.holds] at hq)
    simp only
    split
    · rfl
    · exact h
  · exact held_upd h t _ rfl rfl (fun p h => h) (fun q hq => by simp [TcPc.holds] at hq)
  · rename_i k p hp
    rw [hp] at hpos
    refine held_free inv h hno t p k ((lookup_some inv.keys).1 hpos) (by rw [hp]; simp [TcPc.removes]) _ rfl rfl rfl (fun r hr hl => ?_)
    simp only [hr, if_false]; exact hl
  · exact held_upd h t _ rfl rfl (fun p h => h) (fun q hq => by simp [TcPc.holds] at hq)
  · rename_i p ps hp
    rw [hp] at hpos
    obtain ⟨k, hk⟩ := hpos.1 p (by simp)
    refine held_free inv h hno t p k hk (by rw [hp]; rfl) _ rfl rfl rfl (fun r hr hl => ?_)
    simp only [hr, if_false]; exact hl
  · exact held_upd h t _ rfl rfl (fun p h => h) (fun q hq => by simp [TcPc.holds] at hq)
  · exact held_upd h t _ rfl rfl (fun p h => h) (fun q hq => by simp [TcPc.holds] at hq)
  · rename_i hp
    split
    · exact held_queue h t _ _ _ (by rw [hp]; rfl)
    · exact h
  · rename_i hp
    split
    · exact held_upd h t _ rfl rfl (fun p h => h) (fun q hq => by simp [TcPc.holds] at hq)
    · exact held_queue h t _ _ _ (by rw [hp]; rfl)

/-- **C114 (safe)** What is missing for a schedule never to access a freed queue: that no thread is inside a send or a receive of a
topic while another deletes the queue of this same topic.  Other topics may be removed meanwhile. -/
theorem C114_safe_partial (n : Nat) (l : List (TcAct α))
    (hno : ∀ l' l'', l = l' ++ l'' → ∀ t u k, ¬ (((run n l').pc t).uses k = true ∧ ((run n l').pc u).removes k = true)) :
    (run n l).bad = false := by
  suffices h : ∀ l' l'', l = l' ++ l'' → Held (run n l') from (h l [] (by simp)).1
  intro l'
  induction hn : l'.length generalizing l' with
  | zero =>
    intro l'' _
    cases l' with
    | nil => exact ⟨rfl, fun t p h => by simp [run, init, TcPc.holds] at h⟩
    | cons => simp at hn
  | succ m ih =>
    intro l'' hl
    rcases List.eq_nil_or_concat l' with rfl | ⟨b, x, rfl⟩
    · simp at hn
    · rw [List.concat_eq_append] at hn hl ⊢
      have hl' : l = b ++ ([x] ++ l'') := by rw [hl]; simp
      have h := ih b (by simpa using hn) _ hl'
      have inv := inv_run n b
      have hno' : Apart (run n b) := hno _ _ hl'
      rw [run_snoc]
      unfold step
      rw [h.1]
      cases x with
      | call t c =>
        simp only [Bool.false_eq_true, if_false]
        split
        · refine held_upd h t c.first rfl rfl (fun p h => h) (fun q hq => ?_)
          cases c <;> simp [TcCall.first, TcPc.holds] at hq
        · exact h
      | go t j =>
        simp only [Bool.false_eq_true, if_false]
        exact held_go inv h hno' t j
      | wake t late =>
        simp only [Bool.false_eq_true, if_false]
        split
        · rename_i hp; exact held_queue h t _ _ _ (by rw [hp]; rfl)
        · exact h

theorem calls_of (n : Nat) (l : List (TcAct α)) {t : Nat} {c : TcCall α} (h : (t, c) ∈ (run n l).calls) : TcAct.call t c ∈ l := by
  have hf : ∀ (s : TcSt α) t c, (s.findStep t c).calls = s.calls := by
    intro s t c
    cases c <;> simp only [findStep, useStep] <;> first | rfl | (split <;> rfl)
  have hq : ∀ (s : TcSt α) t c p a, (s.inQueue n t c p a).calls = s.calls := by
    intro s t c p a
    unfold TcSt.inQueue TcSt.touch
    split
    · split <;> rfl
    · rfl
  have hg : ∀ (s : TcSt α) t j, (s.go n t j).calls = s.calls := by
    intro s t j
    unfold go
    split <;> try rfl
    · split <;> rfl
    · rw [hf]
    · unfold TcSt.touch; split <;> rfl
    · split
      · rw [hq]
      · rfl
    · split
      · rfl
      · rw [hq]
  have gen : ∀ (l : List (TcAct α)) (s : TcSt α), (t, c) ∈ (l.foldl (step n) s).calls → (t, c) ∈ s.calls ∨ TcAct.call t c ∈ l := by
    intro l
    induction l with
    | nil => intro s h; exact .inl h
    | cons a l ih =>
      intro s h
      rcases ih _ h with h | h
      · unfold step at h
        split at h
        · exact .inl h
        · split at h
          · split at h
            · simp only [List.mem_append, List.mem_singleton, Prod.mk.injEq] at h
              rcases h with h | ⟨rfl, rfl⟩
              · exact .inl h
              · exact .inr (by simp)
            · exact .inl h
          · rw [hg] at h; exact .inl h
          · split at h
            · rw [hq] at h; exact .inl h
            · exact .inl h
      · exact .inr (by simp [h])
  rcases gen l init h with h | h
  · simp [init] at h
  · exact h

/-- **C114 (no removal)** Threads that only create topics, send and receive never access a freed queue. -/
theorem C114_noremoval_partial (n : Nat) (l : List (TcAct α)) (hr : ∀ t k, TcAct.call t (.remove k) ∉ l)
    (hc : ∀ t, TcAct.call t .clear ∉ l) : (run n l).bad = false := by
  refine C114_safe_partial n l fun l' l'' hl t u k ⟨_, hu⟩ => ?_
  have inv := inv_run n l'
  have hcl := inv.calls u
  have key : ∀ c, c ∈ ((run n l').pc u).open → TcAct.call u c ∈ l := by
    intro c hcm
    have : c ∈ ((run n l').calls.filter (fun e => e.1 = u)).map Prod.snd := by rw [hcl]; simp [hcm]
    obtain ⟨⟨v, c'⟩, h1, rfl⟩ := List.mem_map.1 this
    obtain ⟨h2, h3⟩ := List.mem_filter.1 h1
    have : v = u := by simpa using h3
    subst this
    rw [hl]
    exact List.mem_append_left _ (calls_of n l' h2)
  cases hp : (run n l').pc u with
  | del k p => exact hr u k (key _ (by rw [hp]; simp [TcPc.open]))
  | erase k => exact hr u k (key _ (by rw [hp]; simp [TcPc.open]))
  | wipe ps => exact hc u (key _ (by rw [hp]; simp [TcPc.open]))
  | _ => rw [hp] at hu; simp [TcPc.removes] at hu

/-- The run above meets the hypotheses of `C114_noremoval_partial`. -/
example : (run 2 exRun).bad = false := C114_noremoval_partial _ _ (by simp [exRun]) (by simp [exRun])

/-! ### nothing is left behind -/

/-- A queue that has not been freed is in the map or about to be inserted; what is about to go out of the map was freed. -/
def Kept (s : TcSt α) : Prop := (∀ p, s.live p = true → (∃ k, (k, p) ∈ s.map) ∨ ∃ t k ty sz, s.pc t = .insert k ty sz p) ∧
  ∀ t, ∀ e ∈ s.map, (s.pc t).kills s.map e.2 = true → s.live e.2 = false

theorem kept_upd {s s' : TcSt α} (inv : Inv s) (h : Kept s) (t : Nat) (q : TcPc α)
    (hpc : s'.pc = fun k => if k = t then q else s.pc k)
    (hi : ∀ k ty sz p, s.pc t = .insert k ty sz p → (k, p) ∈ s'.map) (hm : ∀ e ∈ s.map, s'.live e.2 = true → e ∈ s'.map)
    (hl : ∀ p, s'.live p = true → s.live p = true ∨ ∃ k ty sz, q = .insert k ty sz p)
    (hst : (s.pc t).inside? = false → s'.map = s.map ∧ s'.live = s.live)
    (hq : ∀ e ∈ s'.map, q.kills s'.map e.2 = true → s'.live e.2 = false) : Kept s' := by
  refine ⟨fun p hp => ?_, fun u e he hk => ?_⟩
  · rcases hl p hp with h1 | ⟨k, ty, b, rfl⟩
    · rcases h.1 p h1 with ⟨k, h2⟩ | ⟨u, k, ty, b, h2⟩
      · exact .inl ⟨k, hm _ h2 hp⟩
      · by_cases hu : u = t
        · exact .inl ⟨k, hi k ty b p (hu ▸ h2)⟩
        · exact .inr ⟨u, k, ty, b, by rw [hpc]; simp [hu, h2]⟩
    · exact .inr ⟨t, k, ty, b, by rw [hpc]; simp⟩
  · rw [hpc] at hk
    by_cases hu : u = t
    · simp only [hu, if_true] at hk; exact hq e he hk
    · simp only [hu, if_false] at hk
      have ho := (inv.own u).2 (kills_inside hk)
      have hn : (s.pc t).inside? = false := by
        cases hi : (s.pc t).inside? with
        | false => rfl
        | true =>
          have := (inv.own t).2 hi
          rw [ho] at this
          exact absurd (Option.some.inj this) hu
      obtain ⟨e1, e2⟩ := hst hn
      rw [e1] at hk he
      rw [e2]
      exact h.2 u e he hk

/-- A step that neither changes the map nor frees. -/
theorem kept_move {s s' : TcSt α} (inv : Inv s) (h : Kept s) (t : Nat) (q : TcPc α)
    (hpc : s'.pc = fun k => if k = t then q else s.pc k)
    (hi : ∀ k ty sz p, s.pc t ≠ .insert k ty sz p) (hm : s'.map = s.map) (hl : s'.live = s.live)
    (hq : ∀ e ∈ s.map, q.kills s.map e.2 = true → s.live e.2 = false) : Kept s' :=
  kept_upd inv h t q hpc (fun k ty b p h' => absurd h' (hi k ty b p)) (fun e he _ => by rw [hm]; exact he)
    (fun p hp => .inl (by rw [← hl]; exact hp)) (fun _ => ⟨hm, hl⟩) (by rw [hm, hl]; exact hq)

theorem kept_touch {s s' : TcSt α} (h : Kept s) (p : Nat) (h' : Kept s') : Kept (s.touch p s') := by
  unfold TcSt.touch
  split
  · exact h'
  · exact h

theorem kept_find {s : TcSt α} (inv : Inv s) (h : Kept s) (t : Nat) (c : TcCall α) (hp : s.pc t = .find c) : Kept (s.findStep t c) := by
  cases c <;> simp only [findStep, useStep] <;> (try split)
  all_goals
    refine kept_move inv h t _ rfl (fun k ty b p h' => by rw [hp] at h'; simp at h') rfl rfl (fun e he hk => ?_)
  all_goals first
    | (simp [TcPc.kills] at hk; done)
    | (exfalso; simp only [TcPc.kills, Bool.not_eq_true', List.contains_eq_mem, decide_eq_false_iff_not] at hk
       exact hk (List.mem_map_of_mem he))

theorem kept_queue {n : Nat} {s : TcSt α} (inv : Inv s) (h : Kept s) {t : Nat} (c : TcCall α) (p : Nat) (a : ChAct α)
    (hp : (s.pc t).holds = some p) : Kept (s.inQueue n t c p a) := by
  unfold inQueue
  split
  · refine kept_touch h _ (kept_move inv h t _ rfl (fun k ty b p h' => by rw [h'] at hp; simp [TcPc.holds] at hp) rfl rfl
      (fun e he hk => by simp [TcPc.kills] at hk))
  · exact h

theorem kept_go {n : Nat} {s : TcSt α} (inv : Inv s) (h : Kept s) (t j : Nat) : Kept (s.go n t j) := by
  have hpos := inv.pos t
  unfold go
  split
  · exact h
  · rename_i hp
    split
    · exact kept_move inv h t _ rfl (fun k ty b p h' => by rw [hp] at h'; simp at h') rfl rfl (fun e he hk => by simp [TcPc.kills] at hk)
    · exact h
  · exact kept_find inv h t _ (by assumption)
  · rename_i hp
    exact kept_touch h _ (kept_move inv h t _ rfl (fun k ty b p h' => by rw [hp] at h'; simp at h') rfl rfl
      (fun e he hk => by simp [TcPc.kills] at hk))
  · -- alloc
    rename_i k ty sz hp
    refine kept_upd inv h t (.insert k ty sz s.next) rfl (fun k ty b p h' => by rw [hp] at h'; simp at h') (fun e he _ => he)
      (fun p hl => ?_) (fun hi => by rw [hp] at hi; simp [TcPc.inside?] at hi) (fun e he hk => by simp [TcPc.kills] at hk)
    simp only at hl
    split at hl
    · rename_i hn; exact .inr ⟨k, ty, sz, by rw [hn]⟩
    · exact .inl hl
  · -- insert
    rename_i k ty sz p hp
    refine kept_upd inv h t _ rfl (fun k' ty' b' p' h' => ?_) (fun e he _ => List.mem_append_left _ he) (fun p hl => .inl hl)
      (fun hi => by rw [hp] at hi; simp [TcPc.inside?] at hi) (fun e he hk => by simp [TcPc.kills] at hk)
    rw [hp] at h'
    cases h'
    simp
  · -- del
    rename_i k p hp
    rw [hp] at hpos
    refine kept_upd inv h t (.erase k) rfl (fun k ty b p h' => by rw [hp] at h'; simp at h') (fun e he _ => he) (fun q hl => ?_)
      (fun hi => by rw [hp] at hi; simp [TcPc.inside?] at hi) (fun e he hk => ?_)
    · simp only at hl
      split at hl
      · simp at hl
      · exact .inl hl
    · replace hk : (s.map.lookup k == some e.2) = true := hk
      rw [show s.map.lookup k = some p from hpos] at hk
      simp only [beq_iff_eq, Option.some.injEq] at hk
      simp [hk]
  · -- erase
    rename_i k hp
    refine kept_upd inv h t _ rfl (fun k ty b p h' => by rw [hp] at h'; simp at h') (fun e he hl => ?_) (fun p hl => .inl hl)
      (fun hi => by rw [hp] at hi; simp [TcPc.inside?] at hi) (fun e he hk => by simp [TcPc.kills] at hk)
    refine List.mem_filter.2 ⟨he, ?_⟩
    simp only [ne_eq, decide_not, Bool.not_eq_true', decide_eq_false_iff_not]
    intro hk
    have := h.2 t e he (by
      rw [hp]
      simp only [TcPc.kills, beq_iff_eq]
      exact (lookup_some inv.keys).2 (by rw [← hk]; exact he))
    rw [show s.live e.2 = true from hl] at this
    simp at this
  · -- wipe cons
    rename_i p ps hp
    refine kept_upd inv h t (.wipe ps) rfl (fun k ty b p h' => by rw [hp] at h'; simp at h') (fun e he _ => he) (fun q hl => ?_)
      (fun hi => by rw [hp] at hi; simp [TcPc.inside?] at hi) (fun e he hk => ?_)
    · simp only at hl
      split at hl
      · simp at hl
      · exact .inl hl
    · simp only
      split
      · rfl
      · rename_i hne
        refine h.2 t e he ?_
        rw [hp]
        simpa [TcPc.kills, hne] using hk
  · -- wipe nil
    rename_i hp
    refine kept_upd inv h t _ rfl (fun k ty b p h' => by rw [hp] at h'; simp at h') (fun e he hl => ?_) (fun p hl => .inl hl)
      (fun hi => by rw [hp] at hi; simp [TcPc.inside?] at hi) (fun e he hk => by simp [TcPc.kills] at hk)
    have := h.2 t e he (by rw [hp]; simp [TcPc.kills])
    rw [show s.live e.2 = true from hl] at this
    simp at this
  · rename_i hp
    exact kept_move inv h t _ rfl (fun k ty b p h' => by rw [hp] at h'; simp at h') rfl rfl
      (fun e he hk => by simp [TcPc.kills] at hk)
  · rename_i hp
    split
    · exact kept_queue inv h _ _ _ (by rw [hp]; rfl)
    · exact h
  · rename_i hp
    split
    · exact kept_move inv h t _ rfl (fun k ty b p h' => by rw [hp] at h'; simp at h') rfl rfl
        (fun e he hk => by simp [TcPc.kills] at hk)
    · exact kept_queue inv h _ _ _ (by rw [hp]; rfl)

theorem kept_run (n : Nat) (l : List (TcAct α)) : Kept (run n l) := by
  refine (run_ind (n := n) (P := Kept) ?_ (fun s a inv h => ?_) l).2
  · exact ⟨fun p h => by simp [init] at h, fun t e he => by simp [init] at he⟩
  · unfold step
    split
    · exact h
    · split
      · split
        · rename_i t c hc
          refine kept_move inv h t c.first rfl (fun k ty b p h' => by rw [out_of hc.2] at h'; simp at h') rfl rfl
            (fun e he hk => ?_)
          cases c <;> simp [TcCall.first, TcPc.kills] at hk
        · exact h
      · exact kept_go inv h _ _
      · split
        · rename_i hp; exact kept_queue inv h _ _ _ (by rw [hp]; rfl)
        · exact h

/-- **C114 (no leak)** Whenever no thread possesses the mutex, exactly the queues in the map exist: what was removed or
cleared away has been deleted, nothing else has. -/
theorem C114_noleak (n : Nat) (l : List (TcAct α)) (h : (run n l).owner = none) (p : Nat) :
    (run n l).live p = true ↔ ∃ k, (k, p) ∈ (run n l).map := by
  have inv := inv_run n l
  have hno : ∀ t, ((run n l).pc t).inside? = false := by
    intro t
    cases hi : ((run n l).pc t).inside? with
    | false => rfl
    | true => rw [(inv.own t).2 hi] at h; simp at h
  constructor
  · intro hp
    rcases (kept_run n l).1 p hp with h1 | ⟨t, ty, k, b, h1⟩
    · exact h1
    · have := hno t; rw [h1] at this; simp [TcPc.inside?] at this
  · rintro ⟨k, hk⟩
    rcases inv.alive _ hk with h1 | ⟨t, h1⟩
    · exact h1
    · have := hno t; rw [kills_inside h1] at this; simp at this

/-- Two topics created, one removed, a receiver asleep in the other. -/
def exTwo : List (TcAct Nat) :=
  [.call 0 (.create "a" 7 4), .go 0 0, .go 0 0, .go 0 0, .go 0 0, .go 0 0, .call 0 (.create "b" 7 4), .go 0 0, .go 0 0, .go 0 0, .go 0 0, .go 0 0,
    .call 1 (.recv "b"), .go 1 0, .go 1 0, .go 1 0, .call 0 (.remove "a"), .go 0 0, .go 0 0, .go 0 0, .go 0 0, .go 0 0]

example : (run 2 exTwo).owner = none ∧ (run 2 exTwo).map = [("b", 1)] ∧ ((run 2 exTwo).chan 1).pc 1 = .recvSleep := by decide

theorem out_if (n : Nat) (l : List (TcAct α)) (t : Nat) (h : ∀ c, TcAct.call t c ∉ l) : (run n l).pc t = .out := by
  have inv := inv_run n l
  have hc := inv.calls t
  have hp := inv.pend t
  have h0 : (run n l).calls.filter (fun e => e.1 = t) = [] := by
    refine List.filter_eq_nil_iff.2 fun e he h' => ?_
    obtain ⟨u, c⟩ := e
    have : u = t := by simpa using h'
    exact h c (this ▸ calls_of n l he)
  rw [h0] at hc
  obtain ⟨h1, h2⟩ := List.append_eq_nil_iff.1 hc.symm
  rw [List.map_eq_nil_iff.1 h1] at hp
  have h3 := (List.append_eq_nil_iff.1 hp.symm).2
  cases hq : (run n l).pc t <;> rw [hq] at h2 h3 <;> simp [TcPc.open, pend] at h2 h3 ⊢

/-- The topic that a send or a receive is about. -/
def TcPc.topic : TcPc α → Option String
  | .find c => c.topic
  | .enter c _ => c.topic
  | .inside c _ => c.topic
  | _ => none

theorem uses_topic {q : TcPc α} {k : String} (h : q.uses k = true) : q.topic = some k := by
  cases q <;> simp only [TcPc.uses, Bool.false_eq_true] at h <;> exact eq_of_beq h

/-- The hypothesis of `C114_safe_partial` in this run, in which a topic is removed while a receiver sleeps in the other one. -/
example : ∀ l' l'', exTwo = l' ++ l'' → ∀ t u k, ¬ (((run 2 l').pc t).uses k = true ∧ ((run 2 l').pc u).removes k = true) := by
  intro l' l'' hl t u k ⟨h1, h2⟩
  have hlen : l'.length < 23 := by have := congrArg List.length hl; simp [exTwo] at this; omega
  have hl' : l' = exTwo.take l'.length := by rw [hl]; simp
  have idle : ∀ v, v ≠ 0 → v ≠ 1 → (run 2 l').pc v = .out := fun v h0 h1 => by
    refine out_if 2 l' v fun c hc => ?_
    have : TcAct.call v c ∈ exTwo := by rw [hl]; exact List.mem_append_left _ hc
    simp [exTwo, h0, h1] at this
  have ht : t < 2 := by
    by_contra hn
    rw [idle t (by omega) (by omega)] at h1
    simp [TcPc.uses] at h1
  have hu : u < 2 := by
    by_contra hn
    rw [idle u (by omega) (by omega)] at h2
    simp [TcPc.removes] at h2
  have key : ∀ i < 23, ∀ t < 2, ∀ u < 2, ∀ k ∈ ((run 2 (exTwo.take i)).pc t).topic, ((run 2 (exTwo.take i)).pc u).removes k = false := by
    decide +kernel
  have := key _ hlen t ht u hu k (by rw [← hl']; exact uses_topic h1)
  rw [← hl', h2] at this
  simp at this

/-! ### data races -/

/-- About to write to the map or to free a queue. -/
def TcPc.writing : TcPc α → Bool
  | .insert .. => true
  | .del .. => true
  | .erase .. => true
  | .wipe .. => true
  | _ => false

/-- **C114 (race)** A `createTopic` of one topic races with a `sendTopicValue` of another: the map is modified while it is read. -/
theorem C114_race_violated : ∃ l : List (TcAct Nat), Race (run 2 l) 0 1 ∧
    (run 2 l).calls = [(0, .create "a" 7 4), (1, .send "b" 5 .WAIT)] :=
  ⟨[.call 0 (.create "a" 7 4), .go 0 0, .go 0 0, .go 0 0, .call 1 (.send "b" 5 .WAIT)], by unfold Race; decide, by decide⟩

theorem acc_cases (q : TcPc α) : q.acc = .none ∨
    (q.writing = true ∧ q.inside? = true ∧ (q.acc = .mapWrite ∨ ∃ p, q.acc = .free p)) ∨
    (q.inside? = true ∧ (q.acc = .mapRead ∨ ∃ p, q.acc = .use p)) ∨
    ((q.acc = .mapRead ∧ ∃ c k, q = .find c ∧ c.topic = some k) ∨ ∃ p, q.holds = some p ∧ q.acc = .use p) := by
  cases q with
  | wipe ps => cases ps <;> simp [TcPc.acc, TcPc.writing, TcPc.inside?]
  | find c => cases c <;> simp [TcPc.acc, TcPc.writing, TcPc.inside?, TcCall.topic]
  | _ => simp [TcPc.acc, TcPc.writing, TcPc.inside?, TcPc.holds]

/-- In a send or a receive of some topic. -/
def TcPc.using : TcPc α → Bool
  | .find c => c.topic.isSome
  | .enter .. => true
  | .inside .. => true
  | _ => false

/-- **C114 (race, what holds)** These are the only races: in every race one of the two is in a send or a receive and the other, under
the mutex, is modifying the map or deleting.  Calls that lock do not race with each other, nor do sends and receives among
themselves. -/
theorem C114_race_partial (n : Nat) (l : List (TcAct α)) (t u : Nat) (h : Race (run n l) t u) :
    (((run n l).pc t).using = true ∧ ((run n l).pc u).writing = true ∧ (run n l).owner = some u) ∨
    (((run n l).pc u).using = true ∧ ((run n l).pc t).writing = true ∧ (run n l).owner = some t) := by
  have inv := inv_run n l
  generalize run n l = s at *
  obtain ⟨hne, hc⟩ := h
  have both : ¬ ((s.pc t).inside? = true ∧ (s.pc u).inside? = true) := by
    rintro ⟨h1, h2⟩
    have h1 := (inv.own t).2 h1
    rw [(inv.own u).2 h2] at h1
    exact hne (Option.some.inj h1).symm
  have us : ∀ q : TcPc α, ((q.acc = .mapRead ∧ ∃ c k, q = .find c ∧ c.topic = some k) ∨ ∃ p, q.holds = some p ∧ q.acc = .use p) →
      q.using = true ∧ (q.acc = .mapRead ∨ ∃ p, q.acc = .use p) := by
    rintro q (⟨h1, c, k, rfl, h2⟩ | ⟨p, h1, h2⟩)
    · exact ⟨by simp [TcPc.using, h2], .inl h1⟩
    · refine ⟨?_, .inr ⟨p, h2⟩⟩
      cases q <;> first | rfl | simp [TcPc.holds] at h1
  have rr : ∀ a b : Acc, (a = .mapRead ∨ ∃ p, a = .use p) → (b = .mapRead ∨ ∃ p, b = .use p) → Acc.conflict a b = false := by
    rintro a b (rfl | ⟨p, rfl⟩) (rfl | ⟨q, rfl⟩) <;> rfl
  rcases acc_cases (s.pc t) with h1 | ⟨h1, h1', h1''⟩ | ⟨h1, h1'⟩ | h1
  · rw [h1] at hc; simp [Acc.conflict] at hc
  · rcases acc_cases (s.pc u) with h2 | ⟨h2, h2', -⟩ | ⟨h2, -⟩ | h2
    · rw [h2] at hc
      rcases h1'' with h | ⟨p, h⟩ <;> rw [h] at hc <;> simp [Acc.conflict] at hc
    · exact absurd ⟨h1', h2'⟩ both
    · exact absurd ⟨h1', h2⟩ both
    · exact .inr ⟨(us _ h2).1, h1, (inv.own t).2 h1'⟩
  · exfalso
    rcases acc_cases (s.pc u) with h2 | ⟨h2, h2', -⟩ | ⟨h2, -⟩ | h2
    · rw [h2] at hc
      rcases h1' with h | ⟨p, h⟩ <;> rw [h] at hc <;> simp [Acc.conflict] at hc
    · exact both ⟨h1, h2'⟩
    · exact both ⟨h1, h2⟩
    · rw [rr _ _ h1' (us _ h2).2] at hc; simp at hc
  · rcases acc_cases (s.pc u) with h2 | ⟨h2, h2', -⟩ | ⟨h2, h2'⟩ | h2
    · rw [h2] at hc
      rcases (us _ h1).2 with h | ⟨p, h⟩ <;> rw [h] at hc <;> simp [Acc.conflict] at hc
    · exact .inl ⟨(us _ h1).1, h2, (inv.own u).2 h2'⟩
    · rw [rr _ _ (us _ h1).2 h2'] at hc; simp at hc
    · rw [rr _ _ (us _ h1).2 (us _ h2).2] at hc; simp at hc

/-- A sender and a receiver inside the same queue do not race. -/
example : ∃ l : List (TcAct Nat), ((run 2 l).pc 0).acc = .use 0 ∧ ((run 2 l).pc 1).acc = .use 0 ∧ ¬ Race (run 2 l) 0 1 :=
  ⟨[.call 0 (.create "a" 7 4), .go 0 0, .go 0 0, .go 0 0, .go 0 0, .go 0 0, .call 1 (.recv "a"), .go 1 0, .go 1 0,
    .call 0 (.send "a" 5 .WAIT), .go 0 0, .go 0 0], by decide, by decide, by unfold Race; decide⟩

end CGraph.TopicConc
