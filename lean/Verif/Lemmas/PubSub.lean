import Verif.Model.PubSub
import Verif.Props.Channel

namespace CGraph.PubSub
open Chan PsSt

set_option maxHeartbeats 1000000

variable {α : Type}

/-! ### one queue -/

/-- What a thread does in a queue. -/
inductive Ph (α : Type) where
  | idle
  | pend (v : α) (st : PushStrategy)
  | told
  | recv

/-- What a thread does in a queue. -/
def phase : ChPc α → Ph α
  | .idle => .idle
  | .send v st => .pend v st
  | .sendSleep v => .pend v .WAIT
  | .sendWoken v => .pend v .WAIT
  | .tellRecv => .told
  | .recv => .recv
  | .recvSleep => .recv
  | .recvWoken => .recv
  | .recvLate => .recv
  | .tellSend => .recv

theorem phase_woken (p : ChPc α) : phase p.woken = phase p := by cases p <;> rfl

theorem phase_idle {p : ChPc α} : phase p = .idle ↔ p.isIdle = true := by cases p <;> simp [phase, ChPc.isIdle]

/-- How a step inside a queue looks from outside. -/
inductive View (q q' : ChSt α) : Prop
  /-- thread `u` has put its message -/
  | put (u : Nat) (v : α) (st : PushStrategy) (h1 : phase (q.pc u) = .pend v st)
      (h2 : phase (q'.pc u) = .told ∨ phase (q'.pc u) = .idle) (h3 : allSents q' = allSents q ++ [(u, v, st)])
      (h4 : ∀ w, w ≠ u → phase (q'.pc w) = phase (q.pc w))
  /-- nothing was put -/
  | other (u : Nat) (h1 : phase (q'.pc u) = phase (q.pc u) ∨ (phase (q.pc u) = .told ∧ phase (q'.pc u) = .idle) ∨
        (phase (q.pc u) = .recv ∧ phase (q'.pc u) = .idle))
      (h3 : allSents q' = allSents q) (h4 : ∀ w, w ≠ u → phase (q'.pc w) = phase (q.pc w))

theorem phase_notify (n : Nat) (s : ChSt α) (on : ChPc α → Bool) (k w : Nat) :
    phase ((s.notify n on k).pc w) = phase (s.pc w) ∧ allSents (s.notify n on k) = allSents s := by
  unfold ChSt.notify
  split
  · exact ⟨rfl, rfl⟩
  · rename_i i _
    refine ⟨?_, rfl⟩
    simp only [ChSt.setPc]
    split
    · rename_i h; rw [h, phase_woken]
    · rfl

theorem sents_snoc {q q' : ChSt α} {u : Nat} {e : ChEv α} (h : q'.log = q.log ++ [(u, e)]) :
    allSents q' = allSents q ++ (match e with | .sent v st _ => [(u, v, st)] | _ => []) := by
  simp only [allSents, h, List.filterMap_append]
  cases e <;> rfl

theorem send_view {n : Nat} {q q' : ChSt α} {t : Nat} {v : α} {st : PushStrategy} (hp : phase (q.pc t) = .pend v st)
    (h : q.doSend t v st = some q') : View q q' := by
  unfold ChSt.doSend at h
  have hw : ∀ (q1 : ChSt α) p w, q1.pc = q.pc → w ≠ t → phase ((q1.setPc t p).pc w) = phase (q.pc w) := by
    intro q1 p w h hw; simp [ChSt.setPc, hw, h]
  split at h
  · simp at h
  · rename_i x hpush
    cases h
    have hst : st = .WAIT := by
      unfold Ring.push at hpush
      split at hpush
      · simp at hpush
      · cases hq : q.ring.write v <;> simp [hq] at hpush
      · cases st with
        | WAIT => rfl
        | REPLACE => simp only at hpush; cases hq : ({ q.ring with head := (q.ring.head + 1) % q.ring.capacity } : Ring α).write v <;> simp [hq] at hpush
        | DROP => simp at hpush
    subst hst
    exact .other t (.inl (by rw [hp]; simp [ChSt.setPc, phase])) rfl (fun w h => hw q _ w rfl h)
  · cases h
    exact .put t v st hp (.inr (by simp [ChSt.setPc, phase])) ((sents_snoc rfl).trans rfl) (fun w h => hw _ _ w rfl h)
  · cases h
    exact .put t v st hp (.inl (by simp [ChSt.setPc, phase])) ((sents_snoc rfl).trans rfl) (fun w h => hw _ _ w rfl h)

theorem recv_view {q q' : ChSt α} {t : Nat} {late : Bool} (hp : phase (q.pc t) = .recv)
    (h : q.doRecv t late = some q') : View q q' := by
  unfold ChSt.doRecv at h
  have hw : ∀ (q1 : ChSt α) p w, q1.pc = q.pc → w ≠ t → phase ((q1.setPc t p).pc w) = phase (q.pc w) := by
    intro q1 p w h hw; simp [ChSt.setPc, hw, h]
  split at h
  · simp at h
  · split at h
    · cases h
      exact .other t (.inr (.inr ⟨hp, by simp [ChSt.setPc, phase]⟩)) ((sents_snoc rfl).trans (by simp)) (fun w h => hw _ _ w rfl h)
    · cases h
      exact .other t (.inl (by rw [hp]; simp [ChSt.setPc, phase])) rfl (fun w h => hw _ _ w rfl h)
  · cases h
    exact .other t (.inl (by rw [hp]; simp [ChSt.setPc, phase])) ((sents_snoc rfl).trans (by simp)) (fun w h => hw _ _ w rfl h)

/-- A step of a thread that is inside. -/
def inner : ChAct α → Bool
  | .callSend .. => false
  | .callRecv _ => false
  | _ => true

theorem chan_view {n : Nat} {q q' : ChSt α} {a : ChAct α} (ha : inner a = true) (h : q.step n a = some q') : View q q' := by
  cases a with
  | callSend => simp [inner] at ha
  | callRecv => simp [inner] at ha
  | step t k =>
    simp only [ChSt.step] at h
    split at h
    · split at h
      · rename_i hp; exact send_view (n := n) (by rw [hp]; rfl) h
      · rename_i hp; exact send_view (n := n) (by rw [hp]; rfl) h
      · rename_i hp
        cases h
        refine .other t (.inr (.inl ⟨by rw [hp]; rfl, ?_⟩)) (phase_notify (w := 0) ..).2 fun w hw => ?_
        · rw [(phase_notify ..).1]; simp [ChSt.setPc, phase]
        · rw [(phase_notify ..).1]; simp [ChSt.setPc, hw]
      · rename_i hp; exact recv_view (by rw [hp]; rfl) h
      · rename_i hp; exact recv_view (by rw [hp]; rfl) h
      · rename_i hp; exact recv_view (by rw [hp]; rfl) h
      · rename_i hp
        cases h
        refine .other t (.inr (.inr ⟨by rw [hp]; rfl, ?_⟩)) (phase_notify (w := 0) ..).2 fun w hw => ?_
        · rw [(phase_notify ..).1]; simp [ChSt.setPc, phase]
        · rw [(phase_notify ..).1]; simp [ChSt.setPc, hw]
      · simp at h
    · simp at h
  | spurious t =>
    simp only [ChSt.step] at h
    split at h
    · cases h
      exact .other t (.inl (by simp [ChSt.setPc, phase_woken])) rfl (fun w hw => by simp [ChSt.setPc, hw])
    · simp at h
  | expire t =>
    simp only [ChSt.step] at h
    split at h
    · rename_i hh
      cases h
      refine .other t (.inl ?_) rfl (fun w hw => by simp [ChSt.setPc, hw])
      have := hh.2
      simp only [ChSt.setPc, if_true]
      cases hp : q.pc t <;> rw [hp] at this <;> first | rfl | simp [ChPc.inPop] at this
    · simp at h

theorem chan_send {n : Nat} {q q' : ChSt α} {t : Nat} {v : α} {st : PushStrategy} (h : q.step n (.callSend t v st) = some q') :
    t < n ∧ q.pc t = .idle ∧ q' = q.setPc t (.send v st) := by
  simp only [ChSt.step] at h
  split at h
  · split at h
    · rename_i h1 _ h2; cases h; exact ⟨h1, h2, rfl⟩
    · simp at h
  · simp at h

theorem chan_recv {n : Nat} {q q' : ChSt α} {t : Nat} (h : q.step n (.callRecv t) = some q') :
    t < n ∧ q.pc t = .idle ∧ q' = q.setPc t .recv := by
  simp only [ChSt.step] at h
  split at h
  · split at h
    · rename_i h1 _ h2; cases h; exact ⟨h1, h2, rfl⟩
    · simp at h
  · simp at h

/-! ### the threads in the loop -/

theorem of_snoc_self (t : Nat) (l : List (Nat × α × PushStrategy)) (x : α × PushStrategy) :
    ofThread t (l ++ [(t, x)]) = ofThread t l ++ [x] := by simp [ofThread]

theorem of_snoc_other {t u : Nat} (h : u ≠ t) (l : List (Nat × α × PushStrategy)) (x : α × PushStrategy) :
    ofThread t (l ++ [(u, x)]) = ofThread t l := by simp [ofThread, h]

/-- Thread `t`, at `p` of the loop, seen in queue `j`. -/
def At (d : List (α × PushStrategy)) (q : ChSt α) (t j : Nat) : PbPc α → Prop
  | .out => (phase (q.pc t) = .idle ∨ phase (q.pc t) = .recv) ∧ sents q t = d
  | .at i v st =>
    (j < i ∧ phase (q.pc t) = .idle ∧ sents q t = d ++ [(v, st)]) ∨
    (j = i ∧ phase (q.pc t) = .pend v st ∧ sents q t = d) ∨
    (j = i ∧ (phase (q.pc t) = .told ∨ phase (q.pc t) = .idle) ∧ sents q t = d ++ [(v, st)]) ∨
    (i < j ∧ phase (q.pc t) = .idle ∧ sents q t = d)

/-- What a thread has begun and not finished. -/
def PbPc.open : PbPc α → List (α × PushStrategy)
  | .out => []
  | .at _ v st => [(v, st)]

/-- The invariant. -/
structure Inv (c : PsCfg) (s : PsSt α) : Prop where
  seen : ∀ t j, j < c.k → At (ofThread t s.done) (s.chan j) t j (s.pub t)
  idx : ∀ t i v st, s.pub t = .at i v st → i < c.k ∧ t < c.n
  pubs : ∀ t, ofThread t s.pubs = ofThread t s.done ++ (s.pub t).open

theorem inv_init (c : PsCfg) : Inv c (PsSt.init c : PsSt α) where
  seen := fun t j _ => ⟨.inl rfl, rfl⟩
  idx := fun t i v st h => by simp [PsSt.init] at h
  pubs := fun t => rfl

theorem at_view {d : List (α × PushStrategy)} {q q' : ChSt α} (hv : View q q') {t j : Nat} {p : PbPc α} (h : At d q t j p) :
    At d q' t j p := by
  cases hv with
  | put u v st h1 h2 h3 h4 =>
    by_cases hu : t = u
    · subst hu
      have hs : sents q' t = sents q t ++ [(v, st)] := by simp only [sents, h3]; exact of_snoc_self ..
      cases p with
      | out => rcases h.1 with h | h <;> rw [h1] at h <;> simp at h
      | «at» i v' st' =>
        rcases h with ⟨_, h, _⟩ | ⟨hj, h, hd⟩ | ⟨_, h | h, _⟩ | ⟨_, h, _⟩ <;> rw [h1] at h <;> try simp at h
        obtain ⟨rfl, rfl⟩ := h
        exact .inr (.inr (.inl ⟨hj, h2, by rw [hs, hd]⟩))
    · have hs : sents q' t = sents q t := by simp only [sents, h3]; exact of_snoc_other (Ne.symm hu) ..
      cases p <;> simp only [At, h4 t hu, hs] at h ⊢ <;> exact h
  | other u h1 h3 h4 =>
    have hs : sents q' t = sents q t := by simp only [sents, h3]
    by_cases hu : t = u
    · subst hu
      rcases h1 with h1 | ⟨h1, h2⟩ | ⟨h1, h2⟩
      · cases p <;> simp only [At, h1, hs] at h ⊢ <;> exact h
      · cases p with
        | out => rcases h.1 with h | h <;> rw [h1] at h <;> simp at h
        | «at» i v' st' =>
          rcases h with ⟨_, h, _⟩ | ⟨_, h, _⟩ | ⟨hj, _, hd⟩ | ⟨_, h, _⟩
          · rw [h1] at h; simp at h
          · rw [h1] at h; simp at h
          · exact .inr (.inr (.inl ⟨hj, .inr h2, by rw [hs, hd]⟩))
          · rw [h1] at h; simp at h
      · cases p with
        | out => exact ⟨.inl h2, by rw [hs]; exact h.2⟩
        | «at» i v' st' =>
          rcases h with ⟨_, h, _⟩ | ⟨_, h, _⟩ | ⟨_, h | h, _⟩ | ⟨_, h, _⟩ <;> rw [h1] at h <;> simp at h
    · cases p <;> simp only [At, h4 t hu, hs] at h ⊢ <;> exact h

theorem inv_chan {c : PsCfg} {s s' : PsSt α} (h : Inv c s) {i : Nat} {a : ChAct α} (ha : inner a = true)
    (hs : s.inChan c i a = some s') : Inv c s' := by
  unfold inChan at hs
  split at hs
  · split at hs
    · simp at hs
    · rename_i q hq
      cases hs
      refine ⟨fun t j hj => ?_, h.idx, h.pubs⟩
      have := h.seen t j hj
      simp only [setChan]
      split
      · rename_i hji; subst hji; exact at_view (chan_view ha hq) this
      · exact this
  · simp at hs

theorem inv_sub {c : PsCfg} {s s' : PsSt α} (h : Inv c s) {i t : Nat} (hf : s.free c t = true)
    (hs : s.inChan c i (.callRecv t) = some s') : Inv c s' := by
  unfold inChan at hs
  split at hs
  · rename_i hi
    split at hs
    · simp at hs
    · rename_i q hq
      cases hs
      obtain ⟨_, h1, rfl⟩ := chan_recv hq
      simp only [free, Bool.and_eq_true] at hf
      refine ⟨fun u j hj => ?_, h.idx, h.pubs⟩
      have := h.seen u j hj
      simp only [setChan]
      split
      · rename_i hji; subst hji
        by_cases hu : u = t
        · subst hu
          cases hp : s.pub u with
          | out => rw [hp] at this; exact ⟨.inr (by simp [ChSt.setPc, phase]), this.2⟩
          | «at» => rw [hp] at hf; simp [PbPc.isOut] at hf
        · cases hp : s.pub u <;> rw [hp] at this <;> simp only [At, ChSt.setPc, hu, if_false] at this ⊢ <;> exact this
      · exact this
  · simp at hs

theorem at_enter {d : List (α × PushStrategy)} {q : ChSt α} {t u j : Nat} {v : α} {st : PushStrategy} {p : PbPc α} (hu : u ≠ t)
    (h : At d q u j p) : At d (q.setPc t (.send v st)) u j p := by
  cases p <;> simp only [At, ChSt.setPc, hu, if_false] at h ⊢ <;> exact h

theorem inv_enter {c : PsCfg} {s s1 s' : PsSt α} (h : Inv c s) {t i : Nat} {v : α} {st : PushStrategy} (ht : t < c.n)
    (hc1 : s1.chan = s.chan) (hp1 : s1.pub = s.pub) (hd1 : s1.done = s.done)
    (hpub : ∀ u, ofThread u s1.pubs = ofThread u s.done ++ (if u = t then [(v, st)] else (s.pub u).open))
    (hseen : ∀ j, j < c.k → phase ((s.chan j).pc t) = .idle ∧
      sents (s.chan j) t = ofThread t s.done ++ if j < i then [(v, st)] else [])
    (hi : i ≤ c.k)
    (hs : s1.enter c t i v st = some s') : Inv c s' := by
  unfold enter at hs
  split at hs
  · rename_i hik
    split at hs
    · simp at hs
    · rename_i q hq
      cases hs
      obtain ⟨_, h1, rfl⟩ := chan_send hq
      rw [hc1] at h1
      refine ⟨fun u j hj => ?_, fun u j x y hu => ?_, fun u => ?_⟩
      · simp only [setChan, setPub, hc1, hp1, hd1]
        by_cases hu : u = t
        · subst hu
          simp only [if_true]
          obtain ⟨h2, h3⟩ := hseen j hj
          by_cases hji : j = i
          · subst hji
            simp only [if_true]
            rw [if_neg (Nat.lt_irrefl _), List.append_nil] at h3
            exact .inr (.inl ⟨rfl, by simp [ChSt.setPc, phase], h3⟩)
          · simp only [hji, if_false]
            by_cases hlt : j < i
            · rw [if_pos hlt] at h3; exact .inl ⟨hlt, h2, h3⟩
            · rw [if_neg hlt, List.append_nil] at h3; exact .inr (.inr (.inr ⟨by omega, h2, h3⟩))
        · simp only [hu, if_false]
          split
          · rename_i hji; subst hji; exact at_enter hu (h.seen u j hj)
          · exact h.seen u j hj
      · simp only [setChan, setPub, hp1] at hu
        split at hu
        · rename_i h; cases hu; exact ⟨hik, h ▸ ht⟩
        · exact h.idx u j x y hu
      · simp only [setChan, setPub, hp1, hd1]
        rw [hpub u]
        split <;> rfl
  · rename_i hik
    cases hs
    have hik : i = c.k := by omega
    refine ⟨fun u j hj => ?_, fun u j x y hu => ?_, fun u => ?_⟩
    · simp only [setPub, hc1, hp1, hd1]
      by_cases hu : u = t
      · subst hu
        simp only [if_true, of_snoc_self]
        obtain ⟨h2, h3⟩ := hseen j hj
        rw [if_pos (by omega)] at h3
        exact ⟨.inl h2, h3⟩
      · simp only [hu, if_false, of_snoc_other (Ne.symm hu)]
        exact h.seen u j hj
    · simp only [setPub, hp1] at hu
      split at hu
      · simp at hu
      · exact h.idx u j x y hu
    · simp only [setPub, hp1, hd1]
      rw [hpub u]
      by_cases hu : u = t
      · subst hu; simp [of_snoc_self, PbPc.open]
      · simp [hu, of_snoc_other (Ne.symm hu)]

theorem free_idle {c : PsCfg} {s : PsSt α} {t : Nat} (h : s.free c t = true) :
    s.pub t = .out ∧ ∀ j, j < c.k → phase ((s.chan j).pc t) = .idle := by
  simp only [free, Bool.and_eq_true, List.all_eq_true, List.mem_range] at h
  refine ⟨?_, fun j hj => phase_idle.2 (h.2 j hj)⟩
  cases hp : s.pub t with
  | out => rfl
  | «at» => rw [hp] at h; simp [PbPc.isOut] at h

theorem inv_step {c : PsCfg} {s s' : PsSt α} (h : Inv c s) {a : PsAct α} (hs : s.step c a = some s') : Inv c s' := by
  cases a with
  | pub t v st =>
    simp only [step] at hs
    split at hs
    · rename_i hh
      obtain ⟨h1, h2⟩ := free_idle hh.2
      refine inv_enter h (s1 := { s with pubs := s.pubs ++ [(t, v, st)] }) (i := 0) hh.1 rfl rfl rfl (fun u => ?_) (fun j hj => ⟨h2 j hj, ?_⟩) (Nat.zero_le _) hs
      · by_cases hu : u = t
        · subst hu
          simp only [of_snoc_self, if_true, h.pubs u, h1, PbPc.open, List.append_nil]
        · simp only [of_snoc_other (Ne.symm hu), hu, if_false]; exact h.pubs u
      · have := h.seen t j hj
        rw [h1] at this
        simpa using this.2
    · simp at hs
  | sub t i =>
    simp only [step] at hs
    split at hs
    · rename_i hh; exact inv_sub h hh.2 hs
    · simp at hs
  | go i t j => exact inv_chan h rfl hs
  | next t =>
    simp only [step] at hs
    split at hs
    · simp at hs
    · rename_i i v st hp
      split at hs
      · rename_i hid
        have hid := phase_idle.2 hid
        obtain ⟨hik, ht⟩ := h.idx t i v st hp
        refine inv_enter h (i := i + 1) ht rfl rfl rfl (fun u => ?_) (fun j hj => ?_) hik hs
        · by_cases hu : u = t
          · subst hu; simp only [if_true]; rw [h.pubs u, hp]; rfl
          · simp only [hu, if_false]; exact h.pubs u
        · have := h.seen t j hj
          rw [hp] at this
          rcases this with ⟨a, b, c⟩ | ⟨rfl, b, c⟩ | ⟨rfl, b, c⟩ | ⟨a, b, c⟩
          · exact ⟨b, by rw [if_pos (by omega)]; exact c⟩
          · rw [b] at hid; simp at hid
          · exact ⟨hid, by rw [if_pos (by omega)]; exact c⟩
          · exact ⟨b, by rw [if_neg (by omega), List.append_nil]; exact c⟩
      · simp at hs
  | spurious i t => exact inv_chan h rfl hs
  | expire i t => exact inv_chan h rfl hs

theorem trace_inv (c : PsCfg) (σ : Nat → PsAct α) (m : Nat) : Inv c (trace c σ m) := by
  induction m with
  | zero => exact inv_init c
  | succ m ih =>
    simp only [trace]
    cases hs : (trace c σ m).step c (σ m) with
    | none => exact ih
    | some s' => exact inv_step ih hs

end CGraph.PubSub
