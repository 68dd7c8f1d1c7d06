import Verif.Model.Channel
import Verif.Props.Queues
import Verif.Lemmas.PoolRun

/-! # Channels used by many threads: what a step does, and who is on the way -/
namespace CGraph.Chan
open ChSt Spec

set_option maxHeartbeats 1000000

variable {α : Type}

/-- In a receive that has not taken effect. -/
def ChPc.wantsRecv : ChPc α → Bool
  | .recv => true
  | .recvSleep => true
  | .recvWoken => true
  | .recvLate => true
  | _ => false

/-- In a send that has not taken effect. -/
def ChPc.wantsSend : ChPc α → Bool
  | .send _ _ => true
  | .sendSleep _ => true
  | .sendWoken _ => true
  | _ => false

/-- Will see or pass on that there is a message. -/
def wR : ChPc α → Nat
  | .tellRecv => 1
  | .recvWoken => 1
  | .recvLate => 1
  | _ => 0

/-- Will see or pass on that there is room. -/
def wS : ChPc α → Nat
  | .tellSend => 1
  | .sendWoken _ => 1
  | _ => 0

theorem wR_idle : wR (.idle : ChPc α) = 0 := rfl
theorem wR_send (v : α) (st : PushStrategy) : wR (.send v st : ChPc α) = 0 := rfl
theorem wR_sendSleep (v : α) : wR (.sendSleep v : ChPc α) = 0 := rfl
theorem wR_sendWoken (v : α) : wR (.sendWoken v : ChPc α) = 0 := rfl
theorem wR_tellRecv : wR (.tellRecv : ChPc α) = 1 := rfl
theorem wR_recv : wR (.recv : ChPc α) = 0 := rfl
theorem wR_recvSleep : wR (.recvSleep : ChPc α) = 0 := rfl
theorem wR_recvWoken : wR (.recvWoken : ChPc α) = 1 := rfl
theorem wR_recvLate : wR (.recvLate : ChPc α) = 1 := rfl
theorem wR_tellSend : wR (.tellSend : ChPc α) = 0 := rfl
theorem wS_idle : wS (.idle : ChPc α) = 0 := rfl
theorem wS_send (v : α) (st : PushStrategy) : wS (.send v st : ChPc α) = 0 := rfl
theorem wS_sendSleep (v : α) : wS (.sendSleep v : ChPc α) = 0 := rfl
theorem wS_sendWoken (v : α) : wS (.sendWoken v : ChPc α) = 1 := rfl
theorem wS_tellRecv : wS (.tellRecv : ChPc α) = 0 := rfl
theorem wS_recv : wS (.recv : ChPc α) = 0 := rfl
theorem wS_recvSleep : wS (.recvSleep : ChPc α) = 0 := rfl
theorem wS_recvWoken : wS (.recvWoken : ChPc α) = 0 := rfl
theorem wS_recvLate : wS (.recvLate : ChPc α) = 0 := rfl
theorem wS_tellSend : wS (.tellSend : ChPc α) = 1 := rfl

/-- Read as requests on a channel. -/
def ChEv.op : ChEv α → ChanOp α
  | .sent v s _ => .send v (Ring.pol s)
  | .got _ => .recv
  | .timeout => .recv

/-- Read as answers of a channel. -/
def ChEv.out : ChEv α → ChanOut α
  | .sent _ _ o => Ring.out o
  | .got (some v) => .got v
  | .got none => .nothing
  | .timeout => .nothing

/-- What a step does; `l` and `l'` are the messages waiting before and after. -/
inductive Eff (n size : Nat) (s s' : ChSt α) (l l' : List α) : ChAct α → Prop
  | callSend (t : Nat) (v : α) (st : PushStrategy) (ht : t < n) (h : s.pc t = .idle) (hs : s' = s.setPc t (.send v st))
      (hl : l' = l) : Eff n size s s' l l' (.callSend t v st)
  | callRecv (t : Nat) (ht : t < n) (h : s.pc t = .idle) (hs : s' = s.setPc t .recv) (hl : l' = l) :
      Eff n size s s' l l' (.callRecv t)
  | full (t k : Nat) (v : α) (ht : t < n) (h : s.pc t = .send v .WAIT ∨ s.pc t = .sendWoken v)
      (hs : s' = s.setPc t (.sendSleep v)) (hl : l' = l) (hf : l.length + 1 = size) : Eff n size s s' l l' (.step t k)
  | sent (t k : Nat) (e : ChEv α) (ht : t < n) (h : (s.pc t).wantsSend = true) (hna : (s.pc t).inPush = false)
      (hp : s'.pc = (s.setPc t .tellRecv).pc) (hlog : s'.log = s.log ++ [(t, e)])
      (he : e.out = .accepted ∧ l'.length = l.length + 1 ∨ e.out = .acceptedOldestLost ∧ l'.length = l.length ∧ l.length + 1 = size)
      (hc : chanStep (size - 1) l e.op = (l', e.out)) : Eff n size s s' l l' (.step t k)
  | refused (t k : Nat) (e : ChEv α) (ht : t < n) (h : (s.pc t).wantsSend = true) (hna : (s.pc t).inPush = false)
      (hp : s'.pc = (s.setPc t .idle).pc) (hlog : s'.log = s.log ++ [(t, e)]) (he : e.out = .refused) (hl : l' = l)
      (hf : l.length + 1 = size) (hc : chanStep (size - 1) l e.op = (l', e.out)) (hd : ∃ v, s.pc t = .send v .DROP) :
      Eff n size s s' l l' (.step t k)
  | empty (t k : Nat) (ht : t < n) (h : s.pc t = .recv ∨ s.pc t = .recvWoken)
      (hs : s' = s.setPc t .recvSleep) (hl : l' = l) (hf : l = []) : Eff n size s s' l l' (.step t k)
  | timeout (t k : Nat) (ht : t < n) (h : s.pc t = .recvLate) (hp : s'.pc = (s.setPc t .idle).pc)
      (hlog : s'.log = s.log ++ [(t, .timeout)]) (hl : l' = l) (hf : l = []) : Eff n size s s' l l' (.step t k)
  | got (t k : Nat) (x : α) (ht : t < n) (h : (s.pc t).wantsRecv = true) (hna : (s.pc t).inPop = false)
      (hp : s'.pc = (s.setPc t .tellSend).pc) (hlog : s'.log = s.log ++ [(t, .got (some x))]) (hl : l = x :: l') :
      Eff n size s s' l l' (.step t k)
  | tellRecv (t k : Nat) (ht : t < n) (h : s.pc t = .tellRecv) (hs : s' = (s.setPc t .idle).notify n ChPc.inPop k)
      (hl : l' = l) : Eff n size s s' l l' (.step t k)
  | tellSend (t k : Nat) (ht : t < n) (h : s.pc t = .tellSend) (hs : s' = (s.setPc t .idle).notify n ChPc.inPush k)
      (hl : l' = l) : Eff n size s s' l l' (.step t k)
  | spurious (t : Nat) (ht : t < n) (h : (s.pc t).inPush = true ∨ (s.pc t).inPop = true)
      (hs : s' = s.setPc t (s.pc t).woken) (hl : l' = l) : Eff n size s s' l l' (.spurious t)
  | expire (t : Nat) (ht : t < n) (h : s.pc t = .recvSleep) (hs : s' = s.setPc t .recvLate) (hl : l' = l) :
      Eff n size s s' l l' (.expire t)

theorem doSend_eff {n size : Nat} (hn : 2 ≤ size) {s s' : ChSt α} {l : List α} (r : Ring.Rel size s.ring l) {t k : Nat}
    {v : α} {st : PushStrategy} (ht : t < n) (hpc : s.pc t = .send v st ∨ (s.pc t = .sendWoken v ∧ st = .WAIT))
    (hs : s.doSend t v st = some s') : ∃ l', Ring.Rel size s'.ring l' ∧ Eff n size s s' l l' (.step t k) := by
  have hw : (s.pc t).wantsSend = true ∧ (s.pc t).inPush = false := by
    rcases hpc with h | ⟨h, _⟩ <;> rw [h] <;> exact ⟨rfl, rfl⟩
  obtain ⟨q', o, h1, h2, h3⟩ := Ring.rel_push hn r v st
  have hroom := r.room
  simp only [doSend, h1] at hs
  have hch : ∀ o', o' = o → chanStep (size - 1) l (ChEv.sent v st o').op =
      ((chanStep (size - 1) l (.send v (Ring.pol st))).1, (ChEv.sent v st o').out) := by
    intro o' ho
    subst ho
    show chanStep (size - 1) l (.send v (Ring.pol st)) = (_, Ring.out o')
    rw [h2]
  cases o with
  | blocked =>
    simp only [Option.some.injEq] at hs
    subst hs
    have h4 : st = .WAIT := by
      by_cases hl : l.length < size - 1 <;> cases st <;> simp [chanStep, hl, Ring.out, Ring.pol] at h2 ⊢
    refine ⟨l, r, .full t k v ht ?_ rfl rfl ?_⟩
    · rcases hpc with h | ⟨h, _⟩
      · left; rw [h, h4]
      · right; exact h
    · by_contra hc
      simp only [chanStep, show l.length < size - 1 by omega, if_true, Ring.out] at h2
      simp at h2
  | dropped =>
    simp only [Option.some.injEq] at hs
    subst hs
    have hst : st = .DROP ∧ ¬ l.length < size - 1 := by
      cases st <;> by_cases hl : l.length < size - 1 <;> simp [chanStep, hl, Ring.out, Ring.pol] at h2 ⊢
    refine ⟨_, h3, .refused t k _ ht hw.1 hw.2 rfl rfl rfl ?_ (by omega) (hch _ rfl) ?_⟩
    · simp [chanStep, hst.2, hst.1, Ring.pol]
    · rcases hpc with h | ⟨_, h⟩
      · exact ⟨v, by rw [h, hst.1]⟩
      · rw [hst.1] at h; simp at h
  | pushed =>
    simp only [Option.some.injEq] at hs
    subst hs
    refine ⟨_, h3, .sent t k _ ht hw.1 hw.2 rfl rfl (.inl ⟨rfl, ?_⟩) (hch _ rfl)⟩
    by_cases hl : l.length < size - 1
    · simp [chanStep, hl]
    · cases st <;> simp [chanStep, hl, Ring.out, Ring.pol] at h2
  | replaced =>
    simp only [Option.some.injEq] at hs
    subst hs
    refine ⟨_, h3, .sent t k _ ht hw.1 hw.2 rfl rfl (.inr ⟨rfl, ?_⟩) (hch _ rfl)⟩
    by_cases hl : l.length < size - 1
    · simp [chanStep, hl, Ring.out] at h2
    · cases st <;> simp [chanStep, hl, Ring.out, Ring.pol] at h2
      simp [chanStep, hl, Ring.pol]
      omega

theorem doRecv_eff {n size : Nat} {s s' : ChSt α} {l : List α} (r : Ring.Rel size s.ring l) {t k : Nat}
    {late : Bool} (ht : t < n)
    (hpc : (late = false ∧ (s.pc t = .recv ∨ s.pc t = .recvWoken)) ∨ (late = true ∧ s.pc t = .recvLate))
    (hs : s.doRecv t late = some s') : ∃ l', Ring.Rel size s'.ring l' ∧ Eff n size s s' l l' (.step t k) := by
  obtain ⟨q', h1, h3⟩ := Ring.rel_pop r
  cases l with
  | nil =>
    simp only [doRecv, h1] at hs
    rcases hpc with ⟨h4, h5⟩ | ⟨h4, h5⟩
    · subst h4
      simp only [Bool.false_eq_true, if_false, Option.some.injEq] at hs
      subst hs
      exact ⟨[], r, .empty t k ht h5 rfl rfl rfl⟩
    · subst h4
      simp only [if_true, Option.some.injEq] at hs
      subst hs
      exact ⟨[], h3, .timeout t k ht h5 rfl rfl rfl rfl⟩
  | cons x l =>
    simp only [doRecv, h1, Option.some.injEq] at hs
    subst hs
    refine ⟨l, h3, .got t k x ht ?_ ?_ rfl rfl rfl⟩
    · rcases hpc with ⟨_, h5 | h5⟩ | ⟨_, h5⟩ <;> rw [h5] <;> rfl
    · rcases hpc with ⟨_, h5 | h5⟩ | ⟨_, h5⟩ <;> rw [h5] <;> rfl

theorem step_ring_notify (n : Nat) (s : ChSt α) (on : ChPc α → Bool) (k : Nat) :
    (s.notify n on k).ring = s.ring ∧ (s.notify n on k).log = s.log := by
  unfold notify; split <;> exact ⟨rfl, rfl⟩

theorem eff {n size : Nat} (hn : 2 ≤ size) {s s' : ChSt α} {a : ChAct α} {l : List α} (r : Ring.Rel size s.ring l)
    (hs : s.step n a = some s') : ∃ l', Ring.Rel size s'.ring l' ∧ Eff n size s s' l l' a := by
  cases a with
  | callSend t v st =>
    simp only [step] at hs
    split at hs
    · split at hs
      · rename_i ht _ hp
        simp only [Option.some.injEq] at hs
        subst hs
        exact ⟨l, r, .callSend t v st ht hp rfl rfl⟩
      · simp at hs
    · simp at hs
  | callRecv t =>
    simp only [step] at hs
    split at hs
    · split at hs
      · rename_i ht _ hp
        simp only [Option.some.injEq] at hs
        subst hs
        exact ⟨l, r, .callRecv t ht hp rfl rfl⟩
      · simp at hs
    · simp at hs
  | step t k =>
    simp only [step] at hs
    split at hs
    · rename_i ht
      split at hs
      · rename_i v st hp; exact doSend_eff hn r ht (.inl hp) hs
      · rename_i v hp; exact doSend_eff hn r ht (.inr ⟨hp, rfl⟩) hs
      · rename_i hp
        simp only [Option.some.injEq] at hs
        refine ⟨l, ?_, .tellRecv t k ht hp hs.symm rfl⟩
        rw [← hs, (step_ring_notify _ _ _ _).1]; exact r
      · rename_i hp; exact doRecv_eff r ht (.inl ⟨rfl, .inl hp⟩) hs
      · rename_i hp; exact doRecv_eff r ht (.inl ⟨rfl, .inr hp⟩) hs
      · rename_i hp; exact doRecv_eff r ht (.inr ⟨rfl, hp⟩) hs
      · rename_i hp
        simp only [Option.some.injEq] at hs
        refine ⟨l, ?_, .tellSend t k ht hp hs.symm rfl⟩
        rw [← hs, (step_ring_notify _ _ _ _).1]; exact r
      · simp at hs
    · simp at hs
  | spurious t =>
    simp only [step] at hs
    split at hs
    · rename_i h
      simp only [Option.some.injEq] at hs
      subst hs
      exact ⟨l, r, .spurious t h.1 (by simpa using h.2) rfl rfl⟩
    · simp at hs
  | expire t =>
    simp only [step] at hs
    split at hs
    · rename_i h
      simp only [Option.some.injEq] at hs
      subst hs
      refine ⟨l, r, .expire t h.1 ?_ rfl rfl⟩
      cases hp : s.pc t <;> simp [hp, ChPc.inPop] at h ⊢
    · simp at hs

/-! ### notification -/

theorem pick_some {n : Nat} {s : ChSt α} {on : ChPc α → Bool} {k i : Nat} (h : s.pick n on k = some i) :
    i < n ∧ on (s.pc i) = true := by
  unfold pick at h
  split at h
  · rename_i h1; simp only [Option.some.injEq] at h; subst h; exact h1
  · have h1 := List.find?_some h
    have h2 := List.mem_of_find?_eq_some h
    exact ⟨List.mem_range.1 h2, h1⟩

theorem pick_none {n : Nat} {s : ChSt α} {on : ChPc α → Bool} {k : Nat} (h : s.pick n on k = none) :
    ∀ i, i < n → on (s.pc i) = false := by
  unfold pick at h
  split at h
  · simp at h
  · intro i hi
    have := List.find?_eq_none.1 h i (List.mem_range.2 hi)
    simpa using this

/-! ### the invariant -/

/-- What holds of the channel all the time. -/
structure Inv (n size : Nat) (s : ChSt α) (l : List α) : Prop where
  rel : Ring.Rel size s.ring l
  out : ∀ t, n ≤ t → s.pc t = .idle
  recv : ∀ t, s.pc t = .recvSleep → l.length ≤ sumN n fun k => wR (s.pc k)
  send : ∀ t v, s.pc t = .sendSleep v → size ≤ l.length + 1 + sumN n fun k => wS (s.pc k)
  hist : chanRun (size - 1) [] (s.log.map fun e => e.2.op) = (l, s.log.map fun e => e.2.out)

theorem chanRun_snoc (room : Nat) (ops : List (ChanOp α)) (op : ChanOp α) : ∀ l : List α,
    chanRun room l (ops ++ [op]) = ((chanStep room (chanRun room l ops).1 op).1,
      (chanRun room l ops).2 ++ [(chanStep room (chanRun room l ops).1 op).2]) := by
  induction ops with
  | nil => intro l; rfl
  | cons o ops ih => intro l; simp only [List.cons_append, chanRun, ih]

theorem inv_init (n size : Nat) (hn : 2 ≤ size) : Inv n size (init size : ChSt α) [] where
  rel := Ring.rel_create size (by omega)
  out _ _ := rfl
  recv := by intro t h; simp [init] at h
  send := by intro t v h; simp [init] at h
  hist := rfl

/-- One thread moves. -/
theorem sum_set (n : Nat) (f : ChPc α → Nat) (s : ChSt α) (t : Nat) (p : ChPc α) (ht : t < n) :
    sumN n (fun k => f ((s.setPc t p).pc k)) + f (s.pc t) = sumN n (fun k => f (s.pc k)) + f p := by
  have := sumN_upd n (fun k => f (s.pc k)) (fun k => f ((s.setPc t p).pc k)) t ht
    (fun k hk => by simp [setPc, hk])
  simpa [setPc] using this

theorem inv_step {n size : Nat} (hn : 2 ≤ size) {s s' : ChSt α} {l l' : List α} {a : ChAct α} (h : Inv n size s l)
    (hr : Ring.Rel size s'.ring l') (he : Eff n size s s' l l' a) : Inv n size s' l' := by
  have hroom := h.rel.room
  have one : ∀ (t : Nat) (p : ChPc α), t < n → s'.pc = (s.setPc t p).pc →
      (p = .recvSleep → l' = []) → (∀ v, p = .sendSleep v → l'.length + 1 = size) →
      (l'.length + wR (s.pc t) ≤ l.length + wR p ∨ l' = []) →
      (l.length + wS (s.pc t) ≤ l'.length + wS p ∨ l'.length + 1 = size) →
      (chanRun (size - 1) [] (s'.log.map fun e => e.2.op) = (l', s'.log.map fun e => e.2.out)) →
      Inv n size s' l' := by
    intro t p ht hp c1 c2 c3 c4 c5
    have e1 := sum_set n wR s t p ht
    have e2 := sum_set n wS s t p ht
    rw [← hp] at e1 e2
    have hk : ∀ k, k ≠ t → s'.pc k = s.pc k := by intro k hk; rw [hp]; simp [setPc, hk]
    have ht' : s'.pc t = p := by rw [hp]; simp [setPc]
    refine ⟨hr, ?_, ?_, ?_, c5⟩
    · intro k hk'
      rw [hk k (by omega)]; exact h.out k hk'
    · intro k hs
      by_cases hkt : k = t
      · subst hkt
        rw [ht'] at hs
        rw [c1 hs]; exact Nat.zero_le _
      · rw [hk k hkt] at hs
        have := h.recv k hs
        rcases c3 with c3 | c3
        · omega
        · rw [c3]; exact Nat.zero_le _
    · intro k v hs
      by_cases hkt : k = t
      · subst hkt
        rw [ht'] at hs
        have := c2 v hs
        omega
      · rw [hk k hkt] at hs
        have := h.send k v hs
        rcases c4 with c4 | c4 <;> omega
  have snoc : ∀ (t : Nat) (e : ChEv α), s'.log = s.log ++ [(t, e)] → chanStep (size - 1) l e.op = (l', e.out) →
      chanRun (size - 1) [] (s'.log.map fun e => e.2.op) = (l', s'.log.map fun e => e.2.out) := by
    intro t e h1 h2
    rw [h1, List.map_append, List.map_append, List.map_singleton, List.map_singleton, chanRun_snoc, h.hist]
    simp only [h2]
  cases he with
  | callSend t v st ht hp hs hl =>
    subst hs hl
    exact one t _ ht rfl (by simp) (by simp) (.inl (by rw [hp]; simp [wR])) (.inl (by rw [hp]; simp [wS])) h.hist
  | callRecv t ht hp hs hl =>
    subst hs hl
    exact one t _ ht rfl (by simp) (by simp) (.inl (by rw [hp]; simp [wR])) (.inl (by rw [hp]; simp [wS])) h.hist
  | full t k v ht hp hs hl hf =>
    subst hs hl
    refine one t _ ht rfl (by simp) (fun _ _ => hf) (.inl ?_) (.inr hf) h.hist
    rcases hp with hp | hp <;> rw [hp] <;> simp [wR]
  | sent t k e ht hp hna hpc hlog he hc =>
    refine one t _ ht hpc (by simp) (by simp) (.inl ?_) ?_ (snoc t e hlog hc)
    · have : wR (s.pc t) = 0 := by cases hq : s.pc t <;> simp [hq, ChPc.wantsSend] at hp <;> rfl
      simp only [wR_tellRecv]
      rcases he with ⟨_, h1⟩ | ⟨_, h1, _⟩ <;> omega
    · rcases he with ⟨_, h1⟩ | ⟨_, h1, h2⟩
      · left
        have : wS (s.pc t) ≤ 1 := by cases s.pc t <;> simp [wS]
        simp only [wS_tellRecv]; omega
      · right; omega
  | refused t k e ht hp hna hpc hlog he hl hf hc hd =>
    obtain ⟨v, hd⟩ := hd
    subst hl
    exact one t _ ht hpc (by simp) (by simp) (.inl (by rw [hd]; simp [wR])) (.inl (by rw [hd]; simp [wS]))
      (snoc t e hlog hc)
  | empty t k ht hp hs hl hf =>
    subst hs hl
    refine one t _ ht rfl (fun _ => hf) (by simp) (.inr hf) (.inl ?_) h.hist
    rcases hp with hp | hp <;> rw [hp] <;> simp [wS]
  | timeout t k ht hp hpc hlog hl hf =>
    subst hl
    refine one t _ ht hpc (by simp) (by simp) (.inr hf) (.inl (by rw [hp]; simp [wS])) (snoc t .timeout hlog ?_)
    rw [hf]; rfl
  | got t k x ht hp hna hpc hlog hl =>
    refine one t _ ht hpc (by simp) (by simp) (.inl ?_) (.inl ?_) (snoc t (.got (some x)) hlog ?_)
    · have : wR (s.pc t) ≤ 1 := by cases s.pc t <;> simp [wR]
      rw [hl]; simp only [wR_tellSend, List.length_cons]; omega
    · have : wS (s.pc t) = 0 := by cases hq : s.pc t <;> simp [hq, ChPc.wantsRecv] at hp <;> rfl
      rw [hl]; simp only [wS_tellSend, List.length_cons]; omega
    · rw [hl]; rfl
  | spurious t ht hp hs hl =>
    subst hs hl
    refine one t _ ht rfl ?_ ?_ (.inl ?_) (.inl ?_) h.hist
    · cases s.pc t <;> simp [ChPc.woken, ChPc.inPush, ChPc.inPop] at hp ⊢
    · cases s.pc t <;> simp [ChPc.woken, ChPc.inPush, ChPc.inPop] at hp ⊢
    · cases s.pc t <;> simp [ChPc.woken, ChPc.inPush, ChPc.inPop, wR] at hp ⊢
    · cases s.pc t <;> simp [ChPc.woken, ChPc.inPush, ChPc.inPop, wS] at hp ⊢
  | expire t ht hp hs hl =>
    subst hs hl
    exact one t _ ht rfl (by simp) (by simp) (.inl (by rw [hp]; simp [wR])) (.inl (by rw [hp]; simp [wS])) h.hist
  | tellRecv t k ht hp hs hl =>
    subst hl
    unfold notify at hs
    have e1 := sum_set n wR s t .idle ht
    have e2 := sum_set n wS s t .idle ht
    simp only [hp, wR_tellRecv, wS_tellRecv, wR_tellSend, wS_tellSend, wR_idle, wS_idle] at e1 e2
    cases hk : (s.setPc t .idle).pick n ChPc.inPop k with
    | none =>
      simp only [hk] at hs
      subst hs
      refine ⟨hr, ?_, ?_, ?_, h.hist⟩
      · intro i hi
        simp only [setPc]
        rw [if_neg (by omega)]; exact h.out i hi
      · intro i hi
        have hin : i < n := by
          by_contra hc
          simp only [setPc] at hi
          split at hi
          · simp at hi
          · rw [h.out i (by omega)] at hi; simp at hi
        have := pick_none hk i hin
        rw [hi] at this; simp [ChPc.inPop] at this
      · intro i v hi
        have : s.pc i = .sendSleep v := by
          simp only [setPc] at hi
          split at hi
          · simp at hi
          · exact hi
        have := h.send i v this
        omega
    | some i =>
      simp only [hk] at hs
      obtain ⟨hi, hip⟩ := pick_some hk
      have hpi : (s.setPc t .idle).pc i = .recvSleep := by
        cases hq : (s.setPc t .idle).pc i <;> simp [hq, ChPc.inPop] at hip ⊢
      have hpi' : s.pc i = .recvSleep := by
        simp only [setPc] at hpi
        split at hpi
        · simp at hpi
        · exact hpi
      have e3 := sum_set n wR (s.setPc t .idle) i .recvWoken hi
      have e4 := sum_set n wS (s.setPc t .idle) i .recvWoken hi
      rw [hpi] at hs e3 e4
      simp only [wR_recvSleep, wR_recvWoken, wR_sendSleep, wR_sendWoken, wS_recvSleep, wS_recvWoken, wS_sendSleep,
        wS_sendWoken] at e3 e4
      simp only [ChPc.woken] at hs
      have hsr := h.recv i hpi'
      subst hs
      refine ⟨hr, ?_, ?_, ?_, h.hist⟩
      · intro j hj
        simp only [setPc]
        rw [if_neg (by omega), if_neg (by omega)]; exact h.out j hj
      · intro j _
        omega
      · intro j v hj
        have : s.pc j = .sendSleep v := by
          simp only [setPc] at hj
          split at hj
          · simp at hj
          · split at hj
            · simp at hj
            · exact hj
        have := h.send j v this
        omega
  | tellSend t k ht hp hs hl =>
    subst hl
    unfold notify at hs
    have e1 := sum_set n wR s t .idle ht
    have e2 := sum_set n wS s t .idle ht
    simp only [hp, wR_tellRecv, wS_tellRecv, wR_tellSend, wS_tellSend, wR_idle, wS_idle] at e1 e2
    cases hk : (s.setPc t .idle).pick n ChPc.inPush k with
    | none =>
      simp only [hk] at hs
      subst hs
      refine ⟨hr, ?_, ?_, ?_, h.hist⟩
      · intro i hi
        simp only [setPc]
        rw [if_neg (by omega)]; exact h.out i hi
      · intro i hi
        have : s.pc i = .recvSleep := by
          simp only [setPc] at hi
          split at hi
          · simp at hi
          · exact hi
        have := h.recv i this
        omega
      · intro i v hi
        have hin : i < n := by
          by_contra hc
          simp only [setPc] at hi
          split at hi
          · simp at hi
          · rw [h.out i (by omega)] at hi; simp at hi
        have := pick_none hk i hin
        rw [hi] at this; simp [ChPc.inPush] at this
    | some i =>
      simp only [hk] at hs
      obtain ⟨hi, hip⟩ := pick_some hk
      obtain ⟨v, hpi⟩ : ∃ v, (s.setPc t .idle).pc i = .sendSleep v := by
        cases hq : (s.setPc t .idle).pc i <;> simp [hq, ChPc.inPush] at hip ⊢
      have hpi' : s.pc i = .sendSleep v := by
        simp only [setPc] at hpi
        split at hpi
        · simp at hpi
        · exact hpi
      have e3 := sum_set n wR (s.setPc t .idle) i (.sendWoken v) hi
      have e4 := sum_set n wS (s.setPc t .idle) i (.sendWoken v) hi
      rw [hpi] at hs e3 e4
      simp only [wR_recvSleep, wR_recvWoken, wR_sendSleep, wR_sendWoken, wS_recvSleep, wS_recvWoken, wS_sendSleep,
        wS_sendWoken] at e3 e4
      simp only [ChPc.woken] at hs
      have hsr := h.send i v hpi'
      subst hs
      refine ⟨hr, ?_, ?_, ?_, h.hist⟩
      · intro j hj
        simp only [setPc]
        rw [if_neg (by omega), if_neg (by omega)]; exact h.out j hj
      · intro j hj
        have : s.pc j = .recvSleep := by
          simp only [setPc] at hj
          split at hj
          · simp at hj
          · split at hj
            · simp at hj
            · exact hj
        have := h.recv j this
        omega
      · intro j _ _
        omega

end CGraph.Chan
