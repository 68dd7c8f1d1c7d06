import Verif.Lemmas.Channel

/-! # C105: blocked senders and receivers of a channel go on -/
namespace CGraph.Chan
open ChSt Spec

set_option maxHeartbeats 1000000

variable {α : Type}

/-- Receives that got a message. -/
def gots (s : ChSt α) : Nat := s.log.countP fun e => match e.2 with | .got _ => true | _ => false

/-- Sends whose message was stored. -/
def stored (s : ChSt α) : Nat :=
  s.log.countP fun e => match e.2 with | .sent _ _ .pushed => true | .sent _ _ .replaced => true | _ => false

/-- Every thread is scheduled again and again. -/
def Fair (n : Nat) (σ : Nat → ChAct α) : Prop := ∀ t, t < n → ∀ m, ∃ m', m ≤ m' ∧ ∃ k, σ m' = .step t k

/-! ### along a schedule -/

section
variable {n size : Nat} (hn : 2 ≤ size) (σ : Nat → ChAct α)

/-- The messages waiting, read off what was recorded. -/
def pend (size : Nat) (s : ChSt α) : List α := (chanRun (size - 1) [] (s.log.map fun e => e.2.op)).1

theorem Inv.pend_eq {s : ChSt α} {l : List α} (h : Inv n size s l) : pend size s = l := by
  simp [pend, h.hist]

include hn

theorem trace_inv (m : Nat) : Inv n size (trace n size σ m) (pend size (trace n size σ m)) := by
  induction m with
  | zero => exact inv_init n size hn
  | succ m ih =>
    cases hs : (trace n size σ m).step n (σ m) with
    | none => simp only [trace, hs, Option.getD_none]; exact ih
    | some s' =>
      simp only [trace, hs, Option.getD_some]
      obtain ⟨l', h1, h2⟩ := eff hn ih.rel hs
      have := inv_step hn ih h1 h2
      rw [this.pend_eq]; exact this

theorem trace_next (m : Nat) :
    ((trace n size σ m).step n (σ m) = none ∧ trace n size σ (m + 1) = trace n size σ m) ∨
    Eff n size (trace n size σ m) (trace n size σ (m + 1)) (pend size (trace n size σ m))
      (pend size (trace n size σ (m + 1))) (σ m) := by
  cases hs : (trace n size σ m).step n (σ m) with
  | none => left; exact ⟨rfl, by simp [trace, hs]⟩
  | some s' =>
    right
    have he : trace n size σ (m + 1) = s' := by simp [trace, hs]
    have ih := trace_inv (n := n) hn σ m
    obtain ⟨l', h1, h2⟩ := eff hn ih.rel hs
    have := inv_step hn ih h1 h2
    rw [he, this.pend_eq]; exact h2

omit hn

theorem gots_snoc {s s' : ChSt α} {t : Nat} {e : ChEv α} (h : s'.log = s.log ++ [(t, e)]) :
    gots s' = gots s + (match e with | .got _ => 1 | _ => 0) := by
  simp only [gots, h, List.countP_append, List.countP_singleton]
  cases e <;> simp

theorem stored_snoc {s s' : ChSt α} {t : Nat} {e : ChEv α} (h : s'.log = s.log ++ [(t, e)]) :
    (e.out = .accepted ∨ e.out = .acceptedOldestLost → stored s' = stored s + 1) ∧
    (¬ (e.out = .accepted ∨ e.out = .acceptedOldestLost) → stored s' = stored s) := by
  simp only [stored, h, List.countP_append, List.countP_singleton]
  cases e with
  | sent v st o => cases o <;> simp [ChEv.out, Ring.out]
  | got v => cases v <;> simp [ChEv.out]
  | timeout => simp [ChEv.out]

/-- Only a receive takes messages away; only a send that stores takes room. -/
theorem eff_counts {s s' : ChSt α} {l l' : List α} {a : ChAct α} (he : Eff n size s s' l l' a) :
    (gots s' = gots s ∧ stored s' = stored s ∧ l' = l) ∨
    (gots s' = gots s ∧ stored s' = stored s + 1 ∧ l.length ≤ l'.length) ∨
    (gots s' = gots s + 1 ∧ stored s' = stored s ∧ l'.length + 1 = l.length) := by
  have hlog : s'.log = s.log → gots s' = gots s ∧ stored s' = stored s := by
    intro h; simp [gots, stored, h]
  cases he with
  | callSend t v st ht h hs hl => left; exact ⟨(hlog (by rw [hs]; rfl)).1, (hlog (by rw [hs]; rfl)).2, hl⟩
  | callRecv t ht h hs hl => left; exact ⟨(hlog (by rw [hs]; rfl)).1, (hlog (by rw [hs]; rfl)).2, hl⟩
  | full t k v ht h hs hl hf => left; exact ⟨(hlog (by rw [hs]; rfl)).1, (hlog (by rw [hs]; rfl)).2, hl⟩
  | sent t k e ht h hna hp hlg he hc =>
    right; left
    have h1 := gots_snoc hlg
    have h2 := stored_snoc hlg
    have h3 : e.out = .accepted ∨ e.out = .acceptedOldestLost := by
      rcases he with ⟨h, _⟩ | ⟨h, _⟩
      · exact .inl h
      · exact .inr h
    replace h2 := h2.1 h3
    refine ⟨?_, h2, ?_⟩
    · cases e with
      | sent => exact h1
      | got v => cases v <;> simp [ChEv.out] at h3
      | timeout => exact h1
    · rcases he with ⟨_, h⟩ | ⟨_, h, _⟩ <;> omega
  | refused t k e ht h hna hp hlg he hl hf hc hd =>
    left
    have h1 := gots_snoc hlg
    have h2 := stored_snoc hlg
    replace h2 := h2.2 (by rw [he]; simp)
    refine ⟨?_, h2, hl⟩
    cases e with
    | sent => exact h1
    | got v => cases v <;> simp [ChEv.out] at he
    | timeout => exact h1
  | empty t k ht h hs hl hf => left; exact ⟨(hlog (by rw [hs]; rfl)).1, (hlog (by rw [hs]; rfl)).2, hl⟩
  | timeout t k ht h hp hlg hl hf =>
    left
    have h2 := stored_snoc hlg
    replace h2 := h2.2 (by simp [ChEv.out])
    exact ⟨gots_snoc hlg, h2, hl⟩
  | got t k x ht h hna hp hlg hl =>
    right; right
    have h2 := stored_snoc hlg
    replace h2 := h2.2 (by simp [ChEv.out])
    exact ⟨gots_snoc hlg, h2, by rw [hl]; simp⟩
  | tellRecv t k ht h hs hl =>
    have : s'.log = s.log := by rw [hs, (step_ring_notify _ _ _ _).2]; rfl
    left; exact ⟨(hlog this).1, (hlog this).2, hl⟩
  | tellSend t k ht h hs hl =>
    have : s'.log = s.log := by rw [hs, (step_ring_notify _ _ _ _).2]; rfl
    left; exact ⟨(hlog this).1, (hlog this).2, hl⟩
  | spurious t ht h hs hl => left; exact ⟨(hlog (by rw [hs]; rfl)).1, (hlog (by rw [hs]; rfl)).2, hl⟩
  | expire t ht h hs hl => left; exact ⟨(hlog (by rw [hs]; rfl)).1, (hlog (by rw [hs]; rfl)).2, hl⟩

/-- A thread that is awake and in a call moves only by itself. -/
theorem eff_stays {s s' : ChSt α} {l l' : List α} {a : ChAct α} (he : Eff n size s s' l l' a) {t : Nat}
    (hi : s.pc t ≠ .idle) (h1 : (s.pc t).inPush = false) (h2 : (s.pc t).inPop = false) (ha : ∀ k, a ≠ .step t k) :
    s'.pc t = s.pc t := by
  have not : ∀ (on : ChPc α → Bool) (u k : Nat), u ≠ t → on (s.pc t) = false →
      ((s.setPc u .idle).notify n on k).pc t = s.pc t := by
    intro on u k hu hon
    unfold notify
    split
    · simp [setPc, Ne.symm hu]
    · rename_i i hp
      have := (pick_some hp).2
      have hit : i ≠ t := by
        rintro rfl
        simp only [setPc, if_neg (Ne.symm hu)] at this
        rw [hon] at this; simp at this
      simp [setPc, Ne.symm hu, Ne.symm hit]
  cases he with
  | callSend u v st ht h hs hl =>
    rw [hs]; simp only [setPc]; rw [if_neg]; rintro rfl; exact hi h
  | callRecv u ht h hs hl =>
    rw [hs]; simp only [setPc]; rw [if_neg]; rintro rfl; exact hi h
  | full u k v ht h hs hl hf => rw [hs]; simp only [setPc]; rw [if_neg]; rintro rfl; exact ha k rfl
  | sent u k e ht h hna hp hlg he hc => rw [hp]; simp only [setPc]; rw [if_neg]; rintro rfl; exact ha k rfl
  | refused u k e ht h hna hp hlg he hl hf hc hd => rw [hp]; simp only [setPc]; rw [if_neg]; rintro rfl; exact ha k rfl
  | empty u k ht h hs hl hf => rw [hs]; simp only [setPc]; rw [if_neg]; rintro rfl; exact ha k rfl
  | timeout u k ht h hp hlg hl hf => rw [hp]; simp only [setPc]; rw [if_neg]; rintro rfl; exact ha k rfl
  | got u k x ht h hna hp hlg hl => rw [hp]; simp only [setPc]; rw [if_neg]; rintro rfl; exact ha k rfl
  | tellRecv u k ht h hs hl => rw [hs]; exact not _ u k (by rintro rfl; exact ha k rfl) h2
  | tellSend u k ht h hs hl => rw [hs]; exact not _ u k (by rintro rfl; exact ha k rfl) h1
  | spurious u ht h hs hl =>
    rw [hs]; simp only [setPc]; rw [if_neg]
    rintro rfl
    rcases h with h | h
    · rw [h1] at h; simp at h
    · rw [h2] at h; simp at h
  | expire u ht h hs hl =>
    rw [hs]; simp only [setPc]; rw [if_neg]
    rintro rfl
    rw [h] at h2; simp [ChPc.inPop] at h2

/-- A sleeping receiver stays asleep or is woken. -/
theorem eff_sleepR {s s' : ChSt α} {l l' : List α} {a : ChAct α} (he : Eff n size s s' l l' a) {t : Nat}
    (h : s.pc t = .recvSleep) : s'.pc t = .recvSleep ∨ s'.pc t = .recvWoken ∨ s'.pc t = .recvLate := by
  have not : ∀ (on : ChPc α → Bool) (u k : Nat), u ≠ t →
      ((s.setPc u .idle).notify n on k).pc t = .recvSleep ∨ ((s.setPc u .idle).notify n on k).pc t = .recvWoken := by
    intro on u k hu
    unfold notify
    split
    · left; simp [setPc, Ne.symm hu, h]
    · rename_i i hp
      by_cases hit : i = t
      · subst hit; right; simp [setPc, Ne.symm hu, h, ChPc.woken]
      · left; simp [setPc, Ne.symm hu, Ne.symm hit, h]
  have set : ∀ (u : Nat) (p : ChPc α), u ≠ t → (s.setPc u p).pc t = .recvSleep := by
    intro u p hu; simp [setPc, Ne.symm hu, h]
  cases he with
  | callSend u v st ht h' hs hl => left; rw [hs]; exact set u _ (by rintro rfl; rw [h] at h'; simp at h')
  | callRecv u ht h' hs hl => left; rw [hs]; exact set u _ (by rintro rfl; rw [h] at h'; simp at h')
  | full u k v ht h' hs hl hf => left; rw [hs]; exact set u _ (by rintro rfl; rw [h] at h'; simp at h')
  | sent u k e ht h' hna hp hlg he hc =>
    left; rw [hp]; exact set u _ (by rintro rfl; rw [h] at h'; simp [ChPc.wantsSend] at h')
  | refused u k e ht h' hna hp hlg he hl hf hc hd =>
    left; rw [hp]; exact set u _ (by rintro rfl; rw [h] at h'; simp [ChPc.wantsSend] at h')
  | empty u k ht h' hs hl hf => left; rw [hs]; exact set u _ (by rintro rfl; rw [h] at h'; simp at h')
  | timeout u k ht h' hp hlg hl hf => left; rw [hp]; exact set u _ (by rintro rfl; rw [h] at h'; simp at h')
  | got u k x ht h' hna hp hlg hl =>
    left; rw [hp]; exact set u _ (by rintro rfl; rw [h] at hna; simp [ChPc.inPop] at hna)
  | tellRecv u k ht h' hs hl =>
    rw [hs]; rcases not ChPc.inPop u k (by rintro rfl; rw [h] at h'; simp at h') with h1 | h1
    · exact .inl h1
    · exact .inr (.inl h1)
  | tellSend u k ht h' hs hl =>
    rw [hs]; rcases not ChPc.inPush u k (by rintro rfl; rw [h] at h'; simp at h') with h1 | h1
    · exact .inl h1
    · exact .inr (.inl h1)
  | spurious u ht h' hs hl =>
    rw [hs]
    by_cases hu : u = t
    · subst hu; right; left; simp [setPc, h, ChPc.woken]
    · left; exact set u _ hu
  | expire u ht h' hs hl =>
    rw [hs]
    by_cases hu : u = t
    · subst hu; right; right; simp [setPc]
    · left; exact set u _ hu

/-- A sleeping sender stays asleep or is woken. -/
theorem eff_sleepS {s s' : ChSt α} {l l' : List α} {a : ChAct α} (he : Eff n size s s' l l' a) {t : Nat} {v : α}
    (h : s.pc t = .sendSleep v) : s'.pc t = .sendSleep v ∨ s'.pc t = .sendWoken v := by
  have not : ∀ (on : ChPc α → Bool) (u k : Nat), u ≠ t →
      ((s.setPc u .idle).notify n on k).pc t = .sendSleep v ∨ ((s.setPc u .idle).notify n on k).pc t = .sendWoken v := by
    intro on u k hu
    unfold notify
    split
    · left; simp [setPc, Ne.symm hu, h]
    · rename_i i hp
      by_cases hit : i = t
      · subst hit; right; simp [setPc, Ne.symm hu, h, ChPc.woken]
      · left; simp [setPc, Ne.symm hu, Ne.symm hit, h]
  have set : ∀ (u : Nat) (p : ChPc α), u ≠ t → (s.setPc u p).pc t = .sendSleep v := by
    intro u p hu; simp [setPc, Ne.symm hu, h]
  cases he with
  | callSend u _ st ht h' hs hl => left; rw [hs]; exact set u _ (by rintro rfl; rw [h] at h'; simp at h')
  | callRecv u ht h' hs hl => left; rw [hs]; exact set u _ (by rintro rfl; rw [h] at h'; simp at h')
  | full u k _ ht h' hs hl hf => left; rw [hs]; exact set u _ (by rintro rfl; rw [h] at h'; simp at h')
  | sent u k e ht h' hna hp hlg he hc =>
    left; rw [hp]; exact set u _ (by rintro rfl; rw [h] at hna; simp [ChPc.inPush] at hna)
  | refused u k e ht h' hna hp hlg he hl hf hc hd =>
    left; rw [hp]; exact set u _ (by rintro rfl; rw [h] at hna; simp [ChPc.inPush] at hna)
  | empty u k ht h' hs hl hf => left; rw [hs]; exact set u _ (by rintro rfl; rw [h] at h'; simp at h')
  | timeout u k ht h' hp hlg hl hf => left; rw [hp]; exact set u _ (by rintro rfl; rw [h] at h'; simp at h')
  | got u k x ht h' hna hp hlg hl =>
    left; rw [hp]; exact set u _ (by rintro rfl; rw [h] at h'; simp [ChPc.wantsRecv] at h')
  | tellRecv u k ht h' hs hl => rw [hs]; exact not _ u k (by rintro rfl; rw [h] at h'; simp at h')
  | tellSend u k ht h' hs hl => rw [hs]; exact not _ u k (by rintro rfl; rw [h] at h'; simp at h')
  | spurious u ht h' hs hl =>
    rw [hs]
    by_cases hu : u = t
    · subst hu; right; simp [setPc, h, ChPc.woken]
    · left; exact set u _ hu
  | expire u ht h' hs hl => left; rw [hs]; exact set u _ (by rintro rfl; rw [h] at h'; simp at h')

/-- A send that waits keeps waiting as long as no message is stored. -/
theorem eff_waits {s s' : ChSt α} {l l' : List α} {a : ChAct α} (he : Eff n size s s' l l' a) {t : Nat} {v : α}
    (h : s.pc t = .send v .WAIT ∨ s.pc t = .sendSleep v ∨ s.pc t = .sendWoken v) (hs : stored s' = stored s) :
    s'.pc t = .send v .WAIT ∨ s'.pc t = .sendSleep v ∨ s'.pc t = .sendWoken v := by
  by_cases hsl : s.pc t = .sendSleep v
  · rcases eff_sleepS he hsl with h | h
    · exact .inr (.inl h)
    · exact .inr (.inr h)
  by_cases ha : ∀ k, a ≠ .step t k
  · rw [eff_stays he (by rcases h with h | h | h <;> rw [h] <;> simp)
      (by rcases h with h | h | h; exacts [by rw [h]; rfl, absurd h hsl, by rw [h]; rfl])
      (by rcases h with h | h | h <;> rw [h] <;> rfl) ha]
    exact h
  · obtain ⟨k, rfl⟩ : ∃ k, a = .step t k := by
      by_contra hc; exact ha fun k hk => hc ⟨k, hk⟩
    have hw : (s.pc t).wantsRecv = false := by rcases h with h | h | h <;> rw [h] <;> rfl
    cases he with
    | full _ _ v' _ h' hst _ _ =>
      right; left
      rw [hst]
      rcases h with h | h | h <;> rcases h' with h' | h' <;> rw [h] at h' <;> simp at h'
      · subst h'; simp [setPc]
      · subst h'; simp [setPc]
    | sent _ _ e _ _ _ _ hlg he _ =>
      have := (stored_snoc hlg).1 (by rcases he with ⟨h, _⟩ | ⟨h, _⟩; exacts [.inl h, .inr h])
      omega
    | refused _ _ e _ _ _ _ _ _ _ _ _ hd =>
      exfalso; rcases h with h | h | h <;> simp_all
    | empty _ _ _ h' => rcases h' with h' | h' <;> rw [h'] at hw <;> simp [ChPc.wantsRecv] at hw
    | timeout _ _ _ h' => rw [h'] at hw; simp [ChPc.wantsRecv] at hw
    | got _ _ _ _ h' => rw [h'] at hw; simp at hw
    | tellRecv _ _ _ h' => exfalso; rcases h with h | h | h <;> rw [h] at h' <;> simp at h'
    | tellSend _ _ _ h' => exfalso; rcases h with h | h | h <;> rw [h] at h' <;> simp at h'

/-- A message is stored by a thread that is sending, which then notifies. -/
theorem eff_stores {s s' : ChSt α} {l l' : List α} {a : ChAct α} (he : Eff n size s s' l l' a)
    (hs : stored s ≠ stored s') : ∃ t, t < n ∧ (s.pc t).wantsSend = true ∧ s'.pc t = .tellRecv := by
  have hcnt := eff_counts he
  have hlog : s'.log = s.log → False := fun h => hs (by simp [stored, h])
  cases he with
  | sent t k e ht h hna hp hlg he hc => exact ⟨t, ht, h, by rw [hp]; simp [setPc]⟩
  | refused t k e ht h hna hp hlg he hl hf hc hd =>
    exact absurd ((stored_snoc hlg).2 (by rw [he]; simp)).symm hs
  | timeout t k ht h hp hlg hl hf => exact absurd ((stored_snoc hlg).2 (by simp [ChEv.out])).symm hs
  | got t k x ht h hna hp hlg hl => exact absurd ((stored_snoc hlg).2 (by simp [ChEv.out])).symm hs
  | callSend t v st ht h hs' hl => exact (hlog (by rw [hs']; rfl)).elim
  | callRecv t ht h hs' hl => exact (hlog (by rw [hs']; rfl)).elim
  | full t k v ht h hs' hl hf => exact (hlog (by rw [hs']; rfl)).elim
  | empty t k ht h hs' hl hf => exact (hlog (by rw [hs']; rfl)).elim
  | tellRecv t k ht h hs' hl => exact (hlog (by rw [hs', (step_ring_notify _ _ _ _).2]; rfl)).elim
  | tellSend t k ht h hs' hl => exact (hlog (by rw [hs', (step_ring_notify _ _ _ _).2]; rfl)).elim
  | spurious t ht h hs' hl => exact (hlog (by rw [hs']; rfl)).elim
  | expire t ht h hs' hl => exact (hlog (by rw [hs']; rfl)).elim

include hn

/-- An awake thread in a call is scheduled where it is. -/
theorem moves (hf : Fair n σ) {t m : Nat} (ht : t < n) (hi : (trace n size σ m).pc t ≠ .idle)
    (h1 : ((trace n size σ m).pc t).inPush = false) (h2 : ((trace n size σ m).pc t).inPop = false) :
    ∃ m', m ≤ m' ∧ (trace n size σ m').pc t = (trace n size σ m).pc t ∧ ∃ k, σ m' = .step t k := by
  have hex : ∃ i, ∃ k, σ (m + i) = .step t k := by
    obtain ⟨m', h3, h4⟩ := hf t ht m
    exact ⟨m' - m, by rw [show m + (m' - m) = m' by omega]; exact h4⟩
  obtain ⟨i, h3, h4⟩ : ∃ i, (∃ k, σ (m + i) = .step t k) ∧ ∀ j, j < i → ¬ ∃ k, σ (m + j) = .step t k := by
    classical
    exact ⟨Nat.find hex, Nat.find_spec hex, fun k hk => Nat.find_min hex hk⟩
  refine ⟨m + i, by omega, ?_, h3⟩
  have : ∀ j, j ≤ i → (trace n size σ (m + j)).pc t = (trace n size σ m).pc t := by
    intro j hj
    induction j with
    | zero => rfl
    | succ j ih =>
      have ih := ih (by omega)
      rw [← ih] at hi h1 h2 ⊢
      rcases trace_next (n := n) hn σ (m + j) with ⟨_, h⟩ | he
      · show (trace n size σ (m + j + 1)).pc t = _
        rw [h]
      · exact eff_stays he hi h1 h2 fun k hk => h4 j (by omega) ⟨k, hk⟩
  exact this i (Nat.le_refl _)

theorem mono (m : Nat) {m' : Nat} (h : m ≤ m') : gots (trace n size σ m) ≤ gots (trace n size σ m') ∧
    stored (trace n size σ m) ≤ stored (trace n size σ m') := by
  obtain ⟨i, rfl⟩ := Nat.exists_eq_add_of_le h
  clear h
  induction i with
  | zero => exact ⟨Nat.le_refl _, Nat.le_refl _⟩
  | succ i ih =>
    show _ ≤ gots (trace n size σ (m + i + 1)) ∧ _ ≤ stored (trace n size σ (m + i + 1))
    rcases trace_next (n := n) hn σ (m + i) with ⟨_, h⟩ | he
    · rw [h]; exact ih
    · have := eff_counts he
      omega

end

/-! ## C105 -/

/-- **C105** (history): however many threads use a channel, in whichever order they get the mutex, sleep, are woken or
run out of time, what the calls did (in the order in which they took effect) is a history of the channel of C05: in
particular a receive gives up only when no message is waiting. -/
theorem C105_history (n size : Nat) (hn : 2 ≤ size) (σ : Nat → ChAct α) (m : Nat) :
    (chanRun (size - 1) [] ((trace n size σ m).log.map fun e => e.2.op)).2 =
      (trace n size σ m).log.map fun e => e.2.out := by
  rw [(trace_inv (n := n) hn σ m).hist]

/-- **C105** (no lost wake-up): if nobody is on the way, that is every thread is outside or asleep, then a receiver
sleeps only if the channel is empty, a sender only if it is full; so they never sleep at the same time. -/
theorem C105_quiet (n size : Nat) (hn : 2 ≤ size) (σ : Nat → ChAct α) (m : Nat)
    (hq : ∀ t, (trace n size σ m).pc t = .idle ∨ ((trace n size σ m).pc t).inPush = true ∨
      ((trace n size σ m).pc t).inPop = true) :
    (∀ t, ((trace n size σ m).pc t).inPop = true → (trace n size σ m).ring.isEmpty = true) ∧
    (∀ t, ((trace n size σ m).pc t).inPush = true → (trace n size σ m).ring.isFull = some true) := by
  have h := trace_inv (n := n) hn σ m
  generalize trace n size σ m = s at *
  have h0 : sumN n (fun k => wR (s.pc k)) = 0 ∧ sumN n (fun k => wS (s.pc k)) = 0 := by
    constructor <;> refine sumN_zero fun k _ => ?_ <;>
      rcases hq k with h | h | h <;> cases hp : s.pc k <;> simp [hp, ChPc.inPush, ChPc.inPop] at h <;> rfl
  constructor
  · intro t ht
    have : s.pc t = .recvSleep := by cases hp : s.pc t <;> simp [hp, ChPc.inPop] at ht ⊢
    have := h.recv t this
    rw [h0.1] at this
    rw [h.rel.isEmpty]
    have : pend size s = [] := List.length_eq_zero_iff.1 (by omega)
    rw [this]; rfl
  · intro t ht
    obtain ⟨v, hv⟩ : ∃ v, s.pc t = .sendSleep v := by cases hp : s.pc t <;> simp [hp, ChPc.inPush] at ht ⊢
    have := h.send t v hv
    rw [h0.2] at this
    have hr := h.rel.room
    rw [h.rel.isFull, decide_eq_true (by omega)]

theorem ne_of_empty {size : Nat} {q : Ring α} {l : List α} (r : Ring.Rel size q l) (h : q.isEmpty = false) : l ≠ [] := by
  rintro rfl
  rw [r.isEmpty] at h
  simp at h

/-- **C105** (receivers): whatever else happens, if messages are waiting while a receive is in progress, then after
finitely many steps of a fair schedule a receive gets a message. -/
theorem C105_receive (n size : Nat) (hn : 2 ≤ size) (σ : Nat → ChAct α) (hf : Fair n σ) (m t : Nat)
    (ht : ((trace n size σ m).pc t).wantsRecv = true) (hne : (trace n size σ m).ring.isEmpty = false) :
    ∃ m', m ≤ m' ∧ gots (trace n size σ m) < gots (trace n size σ m') := by
  by_contra hno
  have same : ∀ m', m ≤ m' → gots (trace n size σ m') = gots (trace n size σ m) := by
    intro m' h
    have h1 := (mono (n := n) hn σ m h).1
    have h2 : ¬ gots (trace n size σ m) < gots (trace n size σ m') := fun h' => hno ⟨m', h, h'⟩
    omega
  have hp : ∀ m', m ≤ m' → pend size (trace n size σ m') ≠ [] := by
    intro m' h
    obtain ⟨i, rfl⟩ := Nat.exists_eq_add_of_le h
    clear h
    induction i with
    | zero => exact ne_of_empty (trace_inv (n := n) hn σ m).rel hne
    | succ i ih =>
      have e1 := same (m + i) (by omega)
      have e2 := same (m + i + 1) (by omega)
      show pend size (trace n size σ (m + i + 1)) ≠ []
      rcases trace_next (n := n) hn σ (m + i) with ⟨_, h⟩ | he
      · rw [h]; exact ih
      · have h1 := List.length_pos_iff.2 ih
        rw [← List.length_pos_iff]
        rcases eff_counts he with h | h | h
        · rw [h.2.2]; exact h1
        · omega
        · omega
  -- nobody awake wants to receive
  have awake : ∀ m', m ≤ m' → ∀ k, k < n → ((trace n size σ m').pc k).wantsRecv = true →
      ((trace n size σ m').pc k).inPop = true := by
    intro m' h k hk hw
    by_contra hc
    have hc : ((trace n size σ m').pc k).inPop = false := by simpa using hc
    obtain ⟨m2, h1, h2, j, h3⟩ := moves hn σ hf (t := k) (m := m') hk
      (by intro h; rw [h] at hw; simp [ChPc.wantsRecv] at hw)
      (by cases hq : (trace n size σ m').pc k <;> simp [hq, ChPc.wantsRecv, ChPc.inPush] at hw ⊢) hc
    rw [← h2] at hw hc
    have hr := (trace_inv (n := n) hn σ m2).rel
    have hpp := hp m2 (by omega)
    have e1 := same m2 (by omega)
    have e2 := same (m2 + 1) (by omega)
    rcases trace_next (n := n) hn σ m2 with ⟨hnone, _⟩ | he
    · rw [h3] at hnone
      obtain ⟨q, hq1, _⟩ := Ring.rel_pop hr
      simp only [step, hk, if_true] at hnone
      have key : ∀ b, doRecv (trace n size σ m2) k b ≠ none := by
        intro b hd
        simp only [doRecv, hq1] at hd
        split at hd
        · simp_all
        · split at hd <;> simp at hd
        · simp at hd
      cases hq : (trace n size σ m2).pc k <;> simp [hq, ChPc.wantsRecv, ChPc.inPop] at hw hc <;>
        simp only [hq] at hnone <;> exact key _ hnone
    · have hcnt := eff_counts he
      rw [h3] at he
      generalize trace n size σ m2 = s at *
      generalize trace n size σ (m2 + 1) = s' at *
      cases he with
      | full _ _ v _ h => rcases h with h | h <;> rw [h] at hw <;> simp [ChPc.wantsRecv] at hw
      | sent _ _ _ _ h => cases hq : s.pc k <;> simp [hq, ChPc.wantsRecv, ChPc.wantsSend] at hw h
      | refused _ _ _ _ h => cases hq : s.pc k <;> simp [hq, ChPc.wantsRecv, ChPc.wantsSend] at hw h
      | empty _ _ _ _ _ _ hf => exact hpp hf
      | timeout _ _ _ _ _ _ _ hf => exact hpp hf
      | got _ _ _ _ _ _ _ hlg _ =>
        have := gots_snoc hlg
        simp only at this
        omega
      | tellRecv _ _ _ h => rw [h] at hw; simp [ChPc.wantsRecv] at hw
      | tellSend _ _ _ h => rw [h] at hw; simp [ChPc.wantsRecv] at hw
  have hI := trace_inv (n := n) hn σ m
  have htn : t < n := by
    by_contra hc
    rw [hI.out t (by omega)] at ht; simp [ChPc.wantsRecv] at ht
  have hts : ∀ m', m ≤ m' → (trace n size σ m').pc t = .recvSleep := by
    intro m' h
    have sleep : ∀ m', m ≤ m' → ((trace n size σ m').pc t).wantsRecv = true → (trace n size σ m').pc t = .recvSleep := by
      intro m' h hw
      have := awake m' h t htn hw
      cases hq : (trace n size σ m').pc t <;> simp [hq, ChPc.inPop] at this ⊢
    obtain ⟨i, rfl⟩ := Nat.exists_eq_add_of_le h
    clear h
    induction i with
    | zero => exact sleep m (Nat.le_refl _) ht
    | succ i ih =>
      apply sleep (m + (i + 1)) (by omega)
      show ((trace n size σ (m + i + 1)).pc t).wantsRecv = true
      rcases trace_next (n := n) hn σ (m + i) with ⟨_, h⟩ | he
      · rw [h, ih]; rfl
      · rcases eff_sleepR he ih with h | h | h <;> rw [h] <;> rfl
  -- somebody is going to notify
  have h1 := hI.recv t (hts m (Nat.le_refl _))
  have h2 := List.length_pos_iff.2 (hp m (Nat.le_refl _))
  obtain ⟨k, hk, hw⟩ := sumN_pos (n := n) (f := fun k => wR ((trace n size σ m).pc k)) (by omega)
  have hkt : (trace n size σ m).pc k = .tellRecv := by
    have := awake m (Nat.le_refl _) k hk
    cases hq : (trace n size σ m).pc k <;> simp [hq, wR, ChPc.wantsRecv, ChPc.inPop] at hw this ⊢
  obtain ⟨m2, h3, h4, j, h5⟩ := moves hn σ hf (t := k) (m := m) hk (by rw [hkt]; simp) (by rw [hkt]; rfl)
    (by rw [hkt]; rfl)
  rw [hkt] at h4
  have hst := hts m2 h3
  have haw := awake (m2 + 1) (by omega)
  rcases trace_next (n := n) hn σ m2 with ⟨hnone, _⟩ | he
  · rw [h5] at hnone; simp [step, hk, h4] at hnone
  · rw [h5] at he
    generalize trace n size σ m2 = s at *
    generalize trace n size σ (m2 + 1) = s' at *
    cases he with
    | full _ _ v _ h => rcases h with h | h <;> rw [h] at h4 <;> simp at h4
    | sent _ _ _ _ h => rw [h4] at h; simp [ChPc.wantsSend] at h
    | refused _ _ _ _ h => rw [h4] at h; simp [ChPc.wantsSend] at h
    | empty _ _ _ h => rcases h with h | h <;> rw [h] at h4 <;> simp at h4
    | timeout _ _ _ h => rw [h] at h4; simp at h4
    | got _ _ _ _ h => rw [h4] at h; simp [ChPc.wantsRecv] at h
    | tellSend _ _ _ h => rw [h] at h4; simp at h4
    | tellRecv _ _ _ h hs hl =>
      have hne' : t ≠ k := by rintro rfl; rw [hst] at h4; simp at h4
      unfold notify at hs
      split at hs
      · rename_i hpk
        have := pick_none hpk t htn
        simp [setPc, hne', hst, ChPc.inPop] at this
      · rename_i i hpk
        obtain ⟨hi, hip⟩ := pick_some hpk
        have h6 : s'.pc i = .recvWoken := by
          rw [hs]
          cases hq : (s.setPc k .idle).pc i <;> simp [hq, ChPc.inPop] at hip
          simp only [setPc] at hq
          simp [setPc, ChPc.woken, hq]
        have := haw i hi (by rw [h6]; rfl)
        rw [h6] at this; simp [ChPc.inPop] at this

/-- **C105** (senders): whatever else happens, if the channel has room while a send is in progress, then after finitely
many steps of a fair schedule a message is stored. -/
theorem C105_send (n size : Nat) (hn : 2 ≤ size) (σ : Nat → ChAct α) (hf : Fair n σ) (m t : Nat)
    (ht : ((trace n size σ m).pc t).wantsSend = true) (hne : (trace n size σ m).ring.isFull = some false) :
    ∃ m', m ≤ m' ∧ stored (trace n size σ m) < stored (trace n size σ m') := by
  by_contra hno
  have same : ∀ m', m ≤ m' → stored (trace n size σ m') = stored (trace n size σ m) := by
    intro m' h
    have h1 := (mono (n := n) hn σ m h).2
    have h2 : ¬ stored (trace n size σ m) < stored (trace n size σ m') := fun h' => hno ⟨m', h, h'⟩
    omega
  have hp : ∀ m', m ≤ m' → (pend size (trace n size σ m')).length + 1 < size := by
    intro m' h
    obtain ⟨i, rfl⟩ := Nat.exists_eq_add_of_le h
    clear h
    induction i with
    | zero =>
      have r := (trace_inv (n := n) hn σ m).rel
      have := r.room
      show (pend size (trace n size σ m)).length + 1 < size
      rw [r.isFull] at hne
      simp only [Option.some.injEq, decide_eq_false_iff_not] at hne
      omega
    | succ i ih =>
      have e1 := same (m + i) (by omega)
      have e2 := same (m + i + 1) (by omega)
      show (pend size (trace n size σ (m + i + 1))).length + 1 < size
      rcases trace_next (n := n) hn σ (m + i) with ⟨_, h⟩ | he
      · rw [h]; exact ih
      · rcases eff_counts he with h | h | h
        · rw [h.2.2]; exact ih
        · omega
        · omega
  have awake : ∀ m', m ≤ m' → ∀ k, k < n → ((trace n size σ m').pc k).wantsSend = true →
      ((trace n size σ m').pc k).inPush = true := by
    intro m' h k hk hw
    by_contra hc
    have hc : ((trace n size σ m').pc k).inPush = false := by simpa using hc
    obtain ⟨m2, h1, h2, j, h3⟩ := moves hn σ hf (t := k) (m := m') hk
      (by intro h; rw [h] at hw; simp [ChPc.wantsSend] at hw) hc
      (by cases hq : (trace n size σ m').pc k <;> simp [hq, ChPc.wantsSend, ChPc.inPop] at hw ⊢)
    rw [← h2] at hw hc
    have hr := (trace_inv (n := n) hn σ m2).rel
    have hpp := hp m2 (by omega)
    have e1 := same m2 (by omega)
    have e2 := same (m2 + 1) (by omega)
    rcases trace_next (n := n) hn σ m2 with ⟨hnone, _⟩ | he
    · rw [h3] at hnone
      simp only [step, hk, if_true] at hnone
      have key : ∀ v st, doSend (trace n size σ m2) k v st ≠ none := by
        intro v st hd
        obtain ⟨q, o, hq1, _⟩ := Ring.rel_push hn hr v st
        simp only [doSend, hq1] at hd
        cases o <;> simp at hd
      cases hq : (trace n size σ m2).pc k <;> simp [hq, ChPc.wantsSend, ChPc.inPush] at hw hc <;>
        simp only [hq] at hnone <;> exact key _ _ hnone
    · rw [h3] at he
      generalize trace n size σ m2 = s at *
      generalize trace n size σ (m2 + 1) = s' at *
      cases he with
      | full _ _ v _ h _ _ hf => omega
      | sent _ _ e _ _ _ _ hlg he _ =>
        have := stored_snoc hlg
        replace this := this.1 (by rcases he with ⟨h, _⟩ | ⟨h, _⟩; exacts [.inl h, .inr h])
        omega
      | refused _ _ _ _ _ _ _ _ _ _ hf => omega
      | empty _ _ _ h => rcases h with h | h <;> rw [h] at hw <;> simp [ChPc.wantsSend] at hw
      | timeout _ _ _ h => rw [h] at hw; simp [ChPc.wantsSend] at hw
      | got _ _ _ _ h => cases hq : s.pc k <;> simp [hq, ChPc.wantsRecv, ChPc.wantsSend] at hw h
      | tellRecv _ _ _ h => rw [h] at hw; simp [ChPc.wantsSend] at hw
      | tellSend _ _ _ h => rw [h] at hw; simp [ChPc.wantsSend] at hw
  have hI := trace_inv (n := n) hn σ m
  have htn : t < n := by
    by_contra hc
    rw [hI.out t (by omega)] at ht; simp [ChPc.wantsSend] at ht
  have sleep : ∀ m', m ≤ m' → ((trace n size σ m').pc t).wantsSend = true →
      ∃ v, (trace n size σ m').pc t = .sendSleep v := by
    intro m' h hw
    have := awake m' h t htn hw
    cases hq : (trace n size σ m').pc t <;> simp [hq, ChPc.inPush] at this ⊢
  have hts : ∀ m', m ≤ m' → ∃ v, (trace n size σ m').pc t = .sendSleep v := by
    intro m' h
    obtain ⟨i, rfl⟩ := Nat.exists_eq_add_of_le h
    clear h
    induction i with
    | zero => exact sleep m (Nat.le_refl _) ht
    | succ i ih =>
      obtain ⟨v, ih⟩ := ih
      apply sleep (m + (i + 1)) (by omega)
      show ((trace n size σ (m + i + 1)).pc t).wantsSend = true
      rcases trace_next (n := n) hn σ (m + i) with ⟨_, h⟩ | he
      · rw [h, ih]; rfl
      · rcases eff_sleepS he ih with h | h <;> rw [h] <;> rfl
  obtain ⟨v0, hv0⟩ := hts m (Nat.le_refl _)
  have h1 := hI.send t v0 hv0
  have h2 := hp m (Nat.le_refl _)
  obtain ⟨k, hk, hw⟩ := sumN_pos (n := n) (f := fun k => wS ((trace n size σ m).pc k)) (by omega)
  have hkt : (trace n size σ m).pc k = .tellSend := by
    have := awake m (Nat.le_refl _) k hk
    cases hq : (trace n size σ m).pc k <;> simp [hq, wS, ChPc.wantsSend, ChPc.inPush] at hw this ⊢
  obtain ⟨m2, h3, h4, j, h5⟩ := moves hn σ hf (t := k) (m := m) hk (by rw [hkt]; simp) (by rw [hkt]; rfl)
    (by rw [hkt]; rfl)
  rw [hkt] at h4
  obtain ⟨v, hst⟩ := hts m2 h3
  have haw := awake (m2 + 1) (by omega)
  rcases trace_next (n := n) hn σ m2 with ⟨hnone, _⟩ | he
  · rw [h5] at hnone; simp [step, hk, h4] at hnone
  · rw [h5] at he
    generalize trace n size σ m2 = s at *
    generalize trace n size σ (m2 + 1) = s' at *
    cases he with
    | full _ _ v _ h => rcases h with h | h <;> rw [h] at h4 <;> simp at h4
    | sent _ _ _ _ h => rw [h4] at h; simp [ChPc.wantsSend] at h
    | refused _ _ _ _ h => rw [h4] at h; simp [ChPc.wantsSend] at h
    | empty _ _ _ h => rcases h with h | h <;> rw [h] at h4 <;> simp at h4
    | timeout _ _ _ h => rw [h] at h4; simp at h4
    | got _ _ _ _ h => rw [h4] at h; simp [ChPc.wantsRecv] at h
    | tellRecv _ _ _ h => rw [h] at h4; simp at h4
    | tellSend _ _ _ h hs hl =>
      have hne' : t ≠ k := by rintro rfl; rw [hst] at h4; simp at h4
      unfold notify at hs
      split at hs
      · rename_i hpk
        have := pick_none hpk t htn
        simp [setPc, hne', hst, ChPc.inPush] at this
      · rename_i i hpk
        obtain ⟨hi, hip⟩ := pick_some hpk
        obtain ⟨v', h6⟩ : ∃ v', s'.pc i = .sendWoken v' := by
          rw [hs]
          cases hq : (s.setPc k .idle).pc i <;> simp [hq, ChPc.inPush] at hip
          rename_i v'
          refine ⟨v', ?_⟩
          simp only [setPc] at hq
          simp [setPc, ChPc.woken, hq]
        have := haw i hi (by rw [h6]; rfl)
        rw [h6] at this; simp [ChPc.inPush] at this

/-- **C105** (channel with partners): while receives keep coming, a send that waits for room cannot be stuck: after
finitely many steps of a fair schedule a message is stored. -/
theorem C105_wait (n size : Nat) (hn : 2 ≤ size) (σ : Nat → ChAct α) (hf : Fair n σ) (m t : Nat) (v : α)
    (ht : (trace n size σ m).pc t = .send v .WAIT ∨ (trace n size σ m).pc t = .sendSleep v ∨
      (trace n size σ m).pc t = .sendWoken v)
    (hr : ∀ i, ∃ j, i ≤ j ∧ ∃ r, ((trace n size σ j).pc r).wantsRecv = true) :
    ∃ m', m ≤ m' ∧ stored (trace n size σ m) < stored (trace n size σ m') := by
  by_contra hno
  have same : ∀ m', m ≤ m' → stored (trace n size σ m') = stored (trace n size σ m) := by
    intro m' h
    have h1 := (mono (n := n) hn σ m h).2
    have h2 : ¬ stored (trace n size σ m) < stored (trace n size σ m') := fun h' => hno ⟨m', h, h'⟩
    omega
  have stay : ∀ m', m ≤ m' → ((trace n size σ m').pc t = .send v .WAIT ∨ (trace n size σ m').pc t = .sendSleep v ∨
      (trace n size σ m').pc t = .sendWoken v) := by
    intro m' h
    obtain ⟨i, rfl⟩ := Nat.exists_eq_add_of_le h
    clear h
    induction i with
    | zero => exact ht
    | succ i ih =>
      have e1 := same (m + i) (by omega)
      have e2 := same (m + i + 1) (by omega)
      have hcnt := trace_next (n := n) hn σ (m + i)
      show (trace n size σ (m + i + 1)).pc t = _ ∨ (trace n size σ (m + i + 1)).pc t = _ ∨
        (trace n size σ (m + i + 1)).pc t = _
      rcases hcnt with ⟨_, h⟩ | he
      · rw [h]; exact ih
      · exact eff_waits he ih (by omega)
  have full : ∀ m', m ≤ m' → (pend size (trace n size σ m')).length + 1 = size := by
    intro m' h
    have r := (trace_inv (n := n) hn σ m').rel
    have := r.room
    by_contra hc
    obtain ⟨m2, h1, h2⟩ := C105_send n size hn σ hf m' t
      (by rcases stay m' h with h | h | h <;> rw [h] <;> rfl)
      (by rw [r.isFull, decide_eq_false (by simpa using hc)])
    rw [same m' h, same m2 (by omega)] at h2
    omega
  obtain ⟨j, hj, r, hw⟩ := hr m
  have rj := (trace_inv (n := n) hn σ j).rel
  have hl := full j hj
  obtain ⟨m2, h1, h2⟩ := C105_receive n size hn σ hf j r hw (by
    rw [rj.isEmpty]
    cases hq : pend size (trace n size σ j) with
    | nil => rw [hq] at hl; simp at hl; omega
    | cons => rfl)
  -- no message can leave a channel that stays full
  have : ∀ i, gots (trace n size σ (j + i)) = gots (trace n size σ j) := by
    intro i
    induction i with
    | zero => rfl
    | succ i ih =>
      rw [← ih]
      have f1 := full (j + i) (by omega)
      have f2 := full (j + i + 1) (by omega)
      show gots (trace n size σ (j + i + 1)) = _
      rcases trace_next (n := n) hn σ (j + i) with ⟨_, h⟩ | he
      · rw [h]
      · rcases eff_counts he with h | h | h <;> omega
  have := this (m2 - j)
  rw [show j + (m2 - j) = m2 by omega] at this
  omega

/-- **C105** (one sender): if nobody else sends meanwhile and receives keep coming, the waiting send itself is
accepted, and its call goes on to notify and return. -/
theorem C105_wait_one (n size : Nat) (hn : 2 ≤ size) (σ : Nat → ChAct α) (hf : Fair n σ) (m t : Nat) (v : α)
    (ht : (trace n size σ m).pc t = .send v .WAIT ∨ (trace n size σ m).pc t = .sendSleep v ∨
      (trace n size σ m).pc t = .sendWoken v)
    (hr : ∀ i, ∃ j, i ≤ j ∧ ∃ r, ((trace n size σ j).pc r).wantsRecv = true)
    (h1 : ∀ j, m ≤ j → ∀ k, k ≠ t → ((trace n size σ j).pc k).wantsSend = false) :
    ∃ m', m ≤ m' ∧ (trace n size σ m').pc t = .idle ∧ stored (trace n size σ m) < stored (trace n size σ m') := by
  obtain ⟨m1, h2, h3⟩ := C105_wait n size hn σ hf m t v ht hr
  obtain ⟨i, rfl⟩ := Nat.exists_eq_add_of_le h2
  clear h2
  induction i with
  | zero => exact absurd h3 (Nat.lt_irrefl _)
  | succ i ih =>
    by_cases hlt : stored (trace n size σ m) < stored (trace n size σ (m + i))
    · exact ih hlt
    · clear ih
      have hmono := (mono (n := n) hn σ m (m' := m + i) (by omega)).2
      change stored (trace n size σ m) < stored (trace n size σ (m + i + 1)) at h3
      have hpc : (trace n size σ (m + i + 1)).pc t = .tellRecv ∧ t < n := by
        rcases trace_next (n := n) hn σ (m + i) with ⟨_, h⟩ | he
        · rw [h] at h3; exact absurd h3 hlt
        · obtain ⟨u, hu, hw, hp⟩ := eff_stores he (by omega)
          have : u = t := by
            by_contra hc
            rw [h1 (m + i) (by omega) u hc] at hw; simp at hw
          subst this
          exact ⟨hp, hu⟩
      obtain ⟨m2, h4, h5, k, h6⟩ := moves hn σ hf (t := t) (m := m + i + 1) hpc.2 (by rw [hpc.1]; simp)
        (by rw [hpc.1]; rfl) (by rw [hpc.1]; rfl)
      rw [hpc.1] at h5
      have hmono2 := (mono (n := n) hn σ (m + i + 1) (m' := m2 + 1) (by omega)).2
      refine ⟨m2 + 1, by omega, ?_, by omega⟩
      simp only [trace, h6, step, hpc.2, if_true, h5, Option.getD_some]
      unfold notify
      split
      · simp [setPc]
      · rename_i q hq
        have := (pick_some hq).2
        have hqt : q ≠ t := by rintro rfl; simp [setPc, ChPc.inPop] at this
        simp [setPc, Ne.symm hqt]

/-! ### A case: one sender, two receivers, room for one message -/

/-- Thread 0 sends 7 and 8, sleeping before the second is accepted; thread 1 receives 7 and wakes it, thread 2 receives
8. -/
def exCyc : List (ChAct Nat) :=
  [.callSend 0 7 .WAIT, .step 0 0, .step 0 0, .callSend 0 8 .WAIT, .step 0 0, .callRecv 1, .step 1 0, .step 1 0,
   .step 0 0, .step 0 0, .callRecv 2, .step 2 0, .step 2 0]

/-- The same for ever. -/
def exSched (m : Nat) : ChAct Nat := exCyc.getD (m % 13) (.spurious 0)

/-- The state after some steps. -/
def after (n : Nat) : ChSt α → List (ChAct α) → ChSt α
  | s, [] => s
  | s, a :: l => after n ((s.step n a).getD s) l

theorem after_snoc (n : Nat) (s : ChSt α) (l : List (ChAct α)) (a : ChAct α) :
    after n s (l ++ [a]) = ((after n s l).step n a).getD (after n s l) := by
  induction l generalizing s with
  | nil => rfl
  | cons b l ih => exact ih _

theorem eq_of {s : ChSt α} {q : Ring α} {p : Nat → ChPc α} (h1 : s.ring = q) (h2 : s.pc = p) : s = ⟨q, p, s.log⟩ := by
  subst h1; subst h2; rfl

/-- Runs the concrete steps. -/
local macro "chan_run" "[" xs:Lean.Parser.Tactic.simpLemma,* "]" : tactic =>
  `(tactic| simp [after, exCyc, step, setPc, doSend, doRecv, Ring.push, Ring.pop, Ring.write, Ring.create, Ring.isFull,
    Ring.isEmpty, notify, pick, ChPc.inPush, ChPc.inPop, ChPc.woken, ChPc.wantsRecv, ChPc.wantsSend, List.range,
    List.range.loop, $xs,*])

set_option linter.unusedSimpArgs false in
theorem exCyc_home (L : List (Nat × ChEv Nat)) : ∃ L', after 3 ⟨Ring.create 2, fun _ => .idle, L⟩ exCyc =
    ⟨Ring.create 2, fun _ => .idle, L'⟩ := by
  have h1 : (after 3 ⟨Ring.create 2, fun _ => .idle, L⟩ exCyc).pc = fun _ => .idle := by
    funext i
    by_cases h0 : i = 0 <;> by_cases h1 : i = 1 <;> by_cases h2 : i = 2 <;> chan_run [h0, h1, h2]
  have h3 : (after 3 ⟨Ring.create 2, fun _ => .idle, L⟩ exCyc).ring = Ring.create 2 := by
    chan_run []
    funext i
    by_cases h0 : i = 0 <;> by_cases h1 : i = 1 <;> simp [h0, h1]
  exact ⟨_, eq_of h3 h1⟩

theorem exSched_trace (q i : Nat) (hi : i ≤ 13) : ∃ L,
    trace 3 2 exSched (13 * q + i) = after 3 ⟨Ring.create 2, fun _ => .idle, L⟩ (exCyc.take i) := by
  induction q generalizing i with
  | zero =>
    refine ⟨[], ?_⟩
    induction i with
    | zero => rfl
    | succ i ih =>
      rw [List.take_succ_eq_append_getElem (show i < exCyc.length by simp [exCyc]; omega), after_snoc, ← ih (by omega)]
      show ((trace 3 2 exSched (13 * 0 + i)).step 3 (exSched (13 * 0 + i))).getD _ = _
      have : exSched (13 * 0 + i) = exCyc[i]'(by simp [exCyc]; omega) := by
        simp only [exSched]
        rw [show (13 * 0 + i) % 13 = i by omega, List.getD_eq_getElem?_getD, List.getElem?_eq_getElem (by simp [exCyc]; omega), Option.getD_some]
      rw [this]
      rfl
  | succ q ihq =>
    obtain ⟨L, hL⟩ := ihq 13 (Nat.le_refl _)
    obtain ⟨L', hL'⟩ := exCyc_home L
    refine ⟨L', ?_⟩
    rw [show exCyc.take 13 = exCyc from rfl, hL'] at hL
    induction i with
    | zero => exact hL
    | succ i ih =>
      rw [List.take_succ_eq_append_getElem (show i < exCyc.length by simp [exCyc]; omega), after_snoc, ← ih (by omega)]
      show ((trace 3 2 exSched (13 * (q + 1) + i)).step 3 (exSched (13 * (q + 1) + i))).getD _ = _
      have : exSched (13 * (q + 1) + i) = exCyc[i]'(by simp [exCyc]; omega) := by
        simp only [exSched]
        rw [show (13 * (q + 1) + i) % 13 = i by omega, List.getD_eq_getElem?_getD, List.getElem?_eq_getElem (by simp [exCyc]; omega), Option.getD_some]
      rw [this]
      rfl

theorem exSched_at (q i : Nat) (hi : i < 13) : exSched (13 * q + i) = exCyc.getD i (.spurious 0) := by
  simp only [exSched]
  rw [show (13 * q + i) % 13 = i by omega]

theorem exSched_fair : Fair 3 exSched := by
  intro t ht m
  match t, ht with
  | 0, _ => exact ⟨13 * m + 1, by omega, 0, by rw [exSched_at _ _ (by omega)]; rfl⟩
  | 1, _ => exact ⟨13 * m + 6, by omega, 0, by rw [exSched_at _ _ (by omega)]; rfl⟩
  | 2, _ => exact ⟨13 * m + 11, by omega, 0, by rw [exSched_at _ _ (by omega)]; rfl⟩

set_option linter.unusedSimpArgs false in
/-- The receivers keep coming, ... -/
theorem exSched_recv (i : Nat) : ∃ j, i ≤ j ∧ ∃ r, ((trace 3 2 exSched j).pc r).wantsRecv = true := by
  obtain ⟨L, h⟩ := exSched_trace i 6 (by omega)
  exact ⟨13 * i + 6, by omega, 1, by rw [h]; chan_run []⟩

/-- ... the sender sleeps at step 5 with the channel full, and its call is accepted later. -/
example : (trace 3 2 exSched 5).pc 0 = .sendSleep 8 ∧ (trace 3 2 exSched 5).ring.isFull = some true ∧
    ∃ m', 5 ≤ m' ∧ stored (trace 3 2 exSched 5) < stored (trace 3 2 exSched m') :=
  ⟨rfl, rfl, C105_wait 3 2 (by decide) exSched exSched_fair 5 0 8 (.inr (.inl rfl)) exSched_recv⟩

set_option linter.unusedSimpArgs false in
example : ∃ m', 5 ≤ m' ∧ (trace 3 2 exSched m').pc 0 = .idle ∧
    stored (trace 3 2 exSched 5) < stored (trace 3 2 exSched m') := by
  refine C105_wait_one 3 2 (by decide) exSched exSched_fair 5 0 8 (.inr (.inl rfl)) exSched_recv ?_
  intro j _ k hk
  obtain ⟨L, h⟩ := exSched_trace (j / 13) (j % 13) (by omega)
  rw [show 13 * (j / 13) + j % 13 = j by omega] at h
  rw [h]
  have hlt : j % 13 < 13 := by omega
  generalize j % 13 = i at hlt
  have : i = 0 ∨ i = 1 ∨ i = 2 ∨ i = 3 ∨ i = 4 ∨ i = 5 ∨ i = 6 ∨ i = 7 ∨ i = 8 ∨ i = 9 ∨ i = 10 ∨ i = 11 ∨ i = 12 := by
    omega
  rcases this with rfl | rfl | rfl | rfl | rfl | rfl | rfl | rfl | rfl | rfl | rfl | rfl | rfl <;>
    by_cases h1 : k = 1 <;> by_cases h2 : k = 2 <;> chan_run [hk, h1, h2]

/-- A receive is in progress while a message waits; room while a send is in progress. -/
example : ((trace 3 2 exSched 6).pc 1).wantsRecv = true ∧ (trace 3 2 exSched 6).ring.isEmpty = false ∧
    ∃ m', 6 ≤ m' ∧ gots (trace 3 2 exSched 6) < gots (trace 3 2 exSched m') :=
  ⟨rfl, rfl, C105_receive 3 2 (by decide) exSched exSched_fair 6 1 rfl rfl⟩

example : ((trace 3 2 exSched 7).pc 0).wantsSend = true ∧ (trace 3 2 exSched 7).ring.isFull = some false ∧
    ∃ m', 7 ≤ m' ∧ stored (trace 3 2 exSched 7) < stored (trace 3 2 exSched m') :=
  ⟨rfl, rfl, C105_send 3 2 (by decide) exSched exSched_fair 7 0 rfl rfl⟩

/-- At step 5 everybody is outside or asleep, and the sleeping sender sees a full channel. -/
example : (trace 3 2 exSched 5).pc 0 = .sendSleep 8 ∧ (trace 3 2 exSched 5).ring.isFull = some true := by
  refine ⟨rfl, (C105_quiet 3 2 (by decide) exSched 5 ?_).2 0 rfl⟩
  intro t
  match t with
  | 0 => exact .inr (.inl rfl)
  | 1 => exact .inl rfl
  | t + 2 => exact .inl rfl

/-- The history of one round. -/
example : (trace 3 2 exSched 13).log.map (·.2.out) = [.accepted, .got 7, .accepted, .got 8] := rfl

end CGraph.Chan
