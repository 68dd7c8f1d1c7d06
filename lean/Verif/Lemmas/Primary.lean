import Verif.Model.Primary
import Verif.Lemmas.PoolRun

namespace CGraph.Prim
variable {α : Type}

/-- The primary thread possesses `mutex_`. -/
def WPc.inM : WPc α → Bool
  | .rd _ _ => true
  | .off => true
  | .on => true
  | .zero => true
  | .unlock => true
  | _ => false

/-- The primary thread possesses the mutex of its queue. -/
def WPc.inQ : WPc α → Bool
  | .popTake => true
  | .popUnlock _ => true
  | _ => false

/-- The client possesses `mutex_`. -/
def CPc.inM : CPc α → Bool
  | .store _ => true
  | .unlock _ => true
  | _ => false

/-- The client possesses the mutex of the queue. -/
def CPc.inQ : CPc α → Bool
  | .qPut _ => true
  | .qUnlock => true
  | .tTake => true
  | .tUnlock => true
  | _ => false

/-- The client is inside `wakeupAllThread`. -/
def CPc.inW : CPc α → Bool
  | .wLook => true
  | .wTell => true
  | .wUnlock => true
  | _ => false

@[simp] theorem wake_inM (p : WPc α) : p.wake.inM = p.inM := by cases p <;> rfl
@[simp] theorem wake_inQ (p : WPc α) : p.wake.inQ = p.inQ := by cases p <;> rfl

/-- Who possesses the mutexes. -/
structure Locks (s : PrSt α) : Prop where
  pown : s.owner = some .prim ↔ s.pc.inM = true
  cown : ∀ t, s.owner = some (.cli t) ↔ (s.cpc t).inM = true
  phold : s.held = some .prim ↔ s.pc.inQ = true
  chold : ∀ t, s.held = some (.cli t) ↔ (s.cpc t).inQ = true
  wown : ∀ t, s.wmtx = some t ↔ (s.cpc t).inW = true

theorem locks_init : Locks (PrSt.init : PrSt α) := by
  constructor <;> simp [PrSt.init, WPc.inM, CPc.inM, WPc.inQ, CPc.inQ, CPc.inW]

theorem Locks.client {s : PrSt α} (h : Locks s) (t : Nat) (p : CPc α) {s' : PrSt α}
    (hc : s'.cpc = fun k => if k = t then p else s.cpc k) (hp : s'.pc.inM = s.pc.inM) (hq : s'.pc.inQ = s.pc.inQ)
    (ho : s'.owner = s.owner ∧ p.inM = (s.cpc t).inM ∨
      s.owner = none ∧ s'.owner = some (.cli t) ∧ p.inM = true ∨
      (s.cpc t).inM = true ∧ s'.owner = none ∧ p.inM = false)
    (hh : s'.held = s.held ∧ p.inQ = (s.cpc t).inQ ∨
      s.held = none ∧ s'.held = some (.cli t) ∧ p.inQ = true ∨
      (s.cpc t).inQ = true ∧ s'.held = none ∧ p.inQ = false)
    (hw : s'.wmtx = s.wmtx ∧ p.inW = (s.cpc t).inW ∨
      s.wmtx = none ∧ s'.wmtx = some t ∧ p.inW = true ∨
      (s.cpc t).inW = true ∧ s'.wmtx = none ∧ p.inW = false) : Locks s' := by
  constructor
  · rw [hp]
    rcases ho with ⟨ho, -⟩ | ⟨ho, ho', -⟩ | ⟨ho, ho', -⟩
    · rw [ho]; exact h.pown
    · rw [ho', ← h.pown, ho]; simp
    · have := (h.cown t).2 ho
      rw [ho', ← h.pown, this]; simp
  · intro u
    rw [hc]
    by_cases hu : u = t
    · subst hu
      simp only [if_true]
      rcases ho with ⟨ho, e⟩ | ⟨ho, ho', e⟩ | ⟨ho, ho', e⟩
      · rw [ho, e]; exact h.cown u
      · rw [ho', e]; simp
      · rw [ho', e]; simp
    · simp only [hu, if_false]
      rcases ho with ⟨ho, e⟩ | ⟨ho, ho', e⟩ | ⟨ho, ho', e⟩
      · rw [ho]; exact h.cown u
      · rw [ho', ← h.cown u, ho]; simp [Ne.symm hu]
      · have := (h.cown t).2 ho
        rw [ho', ← h.cown u, this]; simp [Ne.symm hu]
  · rw [hq]
    rcases hh with ⟨ho, -⟩ | ⟨ho, ho', -⟩ | ⟨ho, ho', -⟩
    · rw [ho]; exact h.phold
    · rw [ho', ← h.phold, ho]; simp
    · have := (h.chold t).2 ho
      rw [ho', ← h.phold, this]; simp
  · intro u
    rw [hc]
    by_cases hu : u = t
    · subst hu
      simp only [if_true]
      rcases hh with ⟨ho, e⟩ | ⟨ho, ho', e⟩ | ⟨ho, ho', e⟩
      · rw [ho, e]; exact h.chold u
      · rw [ho', e]; simp
      · rw [ho', e]; simp
    · simp only [hu, if_false]
      rcases hh with ⟨ho, e⟩ | ⟨ho, ho', e⟩ | ⟨ho, ho', e⟩
      · rw [ho]; exact h.chold u
      · rw [ho', ← h.chold u, ho]; simp [Ne.symm hu]
      · have := (h.chold t).2 ho
        rw [ho', ← h.chold u, this]; simp [Ne.symm hu]
  · intro u
    rw [hc]
    by_cases hu : u = t
    · subst hu
      simp only [if_true]
      rcases hw with ⟨ho, e⟩ | ⟨ho, ho', e⟩ | ⟨ho, ho', e⟩
      · rw [ho, e]; exact h.wown u
      · rw [ho', e]; simp
      · rw [ho', e]; simp
    · simp only [hu, if_false]
      rcases hw with ⟨ho, e⟩ | ⟨ho, ho', e⟩ | ⟨ho, ho', e⟩
      · rw [ho]; exact h.wown u
      · rw [ho', ← h.wown u, ho]; simp [Ne.symm hu]
      · have := (h.wown t).2 ho
        rw [ho', ← h.wown u, this]; simp [Ne.symm hu]

theorem locks_go {s : PrSt α} (h : Locks s) (t : Nat) : Locks (s.go t) := by
  unfold PrSt.go
  split <;> rename_i e
  case h_1 => exact h
  case h_2 =>
    split <;> rename_i e2
    · exact h.client t (.qPut _) rfl rfl rfl (.inl ⟨rfl, by simp [e, CPc.inM]⟩) (.inr (.inl ⟨e2, rfl, rfl⟩))
        (.inl ⟨rfl, by simp [e, CPc.inW]⟩)
    · exact h
  case h_6 =>
    split <;> rename_i e2
    · exact h.client t (.store _) rfl rfl rfl (.inr (.inl ⟨e2, rfl, rfl⟩)) (.inl ⟨rfl, by simp [e, CPc.inQ]⟩)
        (.inl ⟨rfl, by simp [e, CPc.inW]⟩)
    · exact h
  case h_12 =>
    split
    · exact h.client t .idle rfl rfl rfl (.inl ⟨rfl, by simp [e, CPc.inM]⟩) (.inl ⟨rfl, by simp [e, CPc.inQ]⟩)
        (.inl ⟨rfl, by simp [e, CPc.inW]⟩)
    · exact h
  case h_14 =>
    split <;> rename_i e2
    · exact h.client t .wLook rfl rfl rfl (.inl ⟨rfl, by simp [e, CPc.inM]⟩) (.inl ⟨rfl, by simp [e, CPc.inQ]⟩)
        (.inr (.inl ⟨e2, rfl, rfl⟩))
    · exact h.client t .idle rfl rfl rfl (.inl ⟨rfl, by simp [e, CPc.inM]⟩) (.inl ⟨rfl, by simp [e, CPc.inQ]⟩)
        (.inl ⟨rfl, by simp [e, CPc.inW]⟩)
  case h_19 =>
    split <;> rename_i e2
    · exact h.client t .tTake rfl rfl rfl (.inl ⟨rfl, by simp [e, CPc.inM]⟩) (.inr (.inl ⟨e2, rfl, rfl⟩))
        (.inl ⟨rfl, by simp [e, CPc.inW]⟩)
    · exact h.client t .idle rfl rfl rfl (.inl ⟨rfl, by simp [e, CPc.inM]⟩) (.inl ⟨rfl, by simp [e, CPc.inQ]⟩)
        (.inl ⟨rfl, by simp [e, CPc.inW]⟩)
  all_goals
    refine h.client t _ rfl ?_ ?_ ?_ ?_ ?_ <;>
    first
    | rfl
    | exact wake_inM _
    | exact wake_inQ _
    | (refine .inl ⟨rfl, ?_⟩; rw [e]; first | rfl | (split <;> rfl))
    | (refine .inr (.inr ⟨?_, rfl, rfl⟩); rw [e]; rfl)

theorem Locks.prim {s : PrSt α} (h : Locks s) {s' : PrSt α} (hc : s'.cpc = s.cpc) (hw : s'.wmtx = s.wmtx)
    (ho : s'.owner = s.owner ∧ s'.pc.inM = s.pc.inM ∨
      s.owner = none ∧ s'.owner = some .prim ∧ s'.pc.inM = true ∨
      s.pc.inM = true ∧ s'.owner = none ∧ s'.pc.inM = false)
    (hh : s'.held = s.held ∧ s'.pc.inQ = s.pc.inQ ∨
      s.held = none ∧ s'.held = some .prim ∧ s'.pc.inQ = true ∨
      s.pc.inQ = true ∧ s'.held = none ∧ s'.pc.inQ = false) : Locks s' := by
  constructor
  · rcases ho with ⟨ho, e⟩ | ⟨ho, ho', e⟩ | ⟨ho, ho', e⟩
    · rw [ho, e]; exact h.pown
    · rw [ho', e]; simp
    · rw [ho', e]; simp
  · intro u
    rw [hc, ← h.cown u]
    rcases ho with ⟨ho, e⟩ | ⟨ho, ho', e⟩ | ⟨ho, ho', e⟩
    · rw [ho]
    · rw [ho', ho]; simp
    · rw [ho', h.pown.2 ho]; simp
  · rcases hh with ⟨ho, e⟩ | ⟨ho, ho', e⟩ | ⟨ho, ho', e⟩
    · rw [ho, e]; exact h.phold
    · rw [ho', e]; simp
    · rw [ho', e]; simp
  · intro u
    rw [hc, ← h.chold u]
    rcases hh with ⟨ho, e⟩ | ⟨ho, ho', e⟩ | ⟨ho, ho', e⟩
    · rw [ho]
    · rw [ho', ho]; simp
    · rw [ho', h.phold.2 ho]; simp
  · intro u; rw [hc, hw]; exact h.wown u

theorem locks_prim {cf : PrimCfg} {s : PrSt α} (h : Locks s) (st : List α) (ms : Bool) : Locks (s.prim cf st ms) := by
  unfold PrSt.prim
  split <;> rename_i e
  all_goals try exact h
  all_goals try (unfold PrSt.rdStep)
  all_goals (repeat' split) <;> (try exact h) <;>
    refine h.prim rfl rfl ?_ ?_ <;>
    first
    | (refine .inl ⟨rfl, ?_⟩; rw [e]; first | rfl | (split <;> rfl))
    | (refine .inr (.inl ⟨?_, rfl, rfl⟩); assumption)
    | (refine .inr (.inr ⟨?_, rfl, ?_⟩); rw [e]; rfl; first | rfl | (split <;> rfl))

theorem locks_step {cf : PrimCfg} {n : Nat} {s : PrSt α} (h : Locks s) (a : PAct α) : Locks (s.step cf n a) := by
  cases a with
  | call t c =>
    simp only [PrSt.step]
    split
    · rename_i hc
      have e : s.cpc t = .idle := by
        cases hp : s.cpc t <;> rw [hp] at hc <;> first | rfl | (exact absurd hc.2 (by simp [CPc.isIdle]))
      refine h.client t c.first rfl rfl rfl (.inl ⟨rfl, ?_⟩) (.inl ⟨rfl, ?_⟩) (.inl ⟨rfl, ?_⟩) <;> rw [e] <;>
        cases c <;> rfl
    · exact h
  | go t => simp only [PrSt.step]; split; exact locks_go h t; exact h
  | prim st ms => exact locks_prim h st ms
  | spurious =>
    exact h.prim (s' := { s with pc := s.pc.wake }) rfl rfl (.inl ⟨rfl, wake_inM _⟩) (.inl ⟨rfl, wake_inQ _⟩)
  | expire =>
    simp only [PrSt.step]
    split
    · rename_i e; exact h.prim rfl rfl (.inl ⟨rfl, by simp [e, WPc.inM]⟩) (.inl ⟨rfl, by simp [e, WPc.inQ]⟩)
    · rename_i e; exact h.prim rfl rfl (.inl ⟨rfl, by simp [e, WPc.inM]⟩) (.inl ⟨rfl, by simp [e, WPc.inQ]⟩)
    · exact h

/-- The client put a task and did not get to `mutex_` yet. -/
def CPc.early : CPc α → Bool
  | .qPut _ => true
  | .qUnlock => true
  | .lock .task => true
  | _ => false

/-- The client is in `pushTask`, from the first task put to the notification. -/
def CPc.coming : CPc α → Bool
  | .qPut _ => true
  | .qUnlock => true
  | .lock .task => true
  | .store .task => true
  | .unlock .task => true
  | .tell .task => true
  | _ => false

/-- The client wrote and did not notify yet. -/
def CPc.told (w : Why) : CPc α → Bool
  | .unlock w' => w == w'
  | .tell w' => w == w'
  | _ => false

/-- What the primary thread found is still so, or somebody will notify it. -/
structure Sleepy (s : PrSt α) : Prop where
  seen1 : ∀ w i, s.pc = .rd w i → 1 ≤ i → s.epoch ≠ 0
  seen2 : ∀ w i, s.pc = .rd w i → 2 ≤ i → s.deque ≠ [] → ∃ u, (s.cpc u).early = true
  z1 : s.pc = .sleep → s.deque ≠ [] → ∃ u, (s.cpc u).coming = true
  z2 : s.pc = .sleep → s.epoch = 0 → ∃ u, (s.cpc u).told .task = true
  z3 : s.pc = .sleep → s.live = false → ∃ u, (s.cpc u).told .stop = true

theorem sleepy_init : Sleepy (PrSt.init : PrSt α) := by
  constructor <;> simp [PrSt.init]

/-- The thread is neither looking nor asleep. -/
theorem Sleepy.awake {s : PrSt α} (h1 : ∀ w i, s.pc ≠ .rd w (i + 1)) (h2 : s.pc ≠ .sleep) : Sleepy s := by
  constructor
  · intro w i h hi
    obtain ⟨j, rfl⟩ : ∃ j, i = j + 1 := ⟨i - 1, by omega⟩
    exact absurd h (h1 w j)
  · intro w i h hi
    obtain ⟨j, rfl⟩ : ∃ j, i = j + 1 := ⟨i - 1, by omega⟩
    exact absurd h (h1 w j)
  · intro h; exact absurd h h2
  · intro h; exact absurd h h2
  · intro h; exact absurd h h2

theorem keep {s : PrSt α} {P : CPc α → Bool} {t : Nat} {p : CPc α} (h : ∃ u, P (s.cpc u) = true)
    (ht : P (s.cpc t) = true → P p = true) : ∃ u, P (if u = t then p else s.cpc u) = true := by
  obtain ⟨u, hu⟩ := h
  refine ⟨u, ?_⟩
  by_cases e : u = t
  · subst e; simpa using ht hu
  · simpa [e] using hu

theorem Sleepy.client {s : PrSt α} (h : Sleepy s) (t : Nat) (p : CPc α) {s' : PrSt α}
    (hc : s'.cpc = fun k => if k = t then p else s.cpc k) (hpc : s'.pc = s.pc)
    (he : s'.epoch = s.epoch ∨ (s.cpc t).inM = true ∧ p.told .task = true)
    (hl : s'.live = s.live ∨ p.told .stop = true)
    (hd : s'.deque ≠ [] → s.deque ≠ [] ∨ p.early = true ∧ p.coming = true)
    (h1 : (s.cpc t).early = true → s.pc.inM = true → p.early = true)
    (h2 : (s.cpc t).coming = true → p.coming = true)
    (h3 : ∀ w, (s.cpc t).told w = true → p.told w = true)
    (ho : s.pc.inM = true → (s.cpc t).inM = false) : Sleepy s' := by
  have self : ∀ P : CPc α → Bool, P p = true → ∃ u, P (s'.cpc u) = true := fun P hp => ⟨t, by simp [hc, hp]⟩
  constructor
  · intro w i hp hi
    rw [hpc] at hp
    rcases he with he | ⟨he, -⟩
    · rw [he]; exact h.seen1 w i hp hi
    · rw [ho (by simp [hp, WPc.inM])] at he; cases he
  · intro w i hp hi hne
    rw [hpc] at hp
    rcases hd hne with hd | ⟨hd, -⟩
    · rw [hc]; exact keep (h.seen2 w i hp hi hd) (fun e => h1 e (by simp [hp, WPc.inM]))
    · exact self _ hd
  · intro hp hne
    rw [hpc] at hp
    rcases hd hne with hd | ⟨-, hd⟩
    · rw [hc]; exact keep (h.z1 hp hd) h2
    · exact self _ hd
  · intro hp hz
    rw [hpc] at hp
    rcases he with he | ⟨-, he⟩
    · rw [hc]; exact keep (P := CPc.told .task) (h.z2 hp (he ▸ hz)) (h3 _)
    · exact self _ he
  · intro hp hz
    rw [hpc] at hp
    rcases hl with he | he
    · rw [hc]; exact keep (P := CPc.told .stop) (h.z3 hp (he ▸ hz)) (h3 _)
    · exact self _ he

theorem wake_rd {p : WPc α} (h : p.inM = false) (w : When) (i : Nat) : p.wake ≠ .rd w i := by
  cases p <;> simp_all [WPc.wake, WPc.inM]

theorem wake_sleep (p : WPc α) : p.wake ≠ .sleep := by cases p <;> simp [WPc.wake]

/-- A notification, or the like. -/
theorem Sleepy.woken {s : PrSt α} (h : Sleepy s) {s' : PrSt α} (hpc : s'.pc = s.pc.wake) (he : s'.epoch = s.epoch)
    (hd : s'.deque = s.deque)
    (h1 : s.pc.inM = true → (∃ u, (s.cpc u).early = true) → ∃ u, (s'.cpc u).early = true) : Sleepy s' := by
  have hw : ∀ w i, s'.pc = .rd w i → s.pc = .rd w i := by
    intro w i h; rw [hpc] at h; cases hp : s.pc <;> rw [hp] at h <;> simp_all [WPc.wake]
  constructor
  · intro w i hp; rw [he]; exact h.seen1 w i (hw w i hp)
  · intro w i hp hi hne; rw [hd] at hne
    exact h1 (by simp [hw w i hp, WPc.inM]) (h.seen2 w i (hw w i hp) hi hne)
  · intro hp; rw [hpc] at hp; exact absurd hp (wake_sleep _)
  · intro hp; rw [hpc] at hp; exact absurd hp (wake_sleep _)
  · intro hp; rw [hpc] at hp; exact absurd hp (wake_sleep _)

theorem excl {s : PrSt α} (hl : Locks s) (t : Nat) (h : s.pc.inM = true) : (s.cpc t).inM = false := by
  cases hi : (s.cpc t).inM with
  | false => rfl
  | true => have := (hl.cown t).2 hi; rw [hl.pown.2 h] at this; cases this

theorem sleepy_go {s : PrSt α} (hl : Locks s) (h : Sleepy s) (t : Nat) : Sleepy (s.go t) := by
  have ho := excl hl t
  unfold PrSt.go
  split <;> rename_i e
  case h_1 => exact h
  case h_6 w =>
    split <;> rename_i e2
    · refine h.client t (.store w) rfl rfl (.inl rfl) (.inl rfl) .inl ?_ ?_ ?_ ho
      · intro _ h3; rw [hl.pown.2 h3] at e2; cases e2
      · rw [e]; cases w <;> exact id
      · intro w h3; rw [e] at h3; cases h3
    · exact h
  case h_7 =>
    refine h.client t (.unlock .task) rfl rfl (.inr ⟨by rw [e]; rfl, rfl⟩) (.inl rfl) .inl ?_ ?_ ?_ ho
    · rw [e]; intro h3; cases h3
    · rw [e]; exact id
    · rw [e]; intro w h3; cases h3
  case h_8 =>
    refine h.client t (.unlock .stop) rfl rfl (.inl rfl) (.inr rfl) .inl ?_ ?_ ?_ ho
    · rw [e]; intro h3; cases h3
    · rw [e]; intro h3; cases h3
    · rw [e]; intro w h3; cases h3
  case h_9 w =>
    refine h.client t (.tell w) rfl rfl (.inl rfl) (.inl rfl) .inl ?_ ?_ ?_ ho
    · rw [e]; intro h3; cases h3
    · rw [e]; cases w <;> exact id
    · rw [e]; intro w; exact id
  case h_10 =>
    refine h.woken rfl rfl rfl fun hM hu => keep hu ?_
    rw [e]; intro h3; cases h3
  case h_11 =>
    refine h.woken rfl rfl rfl fun hM hu => keep hu ?_
    rw [e]; intro h3; cases h3
  case h_16 =>
    refine h.woken rfl rfl rfl fun hM hu => keep hu ?_
    rw [e]; intro h3; cases h3
  case h_20 =>
    refine h.client t .tUnlock rfl rfl (.inl rfl) (.inl rfl) ?_ ?_ ?_ ?_ ho
    · intro hne; left; intro h0; exact hne (by simp [h0])
    all_goals rw [e]; first | (intro h3; cases h3; done) | (intro w h3; cases h3; done)
  case h_4 =>
    refine h.client t _ rfl rfl (.inl rfl) (.inl rfl) (fun _ => .inr ⟨rfl, rfl⟩) ?_ ?_ ?_ ho
    · exact fun _ _ => rfl
    · exact fun _ => rfl
    · rw [e]; intro w h3; cases h3
  all_goals (repeat' split) <;> (try exact h) <;>
    refine h.client t _ rfl rfl (.inl rfl) (.inl rfl) .inl ?_ ?_ ?_ ho <;>
    first
    | (rw [e]; exact fun _ _ => rfl)
    | (rw [e]; exact fun _ => rfl)
    | (rw [e]; intro h3; cases h3; done)
    | (rw [e]; intro w h3; cases h3; done)

theorem sleepy_prim {cf : PrimCfg} {s : PrSt α} (h : Sleepy s) (st : List α) (ms : Bool) :
    Sleepy (s.prim cf st ms) := by
  unfold PrSt.prim
  split <;> rename_i e
  case h_13 w i =>
    unfold PrSt.rdStep
    split
    · apply Sleepy.awake <;> cases w <;> simp
    · rename_i hr
      split
      · rename_i hi
        constructor
        · intro w' j hj _
          injection hj with h1 h2
          by_cases h0 : i = 0
          · subst h0; simpa [PrSt.readyAt] using hr
          · exact h.seen1 w i e (by omega)
        · intro w' j hj hj2 hne
          injection hj with h1 h2
          have hne : s.deque ≠ [] := hne
          by_cases h0 : i = 1
          · subst h0; simp [PrSt.readyAt] at hr; exact absurd hr hne
          · exact h.seen2 w i e (by omega) hne
        all_goals intro h; cases h
      · rename_i hi
        have h3 : s.live = true := by
          obtain ⟨j, rfl⟩ : ∃ j, i = j + 3 := ⟨i - 3, by omega⟩
          simpa [PrSt.readyAt] using hr
        split
        · apply Sleepy.awake <;> simp
        · apply Sleepy.awake <;> simp
        · constructor
          · intro w i h; cases h
          · intro w i h; cases h
          · intro _ hne
            obtain ⟨u, hu⟩ := h.seen2 _ i e (by omega) hne
            refine ⟨u, ?_⟩
            show (s.cpc u).coming = true
            cases hp : s.cpc u <;> rw [hp] at hu <;> simp_all [CPc.early, CPc.coming]
            rename_i w; cases w <;> simp_all
          · intro _ h0; exact absurd h0 (h.seen1 _ i e (by omega))
          · intro _ h0; have h0 : s.live = false := h0; rw [h3] at h0; cases h0
  all_goals (repeat' split) <;> (try exact h) <;> apply Sleepy.awake <;>
    (intros; simp)

theorem sleepy_step {cf : PrimCfg} {n : Nat} {s : PrSt α} (hl : Locks s) (h : Sleepy s) (a : PAct α) :
    Sleepy (s.step cf n a) := by
  cases a with
  | call t c =>
    simp only [PrSt.step]
    split
    · rename_i hc
      have e : s.cpc t = .idle := by
        cases hp : s.cpc t <;> rw [hp] at hc <;> first | rfl | (exact absurd hc.2 (by simp [CPc.isIdle]))
      refine h.client t c.first rfl rfl (.inl rfl) (.inl rfl) .inl ?_ ?_ ?_ (excl hl t) <;> rw [e] <;>
        first | (intro h3; cases h3; done) | (intro w h3; cases h3; done)
    · exact h
  | go t => simp only [PrSt.step]; split; exact sleepy_go hl h t; exact h
  | prim st ms => exact sleepy_prim h st ms
  | spurious => exact h.woken rfl rfl rfl (fun _ h => h)
  | expire =>
    simp only [PrSt.step]
    split
    · apply Sleepy.awake <;> simp
    · apply Sleepy.awake <;> simp
    · exact h

/-- How many empty rounds there were at least. -/
def need (b w : Nat) (e : Int) : WPc α → Int
  | .lock => b * (w + 1)
  | .rd _ _ => b * w
  | .off => b * w
  | .sleep => b * w
  | .woken _ => b * w
  | .on => b * w
  | .zero => b * w
  | _ => b * w + e

/-- Further facts: tasks are conserved, who is there, and the rounds made. -/
structure More (cf : PrimCfg) (n : Nat) (s : PrSt α) : Prop where
  perm : s.pushed.Perm (s.taken ++ s.deque)
  out : ∀ t, n ≤ t → s.cpc t = .idle
  gone : s.pc = .gone → s.live = false
  nneg : 0 ≤ s.epoch
  cnt : need cf.busy.toNat s.waits s.epoch s.pc ≤ (s.rounds.count false : Int)

theorem more_init (cf : PrimCfg) (n : Nat) : More cf n (PrSt.init : PrSt α) := by
  constructor <;> simp [PrSt.init, need]

theorem need_wake {b w : Nat} {p : WPc α} {e e' : Int} (he : e' ≤ e) : need b w e' p.wake ≤ need b w e p := by
  cases p <;> simp only [WPc.wake, need] <;> omega

theorem need_same {b w : Nat} {p : WPc α} {e e' : Int} (he : e' ≤ e) : need b w e' p ≤ need b w e p := by
  cases p <;> simp only [need] <;> omega

theorem perm_last (a d : List α) : (a ++ d).Perm (a ++ d.getLast?.toList ++ d.dropLast) := by
  cases d using List.reverseRecOn with
  | nil => simp
  | append_singleton d x => simpa using (List.perm_append_comm (l₁ := d) (l₂ := [x])).append_left a

theorem More.client {cf : PrimCfg} {n : Nat} {s : PrSt α} (h : More cf n s) {t : Nat} (ht : t < n) (p : CPc α)
    {s' : PrSt α} (hc : s'.cpc = fun k => if k = t then p else s.cpc k)
    (hpc : s'.pc = s.pc ∨ s'.pc = s.pc.wake)
    (he : s'.epoch = s.epoch ∨ s'.epoch = 0) (hl : s'.live = s.live ∨ s'.live = false)
    (hp : s'.pushed.Perm (s'.taken ++ s'.deque)) (hw : s'.waits = s.waits) (hr : s'.rounds = s.rounds) :
    More cf n s' where
  perm := hp
  out u hu := by rw [hc]; simp only [show u ≠ t by omega, if_false]; exact h.out u hu
  gone hg := by
    rcases hl with hl | hl
    · rw [hl]; apply h.gone
      rcases hpc with hpc | hpc
      · rw [← hpc]; exact hg
      · rw [hpc] at hg; cases hp : s.pc <;> rw [hp] at hg <;> simp_all [WPc.wake]
    · exact hl
  nneg := by have := h.nneg; omega
  cnt := by
    have h0 := h.nneg
    rw [hw, hr]
    rcases hpc with hpc | hpc
    · rw [hpc]; exact Int.le_trans (need_same (by omega)) h.cnt
    · rw [hpc]; exact Int.le_trans (need_wake (by omega)) h.cnt

theorem more_go {cf : PrimCfg} {n : Nat} {s : PrSt α} (h : More cf n s) {t : Nat} (ht : t < n) :
    More cf n (s.go t) := by
  unfold PrSt.go
  split <;> rename_i e
  case h_1 => exact h
  case h_4 v vs =>
    refine h.client ht _ rfl (.inl rfl) (.inl rfl) (.inl rfl) ?_ rfl rfl
    show (s.pushed ++ [v]).Perm (s.taken ++ (s.deque ++ [v]))
    rw [← List.append_assoc]; exact h.perm.append_right _
  case h_20 =>
    exact h.client ht _ rfl (.inl rfl) (.inl rfl) (.inl rfl) (h.perm.trans (perm_last _ _)) rfl rfl
  all_goals (repeat' split) <;> (try exact h) <;>
    first
    | exact h.client ht _ rfl (.inl rfl) (.inl rfl) (.inl rfl) h.perm rfl rfl
    | exact h.client ht _ rfl (.inr rfl) (.inl rfl) (.inl rfl) h.perm rfl rfl
    | exact h.client ht _ rfl (.inl rfl) (.inr rfl) (.inl rfl) h.perm rfl rfl
    | exact h.client ht _ rfl (.inl rfl) (.inl rfl) (.inr rfl) h.perm rfl rfl

theorem more_prim {cf : PrimCfg} {n : Nat} {s : PrSt α} (h : More cf n s) (st : List α) (ms : Bool) :
    More cf n (s.prim cf st ms) := by
  have hc := h.cnt
  have h0 := h.nneg
  unfold PrSt.prim
  split <;> rename_i e <;> rw [e] at hc <;> simp only [need] at hc
  case h_2 =>
    refine ⟨h.perm, h.out, ?_, h.nneg, ?_⟩
    · show (if s.live then _ else _) = _ → _
      cases hl : s.live <;> simp
    · show need _ _ _ (if s.live then _ else _) ≤ _
      cases hl : s.live <;> simpa [need] using hc
  case h_3 =>
    refine ⟨h.perm, h.out, ?_, h.nneg, ?_⟩
    · show (if _ then _ else _) = _ → _
      split <;> simp
    · show need _ _ _ (if s.deque.isEmpty then _ else _) ≤ _
      cases s.deque.isEmpty <;> simpa [need] using hc
  case h_5 =>
    refine ⟨?_, h.out, fun h => (by cases h), h.nneg, hc⟩
    show s.pushed.Perm (s.taken ++ s.deque.take cf.size ++ s.deque.drop cf.size)
    rw [List.append_assoc, List.take_append_drop]; exact h.perm
  case h_6 vs =>
    refine ⟨h.perm, h.out, ?_, h.nneg, ?_⟩
    · show (if _ then _ else _) = _ → _
      split <;> simp
    · show need _ _ _ (if vs.isEmpty then _ else _) ≤ _
      cases vs.isEmpty <;> simpa [need] using hc
  case h_7 =>
    refine ⟨h.perm, h.out, ?_, h.nneg, ?_⟩
    · show (if _ then _ else _) = _ → _
      split <;> simp
    · show need _ _ _ (if st.isEmpty then _ else _) ≤ _
      cases st.isEmpty <;> simpa [need] using hc
  case h_9 =>
    refine ⟨h.perm, h.out, fun h => (by cases h), h.nneg, ?_⟩
    show need _ _ _ _ ≤ ((List.count false (true :: s.rounds) : Nat) : Int)
    simpa [need] using hc
  case h_10 =>
    refine ⟨h.perm, h.out, fun h => (by cases h), by show 0 ≤ s.epoch + 1; omega, ?_⟩
    show (cf.busy.toNat * s.waits : Int) + (s.epoch + 1) ≤ ((List.count false (false :: s.rounds) : Nat) : Int)
    rw [List.count_cons_self]; omega
  case h_11 =>
    refine ⟨h.perm, h.out, ?_, h.nneg, ?_⟩
    · show (if _ then _ else _) = _ → _
      split <;> simp
    · by_cases hb : s.epoch ≥ cf.busy
      · simp only [hb, if_true]
        have : (cf.busy.toNat : Int) ≤ s.epoch := by omega
        simp only [need, Int.mul_add]
        omega
      · simp only [hb, if_false]; exact hc
  case h_12 =>
    split
    · refine ⟨h.perm, h.out, fun h => (by cases h), h.nneg, ?_⟩
      show ((cf.busy.toNat * (s.waits + 1 : Nat) : Int)) ≤ _
      push_cast at hc ⊢; exact hc
    · exact h
  case h_13 w i =>
    unfold PrSt.rdStep
    repeat' split
    all_goals exact ⟨h.perm, h.out, fun h => (by cases h), h.nneg, hc⟩
  case h_18 =>
    refine ⟨h.perm, h.out, fun h => (by cases h), Int.le_refl _, ?_⟩
    show (cf.busy.toNat * s.waits : Int) + 0 ≤ (s.rounds.count false : Nat)
    omega
  all_goals (repeat' split) <;> (try exact h) <;> exact ⟨h.perm, h.out, fun h => (by cases h), h.nneg, hc⟩

theorem more_step {cf : PrimCfg} {n : Nat} {s : PrSt α} (h : More cf n s) (a : PAct α) : More cf n (s.step cf n a) := by
  cases a with
  | call t c =>
    simp only [PrSt.step]
    split
    · rename_i hc
      exact h.client hc.1 _ rfl (.inl rfl) (.inl rfl) (.inl rfl) h.perm rfl rfl
    · exact h
  | go t => simp only [PrSt.step]; split; exact more_go h (by assumption); exact h
  | prim st ms => exact more_prim h st ms
  | spurious =>
    refine ⟨h.perm, h.out, ?_, h.nneg, Int.le_trans (need_wake (Int.le_refl _)) h.cnt⟩
    intro hg
    have hg : s.pc.wake = .gone := hg
    apply h.gone
    cases hp : s.pc <;> rw [hp] at hg <;> simp_all [WPc.wake]
  | expire =>
    have hc := h.cnt
    simp only [PrSt.step]
    split
    · rename_i e; rw [e] at hc; exact ⟨h.perm, h.out, fun h => (by cases h), h.nneg, hc⟩
    · rename_i e; rw [e] at hc; exact ⟨h.perm, h.out, fun h => (by cases h), h.nneg, hc⟩
    · exact h

/-- The invariant. -/
structure Inv (cf : PrimCfg) (n : Nat) (s : PrSt α) : Prop where
  locks : Locks s
  sleepy : Sleepy s
  more : More cf n s

theorem inv_step {cf : PrimCfg} {n : Nat} {s : PrSt α} (h : Inv cf n s) (a : PAct α) : Inv cf n (s.step cf n a) :=
  ⟨locks_step h.locks a, sleepy_step h.locks h.sleepy a, more_step h.more a⟩

theorem inv_init (cf : PrimCfg) (n : Nat) : Inv cf n (PrSt.init : PrSt α) :=
  ⟨locks_init, sleepy_init, more_init cf n⟩

theorem inv_foldl {cf : PrimCfg} {n : Nat} (l : List (PAct α)) : ∀ s : PrSt α, Inv cf n s →
    Inv cf n (l.foldl (PrSt.step cf n) s) := by
  induction l with
  | nil => exact fun _ h => h
  | cons a l ih => exact fun s h => ih _ (inv_step h a)

theorem inv_run (cf : PrimCfg) (n : Nat) (l : List (PAct α)) : Inv cf n (PrSt.run cf n l) :=
  inv_foldl l _ (inv_init cf n)

/-- In `wait_for`, or about to return from it. -/
def WPc.waiting : WPc α → Bool
  | .rd (.wait _) _ => true
  | .sleep => true
  | .woken _ => true
  | .on => true
  | _ => false

theorem wake_waiting (p : WPc α) : p.wake.waiting = p.waiting := by cases p <;> rfl

theorem off_step {cf : PrimCfg} {n : Nat} {s : PrSt α} (h : s.pc.waiting = true → s.running = false) (a : PAct α) :
    (s.step cf n a).pc.waiting = true → (s.step cf n a).running = false := by
  cases a with
  | call t c => simp only [PrSt.step]; split <;> exact h
  | go t =>
    simp only [PrSt.step]
    split
    · unfold PrSt.go
      repeat' split
      all_goals first | exact h | (intro h2; exact h ((wake_waiting _).symm.trans h2))
    · exact h
  | prim st ms =>
    simp only [PrSt.step]
    unfold PrSt.prim
    split <;> rename_i e <;> rw [e] at h
    case h_13 w i =>
      unfold PrSt.rdStep
      cases w with
      | first => (repeat' split) <;> first | (intro h2; cases h2; done) | (rename_i h3; cases h3; done)
      | wait b => have := h rfl; (repeat' split) <;> exact fun _ => this
    all_goals (repeat' split) <;> first
      | (intro h2; cases h2; done)
      | exact fun _ => h rfl
      | exact fun _ => rfl
      | (intro h2; exact h (by rw [← e]; exact h2))
      | (intro h2; revert h2; simp only; split <;> (intro h2; cases h2))
  | spurious => intro h2; exact h ((wake_waiting _).symm.trans h2)
  | expire =>
    simp only [PrSt.step]
    split
    · rename_i e; rw [e] at h; exact fun _ => h rfl
    · rename_i e; rw [e] at h; exact fun _ => h rfl
    · exact h

theorem off_inv (cf : PrimCfg) (n : Nat) (l : List (PAct α)) :
    (PrSt.run cf n l).pc.waiting = true → (PrSt.run cf n l).running = false := by
  unfold PrSt.run
  have : ∀ (l : List (PAct α)) (s : PrSt α), (s.pc.waiting = true → s.running = false) →
      ((l.foldl (PrSt.step cf n) s).pc.waiting = true → (l.foldl (PrSt.step cf n) s).running = false) := by
    intro l
    induction l with
    | nil => exact fun _ h => h
    | cons a l ih => exact fun s h => ih _ (off_step h a)
  exact this l _ (by intro h; cases h)

end CGraph.Prim
