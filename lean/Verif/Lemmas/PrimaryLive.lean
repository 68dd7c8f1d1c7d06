import Verif.Lemmas.Primary

namespace CGraph.Prim
variable {α : Type}

/-- The states of an infinite schedule. -/
def trace (cf : PrimCfg) (n : Nat) (σ : Nat → PAct α) : Nat → PrSt α
  | 0 => .init
  | k + 1 => (trace cf n σ k).step cf n (σ k)

/-- Every thread goes on again and again, and whoever waits for a mutex that is free again and again gets it.  Nothing is
demanded of the clock: the primary thread's time may never be over. -/
structure Fair (cf : PrimCfg) (n : Nat) (σ : Nat → PAct α) : Prop where
  prim : ∀ m, ∃ k, m ≤ k ∧ ∃ st ms, σ k = .prim st ms
  often : ∀ t, t < n → ∀ m, ∃ k, m ≤ k ∧ σ k = .go t
  mutex : ∀ t, t < n → (∀ m, ∃ k, m ≤ k ∧ (trace cf n σ k).owner = none) →
    ∀ m, ∃ k, m ≤ k ∧ σ k = .go t ∧ ((trace cf n σ k).owner = none ∨ ∀ w, (trace cf n σ k).cpc t ≠ .lock w)
  queue : ∀ t, t < n → (∀ m, ∃ k, m ≤ k ∧ (trace cf n σ k).held = none) →
    ∀ m, ∃ k, m ≤ k ∧ σ k = .go t ∧ ((trace cf n σ k).held = none ∨ ∀ vs, (trace cf n σ k).cpc t ≠ .qLock vs)

theorem inv_trace (cf : PrimCfg) (n : Nat) (σ : Nat → PAct α) (k : Nat) : Inv cf n (trace cf n σ k) := by
  induction k with
  | zero => exact inv_init cf n
  | succ k ih => exact inv_step ih _

theorem no_descent {f : Nat → Nat} {m : Nat} (h1 : ∀ k, m ≤ k → f (k + 1) ≤ f k)
    (h2 : ∀ k, m ≤ k → ∃ j, k ≤ j ∧ f (j + 1) < f j) : False := by
  have mono : ∀ k, m ≤ k → ∀ d, f (k + d) ≤ f k := by
    intro k hk d
    induction d with
    | zero => exact Nat.le_refl _
    | succ d ih => exact Nat.le_trans (h1 (k + d) (by omega)) ih
  suffices ∀ v k, m ≤ k → f k ≤ v → False from this _ m (Nat.le_refl _) (Nat.le_refl _)
  intro v
  induction v with
  | zero =>
    intro k hk hv
    obtain ⟨j, hj, hlt⟩ := h2 k hk
    have := mono k hk (j - k)
    rw [show k + (j - k) = j by omega] at this
    omega
  | succ v ih =>
    intro k hk hv
    obtain ⟨j, hj, hlt⟩ := h2 k hk
    have := mono k hk (j - k)
    rw [show k + (j - k) = j by omega] at this
    exact ih (j + 1) (by omega) (by omega)

theorem settles {f : Nat → Nat} {m : Nat} (h1 : ∀ k, m ≤ k → f (k + 1) ≤ f k) :
    ∃ M, m ≤ M ∧ ∀ k, M ≤ k → f (k + 1) = f k := by
  apply Classical.byContradiction
  intro hc
  refine no_descent h1 fun k hk => ?_
  apply Classical.byContradiction
  intro hn
  refine hc ⟨k, hk, fun j hj => ?_⟩
  have := h1 j (by omega)
  by_cases h : f (j + 1) < f j
  · exact absurd ⟨j, hj, h⟩ hn
  · omega

/-- The steps a client still has to make at most. -/
def CPc.todo : CPc α → Nat
  | .idle => 0
  | .qLock vs => 8 + vs.length
  | .qPut vs => 7 + vs.length
  | .qUnlock => 6
  | .lock _ => 5
  | .store _ => 4
  | .unlock _ => 3
  | .tell _ => 2
  | .join => 1
  | .sPut _ _ => 5
  | .wLock => 4
  | .wLook => 3
  | .wTell => 2
  | .wUnlock => 1
  | .tTest => 4
  | .tLock => 3
  | .tTake => 2
  | .tUnlock => 1
  | .gTake => 1

/-- The next step of the client is not refused. -/
def Free (s : PrSt α) (t : Nat) : Prop :=
  match s.cpc t with
  | .idle => False
  | .qLock _ => s.held = none
  | .lock _ => s.owner = none
  | .join => s.pc = .gone
  | _ => True

theorem go_other {s : PrSt α} {t u : Nat} (h : u ≠ t) : (s.go t).cpc u = s.cpc u := by
  unfold PrSt.go
  repeat' split
  all_goals simp [PrSt.setC, PrSt.notify, h]

theorem go_free {s : PrSt α} {t : Nat} (h : Free s t) : ((s.go t).cpc t).todo < (s.cpc t).todo := by
  unfold Free at h
  unfold PrSt.go
  cases e : s.cpc t <;> rw [e] at h <;> simp only at h
  case qLock vs => simp [h, PrSt.setC, CPc.todo]
  case qPut vs => cases vs <;> simp [PrSt.setC, CPc.todo]
  case lock w => simp [h, PrSt.setC, CPc.todo]
  case store w => cases w <;> simp [PrSt.setC, CPc.todo]
  case tell w => cases w <;> simp [PrSt.setC, PrSt.notify, CPc.todo]
  case join => simp [h, PrSt.setC, CPc.todo]
  case sPut v b => cases b <;> simp [PrSt.setC, CPc.todo]
  case wLock => cases s.wmtx <;> simp [PrSt.setC, CPc.todo]
  case wLook => cases s.running <;> simp [PrSt.setC, CPc.todo]
  case tTest => cases s.deque.isEmpty <;> simp [PrSt.setC, CPc.todo]
  case tLock => cases s.held <;> simp [PrSt.setC, CPc.todo]
  all_goals simp [PrSt.setC, PrSt.notify, CPc.todo]

theorem go_refused {s : PrSt α} {t : Nat} (h : ¬ Free s t) : s.go t = s := by
  unfold Free at h
  unfold PrSt.go
  cases e : s.cpc t <;> rw [e] at h <;> simp only at h <;> first | rfl | exact absurd trivial h | skip
  case qLock vs => cases h2 : s.held <;> simp_all
  case lock w => cases h2 : s.owner <;> simp_all
  case join => cases h2 : s.pc <;> simp_all

theorem prim_cpc {cf : PrimCfg} {s : PrSt α} {st : List α} {ms : Bool} : (s.prim cf st ms).cpc = s.cpc := by
  unfold PrSt.prim PrSt.rdStep
  repeat' split
  all_goals rfl

/-- All the steps the clients still have to make at most. -/
def ctodo (n : Nat) (s : PrSt α) : Nat := sumN n fun t => (s.cpc t).todo

/-- The action begins no call. -/
def PAct.quiet : PAct α → Prop
  | .call _ _ => False
  | _ => True

theorem quiet_step {cf : PrimCfg} {n : Nat} {s : PrSt α} {a : PAct α} (ha : a.quiet) :
    (s.step cf n a).cpc = s.cpc ∨ ctodo n (s.step cf n a) < ctodo n s := by
  cases a with
  | call t c => exact ha.elim
  | go t =>
    simp only [PrSt.step]
    split
    · rename_i ht
      by_cases h : Free s t
      · right
        have h1 := go_free h
        have h2 := sumN_upd n (fun u => (s.cpc u).todo) (fun u => ((s.go t).cpc u).todo) t ht
          (fun k hk => by rw [go_other hk])
        unfold ctodo
        omega
      · left; rw [go_refused h]
    · exact .inl rfl
  | prim st ms => exact .inl prim_cpc
  | spurious => exact .inl rfl
  | expire => left; simp only [PrSt.step]; split <;> rfl

theorem quiet_le {cf : PrimCfg} {n : Nat} {s : PrSt α} {a : PAct α} (ha : a.quiet) :
    ctodo n (s.step cf n a) ≤ ctodo n s := by
  rcases quiet_step (cf := cf) (n := n) (s := s) ha with h | h
  · unfold ctodo; rw [h]
  · omega

theorem free_lt {cf : PrimCfg} {n : Nat} {s : PrSt α} {t : Nat} (ht : t < n) (h : Free s t) :
    ctodo n (s.step cf n (.go t)) < ctodo n s := by
  have h1 := go_free h
  have h2 := sumN_upd n (fun u => (s.cpc u).todo) (fun u => ((s.go t).cpc u).todo) t ht
    (fun k hk => by rw [go_other hk])
  simp only [PrSt.step, ht, if_true]
  unfold ctodo
  omega

/-- How far the primary thread is from giving `mutex_` back. -/
def WPc.far : WPc α → Nat
  | .rd .first i => 10 + (3 - i)
  | .off => 9
  | .rd (.wait _) i => 4 + (3 - i)
  | .on => 3
  | .zero => 2
  | .popTake => 2
  | _ => 1

theorem firm {s : PrSt α} {t : Nat} (h : (s.cpc t).inM = true ∨ (s.cpc t).inQ = true) : Free s t := by
  unfold Free
  cases e : s.cpc t <;> rw [e] at h <;> first | trivial | (simp [CPc.inM, CPc.inQ] at h)

/-- A client that possesses a mutex moves on only by its own steps. -/
theorem client_step {cf : PrimCfg} {n : Nat} {s : PrSt α} {t : Nat} (a : PAct α)
    (h : (s.cpc t).inM = true ∨ (s.cpc t).inQ = true) :
    ((s.step cf n a).cpc t).todo ≤ (s.cpc t).todo ∧
    (a = .go t → t < n → ((s.step cf n a).cpc t).todo < (s.cpc t).todo) := by
  cases a with
  | call u c =>
    refine ⟨?_, fun h => by cases h⟩
    simp only [PrSt.step]
    split
    · rename_i hc
      by_cases e : t = u
      · subst e
        exfalso
        cases hp : s.cpc t <;> rw [hp] at h hc <;> simp_all [CPc.isIdle, CPc.inM, CPc.inQ]
      · simp [PrSt.setC, e]
    · exact Nat.le_refl _
  | go u =>
    by_cases hu : u < n
    · simp only [PrSt.step, hu, if_true]
      by_cases e : t = u
      · subst e
        have := go_free (firm h)
        exact ⟨by omega, fun _ _ => this⟩
      · exact ⟨by rw [go_other e], fun h => by injection h with h; exact absurd h.symm e⟩
    · simp only [PrSt.step, hu, if_false]
      exact ⟨Nat.le_refl _, fun h h2 => by injection h with h; omega⟩
  | prim st ms => exact ⟨by simp only [PrSt.step]; rw [prim_cpc], fun h => by cases h⟩
  | spurious => exact ⟨Nat.le_refl _, fun h => by cases h⟩
  | expire => exact ⟨by simp only [PrSt.step]; split <;> exact Nat.le_refl _, fun h => by cases h⟩

theorem go_pc {s : PrSt α} {t : Nat} : (s.go t).pc = s.pc ∨ (s.go t).pc = s.pc.wake := by
  unfold PrSt.go
  repeat' split
  all_goals first | exact .inl rfl | exact .inr rfl

theorem wake_eq {p : WPc α} (h : p ≠ .sleep) : p.wake = p := by cases p <;> first | rfl | exact absurd rfl h

/-- Only the primary thread moves itself, unless it is asleep or woken. -/
theorem step_pc {cf : PrimCfg} {n : Nat} {s : PrSt α} {a : PAct α} (h1 : s.pc ≠ .sleep) (h2 : ∀ b, s.pc ≠ .woken b)
    (ha : ∀ st ms, a ≠ .prim st ms) : (s.step cf n a).pc = s.pc := by
  cases a with
  | call u c => simp only [PrSt.step]; split <;> rfl
  | go u =>
    simp only [PrSt.step]
    split
    · rcases go_pc (s := s) (t := u) with h | h
      · exact h
      · rw [h]; exact wake_eq h1
    · rfl
  | prim st ms => exact absurd rfl (ha st ms)
  | spurious => exact wake_eq h1
  | expire =>
    simp only [PrSt.step]
    all_goals first | rfl | (rename_i e; exact absurd e h1) | (rename_i e; exact absurd e (h2 _))

theorem prim_inM {cf : PrimCfg} {s : PrSt α} {st : List α} {ms : Bool} (h : s.pc.inM = true) :
    (s.prim cf st ms).owner = none ∨ (s.prim cf st ms).pc.far < s.pc.far ∧ (s.prim cf st ms).pc.inM = true := by
  unfold PrSt.prim
  cases e : s.pc <;> rw [e] at h <;> simp only [WPc.inM, Bool.false_eq_true] at h <;> simp only
  case rd w i =>
    unfold PrSt.rdStep
    cases w with
    | first =>
      split
      · right; simp only [WPc.far, WPc.inM]; exact ⟨by omega, trivial⟩
      · split
        · right; simp only [WPc.far, WPc.inM]; exact ⟨by omega, trivial⟩
        · right; simp only [WPc.far, WPc.inM]; exact ⟨by omega, trivial⟩
    | wait b =>
      split
      · right; simp only [WPc.far, WPc.inM]; exact ⟨by omega, trivial⟩
      · split
        · right; simp only [WPc.far, WPc.inM]; exact ⟨by omega, trivial⟩
        · cases b
          · exact .inl rfl
          · right; simp only [WPc.far, WPc.inM]; exact ⟨by omega, trivial⟩
  case off => right; simp [WPc.far, WPc.inM]
  case on => right; simp [WPc.far, WPc.inM]
  case zero => right; simp [WPc.far, WPc.inM]
  case unlock => simp

theorem prim_inQ {cf : PrimCfg} {s : PrSt α} {st : List α} {ms : Bool} (h : s.pc.inQ = true) :
    (s.prim cf st ms).held = none ∨ (s.prim cf st ms).pc.far < s.pc.far ∧ (s.prim cf st ms).pc.inQ = true := by
  unfold PrSt.prim
  cases e : s.pc <;> rw [e] at h <;> simp only [WPc.inQ, Bool.false_eq_true] at h <;> simp only
  case popTake => right; simp [WPc.far, WPc.inQ]
  case popUnlock => simp

section
variable {cf : PrimCfg} {n : Nat} {σ : Nat → PAct α}

theorem in_n {s : PrSt α} (hi : Inv cf n s) {t : Nat} (h : s.cpc t ≠ .idle) : t < n := by
  by_cases ht : t < n
  · exact ht
  · exact absurd (hi.more.out t (by omega)) h

theorem owner_step (s : PrSt α) (a : PAct α) :
    (s.step cf n a).owner = s.owner ∨ s.owner = none ∨ (s.step cf n a).owner = none := by
  cases a with
  | call t c => simp only [PrSt.step]; split <;> exact .inl rfl
  | go t =>
    simp only [PrSt.step]
    split
    · unfold PrSt.go
      repeat' split
      all_goals first | exact .inl rfl | exact .inr (.inr rfl) | exact .inr (.inl (by assumption))
    · exact .inl rfl
  | prim st ms =>
    simp only [PrSt.step]
    unfold PrSt.prim PrSt.rdStep
    repeat' split
    all_goals first | exact .inl rfl | exact .inr (.inr rfl) | exact .inr (.inl (by assumption))
  | spurious => exact .inl rfl
  | expire => simp only [PrSt.step]; split <;> exact .inl rfl

theorem held_step (s : PrSt α) (a : PAct α) :
    (s.step cf n a).held = s.held ∨ s.held = none ∨ (s.step cf n a).held = none := by
  cases a with
  | call t c => simp only [PrSt.step]; split <;> exact .inl rfl
  | go t =>
    simp only [PrSt.step]
    split
    · unfold PrSt.go
      repeat' split
      all_goals first | exact .inl rfl | exact .inr (.inr rfl) | exact .inr (.inl (by assumption))
    · exact .inl rfl
  | prim st ms =>
    simp only [PrSt.step]
    unfold PrSt.prim PrSt.rdStep
    repeat' split
    all_goals first | exact .inl rfl | exact .inr (.inr rfl) | exact .inr (.inl (by assumption))
  | spurious => exact .inl rfl
  | expire => simp only [PrSt.step]; split <;> exact .inl rfl

/-- A mutex is given back again and again; `mine`, `cmine` say who possesses it. -/
theorem released (hf : Fair cf n σ) (o : PrSt α → Option Who) (mine : WPc α → Bool) (cmine : CPc α → Bool)
    (hm : ∀ p : WPc α, mine p = true → p ≠ .sleep ∧ ∀ b, p ≠ .woken b)
    (hcm : ∀ p : CPc α, cmine p = true → p.inM = true ∨ p.inQ = true)
    (hp : ∀ k, o (trace cf n σ k) = some .prim ↔ mine (trace cf n σ k).pc = true)
    (hc : ∀ k t, o (trace cf n σ k) = some (.cli t) ↔ cmine ((trace cf n σ k).cpc t) = true)
    (hst : ∀ (s : PrSt α) a, o (s.step cf n a) = o s ∨ o s = none ∨ o (s.step cf n a) = none)
    (hstep : ∀ (s : PrSt α) st ms, mine s.pc = true → o (s.prim cf st ms) = none ∨
      (s.prim cf st ms).pc.far < s.pc.far ∧ mine (s.prim cf st ms).pc = true)
    (m : Nat) : ∃ k, m ≤ k ∧ o (trace cf n σ k) = none := by
  apply Classical.byContradiction
  intro hn
  have hne : ∀ k, m ≤ k → o (trace cf n σ k) ≠ none := fun k hk h => hn ⟨k, hk, h⟩
  have same : ∀ d, o (trace cf n σ (m + d)) = o (trace cf n σ m) := by
    intro d
    induction d with
    | zero => rfl
    | succ d ih =>
      rcases hst (trace cf n σ (m + d)) (σ (m + d)) with h | h | h
      · exact h.trans ih
      · exact absurd h (hne _ (by omega))
      · exact absurd h (hne (m + d + 1) (by omega))
  have same : ∀ k, m ≤ k → o (trace cf n σ k) = o (trace cf n σ m) := fun k hk => by
    have := same (k - m); rwa [show m + (k - m) = k by omega] at this
  cases ho : o (trace cf n σ m) with
  | none => exact hne m (Nat.le_refl _) ho
  | some w =>
    cases w with
    | cli t =>
      have h1 : ∀ k, m ≤ k → ((trace cf n σ k).cpc t).inM = true ∨ ((trace cf n σ k).cpc t).inQ = true :=
        fun k hk => hcm _ ((hc k t).1 ((same k hk).trans ho))
      have htn : t < n := in_n (inv_trace cf n σ m) (by
        intro e; have := h1 m (Nat.le_refl _); rw [e] at this; simp [CPc.inM, CPc.inQ] at this)
      refine no_descent (f := fun k => ((trace cf n σ k).cpc t).todo) (m := m)
        (fun k hk => (client_step (σ k) (h1 k hk)).1) fun k hk => ?_
      obtain ⟨i, hi, hg⟩ := hf.often t htn k
      exact ⟨i, hi, (client_step (σ i) (h1 i (by omega))).2 hg htn⟩
    | prim =>
      have h1 : ∀ k, m ≤ k → mine (trace cf n σ k).pc = true := fun k hk => (hp k).1 ((same k hk).trans ho)
      have hdec : ∀ k, m ≤ k → ∀ st ms, σ k = .prim st ms →
          (trace cf n σ (k + 1)).pc.far < (trace cf n σ k).pc.far := by
        intro k hk st ms e
        have e2 : trace cf n σ (k + 1) = (trace cf n σ k).prim cf st ms := by
          show (trace cf n σ k).step cf n (σ k) = _
          rw [e]; rfl
        rcases hstep _ st ms (h1 k hk) with h | h
        · rw [← e2] at h; exact absurd h (hne _ (by omega))
        · rw [e2]; exact h.1
      refine no_descent (f := fun k => (trace cf n σ k).pc.far) (m := m) (fun k hk => ?_) fun k hk => ?_
      · by_cases hq : ∃ st ms, σ k = .prim st ms
        · obtain ⟨st, ms, e⟩ := hq
          exact Nat.le_of_lt (hdec k hk st ms e)
        · obtain ⟨h2, h3⟩ := hm _ (h1 k hk)
          have : (trace cf n σ (k + 1)).pc = (trace cf n σ k).pc :=
            step_pc h2 h3 fun st ms e => hq ⟨st, ms, e⟩
          simp only [this]; exact Nat.le_refl _
      · obtain ⟨i, hi, st, ms, e⟩ := hf.prim k
        exact ⟨i, hi, hdec i (by omega) st ms e⟩

theorem owner_released (hf : Fair cf n σ) (m : Nat) : ∃ k, m ≤ k ∧ (trace cf n σ k).owner = none :=
  released hf (·.owner) WPc.inM CPc.inM (fun p h => by cases p <;> simp_all [WPc.inM]) (fun _ h => .inl h)
    (fun k => (inv_trace cf n σ k).locks.pown) (fun k => (inv_trace cf n σ k).locks.cown) owner_step
    (fun _ _ _ h => prim_inM h) m

theorem held_released (hf : Fair cf n σ) (m : Nat) : ∃ k, m ≤ k ∧ (trace cf n σ k).held = none :=
  released hf (·.held) WPc.inQ CPc.inQ (fun p h => by cases p <;> simp_all [WPc.inQ]) (fun _ h => .inr h)
    (fun k => (inv_trace cf n σ k).locks.phold) (fun k => (inv_trace cf n σ k).locks.chold) held_step
    (fun _ _ _ h => prim_inQ h) m

theorem gone_step {s : PrSt α} (a : PAct α) (h : s.pc = .gone) : (s.step cf n a).pc = .gone := by
  by_cases ha : ∃ st ms, a = .prim st ms
  · obtain ⟨st, ms, rfl⟩ := ha
    simp only [PrSt.step, PrSt.prim, h]
  · rw [step_pc (by rw [h]; simp) (by rw [h]; simp) (fun st ms e => ha ⟨st, ms, e⟩)]; exact h

theorem gone_later {k : Nat} (h : (trace cf n σ k).pc = .gone) : ∀ d, (trace cf n σ (k + d)).pc = .gone
  | 0 => h
  | d + 1 => gone_step _ (gone_later h d)

/-- When no more calls begin, all clients return, except those that wait for the primary thread to end. -/
theorem clients_settle (hf : Fair cf n σ) {N : Nat} (hq : ∀ k, N ≤ k → (σ k).quiet) :
    ∃ M, N ≤ M ∧ ∀ k, M ≤ k → ∀ t, (trace cf n σ k).cpc t = .idle ∨
      ((trace cf n σ k).cpc t = .join ∧ (trace cf n σ k).pc ≠ .gone) := by
  obtain ⟨M, hM, hs⟩ := settles (f := fun k => ctodo n (trace cf n σ k)) (m := N) fun k hk => quiet_le (hq k hk)
  refine ⟨M, hM, fun k hk t => ?_⟩
  have same : ∀ j, M ≤ j → (trace cf n σ (j + 1)).cpc = (trace cf n σ j).cpc := by
    intro j hj
    rcases quiet_step (cf := cf) (n := n) (s := trace cf n σ j) (hq j (by omega)) with h | h
    · exact h
    · have := hs j hj
      exact absurd h (by show ¬ ctodo n (trace cf n σ (j + 1)) < _; omega)
  have same : ∀ j, k ≤ j → (trace cf n σ j).cpc = (trace cf n σ k).cpc := by
    intro j hj
    obtain ⟨d, rfl⟩ : ∃ d, j = k + d := ⟨j - k, by omega⟩
    clear hj
    induction d with
    | zero => rfl
    | succ d ih => exact (same (k + d) (by omega)).trans ih
  by_cases hi : (trace cf n σ k).cpc t = .idle
  · exact .inl hi
  have htn : t < n := in_n (inv_trace cf n σ k) hi
  have stuck : ∀ j, k ≤ j → σ j = .go t → ¬ Free (trace cf n σ j) t := by
    intro j hj e hfr
    have h1 := hs j (by omega)
    have h2 := free_lt (cf := cf) htn hfr
    rw [← e] at h2
    have h3 : ctodo n (trace cf n σ (j + 1)) < ctodo n (trace cf n σ j) := h2
    omega
  cases e : (trace cf n σ k).cpc t with
  | idle => exact absurd e hi
  | join =>
    refine .inr ⟨rfl, fun hg => ?_⟩
    obtain ⟨j, hj, hgo⟩ := hf.often t htn k
    refine stuck j hj hgo ?_
    unfold Free
    rw [same j hj, e]
    have := gone_later hg (j - k)
    rwa [show k + (j - k) = j by omega] at this
  | lock w =>
    exfalso
    obtain ⟨j, hj, hgo, h⟩ := hf.mutex t htn (owner_released hf) k
    rw [same j hj, e] at h
    refine stuck j hj hgo ?_
    unfold Free
    rw [same j hj, e]
    exact h.resolve_right (fun h => h w rfl)
  | qLock vs =>
    exfalso
    obtain ⟨j, hj, hgo, h⟩ := hf.queue t htn (held_released hf) k
    rw [same j hj, e] at h
    refine stuck j hj hgo ?_
    unfold Free
    rw [same j hj, e]
    exact h.resolve_right (fun h => h vs rfl)
  | _ =>
    exfalso
    obtain ⟨j, hj, hgo⟩ := hf.often t htn k
    refine stuck j hj hgo ?_
    unfold Free
    rw [same j hj, e]
    trivial

/-- The client is destroying the thread. -/
def CPc.stopping : CPc α → Bool
  | .lock .stop => true
  | .store .stop => true
  | .unlock .stop => true
  | .tell .stop => true
  | .join => true
  | _ => false

theorem go_stopping {s : PrSt α} {t : Nat} (h : (s.cpc t).stopping = false) :
    ((s.go t).cpc t).stopping = false ∧ (s.go t).live = s.live := by
  unfold PrSt.go
  cases e : s.cpc t <;> rw [e] at h
  case idle => exact ⟨by rw [e]; rfl, rfl⟩
  case qPut vs => cases vs <;> simp [PrSt.setC, CPc.stopping]
  case lock w =>
    cases w
    · cases ho : s.owner <;> simp [PrSt.setC, CPc.stopping, e]
    · cases h
  case store w =>
    cases w
    · simp [PrSt.setC, CPc.stopping]
    · cases h
  case unlock w =>
    cases w
    · simp [PrSt.setC, CPc.stopping]
    · cases h
  case tell w =>
    cases w
    · simp [PrSt.setC, PrSt.notify, CPc.stopping]
    · cases h
  case join => cases h
  case qLock vs => cases ho : s.held <;> simp [PrSt.setC, CPc.stopping, e]
  case sPut v b => cases b <;> simp [PrSt.setC, CPc.stopping]
  case wLock => cases s.wmtx <;> simp [PrSt.setC, CPc.stopping]
  case wLook => cases s.running <;> simp [PrSt.setC, CPc.stopping]
  case tTest => cases s.deque.isEmpty <;> simp [PrSt.setC, CPc.stopping]
  case tLock => cases s.held <;> simp [PrSt.setC, CPc.stopping]
  all_goals simp [PrSt.setC, PrSt.notify, CPc.stopping]

theorem prim_live {s : PrSt α} {st : List α} {ms : Bool} : (s.prim cf st ms).live = s.live := by
  unfold PrSt.prim PrSt.rdStep
  repeat' split
  all_goals rfl

/-- Nobody destroys the thread. -/
structure Kept (s : PrSt α) : Prop where
  live : s.live = true
  none : ∀ t, (s.cpc t).stopping = false

theorem kept_step {s : PrSt α} (h : Kept s) {a : PAct α} (ha : ∀ t, a ≠ .call t .stop) : Kept (s.step cf n a) := by
  cases a with
  | call t c =>
    simp only [PrSt.step]
    split
    · refine ⟨h.live, fun u => ?_⟩
      by_cases e : u = t
      · subst e
        simp only [PrSt.setC, if_true]
        cases c <;> first | rfl | exact absurd rfl (ha u)
      · simp only [PrSt.setC, e, if_false]; exact h.none u
    · exact h
  | go t =>
    simp only [PrSt.step]
    split
    · obtain ⟨h1, h2⟩ := go_stopping (h.none t)
      refine ⟨h2.trans h.live, fun u => ?_⟩
      by_cases e : u = t
      · subst e; exact h1
      · rw [go_other e]; exact h.none u
    · exact h
  | prim st ms => exact ⟨prim_live.trans h.live, fun t => by simp only [PrSt.step]; rw [prim_cpc]; exact h.none t⟩
  | spurious => exact ⟨h.live, h.none⟩
  | expire => simp only [PrSt.step]; split <;> exact ⟨h.live, h.none⟩

theorem kept_trace (hs : ∀ k t, σ k ≠ .call t .stop) (k : Nat) : Kept (trace cf n σ k) := by
  induction k with
  | zero => exact ⟨rfl, fun _ => rfl⟩
  | succ k ih => exact kept_step ih (hs k)

/-- How far the primary thread is from taking a task out of its queue. -/
def WPc.toTake : WPc α → Nat
  | .popTake => 0
  | .popLock => 1
  | .pop => 2
  | .head => 3
  | .start => 4
  | .work _ => 4
  | .unlock => 4
  | .zero => 5
  | .on => 6
  | .rd _ i => 7 + (1 - i)
  | .off => 9
  | .woken _ => 9
  | .lock => 9
  | .cmp => 10
  | .inc => 11
  | .shared => 12
  | .steal => 13
  | .popUnlock _ => 14
  | .sleep => 0
  | .gone => 0

theorem owner_idle {s : PrSt α} (hi : Inv cf n s) (hc : ∀ t, (s.cpc t).inM = false) (h : s.pc.inM = false) :
    s.owner = none := by
  cases ho : s.owner with
  | none => rfl
  | some w =>
    cases w with
    | prim => have := hi.locks.pown.1 ho; rw [h] at this; cases this
    | cli t => have := (hi.locks.cown t).1 ho; rw [hc t] at this; cases this

theorem held_idle {s : PrSt α} (hi : Inv cf n s) (hc : ∀ t, (s.cpc t).inQ = false) (h : s.pc.inQ = false) :
    s.held = none := by
  cases ho : s.held with
  | none => rfl
  | some w =>
    cases w with
    | prim => have := hi.locks.phold.1 ho; rw [h] at this; cases this
    | cli t => have := (hi.locks.chold t).1 ho; rw [hc t] at this; cases this

theorem toTake_prim {s : PrSt α} (hi : Inv cf n s) (hc : ∀ t, s.cpc t = .idle) (hl : s.live = true)
    (hd : s.deque ≠ []) (st : List α) (ms : Bool) :
    s.pc = .popTake ∨ (s.prim cf st ms).pc.toTake < s.pc.toTake := by
  have hde : s.deque.isEmpty = false := by simpa using hd
  unfold PrSt.prim
  cases e : s.pc <;> simp only
  case popTake => exact .inl trivial
  case head => right; simp [hl, WPc.toTake]
  case pop => right; simp [hde, WPc.toTake]
  case popLock =>
    right
    have := held_idle hi (fun t => by rw [hc t]; rfl) (by rw [e]; rfl)
    simp [this, WPc.toTake]
  case popUnlock vs => right; cases vs.isEmpty <;> simp [WPc.toTake]
  case steal => right; cases st.isEmpty <;> simp [WPc.toTake]
  case shared => right; split <;> simp [WPc.toTake]
  case cmp => right; split <;> simp [WPc.toTake]
  case lock =>
    right
    have := owner_idle hi (fun t => by rw [hc t]; rfl) (by rw [e]; rfl)
    simp [this, WPc.toTake]
  case woken late =>
    right
    have := owner_idle hi (fun t => by rw [hc t]; rfl) (by rw [e]; rfl)
    simp [this, WPc.toTake]
  case rd w i =>
    right
    have h2 : i < 2 := by
      apply Classical.byContradiction
      intro h
      obtain ⟨u, hu⟩ := hi.sleepy.seen2 w i e (by omega) hd
      rw [hc u] at hu; cases hu
    unfold PrSt.rdStep
    split
    · cases w <;> simp only [WPc.toTake] <;> omega
    · rename_i hr
      have : i = 0 := by
        apply Classical.byContradiction
        intro h
        have : i = 1 := by omega
        subst this
        simp [PrSt.readyAt, hd] at hr
      subst this
      simp [WPc.toTake]
  case sleep =>
    exfalso
    obtain ⟨u, hu⟩ := hi.sleepy.z1 e hd
    rw [hc u] at hu; cases hu
  case gone => have := hi.more.gone e; rw [hl] at this; cases this
  all_goals right; simp [WPc.toTake]

theorem prim_deque {s : PrSt α} {st : List α} {ms : Bool} : (s.prim cf st ms).deque.length ≤ s.deque.length := by
  unfold PrSt.prim PrSt.rdStep
  repeat' split
  all_goals first | exact Nat.le_refl _ | (simp)

/-- Steps, with all clients outside, that are not made by the primary thread. -/
theorem still_step {s : PrSt α} (hc : ∀ t, s.cpc t = .idle ∨ (s.cpc t = .join ∧ s.pc ≠ .gone)) {a : PAct α} (ha : a.quiet)
    (hp : ∀ st ms, a ≠ .prim st ms) :
    (s.step cf n a).deque = s.deque ∧ (s.step cf n a).live = s.live ∧
      ((s.step cf n a).pc = s.pc ∨ s.pc = .sleep ∨ ∃ b b', s.pc = .woken b ∧ (s.step cf n a).pc = .woken b') := by
  cases a with
  | call t c => exact ha.elim
  | go t =>
    simp only [PrSt.step]
    split
    · have : ¬ Free s t := by
        unfold Free
        rcases hc t with h | ⟨h, h2⟩
        · rw [h]; exact id
        · rw [h]; exact h2
      rw [go_refused this]; exact ⟨rfl, rfl, .inl rfl⟩
    · exact ⟨rfl, rfl, .inl rfl⟩
  | prim st ms => exact absurd rfl (hp st ms)
  | spurious =>
    refine ⟨rfl, rfl, ?_⟩
    by_cases h : s.pc = .sleep
    · exact .inr (.inl h)
    · exact .inl (wake_eq h)
  | expire =>
    simp only [PrSt.step]
    split
    · rename_i e; exact ⟨rfl, rfl, .inr (.inl e)⟩
    · rename_i e; exact ⟨rfl, rfl, .inr (.inr ⟨_, _, e, rfl⟩)⟩
    · exact ⟨rfl, rfl, .inl rfl⟩

/-- When the pushes end, the own queue gets empty, whether or not the clock ever wakes the thread. -/
theorem drains (hf : Fair cf n σ) (hz : 0 < cf.size) {N : Nat} (hq : ∀ k, N ≤ k → (σ k).quiet)
    (hs : ∀ k t, σ k ≠ .call t .stop) : ∃ K, ∀ k, K ≤ k → (trace cf n σ k).deque = [] := by
  obtain ⟨M, hM, hc⟩ := clients_settle hf hq
  have hidle : ∀ k, M ≤ k → ∀ t, (trace cf n σ k).cpc t = .idle := by
    intro k hk t
    rcases hc k hk t with h | ⟨h, -⟩
    · exact h
    · have := (kept_trace (cf := cf) (n := n) hs k).none t; rw [h] at this; cases this
  have hle : ∀ k, M ≤ k → (trace cf n σ (k + 1)).deque.length ≤ (trace cf n σ k).deque.length := by
    intro k hk
    by_cases hp : ∃ st ms, σ k = .prim st ms
    · obtain ⟨st, ms, e⟩ := hp
      show ((trace cf n σ k).step cf n (σ k)).deque.length ≤ _
      rw [e]; exact prim_deque
    · exact Nat.le_of_eq (congrArg List.length
        (still_step (hc k hk) (hq k (by omega)) (fun st ms e => hp ⟨st, ms, e⟩)).1)
  obtain ⟨K, hK, hset⟩ := settles (f := fun k => (trace cf n σ k).deque.length) hle
  have hcon : ∀ d, (trace cf n σ (K + d)).deque.length = (trace cf n σ K).deque.length := by
    intro d
    induction d with
    | zero => rfl
    | succ d ih => exact (hset (K + d) (by omega)).trans ih
  by_cases h0 : (trace cf n σ K).deque = []
  · refine ⟨K, fun k hk => ?_⟩
    have := hcon (k - K)
    rw [show K + (k - K) = k by omega, h0] at this
    exact List.length_eq_zero_iff.1 this
  · exfalso
    have hne : ∀ k, K ≤ k → (trace cf n σ k).deque ≠ [] := by
      intro k hk h
      have := hcon (k - K)
      rw [show K + (k - K) = k by omega, h] at this
      exact h0 (List.length_eq_zero_iff.1 this.symm)
    have hlt : ∀ k, K ≤ k → ∀ st ms, σ k = .prim st ms →
        (trace cf n σ (k + 1)).pc.toTake < (trace cf n σ k).pc.toTake := by
      intro k hk st ms e
      have e2 : trace cf n σ (k + 1) = (trace cf n σ k).prim cf st ms := by
        show (trace cf n σ k).step cf n (σ k) = _
        rw [e]; rfl
      rcases toTake_prim (inv_trace cf n σ k) (hidle k (by omega)) (kept_trace hs k).live (hne k hk) st ms with h | h
      · exfalso
        have h1 := hset k hk
        rw [e2] at h1
        simp only [PrSt.prim, h, List.length_drop] at h1
        have := List.length_pos_iff.2 (hne k hk)
        omega
      · rw [e2]; exact h
    refine no_descent (f := fun k => (trace cf n σ k).pc.toTake) (m := K) (fun k hk => ?_) fun k hk => ?_
    · by_cases hp : ∃ st ms, σ k = .prim st ms
      · obtain ⟨st, ms, e⟩ := hp
        exact Nat.le_of_lt (hlt k hk st ms e)
      · rcases (still_step (cf := cf) (n := n) (hc k (by omega)) (hq k (by omega))
          (fun st ms e => hp ⟨st, ms, e⟩)).2.2 with h | h | ⟨b, b', h, h'⟩
        · exact Nat.le_of_eq (congrArg WPc.toTake h)
        · exfalso
          obtain ⟨u, hu⟩ := (inv_trace cf n σ k).sleepy.z1 h (hne k hk)
          rw [hidle k (by omega) u] at hu; cases hu
        · have h' : (trace cf n σ (k + 1)).pc = .woken b' := h'
          simp only [h, h', WPc.toTake]; exact Nat.le_refl _
    · obtain ⟨i, hi, st, ms, e⟩ := hf.prim k
      exact ⟨i, hi, hlt i (by omega) st ms e⟩

/-- Somebody destroys the thread. -/
def Ending (s : PrSt α) : Prop := s.live = false ∨ ∃ t, s.cpc t = .lock .stop ∨ s.cpc t = .store .stop

theorem go_ending {s : PrSt α} {t : Nat} (h : Ending s) : Ending (s.go t) := by
  rcases h with h | ⟨u, h⟩
  · left
    unfold PrSt.go
    repeat' split
    all_goals first | exact h | rfl
  · by_cases e : u = t
    · subst e
      rcases h with h | h
      · right; refine ⟨u, ?_⟩
        unfold PrSt.go
        rw [h]
        cases ho : s.owner <;> simp [PrSt.setC, h]
      · left; unfold PrSt.go; rw [h]
    · right; exact ⟨u, by rw [go_other e]; exact h⟩

theorem ending_step {s : PrSt α} (h : Ending s) (a : PAct α) : Ending (s.step cf n a) := by
  cases a with
  | call t c =>
    simp only [PrSt.step]
    split
    · rename_i hc
      rcases h with h | ⟨u, h⟩
      · exact .inl h
      · right; refine ⟨u, ?_⟩
        have : u ≠ t := by rintro rfl; rcases h with h | h <;> rw [h] at hc <;> cases hc.2
        simp only [PrSt.setC, this, if_false]; exact h
    · exact h
  | go t => simp only [PrSt.step]; split; exact go_ending h; exact h
  | prim st ms =>
    rcases h with h | ⟨u, h⟩
    · exact .inl (prim_live.trans h)
    · exact .inr ⟨u, by simp only [PrSt.step]; rw [prim_cpc]; exact h⟩
  | spurious => exact h
  | expire => simp only [PrSt.step]; split <;> exact h

/-- How far the primary thread is from its end. -/
def WPc.toEnd : WPc α → Nat
  | .gone => 0
  | .head => 1
  | .start => 2
  | .work _ => 2
  | .unlock => 2
  | .zero => 3
  | .on => 4
  | .rd _ i => 5 + (3 - i)
  | .off => 9
  | .woken _ => 9
  | .lock => 9
  | .cmp => 10
  | .inc => 11
  | .shared => 12
  | .steal => 13
  | .popUnlock _ => 14
  | .popTake => 15
  | .popLock => 16
  | .pop => 17
  | .sleep => 0

theorem toEnd_prim {s : PrSt α} (hi : Inv cf n s) (hc : ∀ t, s.cpc t = .idle ∨ s.cpc t = .join) (hl : s.live = false)
    (hg : s.pc ≠ .gone) (st : List α) (ms : Bool) : (s.prim cf st ms).pc.toEnd < s.pc.toEnd := by
  have hcM : ∀ t, (s.cpc t).inM = false := fun t => by rcases hc t with h | h <;> rw [h] <;> rfl
  unfold PrSt.prim
  cases e : s.pc <;> simp only
  case head => simp [hl, WPc.toEnd]
  case pop => cases s.deque.isEmpty <;> simp [WPc.toEnd]
  case popLock => cases s.held <;> simp [WPc.toEnd]
  case popUnlock vs => cases vs.isEmpty <;> simp [WPc.toEnd]
  case steal => cases st.isEmpty <;> simp [WPc.toEnd]
  case shared => split <;> simp [WPc.toEnd]
  case cmp => split <;> simp [WPc.toEnd]
  case lock =>
    have := owner_idle hi hcM (by rw [e]; rfl)
    simp [this, WPc.toEnd]
  case woken late =>
    have := owner_idle hi hcM (by rw [e]; rfl)
    simp [this, WPc.toEnd]
  case rd w i =>
    unfold PrSt.rdStep
    split
    · cases w <;> simp only [WPc.toEnd] <;> omega
    · rename_i hr
      split
      · simp only [WPc.toEnd]; omega
      · exfalso
        obtain ⟨j, rfl⟩ : ∃ j, i = j + 3 := ⟨i - 3, by omega⟩
        simp [PrSt.readyAt, hl] at hr
  case sleep =>
    exfalso
    obtain ⟨u, hu⟩ := hi.sleepy.z3 e hl
    rcases hc u with h | h <;> rw [h] at hu <;> cases hu
  case gone => exact absurd e hg
  all_goals simp [WPc.toEnd]

/-- Once somebody destroys the thread, and calls end, it ends, and everybody returns. -/
theorem ends (hf : Fair cf n σ) {N : Nat} (hq : ∀ k, N ≤ k → (σ k).quiet) {k0 : Nat} (he : Ending (trace cf n σ k0)) :
    ∃ K, ∀ k, K ≤ k → (trace cf n σ k).pc = .gone ∧ ∀ t, (trace cf n σ k).cpc t = .idle := by
  obtain ⟨M, hM, hc⟩ := clients_settle hf hq
  have later : ∀ d, Ending (trace cf n σ (k0 + d)) := by
    intro d
    induction d with
    | zero => exact he
    | succ d ih => exact ending_step ih _
  have hdown : ∀ k, k0 + M ≤ k → (trace cf n σ k).live = false := by
    intro k hk
    have := later (k - k0)
    rw [show k0 + (k - k0) = k by omega] at this
    rcases this with h | ⟨t, h⟩
    · exact h
    · rcases hc k (by omega) t with h2 | ⟨h2, -⟩ <;> rw [h2] at h <;> simp at h
  have hg : ∃ K, k0 + M ≤ K ∧ (trace cf n σ K).pc = .gone := by
    apply Classical.byContradiction
    intro hno
    have hng : ∀ k, k0 + M ≤ k → (trace cf n σ k).pc ≠ .gone := fun k hk h => hno ⟨k, hk, h⟩
    have hlt : ∀ k, k0 + M ≤ k → ∀ st ms, σ k = .prim st ms →
        (trace cf n σ (k + 1)).pc.toEnd < (trace cf n σ k).pc.toEnd := by
      intro k hk st ms e
      show ((trace cf n σ k).step cf n (σ k)).pc.toEnd < _
      rw [e]
      exact toEnd_prim (inv_trace cf n σ k) (fun t => (hc k (by omega) t).imp id And.left) (hdown k hk) (hng k hk) st ms
    refine no_descent (f := fun k => (trace cf n σ k).pc.toEnd) (m := k0 + M) (fun k hk => ?_) fun k hk => ?_
    · by_cases hp : ∃ st ms, σ k = .prim st ms
      · obtain ⟨st, ms, e⟩ := hp
        exact Nat.le_of_lt (hlt k hk st ms e)
      · rcases (still_step (cf := cf) (n := n) (hc k (by omega)) (hq k (by omega))
          (fun st ms e => hp ⟨st, ms, e⟩)).2.2 with h | h | ⟨b, b', h, h'⟩
        · exact Nat.le_of_eq (congrArg WPc.toEnd h)
        · exfalso
          obtain ⟨u, hu⟩ := (inv_trace cf n σ k).sleepy.z3 h (hdown k hk)
          rcases hc k (by omega) u with h2 | ⟨h2, -⟩ <;> rw [h2] at hu <;> cases hu
        · have h' : (trace cf n σ (k + 1)).pc = .woken b' := h'
          simp only [h, h', WPc.toEnd]; exact Nat.le_refl _
    · obtain ⟨i, hi, st, ms, e⟩ := hf.prim k
      exact ⟨i, hi, hlt i (by omega) st ms e⟩
  obtain ⟨K, hK, hgone⟩ := hg
  refine ⟨K, fun k hk => ?_⟩
  have h1 : (trace cf n σ k).pc = .gone := by
    have := gone_later hgone (k - K); rwa [show K + (k - K) = k by omega] at this
  exact ⟨h1, fun t => (hc k (by omega) t).resolve_right fun h => h.2 h1⟩

end
end CGraph.Prim
