import Verif.Lemmas.PubSub

/-! # C112 — publishers and subscribers of a topic on many threads -/
namespace CGraph.PubSub
open Chan PsSt Spec

set_option maxHeartbeats 1000000

variable {α : Type}

/-! ### every queue by itself -/

/-- What an action is for queue `i`. -/
def proj (c : PsCfg) (i : Nat) (s : PsSt α) : PsAct α → ChAct α
  | .pub t v st => if i = 0 ∧ t < c.n ∧ s.free c t = true then .callSend t v st else .step c.n 0
  | .sub t j => if i = j ∧ t < c.n ∧ s.free c t = true then .callRecv t else .step c.n 0
  | .go j t w => if i = j then .step t w else .step c.n 0
  | .next t =>
    match s.pub t with
    | .out => .step c.n 0
    | .at j v st => if i = j + 1 ∧ ((s.chan j).pc t).isIdle = true then .callSend t v st else .step c.n 0
  | .spurious j t => if i = j then .spurious t else .step c.n 0
  | .expire j t => if i = j then .expire t else .step c.n 0

theorem noop (n : Nat) (q : ChSt α) : q.step n (.step n 0) = none := by simp [ChSt.step]

theorem proj_in {c : PsCfg} {i j : Nat} (hi : i < c.k) (s : PsSt α) (a : ChAct α) :
    ((s.inChan c j a).getD s).chan i = ((s.chan i).step c.n (if i = j then a else .step c.n 0)).getD (s.chan i) := by
  by_cases hij : i = j
  · subst hij
    simp only [inChan, hi, if_true]
    cases hq : (s.chan i).step c.n a <;> simp [setChan]
  · simp only [hij, if_false, noop, Option.getD_none]
    unfold inChan
    split
    · cases hq : (s.chan j).step c.n a <;> simp [setChan, hij]
    · rfl

theorem proj_enter {c : PsCfg} {i j t : Nat} (hi : i < c.k) (s s0 : PsSt α) (h0 : s0.chan = s.chan) (v : α) (st : PushStrategy) :
    ((s0.enter c t j v st).getD s).chan i =
      ((s.chan i).step c.n (if i = j then .callSend t v st else .step c.n 0)).getD (s.chan i) := by
  by_cases hij : i = j
  · subst hij
    simp only [enter, hi, if_true, h0]
    cases hq : (s.chan i).step c.n (.callSend t v st) <;> simp [setChan, setPub]
  · simp only [hij, if_false, noop, Option.getD_none]
    unfold enter
    split
    · cases hq : (s0.chan j).step c.n (.callSend t v st) <;> simp [setChan, setPub, hij, h0]
    · simp [setPub, h0]

theorem proj_step {c : PsCfg} {i : Nat} (hi : i < c.k) (s : PsSt α) (a : PsAct α) :
    ((s.step c a).getD s).chan i = ((s.chan i).step c.n (proj c i s a)).getD (s.chan i) := by
  cases a with
  | pub t v st =>
    simp only [step, proj]
    by_cases h : t < c.n ∧ s.free c t = true
    · simp only [h, and_self, if_true, and_true]
      exact proj_enter hi s { s with pubs := s.pubs ++ [(t, v, st)] } rfl v st
    · simp [h, noop]
  | sub t j =>
    simp only [step, proj]
    by_cases h : t < c.n ∧ s.free c t = true
    · simp only [h, and_self, if_true, and_true]
      exact proj_in hi s _
    · simp [h, noop]
  | go j t w => exact proj_in hi s _
  | next t =>
    simp only [step, proj]
    cases hp : s.pub t with
    | out => simp [noop]
    | «at» j v st =>
      simp only
      by_cases h : ((s.chan j).pc t).isIdle = true
      · simp only [h, if_true, and_true]
        exact proj_enter hi s _ rfl v st
      · simp [h, noop]
  | spurious j t => exact proj_in hi s _
  | expire j t => exact proj_in hi s _

/-- Queue `i` follows a schedule of its own. -/
theorem trace_chan (c : PsCfg) (σ : Nat → PsAct α) {i : Nat} (hi : i < c.k) (m : Nat) :
    (PsSt.trace c σ m).chan i = ChSt.trace c.n (c.size i) (fun m => proj c i (PsSt.trace c σ m) (σ m)) m := by
  induction m with
  | zero => rfl
  | succ m ih => simp only [PsSt.trace, ChSt.trace, proj_step hi, ih]

/-- **C112 (each)** However publishers and receivers interleave, what happened to the queue of each subscriber, in the order in which
it took effect, is a history of the channel of C05. -/
theorem C112_each (c : PsCfg) (σ : Nat → PsAct α) (m i : Nat) (hi : i < c.k) (hs : 2 ≤ c.size i) :
    (chanRun (c.size i - 1) [] (((PsSt.trace c σ m).chan i).log.map fun e => e.2.op)).2 =
      ((PsSt.trace c σ m).chan i).log.map fun e => e.2.out := by
  rw [trace_chan c σ hi]
  exact C105_history c.n (c.size i) hs _ m

/-- **C112 (order)** Each subscriber is sent the messages of one publisher in the order in which it published them, each once and
none left out: all whose publication returned, at most the current one besides. -/
theorem C112_order (c : PsCfg) (σ : Nat → PsAct α) (m i t : Nat) (hi : i < c.k) :
    let s := PsSt.trace c σ m
    (sents (s.chan i) t = ofThread t s.done ∨ sents (s.chan i) t = ofThread t s.pubs) ∧
    (∃ x, ofThread t s.pubs = ofThread t s.done ++ x ∧ x.length ≤ 1) ∧
    (s.pub t = .out → sents (s.chan i) t = ofThread t s.pubs ∧ ofThread t s.pubs = ofThread t s.done) := by
  intro s
  have inv : Inv c s := trace_inv c σ m
  have hs := inv.seen t i hi
  have hp := inv.pubs t
  refine ⟨?_, ⟨_, hp, by cases s.pub t <;> simp [PbPc.open]⟩, ?_⟩
  · cases h : s.pub t with
    | out => rw [h] at hs; exact .inl hs.2
    | «at» j v st =>
      rw [h] at hs hp
      rcases hs with ⟨_, _, h⟩ | ⟨_, _, h⟩ | ⟨_, _, h⟩ | ⟨_, _, h⟩
      · exact .inr (h.trans hp.symm)
      · exact .inl h
      · exact .inr (h.trans hp.symm)
      · exact .inl h
  · intro h
    rw [h] at hs hp
    simp only [PbPc.open, List.append_nil] at hp
    exact ⟨hs.2.trans hp.symm, hp⟩

/-! ### one order for all subscribers -/

/-- Publications do not overlap up to step `m`. -/
def Alone (c : PsCfg) (σ : Nat → PsAct α) (m : Nat) : Prop :=
  ∀ m', m' ≤ m → ∀ t u, (PsSt.trace c σ m').pub t ≠ .out → (PsSt.trace c σ m').pub u ≠ .out → t = u

/-- All queues follow the publications. -/
structure Line (c : PsCfg) (s : PsSt α) : Prop where
  pubs : (∀ t, s.pub t = .out) → s.pubs = s.done
  cur : ∀ t i v st, s.pub t = .at i v st → s.pubs = s.done ++ [(t, v, st)]
  all : ∀ j, j < c.k → allSents (s.chan j) = s.done ∨ ∃ t i v st, s.pub t = .at i v st ∧ allSents (s.chan j) = s.done ++ [(t, v, st)]

theorem line_in {c : PsCfg} {s s' : PsSt α} (inv : Inv c s) (h : Line c s)
    (al : ∀ t u, s.pub t ≠ .out → s.pub u ≠ .out → t = u) {i : Nat} {a : ChAct α}
    (ha : inner a = true ∨ ∃ t, a = .callRecv t) (hs : s.inChan c i a = some s') : Line c s' := by
  unfold inChan at hs
  split at hs
  · rename_i hi
    split at hs
    · simp at hs
    · rename_i q hq
      cases hs
      refine ⟨h.pubs, h.cur, fun j hj => ?_⟩
      simp only [setChan]
      split
      · rename_i hji; subst hji
        rcases ha with ha | ⟨t, rfl⟩
        · cases chan_view ha hq with
          | other u h1 h3 h4 => rw [h3]; exact h.all j hj
          | put u v st h1 h2 h3 h4 =>
            have hs := inv.seen u j hj
            cases hp : s.pub u with
            | out => rw [hp] at hs; rcases hs.1 with h | h <;> rw [h1] at h <;> simp at h
            | «at» i' v' st' =>
              rw [hp] at hs
              rcases hs with ⟨_, h, _⟩ | ⟨_, h, hd⟩ | ⟨_, h | h, _⟩ | ⟨_, h, _⟩ <;> rw [h1] at h <;> try simp at h
              obtain ⟨rfl, rfl⟩ := h
              right
              refine ⟨u, i', v, st, hp, ?_⟩
              rw [h3]
              rcases h.all j hj with h5 | ⟨w, i2, v2, st2, h5, h6⟩
              · rw [h5]
              · have : w = u := al w u (by rw [h5]; simp) (by rw [hp]; simp)
                subst this
                rw [sents, h6, of_snoc_self] at hd
                simp at hd
        · obtain ⟨_, _, rfl⟩ := chan_recv hq
          exact h.all j hj
      · exact h.all j hj
  · simp at hs

theorem line_step {c : PsCfg} {s s' : PsSt α} (inv : Inv c s) (h : Line c s)
    (al : ∀ t u, s.pub t ≠ .out → s.pub u ≠ .out → t = u) (al' : ∀ t u, s'.pub t ≠ .out → s'.pub u ≠ .out → t = u)
    {a : PsAct α} (hs : s.step c a = some s') : Line c s' := by
  cases a with
  | pub t v st =>
    simp only [step] at hs
    split at hs
    · rename_i hh
      obtain ⟨h1, h2⟩ := free_idle hh.2
      unfold enter at hs
      split at hs
      · split at hs
        · simp at hs
        · rename_i q hq
          cases hs
          obtain ⟨_, h3, rfl⟩ := chan_send hq
          have hout : ∀ u, s.pub u = .out := by
            intro u
            by_cases hu : u = t
            · rw [hu, h1]
            · have := al' u t
              simp only [setChan, setPub, hu, if_false, if_true] at this
              by_contra hc
              exact this hc (by simp)
          have hpd := h.pubs hout
          refine ⟨fun hall => ?_, fun u i x y hu => ?_, fun j hj => ?_⟩
          · have := hall t; simp [setPub] at this
          · simp only [setPub, setChan] at hu
            split at hu
            · rename_i hut; cases hu; subst hut; simp [setPub, setChan, hpd]
            · rw [hout u] at hu; simp at hu
          · left
            have h4 : allSents (s.chan j) = s.done := by
              rcases h.all j hj with h4 | ⟨w, i2, v2, st2, h5, _⟩
              · exact h4
              · rw [hout w] at h5; simp at h5
            simp only [setChan, setPub]
            split
            · rename_i hji; subst hji; exact h4
            · exact h4
      · cases hs
        rename_i hk
        have hk : c.k = 0 := by omega
        have hout : ∀ u, s.pub u = .out := by
          intro u
          cases hp : s.pub u with
          | out => rfl
          | «at» i x y => have := (inv.idx u i x y hp).1; omega
        refine ⟨fun _ => ?_, fun u i x y hu => ?_, fun j hj => by omega⟩
        · simp [setPub, h.pubs hout]
        · simp only [setPub] at hu
          split at hu
          · simp at hu
          · rw [hout u] at hu; simp at hu
    · simp at hs
  | sub t i =>
    simp only [step] at hs
    split at hs
    · exact line_in inv h al (.inr ⟨t, rfl⟩) hs
    · simp at hs
  | go i t j => exact line_in inv h al (.inl rfl) hs
  | next t =>
    simp only [step] at hs
    split at hs
    · simp at hs
    · rename_i i v st hp
      split at hs
      · rename_i hid
        have hid := phase_idle.2 hid
        have hother : ∀ u, u ≠ t → s.pub u = .out := by
          intro u hu
          by_contra hc
          exact hu (al u t hc (by rw [hp]; simp))
        unfold enter at hs
        split at hs
        · split at hs
          · simp at hs
          · rename_i q hq
            cases hs
            obtain ⟨_, h3, rfl⟩ := chan_send hq
            refine ⟨fun hall => ?_, fun u i' x y hu => ?_, fun j hj => ?_⟩
            · have := hall t; simp [setPub] at this
            · simp only [setPub, setChan] at hu
              split at hu
              · rename_i hut; cases hu; subst hut; exact h.cur _ _ _ _ hp
              · exact h.cur _ _ _ _ hu
            · have h4 : allSents ((s.setChan (i + 1) ((s.chan (i + 1)).setPc t (.send v st))).chan j) = allSents (s.chan j) := by
                simp only [setChan]
                split
                · rename_i hji; subst hji; rfl
                · rfl
              show allSents ((s.setChan (i + 1) ((s.chan (i + 1)).setPc t (.send v st))).chan j) = s.done ∨ _
              rw [h4]
              rcases h.all j hj with h5 | ⟨w, i2, v2, st2, h5, h6⟩
              · exact .inl h5
              · have hw : w = t := by
                  by_contra hw
                  rw [hother w hw] at h5; simp at h5
                subst hw
                rw [hp] at h5
                cases h5
                refine .inr ⟨w, i + 1, v, st, by simp [setPub], ?_⟩
                show allSents ((s.setChan (i + 1) ((s.chan (i + 1)).setPc w (.send v st))).chan j) = _
                rw [h4]
                exact h6
        · rename_i hk
          cases hs
          refine ⟨fun _ => h.cur _ _ _ _ hp, fun u i' x y hu => ?_, fun j hj => .inl ?_⟩
          · simp only [setPub] at hu
            split at hu
            · simp at hu
            · rename_i hut; rw [hother u hut] at hu; simp at hu
          · show allSents (s.chan j) = s.done ++ [(t, v, st)]
            have hseen := inv.seen t j hj
            rw [hp] at hseen
            have hsent : sents (s.chan j) t = ofThread t s.done ++ [(v, st)] := by
              rcases hseen with ⟨_, _, h⟩ | ⟨rfl, h, _⟩ | ⟨_, _, h⟩ | ⟨h, _⟩
              · exact h
              · rw [hid] at h; simp at h
              · exact h
              · omega
            rcases h.all j hj with h5 | ⟨w, i2, v2, st2, h5, h6⟩
            · rw [sents, h5] at hsent; simp at hsent
            · have hw : w = t := by
                by_contra hw
                rw [hother w hw] at h5; simp at h5
              subst hw
              rw [hp] at h5
              cases h5
              exact h6
      · simp at hs
  | spurious i t => exact line_in inv h al (.inl rfl) hs
  | expire i t => exact line_in inv h al (.inl rfl) hs

theorem line_trace (c : PsCfg) (σ : Nat → PsAct α) (m : Nat) (al : Alone c σ m) : Line c (PsSt.trace c σ m) := by
  induction m with
  | zero => exact ⟨fun _ => rfl, fun t i v st h => by simp [PsSt.trace, PsSt.init] at h, fun j _ => .inl rfl⟩
  | succ m ih =>
    have ih := ih fun m' h => al m' (by omega)
    have al1 := al m (by omega)
    have al2 := al (m + 1) (by omega)
    simp only [PsSt.trace] at al2 ⊢
    cases hs : (PsSt.trace c σ m).step c (σ m) with
    | none => exact ih
    | some s' =>
      rw [hs] at al2
      exact line_step (trace_inv c σ m) ih al1 al2 hs

/-- **C112 (one order, what holds)** If publications do not overlap, all subscribers are sent the messages of all publishers in one
order, that of the publications: each the finished ones, and at most the current one besides. -/
theorem C112_common_partial (c : PsCfg) (σ : Nat → PsAct α) (m : Nat) (al : Alone c σ m) (i : Nat) (hi : i < c.k) :
    let s := PsSt.trace c σ m
    (allSents (s.chan i) = s.done ∨ allSents (s.chan i) = s.pubs) ∧ (s.pubs = s.done ∨ ∃ x, s.pubs = s.done ++ [x]) := by
  intro s
  have h : Line c s := line_trace c σ m al
  constructor
  · rcases h.all i hi with h1 | ⟨t, j, v, st, h1, h2⟩
    · exact .inl h1
    · exact .inr (by rw [h2, h.cur _ _ _ _ h1])
  · by_cases ho : ∀ t, s.pub t = .out
    · exact .inl (h.pubs ho)
    · right
      obtain ⟨t, ht⟩ := Classical.not_forall.1 ho
      cases hp : s.pub t with
      | out => exact absurd hp ht
      | «at» j v st => exact ⟨_, h.cur _ _ _ _ hp⟩

/-- Two threads, two subscribers with room for two messages each. -/
def exCfg : PsCfg := ⟨3, 2, fun _ => 3⟩

/-- Thread 0 publishes 7 and thread 1 publishes 8: the first subscriber gets 7 first, the second gets 8 first. -/
def exCross : List (PsAct Nat) :=
  [.pub 0 7 .WAIT, .go 0 0 0, .go 0 0 0, .pub 1 8 .WAIT, .go 0 1 0, .go 0 1 0, .next 1, .go 1 1 0, .go 1 1 0, .next 1,
   .next 0, .go 1 0 0, .go 1 0 0, .next 0]

/-- A list of actions as an infinite schedule. -/
def ofList (l : List (PsAct α)) (m : Nat) : PsAct α := l.getD m (.next 0)

/-- **C112 (one order)** Two publications that overlap reach two subscribers in different orders. -/
theorem C112_common_violated : ∃ (c : PsCfg) (σ : Nat → PsAct Nat) (m : Nat),
    (∀ i, 2 ≤ c.size i) ∧ c.k = 2 ∧ (PsSt.trace c σ m).done.length = 2 ∧
    allSents ((PsSt.trace c σ m).chan 0) = [(0, 7, .WAIT), (1, 8, .WAIT)] ∧
    allSents ((PsSt.trace c σ m).chan 1) = [(1, 8, .WAIT), (0, 7, .WAIT)] :=
  ⟨exCfg, ofList exCross, 14, fun i => by simp [exCfg], rfl, by decide, by decide, by decide⟩

/-! ### publications return -/

/-- Every thread is scheduled again and again, in each queue and in the loop. -/
structure Fair (c : PsCfg) (σ : Nat → PsAct α) : Prop where
  go : ∀ t, t < c.n → ∀ i, i < c.k → ∀ m, ∃ m', m ≤ m' ∧ ∃ j, σ m' = .go i t j
  next : ∀ t, t < c.n → ∀ m, ∃ m', m ≤ m' ∧ σ m' = .next t

theorem Fair.chan {c : PsCfg} {σ : Nat → PsAct α} (h : Fair c σ) {i : Nat} (hi : i < c.k) :
    Chan.Fair c.n (fun m => proj c i (PsSt.trace c σ m) (σ m)) := by
  intro t ht m
  obtain ⟨m', h1, j, h2⟩ := h.go t ht i hi m
  exact ⟨m', h1, j, by simp only [h2, proj, if_true]⟩

theorem told_idle {n size : Nat} (hn : 2 ≤ size) {σ : Nat → ChAct α} (hf : Chan.Fair n σ) {m t : Nat} (ht : t < n)
    (h : phase ((ChSt.trace n size σ m).pc t) = .told) :
    ∃ m', m ≤ m' ∧ phase ((ChSt.trace n size σ m').pc t) = .idle := by
  have hp : (ChSt.trace n size σ m).pc t = .tellRecv := by
    cases hq : (ChSt.trace n size σ m).pc t <;> rw [hq] at h <;> simp [phase] at h
  obtain ⟨m2, h4, h5, k, h6⟩ := moves hn σ hf (t := t) (m := m) ht (by rw [hp]; simp)
    (by rw [hp]; rfl) (by rw [hp]; rfl)
  rw [hp] at h5
  refine ⟨m2 + 1, by omega, ?_⟩
  simp only [ChSt.trace, h6, ChSt.step, ht, if_true, h5, Option.getD_some]
  rw [(phase_notify ..).1]
  simp [ChSt.setPc, phase]

theorem put_idle {n size : Nat} (hn : 2 ≤ size) {σ : Nat → ChAct α} (hf : Chan.Fair n σ) {m t : Nat} {v : α} {st : PushStrategy}
    (ht : t < n) (hst : st ≠ .WAIT) (h : phase ((ChSt.trace n size σ m).pc t) = .pend v st) :
    ∃ m', m ≤ m' ∧ phase ((ChSt.trace n size σ m').pc t) = .idle := by
  have hp : (ChSt.trace n size σ m).pc t = .send v st := by
    cases hq : (ChSt.trace n size σ m).pc t <;> rw [hq] at h <;> simp [phase] at h
    · rw [h.1, h.2]
    · exact absurd h.2.symm hst
    · exact absurd h.2.symm hst
  obtain ⟨m2, h4, h5, k, h6⟩ := moves hn σ hf (t := t) (m := m) ht (by rw [hp]; simp)
    (by rw [hp]; rfl) (by rw [hp]; rfl)
  rw [hp] at h5
  obtain ⟨q', o, h7, _⟩ := Ring.rel_push hn (Chan.trace_inv (n := n) hn σ m2).rel v st
  have hb : o ≠ .blocked := by
    rintro rfl
    unfold Ring.push at h7
    split at h7
    · simp at h7
    · cases hq : (ChSt.trace n size σ m2).ring.write v <;> simp [hq] at h7
    · cases st with
      | WAIT => exact hst rfl
      | REPLACE => simp only at h7; cases hq : ({ (ChSt.trace n size σ m2).ring with head := ((ChSt.trace n size σ m2).ring.head + 1) % (ChSt.trace n size σ m2).ring.capacity } : Ring α).write v <;> simp [hq] at h7
      | DROP => simp at h7
  have hnext : phase ((ChSt.trace n size σ (m2 + 1)).pc t) = .told ∨ phase ((ChSt.trace n size σ (m2 + 1)).pc t) = .idle := by
    simp only [ChSt.trace, h6, ChSt.step, ht, if_true, h5, ChSt.doSend, h7]
    cases o with
    | blocked => exact absurd rfl hb
    | dropped => right; simp [ChSt.setPc, phase]
    | pushed => left; simp [ChSt.setPc, phase]
    | replaced => left; simp [ChSt.setPc, phase]
  rcases hnext with h | h
  · obtain ⟨m', h1, h2⟩ := told_idle hn hf ht h
    exact ⟨m', by omega, h2⟩
  · exact ⟨m2 + 1, by omega, h⟩

theorem in_pub {c : PsCfg} {s s' : PsSt α} {i : Nat} {a : ChAct α} (h : s.inChan c i a = some s') : s'.pub = s.pub := by
  unfold inChan at h
  split at h
  · split at h
    · simp at h
    · cases h; rfl
  · simp at h

theorem in_idle {c : PsCfg} {s s' : PsSt α} {i j t : Nat} {a : ChAct α} (h : s.inChan c i a = some s')
    (ha : inner a = true ∨ ∃ u, u ≠ t ∧ a = .callRecv u) (hid : phase ((s.chan j).pc t) = .idle) :
    phase ((s'.chan j).pc t) = .idle := by
  unfold inChan at h
  split at h
  · split at h
    · simp at h
    · rename_i q hq
      cases h
      simp only [setChan]
      split
      · rename_i hji; subst hji
        rcases ha with ha | ⟨u, hu, rfl⟩
        · cases chan_view ha hq with
          | put u v st h1 h2 h3 h4 =>
            by_cases hu : t = u
            · subst hu; rw [hid] at h1; simp at h1
            · rw [h4 t hu]; exact hid
          | other u h1 h3 h4 =>
            by_cases hu : t = u
            · subst hu
              rcases h1 with h1 | ⟨h1, h2⟩ | ⟨h1, h2⟩
              · rw [h1]; exact hid
              · exact h2
              · exact h2
            · rw [h4 t hu]; exact hid
        · obtain ⟨_, _, rfl⟩ := chan_recv hq
          simp [ChSt.setPc, Ne.symm hu, hid]
      · exact hid
  · simp at h

theorem enter_other {c : PsCfg} {s s' : PsSt α} {t u i j : Nat} {v : α} {st : PushStrategy} (hu : u ≠ t)
    (h : s.enter c t i v st = some s') : s'.pub u = s.pub u ∧ (s'.chan j).pc u = (s.chan j).pc u := by
  unfold enter at h
  split at h
  · split at h
    · simp at h
    · rename_i q hq
      cases h
      obtain ⟨_, _, rfl⟩ := chan_send hq
      refine ⟨by simp [setPub, setChan, hu], ?_⟩
      simp only [setPub, setChan]
      split
      · rename_i hji; subst hji; simp [ChSt.setPc, hu]
      · rfl
  · cases h
    exact ⟨by simp [setPub, hu], rfl⟩

/-- After a step of a publishing thread it is where it was, or it has gone on. -/
theorem pub_step {c : PsCfg} {s s' : PsSt α} {a : PsAct α} (hs : s.step c a = some s') {t i : Nat} {v : α} {st : PushStrategy}
    (hp : s.pub t = .at i v st) :
    (s'.pub t = .at i v st ∧ (phase ((s.chan i).pc t) = .idle → phase ((s'.chan i).pc t) = .idle)) ∨
    s'.pub t = .at (i + 1) v st ∨ s'.pub t = .out := by
  have hnf : ∀ u, s.free c u = true → u ≠ t := by
    rintro u hf rfl
    have := (free_idle hf).1
    rw [hp] at this; simp at this
  cases a with
  | pub u v' st' =>
    simp only [step] at hs
    split at hs
    · rename_i hh
      obtain ⟨h1, h2⟩ := enter_other (j := i) (Ne.symm (hnf u hh.2)) hs
      left
      refine ⟨h1.trans hp, fun h => ?_⟩
      rw [h2]; exact h
    · simp at hs
  | sub u j =>
    simp only [step] at hs
    split at hs
    · rename_i hh
      left
      exact ⟨by rw [in_pub hs, hp], in_idle hs (.inr ⟨u, hnf u hh.2, rfl⟩)⟩
    · simp at hs
  | go j u w => left; exact ⟨by rw [in_pub hs, hp], in_idle hs (.inl rfl)⟩
  | spurious j u => left; exact ⟨by rw [in_pub hs, hp], in_idle hs (.inl rfl)⟩
  | expire j u => left; exact ⟨by rw [in_pub hs, hp], in_idle hs (.inl rfl)⟩
  | next u =>
    simp only [step] at hs
    split at hs
    · simp at hs
    · rename_i j v' st' hq
      split at hs
      · by_cases hu : t = u
        · subst hu
          rw [hp] at hq
          cases hq
          right
          unfold enter at hs
          split at hs
          · split at hs
            · simp at hs
            · cases hs; left; simp [setPub]
          · cases hs; right; simp [setPub]
        · obtain ⟨h1, h2⟩ := enter_other (j := i) hu hs
          left
          refine ⟨h1.trans hp, fun h => ?_⟩
          rw [h2]; exact h
      · simp at hs

theorem pub_trace (c : PsCfg) (σ : Nat → PsAct α) {m t i : Nat} {v : α} {st : PushStrategy}
    (hp : (PsSt.trace c σ m).pub t = .at i v st) :
    ((PsSt.trace c σ (m + 1)).pub t = .at i v st ∧
      (phase (((PsSt.trace c σ m).chan i).pc t) = .idle → phase (((PsSt.trace c σ (m + 1)).chan i).pc t) = .idle)) ∨
    (PsSt.trace c σ (m + 1)).pub t = .at (i + 1) v st ∨ (PsSt.trace c σ (m + 1)).pub t = .out := by
  simp only [PsSt.trace]
  cases hs : (PsSt.trace c σ m).step c (σ m) with
  | none => exact .inl ⟨hp, id⟩
  | some s' => exact pub_step hs hp

/-- Either a publishing thread is still there, or it has gone on in between. -/
theorem pub_later (c : PsCfg) (σ : Nat → PsAct α) {m t i : Nat} {v : α} {st : PushStrategy}
    (hp : (PsSt.trace c σ m).pub t = .at i v st) (d : Nat) :
    ((PsSt.trace c σ (m + d)).pub t = .at i v st ∧
      (phase (((PsSt.trace c σ m).chan i).pc t) = .idle → phase (((PsSt.trace c σ (m + d)).chan i).pc t) = .idle)) ∨
    ∃ m', m ≤ m' ∧ ((PsSt.trace c σ m').pub t = .at (i + 1) v st ∨ (PsSt.trace c σ m').pub t = .out) := by
  induction d with
  | zero => exact .inl ⟨hp, id⟩
  | succ d ih =>
    rcases ih with ⟨h1, h2⟩ | h
    · rcases pub_trace c σ h1 with ⟨h3, h4⟩ | h3
      · exact .inl ⟨h3, fun h => h4 (h2 h)⟩
      · exact .inr ⟨m + d + 1, by omega, h3⟩
    · exact .inr h

/-- A publisher whose send is over goes on. -/
theorem idle_leaves {c : PsCfg} {σ : Nat → PsAct α} (hf : Fair c σ) {m t i : Nat} {v : α} {st : PushStrategy}
    (hp : (PsSt.trace c σ m).pub t = .at i v st) (hid : phase (((PsSt.trace c σ m).chan i).pc t) = .idle) :
    ∃ m', m ≤ m' ∧ ((PsSt.trace c σ m').pub t = .at (i + 1) v st ∨ (PsSt.trace c σ m').pub t = .out) := by
  have ht := ((trace_inv c σ m).idx t i v st hp).2
  obtain ⟨m1, h1, h2⟩ := hf.next t ht m
  obtain ⟨d, rfl⟩ := Nat.exists_eq_add_of_le h1
  rcases pub_later c σ hp d with ⟨h3, h4⟩ | h
  · refine ⟨m + d + 1, by omega, ?_⟩
    have hidle := h4 hid
    have inv := trace_inv c σ (m + d)
    simp only [PsSt.trace, h2, step, h3, phase_idle.1 hidle, if_true]
    unfold enter
    split
    · rename_i hik
      have hs := inv.seen t (i + 1) hik
      rw [h3] at hs
      have hi1 : phase (((PsSt.trace c σ (m + d)).chan (i + 1)).pc t) = .idle := by
        rcases hs with ⟨h, _⟩ | ⟨h, _⟩ | ⟨h, _⟩ | ⟨_, h, _⟩
        · omega
        · omega
        · omega
        · exact h
      have hpc : ((PsSt.trace c σ (m + d)).chan (i + 1)).pc t = .idle := by
        cases hq : ((PsSt.trace c σ (m + d)).chan (i + 1)).pc t <;> rw [hq] at hi1 <;> simp [phase] at hi1
      simp [ChSt.step, ht, hpc, setPub]
    · right; simp [setPub]
  · exact h

theorem at_last {c : PsCfg} {σ : Nat → PsAct α} (t : Nat) (v : α) (st : PushStrategy)
    (leaves : ∀ m i, (PsSt.trace c σ m).pub t = .at i v st →
      ∃ m', m ≤ m' ∧ ((PsSt.trace c σ m').pub t = .at (i + 1) v st ∨ (PsSt.trace c σ m').pub t = .out)) :
    ∀ d m i, c.k - i = d → (PsSt.trace c σ m).pub t = .at i v st → ∃ m', m ≤ m' ∧ (PsSt.trace c σ m').pub t = .out := by
  intro d
  induction d with
  | zero => intro m i hd hp; have := ((trace_inv c σ m).idx t i v st hp).1; omega
  | succ d ih =>
    intro m i hd hp
    obtain ⟨m1, h1, h2⟩ := leaves m i hp
    rcases h2 with h2 | h2
    · obtain ⟨m2, h3, h4⟩ := ih m1 (i + 1) (by omega) h2
      exact ⟨m2, by omega, h4⟩
    · exact ⟨m1, h1, h2⟩

/-- From a time on the send is over: the publisher goes on. -/
theorem leaves_of {c : PsCfg} {σ : Nat → PsAct α} (hf : Fair c σ) {m t i : Nat} {v : α} {st : PushStrategy}
    (hp : (PsSt.trace c σ m).pub t = .at i v st)
    (h : ∃ m', m ≤ m' ∧ phase (((PsSt.trace c σ m').chan i).pc t) = .idle) :
    ∃ m', m ≤ m' ∧ ((PsSt.trace c σ m').pub t = .at (i + 1) v st ∨ (PsSt.trace c σ m').pub t = .out) := by
  obtain ⟨m', h1, h2⟩ := h
  obtain ⟨d, rfl⟩ := Nat.exists_eq_add_of_le h1
  rcases pub_later c σ hp d with ⟨h3, _⟩ | h
  · obtain ⟨m2, h4, h5⟩ := idle_leaves hf h3 h2
    exact ⟨m2, by omega, h5⟩
  · exact h

/-- **C112 (publishing without waiting)** A publication with DROP or REPLACE returns under every fair schedule, whatever the
subscribers and the other publishers do. -/
theorem C112_returns_nowait (c : PsCfg) (hn : ∀ i, i < c.k → 2 ≤ c.size i) (σ : Nat → PsAct α) (hf : Fair c σ) (m t i : Nat) (v : α)
    (st : PushStrategy) (hst : st ≠ .WAIT) (hp : (PsSt.trace c σ m).pub t = .at i v st) :
    ∃ m', m ≤ m' ∧ (PsSt.trace c σ m').pub t = .out := by
  refine at_last t v st (fun m i hp => leaves_of hf hp ?_) _ m i rfl hp
  have inv := trace_inv c σ m
  obtain ⟨hi, ht⟩ := inv.idx t i v st hp
  have hs := inv.seen t i hi
  have key := fun m => trace_chan c σ hi m
  rw [hp] at hs
  rcases hs with ⟨h, _⟩ | ⟨_, h, _⟩ | ⟨_, h | h, _⟩ | ⟨h, _⟩
  · omega
  · rw [key] at h
    obtain ⟨m', h1, h2⟩ := put_idle (hn i hi) (hf.chan hi) ht hst h
    exact ⟨m', h1, by rw [key]; exact h2⟩
  · rw [key] at h
    obtain ⟨m', h1, h2⟩ := told_idle (hn i hi) (hf.chan hi) ht h
    exact ⟨m', h1, by rw [key]; exact h2⟩
  · exact ⟨m, Nat.le_refl _, h⟩
  · omega

/-- **C112 (publishing, what holds)** A publication with WAIT returns under every fair schedule if every subscriber keeps receiving
and no other thread publishes. -/
theorem C112_returns_partial (c : PsCfg) (hn : ∀ i, i < c.k → 2 ≤ c.size i) (σ : Nat → PsAct α) (hf : Fair c σ) (m t i : Nat) (v : α)
    (st : PushStrategy) (hp : (PsSt.trace c σ m).pub t = .at i v st)
    (hone : ∀ m' u, m ≤ m' → u ≠ t → (PsSt.trace c σ m').pub u = .out)
    (hrecv : ∀ j, j < c.k → ∀ m', ∃ m'', m' ≤ m'' ∧ ∃ r, (((PsSt.trace c σ m'').chan j).pc r).wantsRecv = true) :
    ∃ m', m ≤ m' ∧ (PsSt.trace c σ m').pub t = .out := by
  by_cases hst : st = .WAIT
  case neg => exact C112_returns_nowait c hn σ hf m t i v st hst hp
  subst hst
  have gen : ∀ d m1 i, m ≤ m1 → c.k - i = d → (PsSt.trace c σ m1).pub t = .at i v .WAIT →
      ∃ m', m1 ≤ m' ∧ (PsSt.trace c σ m').pub t = .out := by
    intro d
    induction d with
    | zero => intro m1 i _ hd hp; have := ((trace_inv c σ m1).idx t i v _ hp).1; omega
    | succ d ih =>
      intro m1 i hm hd hp
      have inv := trace_inv c σ m1
      obtain ⟨hi, ht⟩ := inv.idx t i v _ hp
      have hs := inv.seen t i hi
      have key := fun m => trace_chan c σ hi m
      have hidle : ∃ m', m1 ≤ m' ∧ phase (((PsSt.trace c σ m').chan i).pc t) = .idle := by
        rw [hp] at hs
        rcases hs with ⟨h, _⟩ | ⟨_, h, _⟩ | ⟨_, h | h, _⟩ | ⟨h, _⟩
        · omega
        · rw [key] at h
          have hw : ∀ q : ChPc α, phase q = .pend v .WAIT → q = .send v .WAIT ∨ q = .sendSleep v ∨ q = .sendWoken v := by
            intro q hq
            cases q <;> simp [phase] at hq
            · exact .inl (by rw [hq.1, hq.2])
            · exact .inr (.inl (by rw [hq]))
            · exact .inr (.inr (by rw [hq]))
          obtain ⟨m', h1, h2, _⟩ := C105_wait_one c.n (c.size i) (hn i hi) _ (hf.chan hi) m1 t v (hw _ h)
            (fun j => by
              obtain ⟨m'', h1, r, h2⟩ := hrecv i hi j
              exact ⟨m'', h1, r, by rw [← key]; exact h2⟩)
            (fun j hj u hu => by
              rw [← key]
              have h1 := (trace_inv c σ j).seen u i hi
              rw [hone j u (by omega) hu] at h1
              rcases h1.1 with h | h <;> cases hq : ((PsSt.trace c σ j).chan i).pc u <;> rw [hq] at h <;>
                first | rfl | simp [phase] at h)
          exact ⟨m', h1, by rw [key, h2]; rfl⟩
        · rw [key] at h
          obtain ⟨m', h1, h2⟩ := told_idle (hn i hi) (hf.chan hi) ht h
          exact ⟨m', h1, by rw [key]; exact h2⟩
        · exact ⟨m1, Nat.le_refl _, h⟩
        · omega
      obtain ⟨m2, h1, h2⟩ := leaves_of hf hp hidle
      rcases h2 with h2 | h2
      · obtain ⟨m3, h3, h4⟩ := ih m2 (i + 1) (by omega) (by omega) h2
        exact ⟨m3, by omega, h4⟩
      · exact ⟨m2, h1, h2⟩
  exact gen _ m i (Nat.le_refl _) rfl hp

/-! ### a slow subscriber -/

/-- Room for one message; thread 0 publishes 7, subscriber 1 receives it, thread 0 publishes 8 and sleeps at subscriber 0. -/
def exSlow : List (PsAct Nat) :=
  [.pub 0 7 .WAIT, .go 0 0 0, .go 0 0 0, .next 0, .go 1 0 0, .go 1 0 0, .next 0, .sub 1 1, .go 1 1 0, .go 1 1 0,
   .pub 0 8 .WAIT, .go 0 0 0]

/-- Two or three threads, two subscribers with room for one message each. -/
def exOne : PsCfg := ⟨3, 2, fun _ => 2⟩

/-- Thread 0 sleeps at the full queue of subscriber 0; nobody else is there or publishes. -/
structure Stuck (s : PsSt Nat) : Prop where
  full : (s.chan 0).ring.push 8 .WAIT = some ((s.chan 0).ring, .blocked)
  rest : ∀ u, u ≠ 0 → (s.chan 0).pc u = .idle ∧ s.pub u = .out
  wait : (s.chan 0).pc 0 = .sendSleep 8 ∨ (s.chan 0).pc 0 = .sendWoken 8
  pub : s.pub 0 = .at 0 8 .WAIT
  done : s.done = [(0, 7, .WAIT)]

theorem stuck_in {s s' : PsSt Nat} (h : Stuck s) {i : Nat} {a : ChAct Nat} (ha : inner a = true ∨ i ≠ 0)
    (hs : s.inChan exOne i a = some s') : Stuck s' := by
  unfold inChan at hs
  split at hs
  · split at hs
    · simp at hs
    · rename_i q hq
      cases hs
      by_cases hi : i = 0
      · subst hi
        have ha : inner a = true := by simpa using ha
        have key : (q.ring = (s.chan 0).ring) ∧ (∀ u, u ≠ 0 → q.pc u = .idle) ∧ (q.pc 0 = .sendSleep 8 ∨ q.pc 0 = .sendWoken 8) := by
          cases a with
          | callSend => simp [inner] at ha
          | callRecv => simp [inner] at ha
          | step t j =>
            simp only [ChSt.step] at hq
            split at hq
            · by_cases ht : t = 0
              · subst ht
                rcases h.wait with hw | hw
                · rw [hw] at hq; simp at hq
                · rw [hw] at hq
                  simp only [ChSt.doSend, h.full, Option.some.injEq] at hq
                  subst hq
                  exact ⟨rfl, fun u hu => by simp [ChSt.setPc, hu, (h.rest u hu).1], .inl (by simp [ChSt.setPc])⟩
              · rw [(h.rest t ht).1] at hq; simp at hq
            · simp at hq
          | spurious t =>
            simp only [ChSt.step] at hq
            split at hq
            · rename_i hh
              by_cases ht : t = 0
              · subst ht
                cases hq
                refine ⟨rfl, fun u hu => by simp [ChSt.setPc, hu, (h.rest u hu).1], .inr ?_⟩
                rcases h.wait with hw | hw <;> simp [ChSt.setPc, hw, ChPc.woken]
              · have := hh.2
                rw [(h.rest t ht).1] at this; simp [ChPc.inPush, ChPc.inPop] at this
            · simp at hq
          | expire t =>
            simp only [ChSt.step] at hq
            split at hq
            · rename_i hh
              have := hh.2
              by_cases ht : t = 0
              · subst ht
                rcases h.wait with hw | hw <;> rw [hw] at this <;> simp [ChPc.inPop] at this
              · rw [(h.rest t ht).1] at this; simp [ChPc.inPop] at this
            · simp at hq
        refine ⟨?_, fun u hu => ⟨?_, (h.rest u hu).2⟩, ?_, h.pub, h.done⟩
        · simp only [setChan, if_true, key.1]; exact h.full
        · simp only [setChan, if_true]; exact key.2.1 u hu
        · simp only [setChan, if_true]; exact key.2.2
      · have h0 : (s.setChan i q).chan 0 = s.chan 0 := by simp [setChan, Ne.symm hi]
        exact ⟨by rw [h0]; exact h.full, fun u hu => ⟨by rw [h0]; exact (h.rest u hu).1, (h.rest u hu).2⟩, by rw [h0]; exact h.wait,
          h.pub, h.done⟩
  · simp at hs

theorem stuck_step {s s' : PsSt Nat} (h : Stuck s) {a : PsAct Nat} (h1 : ∀ t v st, a ≠ .pub t v st) (h2 : ∀ t, a ≠ .sub t 0)
    (hs : s.step exOne a = some s') : Stuck s' := by
  cases a with
  | pub t v st => exact absurd rfl (h1 t v st)
  | sub t i =>
    simp only [step] at hs
    split at hs
    · exact stuck_in h (.inr (by rintro rfl; exact h2 t rfl)) hs
    · simp at hs
  | go i t j => exact stuck_in h (.inl rfl) hs
  | spurious i t => exact stuck_in h (.inl rfl) hs
  | expire i t => exact stuck_in h (.inl rfl) hs
  | next t =>
    simp only [step] at hs
    by_cases ht : t = 0
    · subst ht
      rw [h.pub] at hs
      rcases h.wait with hw | hw <;> simp [hw, ChPc.isIdle] at hs
    · rw [(h.rest t ht).2] at hs; simp at hs

/-- **C112 (slow subscriber)** A subscriber that does not receive holds back the messages of the others: the queue of subscriber 1
is empty and subscriber 1 may receive as often as it likes, yet the message being published is never sent to it. -/
theorem C112_slow_violated : ∃ (c : PsCfg) (l : List (PsAct Nat)), (∀ i, 2 ≤ c.size i) ∧ c.k = 2 ∧
    ∀ σ : Nat → PsAct Nat, (∀ m a, l[m]? = some a → σ m = a) →
      (∀ m, l.length ≤ m → (∀ t, σ m ≠ .sub t 0) ∧ ∀ t v st, σ m ≠ .pub t v st) →
      ∀ m, l.length ≤ m → (PsSt.trace c σ m).pubs = [(0, 7, .WAIT), (0, 8, .WAIT)] ∧ (PsSt.trace c σ m).pub 0 = .at 0 8 .WAIT ∧
        sents ((PsSt.trace c σ m).chan 1) 0 = [(7, .WAIT)] := by
  refine ⟨exOne, exSlow, fun i => by simp [exOne], rfl, fun σ h1 h2 m hm => ?_⟩
  have hst : Stuck (PsSt.trace exOne σ m) ∧ (PsSt.trace exOne σ m).pubs = [(0, 7, .WAIT), (0, 8, .WAIT)] := by
    obtain ⟨d, rfl⟩ := Nat.exists_eq_add_of_le hm
    induction d with
    | zero =>
      have e : PsSt.trace exOne σ 12 = PsSt.trace exOne (ofList exSlow) 12 := by
        simp only [PsSt.trace, h1 0 _ rfl, h1 1 _ rfl, h1 2 _ rfl, h1 3 _ rfl, h1 4 _ rfl, h1 5 _ rfl, h1 6 _ rfl, h1 7 _ rfl,
          h1 8 _ rfl, h1 9 _ rfl, h1 10 _ rfl, h1 11 _ rfl]
        rfl
      show Stuck (PsSt.trace exOne σ 12) ∧ (PsSt.trace exOne σ 12).pubs = _
      rw [e]
      refine ⟨⟨rfl, ?_, .inl rfl, rfl, rfl⟩, rfl⟩
      intro u hu
      match u, hu with
      | 1, _ => exact ⟨rfl, rfl⟩
      | u + 2, _ => exact ⟨rfl, rfl⟩
    | succ d ih =>
      obtain ⟨i1, i2⟩ := ih (by omega)
      have h3 := h2 (exSlow.length + d) (by omega)
      show Stuck (((PsSt.trace exOne σ (exSlow.length + d)).step exOne (σ (exSlow.length + d))).getD _) ∧
        (((PsSt.trace exOne σ (exSlow.length + d)).step exOne (σ (exSlow.length + d))).getD _).pubs = _
      cases hs : (PsSt.trace exOne σ (exSlow.length + d)).step exOne (σ (exSlow.length + d)) with
      | none => exact ⟨i1, i2⟩
      | some s' =>
        have i3 := stuck_step i1 h3.2 h3.1 hs
        refine ⟨i3, ?_⟩
        rw [← i2]
        have hin : ∀ i a, (PsSt.trace exOne σ (exSlow.length + d)).inChan exOne i a = some s' →
            s'.pubs = (PsSt.trace exOne σ (exSlow.length + d)).pubs := by
          intro i a h
          unfold inChan at h
          split at h
          · split at h
            · simp at h
            · cases h; rfl
          · simp at h
        cases ha : σ (exSlow.length + d) with
        | pub t v st => exact absurd ha (h3.2 t v st)
        | sub t i =>
          rw [ha] at hs
          simp only [step] at hs
          split at hs
          · exact hin _ _ hs
          · simp at hs
        | go i t j => rw [ha] at hs; exact hin _ _ hs
        | spurious i t => rw [ha] at hs; exact hin _ _ hs
        | expire i t => rw [ha] at hs; exact hin _ _ hs
        | next t =>
          rw [ha] at hs
          simp only [step] at hs
          by_cases ht : t = 0
          · subst ht
            rw [i1.pub] at hs
            rcases i1.wait with hw | hw <;> simp [hw, ChPc.isIdle] at hs
          · rw [(i1.rest t ht).2] at hs; simp at hs
  refine ⟨hst.2, hst.1.pub, ?_⟩
  have hs := (trace_inv exOne σ m).seen 0 1 (by decide)
  rw [hst.1.pub] at hs
  rcases hs with ⟨h, _⟩ | ⟨h, _⟩ | ⟨h, _⟩ | ⟨_, _, h⟩
  · omega
  · omega
  · omega
  · rw [h, hst.1.done]; rfl

/-! ### cases -/

/-- Everybody's turn. -/
def exTurns : List (PsAct Nat) :=
  [.go 0 0 0, .go 1 0 0, .next 0, .go 0 1 0, .go 1 1 0, .next 1, .go 0 2 0, .go 1 2 0, .next 2]

/-- A list of actions, then everybody's turn again and again. -/
def exRun (l : List (PsAct Nat)) (m : Nat) : PsAct Nat :=
  if m < l.length then l.getD m (.next 0) else exTurns.getD (m % 9) (.next 0)

theorem exRun_at (l : List (PsAct Nat)) (m i : Nat) (hi : i < 9) :
    exRun l (9 * (m + l.length) + i) = exTurns.getD i (.next 0) := by
  unfold exRun
  rw [if_neg (by omega), show (9 * (m + l.length) + i) % 9 = i by omega]

theorem exRun_fair (l : List (PsAct Nat)) : Fair exOne (exRun l) where
  go t ht i hi m := by
    match t, i, ht, hi with
    | 0, 0, _, _ => exact ⟨_, by omega, 0, exRun_at l m 0 (by omega)⟩
    | 0, 1, _, _ => exact ⟨_, by omega, 0, exRun_at l m 1 (by omega)⟩
    | 1, 0, _, _ => exact ⟨_, by omega, 0, exRun_at l m 3 (by omega)⟩
    | 1, 1, _, _ => exact ⟨_, by omega, 0, exRun_at l m 4 (by omega)⟩
    | 2, 0, _, _ => exact ⟨_, by omega, 0, exRun_at l m 6 (by omega)⟩
    | 2, 1, _, _ => exact ⟨_, by omega, 0, exRun_at l m 7 (by omega)⟩
    | t + 3, _, h, _ => exact absurd (show t + 3 < 3 from h) (by omega)
    | _, i + 2, _, h => exact absurd (show i + 2 < 2 from h) (by omega)
  next t ht m := by
    match t, ht with
    | 0, _ => exact ⟨_, by omega, exRun_at l m 2 (by omega)⟩
    | 1, _ => exact ⟨_, by omega, exRun_at l m 5 (by omega)⟩
    | 2, _ => exact ⟨_, by omega, exRun_at l m 8 (by omega)⟩
    | t + 3, h => exact absurd (show t + 3 < 3 from h) (by omega)

/-- Thread 1 waits at the full queue of subscriber 0 while thread 0 publishes 9 with DROP: that publication returns. -/
def exDrop : List (PsAct Nat) :=
  [.pub 0 7 .WAIT, .go 0 0 0, .go 0 0 0, .next 0, .go 1 0 0, .go 1 0 0, .next 0, .pub 1 8 .WAIT, .go 0 1 0, .pub 0 9 .DROP]

example : (PsSt.trace exOne (exRun exDrop) 10).pub 1 = .at 0 8 .WAIT ∧
    ∃ m', 10 ≤ m' ∧ (PsSt.trace exOne (exRun exDrop) m').pub 0 = .out :=
  ⟨rfl, C112_returns_nowait exOne (fun _ _ => by simp [exOne]) _ (exRun_fair _) 10 0 0 9 .DROP (by simp) rfl⟩

/-- Thread 0 publishes 7 and 8, asleep at both subscribers in turn; threads 1 and 2 receive both and ask for more. -/
def exWait : List (PsAct Nat) :=
  [.pub 0 7 .WAIT, .go 0 0 0, .go 0 0 0, .next 0, .go 1 0 0, .go 1 0 0, .next 0, .pub 0 8 .WAIT, .go 0 0 0,
   .sub 1 0, .go 0 1 0, .go 0 1 0, .go 0 0 0, .go 0 0 0, .next 0, .go 1 0 0,
   .sub 2 1, .go 1 2 0, .go 1 2 0, .go 1 0 0, .go 1 0 0, .next 0,
   .sub 1 0, .go 0 1 0, .go 0 1 0, .sub 1 0, .go 0 1 0, .sub 2 1, .go 1 2 0, .go 1 2 0, .sub 2 1, .go 1 2 0]

set_option maxRecDepth 100000 in
theorem exWait_end (d : Nat) : PsSt.trace exOne (exRun exWait) (32 + d) = PsSt.trace exOne (exRun exWait) 32 := by
  induction d with
  | zero => rfl
  | succ d ih =>
    show ((PsSt.trace exOne (exRun exWait) (32 + d)).step exOne (exRun exWait (32 + d))).getD
      (PsSt.trace exOne (exRun exWait) (32 + d)) = _
    rw [ih]
    have h : exRun exWait (32 + d) = exTurns.getD ((32 + d) % 9) (.next 0) := by
      unfold exRun; rw [if_neg (by simp [exWait])]
    rw [h]
    have hlt : (32 + d) % 9 < 9 := by omega
    generalize (32 + d) % 9 = i at hlt
    match i, hlt with
    | 0, _ => rfl
    | 1, _ => rfl
    | 2, _ => rfl
    | 3, _ => rfl
    | 4, _ => rfl
    | 5, _ => rfl
    | 6, _ => rfl
    | 7, _ => rfl
    | 8, _ => rfl

theorem exWait_one (m u : Nat) (hu : u ≠ 0) : (PsSt.trace exOne (exRun exWait) m).pub u = .out := by
  have h32 : ∀ m, m ≤ 32 → (PsSt.trace exOne (exRun exWait) m).pub u = .out := by
    intro m
    induction m with
    | zero => intro _; rfl
    | succ m ih =>
      intro hm
      have ih := ih (by omega)
      have hin : ∀ i a, (((PsSt.trace exOne (exRun exWait) m).inChan exOne i a).getD
          (PsSt.trace exOne (exRun exWait) m)).pub u = .out := by
        intro i a
        cases hs : (PsSt.trace exOne (exRun exWait) m).inChan exOne i a with
        | none => exact ih
        | some s' => rw [Option.getD_some, in_pub hs]; exact ih
      have hen : ∀ i v st (s0 : PsSt Nat), s0.pub = (PsSt.trace exOne (exRun exWait) m).pub → ((s0.enter exOne 0 i v st).getD
          (PsSt.trace exOne (exRun exWait) m)).pub u = .out := by
        intro i v st s0 h0
        cases hs : s0.enter exOne 0 i v st with
        | none => exact ih
        | some s' => rw [Option.getD_some, (enter_other (j := 0) hu hs).1, h0]; exact ih
      have ha : (∃ v st, exRun exWait m = .pub 0 v st) ∨ (∃ t i, exRun exWait m = .sub t i) ∨ (∃ i t j, exRun exWait m = .go i t j) ∨
          exRun exWait m = .next 0 := by
        have hlt : m < 32 := by omega
        unfold exRun
        rw [if_pos (by simpa [exWait] using hlt)]
        have : ∀ a ∈ exWait, (∃ v st, a = .pub 0 v st) ∨ (∃ t i, a = .sub t i) ∨ (∃ i t j, a = .go i t j) ∨ a = .next 0 := by
          simp [exWait]
        refine this _ ?_
        rw [List.getD_eq_getElem?_getD, List.getElem?_eq_getElem (by simpa [exWait] using hlt), Option.getD_some]
        exact List.getElem_mem _
      simp only [PsSt.trace]
      rcases ha with ⟨v, st, ha⟩ | ⟨t, i, ha⟩ | ⟨i, t, j, ha⟩ | ha <;> rw [ha] <;> simp only [step]
      · split
        · exact hen _ _ _ _ rfl
        · exact ih
      · split
        · exact hin _ _
        · exact ih
      · exact hin _ _
      · split
        · exact ih
        · split
          · exact hen _ _ _ _ rfl
          · exact ih
  by_cases hm : m ≤ 32
  · exact h32 m hm
  · obtain ⟨d, rfl⟩ := Nat.exists_eq_add_of_le (show 32 ≤ m by omega)
    rw [exWait_end]
    exact h32 32 (by omega)

set_option maxRecDepth 100000 in
example : ((PsSt.trace exOne (exRun exWait) 9).chan 0).pc 0 = .sendSleep 8 ∧
    ((PsSt.trace exOne (exRun exWait) 16).chan 1).pc 0 = .sendSleep 8 ∧
    ∃ m', 9 ≤ m' ∧ (PsSt.trace exOne (exRun exWait) m').pub 0 = .out := by
  refine ⟨rfl, rfl, C112_returns_partial exOne (fun _ _ => by simp [exOne]) _ (exRun_fair _) 9 0 0 8 .WAIT rfl
    (fun m' u _ hu => exWait_one m' u hu) ?_⟩
  intro j hj m'
  refine ⟨32 + m', by omega, ?_⟩
  rw [exWait_end]
  match j, hj with
  | 0, _ => exact ⟨1, rfl⟩
  | 1, _ => exact ⟨2, rfl⟩
  | j + 2, h => exact absurd (show j + 2 < 2 from h) (by omega)

set_option maxRecDepth 100000 in
/-- Each subscriber was sent 7 and 8, and both got both. -/
example : (PsSt.trace exOne (exRun exWait) 32).done = [(0, 7, .WAIT), (0, 8, .WAIT)] ∧
    sents ((PsSt.trace exOne (exRun exWait) 32).chan 1) 0 = [(7, .WAIT), (8, .WAIT)] ∧
    ((PsSt.trace exOne (exRun exWait) 32).chan 0).log.map (·.2.out) = [.accepted, .got 7, .accepted, .got 8] ∧
    ((PsSt.trace exOne (exRun exWait) 32).chan 1).log.map (·.2.out) = [.accepted, .got 7, .accepted, .got 8] :=
  ⟨rfl, rfl, rfl, rfl⟩

/-- With one publisher publications do not overlap. -/
example : allSents ((PsSt.trace exOne (exRun exWait) 16).chan 0) = [(0, 7, .WAIT), (0, 8, .WAIT)] ∧
    allSents ((PsSt.trace exOne (exRun exWait) 16).chan 1) = [(0, 7, .WAIT)] ∧ Alone exOne (exRun exWait) 16 :=
  ⟨rfl, rfl, fun m' _ t u h1 h2 => by
    have h3 : t = 0 := by by_contra h; exact h1 (exWait_one m' t h)
    have h4 : u = 0 := by by_contra h; exact h2 (exWait_one m' u h)
    rw [h3, h4]⟩

end CGraph.PubSub
