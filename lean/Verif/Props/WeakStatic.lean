import Verif.Lemmas.WeakStaticHb
import Verif.Props.Graph
import Verif.Props.Dynamic

/-! # C103: runs of the static engine on weakly ordered memory, with elements that fail

Over `Model/WeakStatic.lean`. -/
namespace CGraph
namespace WeakStatic
open Spec Weak SwSt

/-- Position `i` marks the begin of run `r`, by the caller. -/
def BeginAt (w : SwSt) (r i : Nat) : Prop := w.log[i]? = some ⟨0, .read (.mark r .begin)⟩
/-- Position `i` marks the start of element `e` in run `r`, in thread `t`. -/
def StartAt (w : SwSt) (t r : Nat) (e : Eid) (i : Nat) : Prop := w.log[i]? = some ⟨t, .read (.mark r (.start e))⟩
/-- Position `i` marks the end of element `e` in run `r`. -/
def EndAt (w : SwSt) (r : Nat) (e : Eid) (i : Nat) : Prop := ∃ t, w.log[i]? = some ⟨t, .read (.mark r (.fin e))⟩
/-- Position `i` marks the return of run `r`, with success or not. -/
def ReturnAt (w : SwSt) (r : Nat) (ok : Bool) (i : Nat) : Prop := w.log[i]? = some ⟨0, .read (.mark r (.ret ok))⟩
/-- Position `i` marks that an exception of an element has left run `r`. -/
def LeftAt (w : SwSt) (r i : Nat) : Prop := w.log[i]? = some ⟨0, .read (.mark r .out)⟩

/-- The static engine after a successful `setup` of the graph. -/
def staticCfg (g : Graph) (left0 : Eid → Int) (direct : Eid → Bool) (workers : Nat) : SwCfg := ⟨(g.staticSetup left0).1, direct, workers⟩

section
variable {g : Graph} {left0 : Eid → Int} {direct : Eid → Bool} {workers : Nat} {may : Eid → Nat → Bool → Bool} {w : SwSt}

theorem before_trans {c : SwCfg} (hnd : c.mat.flatten.Nodup) {a b d : Eid} (h : Before c a b) (h' : Before c b d) : Before c a d := by
  obtain ⟨i, j, l, l', h1, h2, h3, h4, h5⟩ := h
  obtain ⟨i', j', m, m', g1, g2, g3, g4, g5⟩ := h'
  have := row_unique hnd h4 h5 g2 g3
  exact ⟨i, j', l, m', by omega, h2, h3, g4, g5⟩

theorem before_of (wf : g.WF) {d e : Eid} (h : Relation.TransGen g.Edge d e) :
    (∃ l ∈ (staticCfg g left0 direct workers).mat, e ∈ l) → Before (staticCfg g left0 direct workers) d e := by
  obtain ⟨ho, hnd, -⟩ := C25_layers g wf left0
  have one : ∀ {d e : Eid}, g.Edge d e → (∃ l ∈ (staticCfg g left0 direct workers).mat, e ∈ l) → Before (staticCfg g left0 direct workers) d e := by
    rintro d e h ⟨l, hl, he⟩
    obtain ⟨j, hj⟩ := List.mem_iff_getElem?.1 hl
    have hlt := lt_of_get hj
    have hsplit : (staticCfg g left0 direct workers).mat =
        (staticCfg g left0 direct workers).mat.take j ++ l :: (staticCfg g left0 direct workers).mat.drop (j + 1) := by
      have := List.drop_eq_getElem_cons hlt
      rw [List.getElem?_eq_getElem hlt] at hj
      rw [Option.some.inj hj] at this
      rw [← this, List.take_append_drop]
    obtain ⟨l', hl', hd⟩ := ho _ l _ hsplit e he d h
    obtain ⟨i, hi⟩ := List.mem_iff_getElem?.1 hl'
    have hij : i < j := by have := lt_of_get hi; simp at this; omega
    exact ⟨i, j, l', l, hij, by rw [List.getElem?_take_of_lt hij] at hi; exact hi, hd, hj, he⟩
  induction h with
  | single h => exact one h
  | tail _ h ih =>
    intro hm
    have h1 := one h hm
    obtain ⟨i, j, l, l', h2, h3, h4, -⟩ := id h1
    exact before_trans hnd (ih ⟨l, List.mem_of_getElem? h3, h4⟩) h1

theorem mark_pos {c : SwCfg} {w : SwSt} (h : Cnt c w) (r : Nat) (e : Eid) : mc w.log r (.start e) ≤ 1 ∧ mc w.log r (.fin e) ≤ 1 := by
  have h1 := h.one r e
  have h2 := h.bal r e
  omega

theorem start_unique {c : SwCfg} {w : SwSt} (h : Cnt c w) {t t' r i j : Nat} {e : Eid} (hi : w.log[i]? = some (mk' t r (.start e)))
    (hj : w.log[j]? = some (mk' t' r (.start e))) : i = j :=
  count_one (mark_pos h r e).1 hi hj (by simp [mk']) (by simp [mk'])

theorem fin_unique {c : SwCfg} {w : SwSt} (h : Cnt c w) {t t' r i j : Nat} {e : Eid} (hi : w.log[i]? = some (mk' t r (.fin e)))
    (hj : w.log[j]? = some (mk' t' r (.fin e))) : i = j :=
  count_one (mark_pos h r e).2 hi hj (by simp [mk']) (by simp [mk'])

/-- An element that has ended does not execute. -/
theorem not_exec {c : SwCfg} {w : SwSt} (h : Cnt c w) {t t' r i : Nat} {e : Eid} (hi : w.log[i]? = some (mk' t r (.fin e))) : ¬ Exec w t' r e := by
  intro he
  have h1 := h.one r e
  have h2 := h.bal r e
  have h3 : 0 < mc w.log r (.fin e) := List.countP_pos_iff.2 ⟨_, List.mem_of_getElem? hi, by simp [mk']⟩
  rcases he with ⟨-, h4, -, h5⟩ | h4
  · simp only [h5, h4, and_self, if_true] at h1 h2 h3
    omega
  · have h5 : 0 < tc w.running r e := List.countP_pos_iff.2 ⟨_, h4, by simp⟩
    omega

/-- Accesses of an element happen before its end. -/
theorem acc_fin {c : SwCfg} (h : All c may w) {p r m t : Nat} {e : Eid} (hp : (p, r, some e) ∈ w.accs) (hm : w.log[m]? = some (mk' t r (.fin e))) :
    WHb w.log p m := by
  obtain ⟨t', n, wr, s, h1, -, -, -, h5⟩ := h.acc.el p r e hp
  rcases h5 with h5 | ⟨m', h5, h6⟩
  · exact absurd h5 (not_exec h.cnt hm)
  · rw [fin_unique h.cnt hm h6]
    exact hb_seq h5 h1 h6 rfl

/-- What happens before the start of an element happens before its accesses. -/
theorem start_acc {c : SwCfg} (h : All c may w) {q r : Nat} {e : Eid} (hq : (q, r, some e) ∈ w.accs) :
    ∃ t s : Nat, w.log[s]? = some (mk' t r (.start e)) ∧ WHb w.log s q := by
  obtain ⟨t', n, wr, s, h1, -, h3, h4, -⟩ := h.acc.el q r e hq
  exact ⟨t', s, h4, hb_seq h3 h4 h1 rfl⟩

theorem order_dep {c : SwCfg} (h : All c may w) {p q r : Nat} {d e : Eid} (hde : Before c d e) (hp : (p, r, some d) ∈ w.accs)
    (hq : (q, r, some e) ∈ w.accs) : WHb w.log p q := by
  obtain ⟨t, s, h1, h2⟩ := start_acc h hq
  obtain ⟨m, t', h3, h4⟩ := (h.hb.st s t r e h1).2.1 d hde
  exact hb_trans (acc_fin h hp h3) (hb_trans h4 h2)

theorem acc_ret {c : SwCfg} (h : All c may w) {p r k : Nat} {d : Eid} {b : Bool} (hp : (p, r, some d) ∈ w.accs)
    (hk : w.log[k]? = some (mk' 0 r (.ret b))) : WHb w.log p k := by
  obtain ⟨t, s, h1, -⟩ := start_acc h hp
  obtain ⟨m, t', h2, h3⟩ := (h.rt.rt k 0 r b hk).2.2.1 s t d h1
  exact hb_trans (acc_fin h hp h2) h3

theorem order_runs {c : SwCfg} (h : All c may w) {p q r r' k : Nat} {d e : Eid} {b : Bool} (hr : r < r') (hk : w.log[k]? = some (mk' 0 r (.ret b)))
    (hp : (p, r, some d) ∈ w.accs) (hq : (q, r', some e) ∈ w.accs) : WHb w.log p q := by
  obtain ⟨t, s, h1, h2⟩ := start_acc h hq
  obtain ⟨i, h3, h4⟩ := (h.hb.st s t r' e h1).1
  exact hb_trans (acc_ret h hp hk) (hb_trans (hb_seq (h.rt.rb k i 0 0 r r' b hk h3 hr) hk h3 rfl) (hb_trans h4 h2))

theorem order_out {c : SwCfg} (h : All c may w) {p q r r' k : Nat} {d : Eid} {b : Bool} (hr : r ≤ r') (hk : w.log[k]? = some (mk' 0 r (.ret b)))
    (hp : (p, r, some d) ∈ w.accs) (hq : (q, r', none) ∈ w.accs) : WHb w.log p q := by
  obtain ⟨⟨n, wr, h1⟩, -, -, -, h2⟩ := h.acc.ca q r' hq
  exact hb_trans (acc_ret h hp hk) (hb_seq (h2 k 0 r b hk hr) hk h1 rfl)

theorem order_in {c : SwCfg} (h : All c may w) {p q r r' : Nat} {e : Eid} (hr : r < r')
    (hp : (p, r, none) ∈ w.accs) (hq : (q, r', some e) ∈ w.accs) : WHb w.log p q := by
  obtain ⟨t, s, h1, h2⟩ := start_acc h hq
  obtain ⟨i, h3, h4⟩ := (h.hb.st s t r' e h1).1
  obtain ⟨⟨n, wr, h5⟩, -, -, h6, -⟩ := h.acc.ca p r hp
  exact hb_trans (hb_seq (h6 i 0 r' h3 hr) h5 h3 rfl) (hb_trans h4 h2)

end

/-- **C103** (order): an element starts at most once in a run, after the begin of the run and after the end of every element it depends on,
directly or not — also in runs with errors and with exceptions.  These orders are happens-before. -/
theorem C103_order (g : Graph) (wf : g.WF) (left0 : Eid → Int) (direct : Eid → Bool) (workers : Nat) (may : Eid → Nat → Bool → Bool)
    (l : List SwAct) (w : SwSt) (hw : w = SwSt.run (staticCfg g left0 direct workers) may SwSt.init l) :
    (∀ t t' r e i j, StartAt w t r e i → StartAt w t' r e j → i = j) ∧
    (∀ t r e i, StartAt w t r e i → e ∈ g.elems ∧ ∃ b, BeginAt w r b ∧ WHb w.log b i) ∧
    (∀ d e, Relation.TransGen g.Edge d e → ∀ t r i, StartAt w t r e i → ∃ k, EndAt w r d k ∧ (∀ k', EndAt w r d k' → k' = k) ∧ WHb w.log k i) := by
  have hL := C25_layers g wf left0
  have h := all_run (c := staticCfg g left0 direct workers) hL.2.1 (may := may) l
  rw [← hw] at h
  refine ⟨fun t t' r e i j hi hj => start_unique h.cnt hi hj, fun t r e i hi => ?_, fun d e hde t r i hi => ?_⟩
  · obtain ⟨h1, -, l', h3, h4⟩ := h.hb.st i t r e hi
    exact ⟨hL.2.2.1 e (List.mem_flatten.2 ⟨l', h3, h4⟩), h1⟩
  · have h1 := h.hb.st i t r e hi
    obtain ⟨k, t', h2, h3⟩ := h1.2.1 d (before_of wf hde h1.2.2)
    exact ⟨k, ⟨t', h2⟩, fun k' ⟨t'', h4⟩ => fin_unique h.cnt h4 h2, h3⟩

/-- **C103** (return): when `run` has returned — with success, with an error, or with the exception for a crash that `CHECK_STATUS` throws — all
elements that it started have ended, which happens-before the return, and none of its tasks is left in the pool; after a return with
success every element has been executed.  A run that is over has returned or an exception of an element has left it. -/
theorem C103_returned (g : Graph) (wf : g.WF) (left0 : Eid → Int) (hs : (g.staticSetup left0).2 = true) (direct : Eid → Bool) (workers : Nat)
    (may : Eid → Nat → Bool → Bool) (l : List SwAct) (w : SwSt) (hw : w = SwSt.run (staticCfg g left0 direct workers) may SwSt.init l) :
    (∀ r ok i, ReturnAt w r ok i →
      (∀ t e j, StartAt w t r e j → ∃ k, EndAt w r e k ∧ (∀ k', EndAt w r e k' → k' = k) ∧ WHb w.log k i) ∧
      (ok = true → ∀ e ∈ g.elems, ∃ k, EndAt w r e k ∧ WHb w.log k i) ∧
      ∀ t ∈ w.queued ++ w.running, t.r ≠ r) ∧
    (∀ r, 0 < r → r < w.nrun ∨ (r = w.nrun ∧ w.busy = false) → ∃ i, (∃ ok, ReturnAt w r ok i) ∨ LeftAt w r i) := by
  have hL := C25_layers g wf left0
  have h := all_run (c := staticCfg g left0 direct workers) hL.2.1 (may := may) l
  rw [← hw] at h
  refine ⟨fun r ok i hi => ?_, fun r h0 hr => h.rt.ro r h0 hr⟩
  obtain ⟨-, -, h2, h3, h4⟩ := h.rt.rt i 0 r ok hi
  refine ⟨fun t e j hj => ?_, fun hok e he => ?_, h4⟩
  · obtain ⟨k, t', h5, h6⟩ := h2 j t e hj
    exact ⟨k, ⟨t', h5⟩, fun k' ⟨t'', h7⟩ => fin_unique h.cnt h7 h5, h6⟩
  · obtain ⟨l', h5, h6⟩ := List.mem_flatten.1 ((hL.2.2.2.2 hs).mem_iff.2 he)
    obtain ⟨k, t', h7, h8⟩ := h3 hok l' h5 e h6
    exact ⟨k, ⟨t', h7⟩, h8⟩

/-- **C103** (visibility): an access of memory by an element happens-before every access, in the same run, by an element that depends on it;
if its run has returned — with success or not — also before every access in later runs and by the caller afterwards.  Accesses by
the caller happen-before those in all later runs. -/
theorem C103_visible (g : Graph) (wf : g.WF) (left0 : Eid → Int) (direct : Eid → Bool) (workers : Nat) (may : Eid → Nat → Bool → Bool)
    (l : List SwAct) (w : SwSt) (hw : w = SwSt.run (staticCfg g left0 direct workers) may SwSt.init l) (p q r r' : Nat) :
    (∀ d e, Relation.TransGen g.Edge d e → (p, r, some d) ∈ w.accs → (q, r, some e) ∈ w.accs → WHb w.log p q) ∧
    (∀ d e ok i, ReturnAt w r ok i → r < r' → (p, r, some d) ∈ w.accs → (q, r', some e) ∈ w.accs → WHb w.log p q) ∧
    (∀ d ok i, ReturnAt w r ok i → r ≤ r' → (p, r, some d) ∈ w.accs → (q, r', none) ∈ w.accs → WHb w.log p q) ∧
    (∀ e, r < r' → (p, r, none) ∈ w.accs → (q, r', some e) ∈ w.accs → WHb w.log p q) := by
  have h := all_run (c := staticCfg g left0 direct workers) (C25_layers g wf left0).2.1 (may := may) l
  rw [← hw] at h
  refine ⟨fun d e hde hp hq => ?_, fun d e ok i hi hr hp hq => order_runs h hr hi hp hq, fun d ok i hi hr hp hq => order_out h hr hi hp hq,
    fun e hr hp hq => order_in h hr hp hq⟩
  obtain ⟨t, s, h1, -⟩ := start_acc h hq
  exact order_dep h (before_of wf hde (h.hb.st s t r e h1).2.2) hp hq

/-- The accesses noted in `accs` are the accesses of memory of the user, made in the element noted. -/
theorem C103_accs (g : Graph) (wf : g.WF) (left0 : Eid → Int) (direct : Eid → Bool) (workers : Nat) (may : Eid → Nat → Bool → Bool)
    (l : List SwAct) (w : SwSt) (hw : w = SwSt.run (staticCfg g left0 direct workers) may SwSt.init l) :
    (∀ p t n, w.log[p]? = some ⟨t, .read (.user n)⟩ ∨ w.log[p]? = some ⟨t, .write (.user n)⟩ → ∃ r oe, (p, r, oe) ∈ w.accs) ∧
    (∀ p r e, (p, r, some e) ∈ w.accs → ∃ t n, ∃ wr : Bool, w.log[p]? = some ⟨t, if wr then .write (.user n) else .read (.user n)⟩ ∧
      may e n wr = true ∧ (∃ i, i < p ∧ StartAt w t r e i) ∧ ∀ j, EndAt w r e j → p < j) ∧
    (∀ p r, (p, r, none) ∈ w.accs → (∃ n, ∃ wr : Bool, w.log[p]? = some ⟨0, if wr then .write (.user n) else .read (.user n)⟩) ∧
      (∀ i ok, ReturnAt w r ok i → i < p) ∧ ∀ i r', BeginAt w r' i → r < r' → p < i) := by
  have h := all_run (c := staticCfg g left0 direct workers) (C25_layers g wf left0).2.1 (may := may) l
  rw [← hw] at h
  refine ⟨fun p t n hp => ?_, fun p r e hp => ?_, fun p r hp => ?_⟩
  · rcases hp with hp | hp
    · exact h.acc.al p t n false hp
    · exact h.acc.al p t n true hp
  · obtain ⟨t, n, wr, s, h1, h2, h3, h4, -⟩ := h.acc.el p r e hp
    exact ⟨t, n, wr, h1, h2, ⟨s, h3, h4⟩, fun j ⟨t', hj⟩ => hb_lt (acc_fin h hp hj)⟩
  · obtain ⟨h1, -, -, h3, h4⟩ := h.acc.ca p r hp
    exact ⟨h1, fun i ok hi => h4 i 0 r ok hi (Nat.le_refl _), fun i r' hi hr => h3 i 0 r' hi hr⟩

/-- **C103** (no races; partial: without exceptions that leave a run): if elements neither of which depends on the other only read the cells that
both access, and no exception of an element has left a run, there is no data race, also when elements return errors: not among
elements, of the same run or different runs, and not with the caller between runs. -/
theorem C103_racefree_partial (g : Graph) (wf : g.WF) (left0 : Eid → Int) (direct : Eid → Bool) (workers : Nat) (may : Eid → Nat → Bool → Bool)
    (hmay : ∀ e ∈ g.elems, ∀ e' ∈ g.elems, e ≠ e' → ¬ Relation.TransGen g.Edge e e' → ¬ Relation.TransGen g.Edge e' e →
      ∀ n wr wr', may e n wr = true → may e' n wr' = true → wr = false ∧ wr' = false)
    (l : List SwAct) (w : SwSt) (hw : w = SwSt.run (staticCfg g left0 direct workers) may SwSt.init l) (hno : ∀ r i, ¬ LeftAt w r i) (i j : Nat) :
    ¬ WRace w.log i j := by
  have hL := C25_layers g wf left0
  have h := all_run (c := staticCfg g left0 direct workers) hL.2.1 (may := may) l
  rw [← hw] at h
  have ret : ∀ r, 0 < r → r < w.nrun ∨ (r = w.nrun ∧ w.busy = false) → ∃ b, ∃ k : Nat, w.log[k]? = some (mk' 0 r (.ret b)) := by
    intro r h0 hr
    obtain ⟨k, ⟨b, h1⟩ | h1⟩ := h.rt.ro r h0 hr
    · exact ⟨b, k, h1⟩
    · exact absurd h1 (hno r k)
  have pos : ∀ p r e, (p, r, some e) ∈ w.accs → 0 < r ∧ r ≤ w.nrun ∧ e ∈ g.elems := by
    intro p r e hp
    obtain ⟨t, s, h1, -⟩ := start_acc h hp
    obtain ⟨⟨b, h2, -⟩, -, l', h4, h5⟩ := h.hb.st s t r e h1
    exact ⟨(h.rt.bg b 0 r h2).2, begin_le h.cnt h1, hL.2.2.1 e (List.mem_flatten.2 ⟨l', h4, h5⟩)⟩
  -- accesses of an element and a later access
  have ee : ∀ {p q r r' : Nat} {d e : Eid}, (p, r, some d) ∈ w.accs → (q, r', some e) ∈ w.accs → r < r' → WHb w.log p q := by
    intro p q r r' d e hp hq hr
    obtain ⟨b, k, hk⟩ := ret r (pos p r d hp).1 (.inl (Nat.lt_of_lt_of_le hr (pos q r' e hq).2.1))
    exact order_runs h hr hk hp hq
  have eo : ∀ {p q r r' : Nat} {d : Eid}, (p, r, some d) ∈ w.accs → (q, r', none) ∈ w.accs → r ≤ r' → WHb w.log p q := by
    intro p q r r' d hp hq hr
    have h1 := h.acc.ca q r' hq
    obtain ⟨b, k, hk⟩ := ret r (pos p r d hp).1 (by
      rcases Nat.lt_or_ge r w.nrun with h2 | h2
      · exact .inl h2
      · have := (pos p r d hp).2.1
        exact .inr ⟨by omega, h1.2.2.1 (by have := h1.2.1; omega)⟩)
    exact order_out h hr hk hp hq
  -- one access or the other comes first
  have tot : ∀ {p q r r' : Nat} {x y : Option Eid}, (p, r, x) ∈ w.accs → (q, r', y) ∈ w.accs → (WHb w.log p q ∨ WHb w.log q p) ∨
      (x = none ∧ y = none) ∨ ∃ d e, x = some d ∧ y = some e ∧ r = r' := by
    intro p q r r' x y hp hq
    cases x with
    | none =>
      cases y with
      | none => exact .inr (.inl ⟨rfl, rfl⟩)
      | some e =>
        rcases Nat.lt_or_ge r r' with h1 | h1
        · exact .inl (.inl (order_in h h1 hp hq))
        · exact .inl (.inr (eo hq hp h1))
    | some d =>
      cases y with
      | none =>
        rcases Nat.lt_or_ge r' r with h1 | h1
        · exact .inl (.inr (order_in h h1 hq hp))
        · exact .inl (.inl (eo hp hq h1))
      | some e =>
        rcases Nat.lt_trichotomy r r' with h1 | h1 | h1
        · exact .inl (.inl (ee hp hq h1))
        · exact .inr (.inr ⟨d, e, rfl, rfl, h1⟩)
        · exact .inl (.inr (ee hq hp h1))
  have nomark : ∀ (r : Nat) (m : SMk) (i : Nat) (t : Nat), w.log[i]? = some ⟨t, .write (.mark r m)⟩ → False :=
    fun r m i t hi => h.loads i _ hi
  rintro ⟨a, b, h1, h2, h3, h4, h5, h6⟩
  obtain ⟨n, wr, wr', ha, hb, hor⟩ : ∃ n wr wr', a.op = access n wr ∧ b.op = access n wr' ∧ (wr = true ∨ wr' = true) := by
    obtain ⟨t, o⟩ := a
    obtain ⟨t', o'⟩ := b
    cases o with
    | read x =>
      cases o' with
      | write y =>
        obtain rfl : x = y := h4
        cases x with
        | user n => exact ⟨n, false, true, rfl, rfl, .inr rfl⟩
        | mark r m => exact (nomark r m j t' h2).elim
      | _ => exact h4.elim
    | write x =>
      cases o' with
      | write y =>
        obtain rfl : x = y := h4
        cases x with
        | user n => exact ⟨n, true, true, rfl, rfl, .inr rfl⟩
        | mark r m => exact (nomark r m j t' h2).elim
      | read y =>
        obtain rfl : x = y := h4
        cases x with
        | user n => exact ⟨n, true, false, rfl, rfl, .inl rfl⟩
        | mark r m => exact (nomark r m i t h1).elim
      | _ => exact h4.elim
    | _ => exact h4.elim
  obtain ⟨ta, oa⟩ := a
  obtain ⟨tb, ob⟩ := b
  simp only at ha hb h3
  subst ha hb
  obtain ⟨r, x, hp⟩ := h.acc.al i ta n wr h1
  obtain ⟨r', y, hq⟩ := h.acc.al j tb n wr' h2
  rcases tot hp hq with (h7 | h7) | ⟨rfl, rfl⟩ | ⟨d, e, rfl, rfl, rfl⟩
  · exact h5 h7
  · exact h6 h7
  · obtain ⟨⟨n1, w1, g1⟩, -⟩ := h.acc.ca i r hp
    obtain ⟨⟨n2, w2, g2⟩, -⟩ := h.acc.ca j r' hq
    rw [h1] at g1
    rw [h2] at g2
    simp only [Option.some.injEq, WAct.mk.injEq] at g1 g2
    exact h3 (by rw [g1.1, g2.1])
  · obtain ⟨t1, n1, w1, s1, g1, g2, g3, g4, -⟩ := h.acc.el i r d hp
    obtain ⟨t2, n2, w2, s2, k1, k2, k3, k4, -⟩ := h.acc.el j r e hq
    rw [h1] at g1
    rw [h2] at k1
    simp only [Option.some.injEq, WAct.mk.injEq] at g1 k1
    have inj : ∀ {n m : Nat} {v u : Bool}, access n v = access m u → n = m ∧ v = u := by
      intro n m v u hh
      cases v <;> cases u <;> simp_all [access]
    obtain ⟨rfl, rfl⟩ := inj g1.2
    obtain ⟨rfl, rfl⟩ := inj k1.2
    by_cases hde : d = e
    · subst hde
      have := start_unique h.cnt g4 k4
      subst this
      rw [g4] at k4
      simp only [mk', Option.some.injEq, WAct.mk.injEq] at k4
      exact h3 (by rw [g1.1, k1.1, k4.1])
    · by_cases e1 : Relation.TransGen g.Edge d e
      · exact h5 (order_dep h (before_of wf e1 (h.hb.st s2 t2 r e k4).2.2) hp hq)
      · by_cases e2 : Relation.TransGen g.Edge e d
        · exact h6 (order_dep h (before_of wf e2 (h.hb.st s1 t1 r d g4).2.2) hq hp)
        · have := hmay d (pos _ _ _ hp).2.2 e (pos _ _ _ hq).2.2 hde e1 e2 n wr wr' g2 k2
          rw [this.1, this.2] at hor
          simp at hor

/-- Every schedule of the model gives an execution that the memory model allows. -/
theorem C103_coherent (g : Graph) (wf : g.WF) (left0 : Eid → Int) (direct : Eid → Bool) (workers : Nat) (may : Eid → Nat → Bool → Bool)
    (l : List SwAct) : Coherent (fun _ => 0) (SwSt.run (staticCfg g left0 direct workers) may SwSt.init l).log := by
  have h := all_run (c := staticCfg g left0 direct workers) (C25_layers g wf left0).2.1 (may := may) l
  exact coherent_of h.nums h.loads

/-! ### Return -/

/-- A step of the engine or the pool. -/
def isEngine : SwAct → Bool
  | .begin => false
  | .use .. => false
  | _ => true

/-- Steps in a row, each of which is possible. -/
def Steps (c : SwCfg) (may : Eid → Nat → Bool → Bool) : SwSt → List SwAct → SwSt → Prop
  | w, [], w' => w' = w
  | w, a :: l, w' => ∃ w1, SwSt.step c may w a = some w1 ∧ Steps c may w1 l w'

/-- The steps that are left, at most. -/
def work (c : SwCfg) (w : SwSt) : Nat :=
  (if w.busy = true then 1 + (c.mat.length - w.row) + 5 * (c.mat.drop w.row).flatten.length else 0) + 5 * w.toCommit.length + 3 * w.macros.length +
  (if w.mrun.isSome then 1 else 0) + w.futures.length + 2 * w.queued.length + w.running.length

theorem work_step {c : SwCfg} {may : Eid → Nat → Bool → Bool} {w w' : SwSt} {a : SwAct} (hb : a ≠ .begin) (h : SwSt.step c may w a = some w') :
    work c w' + (if isEngine a = true then 1 else 0) ≤ work c w := by
  have hu : isEngine a = true ∨ ∃ who n wr, a = .use who n wr := by
    cases a <;> simp_all [isEngine]
  have er : ∀ {α : Type} {l : List α} {i : Nat} {t : α}, l[i]? = some t → l.length = (l.eraseIdx i).length + 1 := fun h => (mem_erase h).length_eq
  rcases hu with hu | ⟨who, n, wr, rfl⟩
  · simp only [hu, if_true]
    cases a with
    | begin => exact absurd rfl hb
    | use who n wr => simp [isEngine] at hu
    | take i src =>
      simp only [SwSt.step] at h
      split at h
      · simp at h
      · rename_i t hq
        split at h
        · simp only [Option.some.injEq] at h
          subst h
          have := er hq
          cases hbb : w.busy <;> cases hmm : w.mrun <;> simp [work, put, hbb, hmm] <;> omega
        · simp at h
    | done i o =>
      simp only [SwSt.step] at h
      split at h
      · simp at h
      · rename_i t hq
        simp only [Option.some.injEq] at h
        subst h
        have := er hq
        cases hbb : w.busy <;> cases hmm : w.mrun <;> simp [work, put, hbb, hmm] <;> omega
    | main src o =>
      simp only [SwSt.step, mainStep] at h
      split at h
      · simp at h
      rename_i hb
      have hb : w.busy = true := by simpa using hb
      split at h
      · rename_i e hm
        split at h
        · simp only [Option.some.injEq] at h; subst h
          simp [work, put, hb, hm]; omega
        · simp only [Option.some.injEq] at h; subst h
          simp [work, put, leave, hb, hm]; omega
      rename_i hm
      split at h
      · rename_i e es ht
        split at h
        · simp only [Option.some.injEq] at h; subst h
          simp [work, hb, hm, ht]; omega
        · simp only [Option.some.injEq] at h; subst h
          simp [work, put, hb, hm, ht]; omega
      rename_i ht
      split at h
      · rename_i e es hc
        simp only [Option.some.injEq] at h; subst h
        simp [work, put, hb, hm, ht, hc]; omega
      rename_i hc
      split at h
      · rename_i e n fs hf
        split at h
        · split at h
          · simp only [Option.some.injEq] at h; subst h
            simp [work, put, hb, hm, ht, hc, hf]; omega
          · simp only [Option.some.injEq] at h; subst h
            simp [work, put, leave, hb, hm, ht, hc, hf]; omega
          · simp at h
        · simp at h
      rename_i hf
      split at h
      · simp only [Option.some.injEq] at h; subst h
        simp [work, put, hb, hm, ht, hc, hf]; omega
      · split at h
        · simp only [Option.some.injEq] at h; subst h
          simp [work, put, hb, hm, ht, hc, hf]; omega
        · rename_i l hl
          simp only [Option.some.injEq] at h; subst h
          have hlt := lt_of_get hl
          have e1 : c.mat.drop w.row = l :: c.mat.drop (w.row + 1) := by
            rw [List.drop_eq_getElem_cons hlt]
            rw [List.getElem?_eq_getElem hlt] at hl
            simp at hl
            rw [hl]
          simp [work, hb, hm, ht, hc, hf, e1]; omega
  · simp only [isEngine, if_false]
    have : work c w' = work c w := by
      cases who with
      | none =>
        simp only [SwSt.step] at h
        split at h
        · simp only [Option.some.injEq] at h; subst h; rfl
        · split at h
          · split at h
            · simp only [Option.some.injEq] at h; subst h; rfl
            · simp at h
          · simp at h
      | some i =>
        simp only [SwSt.step] at h
        split at h
        · split at h
          · simp only [Option.some.injEq] at h; subst h; rfl
          · simp at h
        · simp at h
    simp [this]

/-- As long as `run` has not returned, there is a next step. -/
theorem go_on {c : SwCfg} {may : Eid → Nat → Bool → Bool} {w : SwSt} (h : All c may w) (hw : 1 ≤ c.workers) (hb : w.busy = true) :
    ∃ a w', isEngine a = true ∧ SwSt.step c may w a = some w' := by
  have main : ∀ src, (∃ w', mainStep c w src (.ret CStatus.ok) = some w') → ∃ a w', isEngine a = true ∧ SwSt.step c may w a = some w' :=
    fun src ⟨w', h1⟩ => ⟨.main src (.ret CStatus.ok), w', rfl, h1⟩
  have runs : w.running ≠ [] → ∃ a w', isEngine a = true ∧ SwSt.step c may w a = some w' := by
    intro hr
    obtain ⟨t, ts, hr⟩ := List.exists_cons_of_ne_nil hr
    exact ⟨.done 0 (.ret CStatus.ok), _, rfl, by simp only [SwSt.step, hr, List.getElem?_cons_zero]; rfl⟩
  cases hm : w.mrun with
  | some e => exact main none (by simp [mainStep, hb, hm])
  | none =>
  cases ht : w.toCommit with
  | cons e es => exact main none (by simp only [mainStep, hb, hm, ht]; by_cases hd : c.direct e = true <;> simp [hd])
  | nil =>
  cases hc : w.macros with
  | cons e es => exact main none (by simp [mainStep, hb, hm, ht, hc])
  | nil =>
  cases hf : w.futures with
  | nil =>
    refine main none ?_
    cases hs : checkStatus w.status with
    | some r => simp [mainStep, hb, hm, ht, hc, hf, hs]
    | none => cases hl : c.mat[w.row]? <;> simp [mainStep, hb, hm, ht, hc, hf, hs, hl]
  | cons p fs =>
    obtain ⟨e, n⟩ := p
    rcases h.nums.fe e n (by rw [hf]; exact List.mem_cons_self ..) with h1 | ⟨m, k, -, -, h3, h4⟩
    · rcases List.mem_append.1 h1 with h1 | h1
      · by_cases hr : w.running = []
        · obtain ⟨i, hi⟩ := List.mem_iff_getElem?.1 h1
          obtain ⟨s, hs, -⟩ := h.hb.qs _ h1
          suffices hx : ∃ w', SwSt.step c may w (.take i (some s)) = some w' by
            obtain ⟨w', hx⟩ := hx
            exact ⟨_, w', rfl, hx⟩
          have hg : got w.log (.task n) (some s) = true := by simp only at hs; simp [got, hs]
          have hlen : w.running.length < c.workers := by simp [hr]; omega
          simp [SwSt.step, hi, hg, hlen]
        · exact runs hr
      · exact runs (List.ne_nil_of_mem h1)
    · refine main (some k) ?_
      have hg : got w.log (.fut n) (some k) = true := by simp [got, h3]
      obtain ⟨o, ho⟩ := Option.isSome_iff_exists.1 h4
      cases o <;> simp [mainStep, hb, hm, ht, hc, hf, hg, ho]

/-- **C103** (end): in every state — whatever has failed before — (1) as long as `run` has not returned or been left, the caller or the pool can
go on, and (2) there is a number that bounds the steps they still take, in whichever order; so `run` ends. -/
theorem C103_returns (g : Graph) (wf : g.WF) (left0 : Eid → Int) (direct : Eid → Bool) (workers : Nat) (hw : 1 ≤ workers)
    (may : Eid → Nat → Bool → Bool) (l : List SwAct) (w : SwSt) (hl : w = SwSt.run (staticCfg g left0 direct workers) may SwSt.init l) :
    (w.busy = true → ∃ a w', isEngine a = true ∧ SwSt.step (staticCfg g left0 direct workers) may w a = some w') ∧
    ∃ N, ∀ l' w', Steps (staticCfg g left0 direct workers) may w l' w' → .begin ∉ l' → l'.countP isEngine ≤ N := by
  have h := all_run (c := staticCfg g left0 direct workers) (C25_layers g wf left0).2.1 (may := may) l
  rw [← hl] at h
  refine ⟨fun hb => go_on h hw hb, work (staticCfg g left0 direct workers) w, fun l' => ?_⟩
  clear h hl
  induction l' generalizing w with
  | nil => intro w' _ _; simp
  | cons a l' ih =>
    rintro w' ⟨w1, h1, h2⟩ h3
    have h4 := work_step (fun e => h3 (e ▸ List.mem_cons_self ..)) h1
    have h5 := ih w1 w' h2 (fun hm => h3 (List.mem_cons_of_mem _ hm))
    rw [List.countP_cons]
    omega

/-! ### An exception leaves a run -/

/-- Two elements without dependencies. -/
def exTwo : Graph := ⟨[0, 1], fun _ => [], fun _ => []⟩

theorem exTwo_wf : exTwo.WF where
  nodup := by decide
  dnodup := by simp [exTwo]
  snodup := by simp [exTwo]
  sym := by simp [exTwo]
  closedS := by simp [exTwo]
  closedD := by simp [exTwo]

/-- Every element has its own cell. -/
def ownMay : Eid → Nat → Bool → Bool := fun e n _ => e = n

/-- An element returns without error. -/
def okR : Res CStatus := .ret CStatus.ok

/-- Element 0 throws while element 1 is executing; the next run starts element 1 again. -/
def leftActs : List SwAct :=
  [.begin, .main none okR, .main none okR, .main none okR, .take 0 (some 1), .take 0 (some 2), .done 0 (.throw "x"), .main (some 8) okR,
   .use (some 0) 1 true, .begin, .main none okR, .main none okR, .main none okR, .take 1 (some 14), .use (some 1) 1 true]

/-- The part of C103 that the code breaks: an exception that an element throws leaves `run` (GStaticEngine.cpp:71, `future.get()`) while other
elements of the row are still executing.  The next run then executes the same element a second time at once, and the element races
with itself, although elements have no memory in common. -/
theorem C103_exception_violated :
    ∃ (g : Graph) (may : Eid → Nat → Bool → Bool) (l : List SwAct), g.WF ∧ (g.staticSetup (fun _ => 0)).2 = true ∧
      (∀ e e' n wr wr', e ≠ e' → may e n wr = true → may e' n wr' = true → False) ∧
      ∃ w, w = SwSt.run (staticCfg g (fun _ => 0) (fun _ => false) 2) may SwSt.init l ∧ Coherent (fun _ => 0) w.log ∧ (∃ i, LeftAt w 1 i) ∧
        (∃ n n', n ≠ n' ∧ ⟨1, n, 1⟩ ∈ w.running ∧ ⟨1, n', 2⟩ ∈ w.running) ∧ ∃ i j, WRace w.log i j := by
  refine ⟨exTwo, ownMay, leftActs, exTwo_wf, by decide +kernel, ?_, _, rfl, C103_coherent exTwo exTwo_wf _ _ _ _ _, ⟨10, ?_⟩, ⟨2, 4, by decide, ?_⟩, 11, 17, ?_⟩
  · intro e e' n wr wr' hne h1 h2
    simp only [ownMay, decide_eq_true_eq] at h1 h2
    exact hne (h1.trans h2.symm)
  · unfold LeftAt; decide +kernel
  · decide +kernel
  · have hlog : (SwSt.run (staticCfg exTwo (fun _ => 0) (fun _ => false) 2) ownMay SwSt.init leftActs).log =
        [⟨0, ev 1 .begin⟩, ⟨0, .store (.task 1) true 1⟩, ⟨0, .store (.task 2) true 1⟩, ⟨1, .load (.task 1) true (some 1) 1⟩, ⟨1, ev 1 (.start 0)⟩,
         ⟨2, .load (.task 2) true (some 2) 1⟩, ⟨2, ev 1 (.start 1)⟩, ⟨1, ev 1 (.fin 0)⟩, ⟨1, .store (.fut 1) true 1⟩,
         ⟨0, .load (.fut 1) true (some 8) 1⟩, ⟨0, ev 1 .out⟩, ⟨2, .write (.user 1)⟩, ⟨0, ev 2 .begin⟩, ⟨0, .store (.task 3) true 1⟩,
         ⟨0, .store (.task 4) true 1⟩, ⟨4, .load (.task 4) true (some 14) 1⟩, ⟨4, ev 2 (.start 1)⟩, ⟨4, .write (.user 1)⟩] := by decide +kernel
    rw [hlog]
    refine ⟨⟨2, .write (.user 1)⟩, ⟨4, .write (.user 1)⟩, rfl, rfl, by decide, rfl, fun h => ?_, fun h => absurd (hb_lt h) (by decide)⟩
    -- nothing follows position 11
    obtain ⟨b, hb, -⟩ := Relation.TransGen.head'_iff.1 h
    rcases hb with ⟨h1, x, y, h2, h3, h4⟩ | ⟨h1, x, y, k, h2, h3, h4, -⟩
    · simp only [List.getElem?_cons_succ, List.getElem?_cons_zero, Option.some.injEq] at h2
      subst h2
      match b, h1, h3 with
      | 12, _, h3 => simp at h3; subst h3; simp at h4
      | 13, _, h3 => simp at h3; subst h3; simp at h4
      | 14, _, h3 => simp at h3; subst h3; simp at h4
      | 15, _, h3 => simp at h3; subst h3; simp at h4
      | 16, _, h3 => simp at h3; subst h3; simp at h4
      | 17, _, h3 => simp at h3; subst h3; simp at h4
      | b + 18, _, h3 => simp at h3
    · simp only [List.getElem?_cons_succ, List.getElem?_cons_zero, Option.some.injEq] at h2
      subst h2
      exact h4.elim

/-! ### A case -/

/-- Elements 0 and 1 write their cells, element 2 reads them; all read cell 3. -/
def joinMay : Eid → Nat → Bool → Bool := fun e n wr => n = 3 ∧ wr = false ∨ n = e ∨ e = 2 ∧ wr = false

/-- Element 1 is executed by the caller, 0 and 2 by the pool. -/
def joinActs : List SwAct :=
  [.use none 3 true, .begin, .main none okR, .main none okR, .main none okR, .take 0 (some 2), .main none okR, .use (some 0) 0 true,
   .use none 1 true, .done 0 okR, .main none okR, .main (some 9) okR, .main none okR, .main none okR, .take 0 (some 12),
   .use (some 0) 0 false, .done 0 okR, .main (some 17) okR, .main none okR, .use none 2 false]

theorem joinEdge' : exJoin.Edge 0 2 ∧ exJoin.Edge 1 2 := by simp [Graph.Edge, exJoin]

/-- The state after it. -/
def joinEnd : SwSt := SwSt.run (staticCfg exJoin (fun _ => 0) (fun e => e = 1) 2) joinMay SwSt.init joinActs

example : (exJoin.staticSetup (fun _ => 0)).2 = true ∧ joinEnd.busy = false ∧ joinEnd.nrun = 1 ∧
    joinEnd.accs = [(0, 0, none), (6, 1, some 0), (7, 1, some 1), (15, 1, some 2), (20, 1, none)] := by decide +kernel

example : StartAt joinEnd 2 1 2 14 ∧ EndAt joinEnd 1 0 8 ∧ ReturnAt joinEnd 1 true 19 := by
  unfold StartAt EndAt ReturnAt
  exact ⟨by decide +kernel, ⟨1, by decide +kernel⟩, by decide +kernel⟩

/-- Element 2 reads what element 0 has written in another thread, and the caller comes after both. -/
example : WHb joinEnd.log 6 15 ∧ WHb joinEnd.log 15 20 ∧ WHb joinEnd.log 0 6 := by
  have h := fun p q r r' => C103_visible exJoin exJoin_wf (fun _ => 0) (fun e => e = 1) 2 joinMay joinActs joinEnd rfl p q r r'
  refine ⟨(h 6 15 1 1).1 0 2 (.single joinEdge'.1) (by decide +kernel) (by decide +kernel), ?_, ?_⟩
  · exact (h 15 20 1 1).2.2.1 2 true 19 (by unfold ReturnAt; decide +kernel) (Nat.le_refl _) (by decide +kernel) (by decide +kernel)
  · exact (h 0 6 0 1).2.2.2 0 (by decide) (by decide +kernel) (by decide +kernel)

/-- The hypotheses of `C103_racefree_partial`. -/
example : (∀ r i, ¬ LeftAt joinEnd r i) ∧ ∀ e ∈ exJoin.elems, ∀ e' ∈ exJoin.elems, e ≠ e' → ¬ Relation.TransGen exJoin.Edge e e' →
    ¬ Relation.TransGen exJoin.Edge e' e → ∀ n wr wr', joinMay e n wr = true → joinMay e' n wr' = true → wr = false ∧ wr' = false := by
  constructor
  · intro r i h
    have h1 := List.mem_of_getElem? h
    have h2 : ∀ a ∈ joinEnd.log, (match a.op with | .read (.mark _ .out) => false | _ => true) = true := by decide +kernel
    simpa using h2 _ h1
  · intro e he e' he' hne h1 h2 n wr wr' h3 h4
    have g1 : e = 0 ∨ e = 1 ∨ e = 2 := by simpa [exJoin] using he
    have g2 : e' = 0 ∨ e' = 1 ∨ e' = 2 := by simpa [exJoin] using he'
    have t0 : Relation.TransGen exJoin.Edge 0 2 := .single joinEdge'.1
    have t1 : Relation.TransGen exJoin.Edge 1 2 := .single joinEdge'.2
    simp only [joinMay, decide_eq_true_eq] at h3 h4
    rcases g1 with rfl | rfl | rfl <;> rcases g2 with rfl | rfl | rfl <;>
      first
        | exact absurd rfl hne
        | exact absurd t0 h1
        | exact absurd t1 h1
        | exact absurd t0 h2
        | exact absurd t1 h2
        | (cases wr <;> cases wr' <;> simp at h3 h4 ⊢ <;> omega)

/-- A run that ends with an error: element 0 fails, element 2 is not started. -/
example : ReturnAt (SwSt.run (staticCfg exJoin (fun _ => 0) (fun e => e = 1) 2) joinMay SwSt.init
    [.begin, .main none okR, .main none okR, .main none okR, .take 0 (some 1), .done 0 (.ret (CStatus.err "e")), .main none okR, .main none okR,
     .main (some 5) okR, .main none okR]) 1 false 9 := by
  unfold ReturnAt; decide +kernel

end WeakStatic
end CGraph
