import Verif.Model.Lazy
import Verif.Lemmas.WeakMem

namespace CGraph.Lazy
open Spec Weak LzSt

/-- How far the creation is: nothing; thread `u` has constructed `p` at position `w`; it has assigned the handle at `i`. -/
inductive Ph where
  | fresh
  | built (u p w : Nat)
  | done (i u p w : Nat)

abbrev Log := List (WAct LzLoc Nat Nat)

/-- Thread `t` knows the assignment at `i`: it made it or has read it. -/
def Seen (log : Log) (t i : Nat) : Prop :=
  ∃ j b, log[j]? = some b ∧ b.tid = t ∧ (j = i ∨ WHb log i j ∨ ∃ v, b.op.Reads .handle (some i) v)

/-- The operation is a plain write. -/
def IsW : LzOp → Prop
  | .write _ => True
  | _ => False

/-- The invariant about the log. -/
structure LogOK (ph : Ph) (log : Log) : Prop where
  hw : ∀ k a v, log[k]? = some a → a.op.Writes .handle v → ∃ i u w, ph = .done i u v w ∧ k = i
  cw : ∀ k t c, log[k]? = some ⟨t, .write c⟩ → ph = .built t c k ∨ ∃ i, ph = .done i t c k
  bu : ∀ u p w, ph = .built u p w → log[w]? = some ⟨u, .write p⟩ ∧ p ≠ 0
  dn : ∀ i u p w, ph = .done i u p w → log[i]? = some ⟨u, .store .handle false p⟩ ∧ log[w]? = some ⟨u, .write p⟩ ∧ w < i ∧ p ≠ 0
  lu : ∀ k t r v, log[k]? = some ⟨t, .store .mtx r v⟩ → ∃ i u p w, ph = .done i u p w ∧ WHb log i k

/-- The invariant. -/
structure OK (ph : Ph) (s : LzSt) : Prop where
  log : LogOK ph s.log
  own : ∀ t, (s.pc t).inSec = true ↔ s.owner = some t
  bpc : ∀ u p w, ph = .built u p w → s.pc u = .store p
  st : ∀ t p, s.pc t = .store p → ∃ w, ph = .built t p w
  mak : ∀ t, s.pc t = .make → ph = .fresh
  un : ∀ t, s.pc t = .unlock ∨ s.pc t = .last → ∃ i u p w, ph = .done i u p w ∧ Seen s.log t i
  unh : ∀ t, s.pc t = .unlock → ∃ i u p w, ph = .done i u p w ∧ ∃ j b, s.log[j]? = some b ∧ b.tid = t ∧ (j = i ∨ WHb s.log i j)
  kn : ∀ t v, (t, v) ∈ s.results → ∃ i u w, ph = .done i u v w
  kno : ∀ t v, s.known t = some v → (t, v) ∈ s.results
  las : ∀ k, s.lastUnlock = some k → ∃ t, s.log[k]? = some ⟨t, .store .mtx true 0⟩
  vis : ∀ i u p w, ph = .done i u p w → match s.owner with
    | none => ∃ k, s.lastUnlock = some k
    | some t => ∃ j b, s.log[j]? = some b ∧ b.tid = t ∧ (j = i ∨ WHb s.log i j)
  md : s.made = 0 ↔ ph = .fresh

theorem ok_init : OK .fresh LzSt.init where
  log := ⟨by simp [LzSt.init], by simp [LzSt.init], by simp, by simp, by simp [LzSt.init]⟩
  own := by simp [LzSt.init, LzPc.inSec]
  bpc := by simp
  st := by simp [LzSt.init]
  mak := by simp [LzSt.init]
  un := by simp [LzSt.init]
  unh := by simp [LzSt.init]
  kn := by simp [LzSt.init]
  kno := by simp [LzSt.init]
  las := by simp [LzSt.init]
  vis := by simp
  md := by simp [LzSt.init]

theorem seen_app {log log' : Log} {t i : Nat} (h : Seen log t i) : Seen (log ++ log') t i := by
  obtain ⟨j, b, h1, h2, h3⟩ := h
  refine ⟨j, b, get_app h1, h2, ?_⟩
  rcases h3 with h | h | h
  · exact .inl h
  · exact .inr (.inl (hb_app h))
  · exact .inr (.inr h)

/-- An operation that neither assigns, constructs nor unlocks. -/
def Quiet : LzOp → Prop
  | .load .. => True
  | .rmw l .. => l ≠ .handle
  | .read _ => True
  | .store (.ext _) _ _ => True
  | _ => False

theorem log_app {ph : Ph} {log : Log} (h : LogOK ph log) {t : Nat} {o : LzOp} (ho : Quiet o) : LogOK ph (log ++ [⟨t, o⟩]) where
  hw k a v h1 h2 := by
    rcases get_snoc h1 with h1 | ⟨_, rfl⟩
    · exact h.hw k a v h1 h2
    · cases o with
      | rmw l => exact absurd h2.1 ho
      | store l => cases l <;> simp [Quiet] at ho; simp [WOp.Writes] at h2
      | _ => exact h2.elim
  cw k u c h1 := by
    rcases get_snoc h1 with h1 | ⟨_, h2⟩
    · exact h.cw k u c h1
    · cases h2; exact ho.elim
  bu u p w h1 := ⟨get_app (h.bu u p w h1).1, (h.bu u p w h1).2⟩
  dn i u p w h1 := by
    obtain ⟨h2, h3, h4, h5⟩ := h.dn i u p w h1
    exact ⟨get_app h2, get_app h3, h4, h5⟩
  lu k u r v h1 := by
    rcases get_snoc h1 with h1 | ⟨_, h2⟩
    · obtain ⟨i, u', p, w, h2, h3⟩ := h.lu k u r v h1
      exact ⟨i, u', p, w, h2, hb_app h3⟩
    · cases h2; exact ho.elim

/-- What a load of the handle returns. -/
theorem load_val {ph : Ph} {s : LzSt} (h : OK ph s) {t : Nat} {src : Option Nat} {l : LzLoc}
    (hc : Coherent (fun _ => 0) (s.log ++ [⟨t, .load .handle false src (val s.log src)⟩])) (_ : l = l) :
    (src = none ∧ val s.log src = 0) ∨ ∃ i u p w, ph = .done i u p w ∧ src = some i ∧ val s.log src = p := by
  have h1 := hc.rf s.log.length _ .handle src _ (get_last _) ⟨rfl, rfl, rfl⟩
  cases src with
  | none => exact .inl ⟨rfl, h1⟩
  | some k =>
    obtain ⟨h2, b, h3, h4⟩ := h1
    obtain ⟨i, u, w, h5, rfl⟩ := h.log.hw k b _ (get_back h3 h2) h4
    exact .inr ⟨k, u, _, w, h5, rfl, rfl⟩

/-- A thread that knows the assignment reads it. -/
theorem load_seen {ph : Ph} {s : LzSt} (h : OK ph s) {t : Nat} {src : Option Nat}
    (hc : Coherent (fun _ => 0) (s.log ++ [⟨t, .load .handle false src (val s.log src)⟩]))
    {i u p w : Nat} (hd : ph = .done i u p w) (hs : Seen s.log t i) : src = some i ∧ val s.log src = p := by
  obtain ⟨h1, _, _, _⟩ := h.log.dn i u p w hd
  have hne : src ≠ none := by
    rintro rfl
    obtain ⟨j, b, h2, h3, h4⟩ := hs
    have hjn : WHb (s.log ++ [⟨t, .load .handle false none (val s.log none)⟩]) j s.log.length :=
      hb_seq (lt_of_get h2) (get_app h2) (get_last _) h3
    have hi : WHb (s.log ++ [⟨t, .load .handle false none (val s.log none)⟩]) i s.log.length ∨
        ∃ v, b.op.Reads .handle (some i) v := by
      rcases h4 with rfl | h4 | h4
      · exact .inl hjn
      · exact .inl (hb_trans (hb_app h4) hjn)
      · exact .inr h4
    rcases hi with hi | ⟨v, hv⟩
    · obtain ⟨k, h5, _⟩ := hc.wr s.log.length i _ _ .handle none _ p (get_last _) ⟨rfl, rfl, rfl⟩ (get_app h1) ⟨rfl, rfl⟩ hi
      cases h5
    · obtain ⟨k, h5, _⟩ := hc.rr s.log.length j _ b .handle none (some i) _ v (get_last _) ⟨rfl, rfl, rfl⟩ (get_app h2) hv hjn i rfl
      cases h5
  rcases load_val (l := .handle) h hc rfl with ⟨h2, _⟩ | ⟨i', u', p', w', h2, h3, h4⟩
  · exact absurd h2 hne
  · rw [hd] at h2; cases h2; exact ⟨h3, h4⟩

/-- A quiet operation of thread `t`, which goes to `p`. -/
theorem ok_put {ph : Ph} {s : LzSt} (h : OK ph s) {t : Nat} {o : LzOp} (ho : Quiet o) {p : LzPc}
    (hsec : p.inSec = (s.pc t).inSec) (hst : ∀ q, p ≠ .store q) (hnst : ∀ q, s.pc t ≠ .store q)
    (hmk : p = .make → ph = .fresh)
    (hun : p = .unlock ∨ p = .last → ∃ i u p w, ph = .done i u p w ∧ Seen (s.log ++ [⟨t, o⟩]) t i) : OK ph (s.put t o p) := by
  have hvis : ∀ i u p w, ph = .done i u p w → ∀ t', s.owner = some t' →
      ∃ j b, (s.log ++ [⟨t, o⟩])[j]? = some b ∧ b.tid = t' ∧ (j = i ∨ WHb (s.log ++ [⟨t, o⟩]) i j) := by
    intro i u p w hd t' ht'
    have := h.vis i u p w hd
    rw [ht'] at this
    obtain ⟨j, b, h1, h2, h3⟩ := this
    exact ⟨j, b, get_app h1, h2, h3.imp_right hb_app⟩
  refine ⟨log_app h.log ho, fun u => ?_, fun u q w hb => ?_, fun u q hq => ?_, fun u hq => ?_, fun u hq => ?_, fun u hq => ?_,
    h.kn, h.kno, fun k hk => ?_, fun i u q w hd => ?_, h.md⟩
  · simp only [put]
    split
    · rename_i e; subst e; rw [hsec]; exact h.own u
    · exact h.own u
  · have h1 := h.bpc u q w hb
    simp only [put]
    split
    · rename_i e; subst e; exact absurd h1 (hnst q)
    · exact h1
  · simp only [put] at hq
    split at hq
    · exact absurd hq (hst q)
    · exact h.st u q hq
  · simp only [put] at hq
    split at hq
    · exact hmk hq
    · exact h.mak u hq
  · simp only [put] at hq ⊢
    split at hq
    · rename_i e; subst e; exact hun hq
    · obtain ⟨i, u', q, w, h1, h2⟩ := h.un u hq
      exact ⟨i, u', q, w, h1, seen_app h2⟩
  · simp only [put] at hq ⊢
    split at hq
    · rename_i e; subst e
      obtain ⟨i, u', q, w, h1, _⟩ := hun (.inl hq)
      refine ⟨i, u', q, w, h1, hvis _ _ _ _ h1 _ ((h.own u).1 ?_)⟩
      rw [← hsec, hq]; rfl
    · obtain ⟨i, u', q, w, h1, j, b, h2, h3, h4⟩ := h.unh u hq
      exact ⟨i, u', q, w, h1, j, b, get_app h2, h3, h4.imp_right hb_app⟩
  · obtain ⟨u, h1⟩ := h.las k hk
    exact ⟨u, get_app h1⟩
  · have h1 := h.vis i u q w hd
    simp only [put]
    cases ho' : s.owner with
    | none => rw [ho'] at h1; exact h1
    | some t' => exact hvis _ _ _ _ hd _ ho'

/-- Who is in the section, alone. -/
theorem OK.alone {ph : Ph} {s : LzSt} (h : OK ph s) {t u : Nat} (h1 : (s.pc t).inSec = true) (h2 : (s.pc u).inSec = true) : u = t := by
  have h3 := (h.own t).1 h1
  rw [(h.own u).1 h2] at h3
  exact Option.some.inj h3

theorem ok_step {ph : Ph} {s : LzSt} (h : OK ph s) (a : LzAct) (hc : Coherent (fun _ => 0) (s.step a).log) :
    ∃ ph', OK ph' (s.step a) := by
  cases a with
  | signal t n =>
    by_cases hp : s.pc t = .out
    · simp only [step, hp, if_true]
      exact ⟨ph, ok_put h (by trivial) (by rw [hp]) (by simp) (by simp [hp]) (by simp) (by simp)⟩
    · simp only [step, hp, if_false]; exact ⟨ph, h⟩
  | wait t n src =>
    by_cases hp : s.pc t = .out
    · simp only [step, hp, if_true]
      exact ⟨ph, ok_put h (by trivial) (by rw [hp]) (by simp) (by simp [hp]) (by simp) (by simp)⟩
    · simp only [step, hp, if_false]; exact ⟨ph, h⟩
  | use t =>
    simp only [step]
    split
    · rename_i hp _
      exact ⟨ph, ok_put h (by trivial) (by rw [hp]) (by simp) (by simp [hp]) (by simp) (by simp)⟩
    · exact ⟨ph, h⟩
  | go t src =>
    simp only [step] at hc ⊢
    cases hp : s.pc t with
    | out =>
      rw [hp] at hc
      simp only at hc ⊢
      refine ⟨ph, ok_put h (by trivial) ?_ ?_ (by simp [hp]) ?_ ?_⟩
      · rw [hp]; split <;> rfl
      · intro q; split <;> simp
      · split <;> simp
      · intro hl
        rcases load_val (l := .handle) h hc rfl with ⟨_, h1⟩ | ⟨i, u, p, w, h1, h2, h3⟩
        · simp [h1] at hl
        · exact ⟨i, u, p, w, h1, s.log.length, _, get_last _, rfl, .inr (.inr ⟨_, rfl, h2, rfl⟩)⟩
    | test =>
      rw [hp] at hc
      simp only at hc ⊢
      have hown := (h.own t).1 (by rw [hp]; rfl)
      have hdone : ∀ i u p w, ph = .done i u p w → Seen s.log t i := by
        intro i u p w hd
        have := h.vis i u p w hd
        rw [hown] at this
        obtain ⟨j, b, h1, h2, h3⟩ := this
        exact ⟨j, b, h1, h2, h3.imp_right .inl⟩
      refine ⟨ph, ok_put h (by trivial) ?_ ?_ (by simp [hp]) ?_ ?_⟩
      · rw [hp]; split <;> rfl
      · intro q; split <;> simp
      · intro hm
        cases hph : ph with
        | fresh => rfl
        | built u p w =>
          have h1 := h.bpc u p w hph
          have := h.alone (t := t) (u := u) (by rw [hp]; rfl) (by rw [h1]; rfl)
          subst this
          rw [hp] at h1; cases h1
        | done i u p w =>
          have h1 := load_seen h hc hph (hdone _ _ _ _ hph)
          have h2 := (h.log.dn i u p w hph).2.2.2
          rw [h1.2] at hm
          simp [h2] at hm
      · intro hl
        rcases load_val (l := .handle) h hc rfl with ⟨_, h1⟩ | ⟨i, u, p, w, h1, h2, h3⟩
        · simp [h1] at hl
        · exact ⟨i, u, p, w, h1, s.log.length, _, get_last _, rfl, .inr (.inr ⟨_, rfl, h2, rfl⟩)⟩
    | last =>
      rw [hp] at hc
      simp only at hc ⊢
      obtain ⟨i, u, p, w, h1, h2⟩ := h.un t (.inr hp)
      have h3 := load_seen h hc h1 h2
      have h4 := ok_put (t := t) (o := .load .handle false src (val s.log src)) (p := .out) h trivial (by rw [hp]; rfl) (by simp)
        (by simp [hp]) (by simp) (by simp)
      refine ⟨ph, ⟨h4.log, h4.own, h4.bpc, h4.st, h4.mak, h4.un, h4.unh, fun t' v hm => ?_, fun t' v hm => ?_, h4.las, h4.vis, h4.md⟩⟩
      · simp only [List.mem_append, List.mem_singleton, Prod.mk.injEq] at hm
        rcases hm with hm | ⟨rfl, rfl⟩
        · exact h.kn t' v hm
        · exact ⟨i, u, w, by rw [h3.2]; exact h1⟩
      · simp only at hm ⊢
        split at hm
        · rename_i e; subst e; cases hm; simp
        · exact List.mem_append_left _ (h.kno t' v hm)
    | lock =>
      rw [hp] at hc
      cases ho : s.owner with
      | some x => exact ⟨ph, h⟩
      | none =>
        simp only [ho] at hc ⊢
        have hout : ∀ u, (s.pc u).inSec = false := by
          intro u
          have := (h.own u).not.2 (by rw [ho]; simp)
          simpa using this
        have hq : Quiet (.rmw .mtx true false s.lastUnlock 0 1) := by simp [Quiet]
        refine ⟨ph, ⟨log_app h.log hq, fun u => ?_, fun u q w hb => ?_, fun u q hq => ?_, fun u hq => ?_, fun u hq => ?_, fun u hq => ?_,
          h.kn, h.kno, fun k hk => ?_, fun i u q w hd => ?_, h.md⟩⟩
        · simp only [put]
          split
          · rename_i e; subst e; simp [LzPc.inSec]
          · rename_i e; rw [hout u]; simp; exact fun h => e h.symm
        · have h1 := h.bpc u q w hb
          have := hout u
          rw [h1] at this; simp [LzPc.inSec] at this
        · simp only [put] at hq
          split at hq
          · simp at hq
          · exact h.st u q hq
        · simp only [put] at hq
          split at hq
          · simp at hq
          · exact h.mak u hq
        · simp only [put] at hq ⊢
          split at hq
          · simp at hq
          · obtain ⟨i, u', q, w, h1, h2⟩ := h.un u hq
            exact ⟨i, u', q, w, h1, seen_app h2⟩
        · simp only [put] at hq ⊢
          split at hq
          · simp at hq
          · have := hout u
            rw [hq] at this; simp [LzPc.inSec] at this
        · obtain ⟨u, h1⟩ := h.las k hk
          exact ⟨u, get_app h1⟩
        · have h1 := h.vis i u q w hd
          rw [ho] at h1
          obtain ⟨k, hk⟩ := h1
          obtain ⟨t', h2⟩ := h.las k hk
          obtain ⟨i', u', p', w', h3, h4⟩ := h.log.lu k t' _ _ h2
          rw [hd] at h3; cases h3
          refine ⟨s.log.length, _, get_last _, rfl, .inr (hb_trans (hb_app h4) ?_)⟩
          exact hb_sync (lt_of_get h2) (get_app h2) (get_last _) rfl ⟨rfl, by simpa using hk⟩
    | make =>
      simp only
      have hph := h.mak t hp
      subst hph
      have hown := (h.own t).1 (by rw [hp]; rfl)
      refine ⟨.built t (s.made + 1) s.log.length, ⟨⟨fun k a v h1 h2 => ?_, fun k u c h1 => ?_, fun u p w hb => ?_, by simp, fun k u r v h1 => ?_⟩,
        fun u => ?_, fun u q w hb => ?_, fun u q hq => ?_, fun u hq => ?_, fun u hq => ?_, fun u hq => ?_, fun u v hm => ?_, h.kno,
        fun k hk => ?_, by simp, by simp⟩⟩
      · rcases get_snoc h1 with h1 | ⟨_, rfl⟩
        · obtain ⟨_, _, _, h3, _⟩ := h.log.hw k a v h1 h2; cases h3
        · exact h2.elim
      · rcases get_snoc h1 with h1 | ⟨rfl, h2⟩
        · rcases h.log.cw k u c h1 with h3 | ⟨_, h3⟩ <;> cases h3
        · cases h2; exact .inl rfl
      · cases hb; exact ⟨get_last _, by omega⟩
      · rcases get_snoc h1 with h1 | ⟨_, h2⟩
        · obtain ⟨_, _, _, _, h3, _⟩ := h.log.lu k u r v h1; cases h3
        · cases h2
      · simp only [put]
        split
        · rename_i e; subst e; simp [LzPc.inSec, hown]
        · exact h.own u
      · cases hb; simp [put]
      · simp only [put] at hq
        split at hq
        · rename_i e; cases hq; subst e; exact ⟨_, rfl⟩
        · obtain ⟨_, h1⟩ := h.st u q hq; cases h1
      · simp only [put] at hq
        split at hq
        · simp at hq
        · rename_i e
          exact absurd (h.alone (t := t) (u := u) (by rw [hp]; rfl) (by rw [hq]; rfl)) e
      · simp only [put] at hq
        split at hq
        · simp at hq
        · obtain ⟨_, _, _, _, h1, _⟩ := h.un u hq; cases h1
      · simp only [put] at hq
        split at hq
        · simp at hq
        · obtain ⟨_, _, _, _, h1, _⟩ := h.unh u hq; cases h1
      · obtain ⟨_, _, _, h1⟩ := h.kn u v hm; cases h1
      · obtain ⟨u, h1⟩ := h.las k hk
        exact ⟨u, get_app h1⟩
    | store p =>
      simp only
      obtain ⟨w, hph⟩ := h.st t p hp
      subst hph
      obtain ⟨hw1, hw2⟩ := h.log.bu t p w rfl
      have hown := (h.own t).1 (by rw [hp]; rfl)
      refine ⟨.done s.log.length t p w, ⟨⟨fun k a v h1 h2 => ?_, fun k u c h1 => ?_, by simp, fun i u q w' hd => ?_, fun k u r v h1 => ?_⟩,
        fun u => ?_, by simp, fun u q hq => ?_, fun u hq => ?_, fun u hq => ?_, fun u hq => ?_, fun u v hm => ?_, h.kno,
        fun k hk => ?_, fun i u q w' hd => ?_, ?_⟩⟩
      · rcases get_snoc h1 with h1 | ⟨rfl, rfl⟩
        · obtain ⟨_, _, _, h3, _⟩ := h.log.hw k a v h1 h2; cases h3
        · exact ⟨_, t, w, by rw [h2.2], rfl⟩
      · rcases get_snoc h1 with h1 | ⟨rfl, h2⟩
        · rcases h.log.cw k u c h1 with h3 | ⟨_, h3⟩
          · cases h3; exact .inr ⟨_, rfl⟩
          · cases h3
        · cases h2
      · cases hd; exact ⟨get_last _, get_app hw1, lt_of_get hw1, hw2⟩
      · rcases get_snoc h1 with h1 | ⟨_, h2⟩
        · obtain ⟨_, _, _, _, h3, _⟩ := h.log.lu k u r v h1; cases h3
        · cases h2
      · simp only [put]
        split
        · rename_i e; subst e; simp [LzPc.inSec, hown]
        · exact h.own u
      · simp only [put] at hq
        split at hq
        · simp at hq
        · rename_i e
          exact absurd (h.alone (t := t) (u := u) (by rw [hp]; rfl) (by rw [hq]; rfl)) e
      · simp only [put] at hq
        split at hq
        · simp at hq
        · have := h.mak u hq; cases this
      · simp only [put] at hq ⊢
        split at hq
        · rename_i e; subst e
          exact ⟨_, _, _, _, rfl, s.log.length, _, get_last _, rfl, .inl rfl⟩
        · obtain ⟨_, _, _, _, h1, _⟩ := h.un u hq; cases h1
      · simp only [put] at hq ⊢
        split at hq
        · rename_i e; subst e
          exact ⟨_, _, _, _, rfl, s.log.length, _, get_last _, rfl, .inl rfl⟩
        · obtain ⟨_, _, _, _, h1, _⟩ := h.unh u hq; cases h1
      · obtain ⟨_, _, _, h1⟩ := h.kn u v hm; cases h1
      · obtain ⟨u, h1⟩ := h.las k hk
        exact ⟨u, get_app h1⟩
      · cases hd
        simp only [put, hown]
        exact ⟨s.log.length, _, get_last _, rfl, .inl rfl⟩
      · have := h.md
        simp only [put]
        simp at this ⊢
        exact this
    | unlock =>
      simp only
      obtain ⟨i, u0, p, w, hph, j, b, hj, hb, hij⟩ := h.unh t hp
      subst hph
      have hown := (h.own t).1 (by rw [hp]; rfl)
      have hlast : WHb (s.log ++ [⟨t, .store .mtx true 0⟩]) i s.log.length := by
        have h1 : WHb (s.log ++ [⟨t, .store .mtx true 0⟩]) j s.log.length := hb_seq (lt_of_get hj) (get_app hj) (get_last _) hb
        rcases hij with rfl | hij
        · exact h1
        · exact hb_trans (hb_app hij) h1
      refine ⟨.done i u0 p w, ⟨⟨fun k a v h1 h2 => ?_, fun k u c h1 => ?_, by simp, fun i u q w' hd => ?_, fun k u r v h1 => ?_⟩,
        fun u => ?_, by simp, fun u q hq => ?_, fun u hq => ?_, fun u hq => ?_, fun u hq => ?_, h.kn, h.kno,
        fun k hk => ?_, fun i u q w' hd => ?_, h.md⟩⟩
      · rcases get_snoc h1 with h1 | ⟨rfl, rfl⟩
        · exact h.log.hw k a v h1 h2
        · simp [WOp.Writes] at h2
      · rcases get_snoc h1 with h1 | ⟨rfl, h2⟩
        · exact h.log.cw k u c h1
        · cases h2
      · obtain ⟨h2, h3, h4, h5⟩ := h.log.dn i u q w' hd
        exact ⟨get_app h2, get_app h3, h4, h5⟩
      · rcases get_snoc h1 with h1 | ⟨rfl, h2⟩
        · obtain ⟨i, u', p, w, h2, h3⟩ := h.log.lu k u r v h1
          exact ⟨i, u', p, w, h2, hb_app h3⟩
        · exact ⟨_, _, _, _, rfl, hlast⟩
      · simp only [put]
        split
        · simp [LzPc.inSec]
        · rename_i e
          have : (s.pc u).inSec = false := by
            have := (h.own u).not.2 (by rw [hown]; simp; exact fun h => e h.symm)
            simpa using this
          simp [this]
      · simp only [put] at hq
        split at hq
        · simp at hq
        · exact h.st u q hq
      · simp only [put] at hq
        split at hq
        · simp at hq
        · exact h.mak u hq
      · simp only [put] at hq ⊢
        split at hq
        · rename_i e; subst e
          exact ⟨_, _, _, _, rfl, s.log.length, _, get_last _, rfl, .inr (.inl hlast)⟩
        · obtain ⟨i, u', q, w, h1, h2⟩ := h.un u hq
          exact ⟨i, u', q, w, h1, seen_app h2⟩
      · simp only [put] at hq ⊢
        split at hq
        · simp at hq
        · rename_i e
          exact absurd (h.alone (t := t) (u := u) (by rw [hp]; rfl) (by rw [hq]; rfl)) e
      · simp only [put] at hk ⊢
        cases hk
        exact ⟨t, get_last _⟩
      · exact ⟨_, rfl⟩

theorem step_log (s : LzSt) (a : LzAct) : ∃ l, (s.step a).log = s.log ++ l := by
  cases a with
  | go t src =>
    simp only [step]
    cases hp : s.pc t with
    | lock => cases ho : s.owner <;> first | exact ⟨_, rfl⟩ | exact ⟨[], by simp⟩
    | _ => exact ⟨_, rfl⟩
  | use t =>
    simp only [step]
    split
    · exact ⟨_, rfl⟩
    · exact ⟨[], by simp⟩
  | signal t n =>
    simp only [step]
    split
    · exact ⟨_, rfl⟩
    · exact ⟨[], by simp⟩
  | wait t n src =>
    simp only [step]
    split
    · exact ⟨_, rfl⟩
    · exact ⟨[], by simp⟩

theorem run_log (s : LzSt) (l : List LzAct) : ∃ l', (s.run l).log = s.log ++ l' := by
  induction l generalizing s with
  | nil => exact ⟨[], by simp [run]⟩
  | cons a l ih =>
    obtain ⟨l1, h1⟩ := step_log s a
    obtain ⟨l2, h2⟩ := ih (s.step a)
    exact ⟨l1 ++ l2, by rw [← List.append_assoc, ← h1, ← h2]; rfl⟩

theorem ok_run {ph : Ph} {s : LzSt} (h : OK ph s) (l : List LzAct) (hc : Coherent (fun _ => 0) (s.run l).log) :
    ∃ ph', OK ph' (s.run l) := by
  induction l generalizing s ph with
  | nil => exact ⟨ph, h⟩
  | cons a l ih =>
    obtain ⟨l2, h2⟩ := run_log (s.step a) l
    have hc1 : Coherent (fun _ => 0) ((s.step a).log ++ l2) := by rw [← h2]; exact hc
    obtain ⟨ph', h3⟩ := ok_step h a (coherent_left hc1)
    exact ih h3 hc

/-- What is used was got. -/
theorem use_known (acts : List LzAct) {j t c : Nat}
    (hj : (LzSt.init.run acts).log[j]? = some ⟨t, .read c⟩) : (t, c) ∈ (LzSt.init.run acts).results := by
  have gen : ∀ (l : List LzAct) (s : LzSt), (∀ t v, s.known t = some v → (t, v) ∈ s.results) →
      (∀ j t c : Nat, s.log[j]? = some ⟨t, .read c⟩ → (t, c) ∈ s.results) →
      ∀ j t c : Nat, (s.run l).log[j]? = some ⟨t, .read c⟩ → (t, c) ∈ (s.run l).results := by
    intro l
    induction l with
    | nil => intro s _ h; exact h
    | cons a l ih =>
      intro s h1 h2
      have hput : ∀ t o p, (∀ c, o = .read c → (t, c) ∈ s.results) → ∀ j u c : Nat, (s.put t o p).log[j]? = some ⟨u, .read c⟩ →
          (u, c) ∈ s.results := by
        intro t o p ho j u c hj
        rcases get_snoc hj with h | ⟨_, h⟩
        · exact h2 j u c h
        · cases h; exact ho c rfl
      suffices hs : (∀ t v, (s.step a).known t = some v → (t, v) ∈ (s.step a).results) ∧
          ∀ j t c : Nat, (s.step a).log[j]? = some ⟨t, .read c⟩ → (t, c) ∈ (s.step a).results from ih _ hs.1 hs.2
      cases a with
      | signal t n =>
        simp only [step]
        split
        · exact ⟨h1, hput _ _ _ (by simp)⟩
        · exact ⟨h1, h2⟩
      | wait t n src =>
        simp only [step]
        split
        · exact ⟨h1, hput _ _ _ (by simp)⟩
        · exact ⟨h1, h2⟩
      | use t =>
        simp only [step]
        split
        · rename_i p _ hk
          exact ⟨h1, hput _ _ _ (fun c hc => by cases hc; exact h1 t p hk)⟩
        · exact ⟨h1, h2⟩
      | go t src =>
        simp only [step]
        cases hp : s.pc t with
        | lock =>
          cases ho : s.owner with
          | none => exact ⟨h1, hput _ _ .test (by simp)⟩
          | some _ => exact ⟨h1, h2⟩
        | last =>
          refine ⟨fun u v hk => ?_, fun j u c hj => List.mem_append_left _ (hput _ _ .out (by simp) j u c hj)⟩
          simp only at hk ⊢
          split at hk
          · rename_i e; subst e; cases hk; simp
          · exact List.mem_append_left _ (h1 u v hk)
        | make => exact ⟨h1, hput _ _ (.store (s.made + 1)) (by simp)⟩
        | unlock => exact ⟨h1, hput _ _ .last (by simp)⟩
        | out => exact ⟨h1, hput _ _ _ (by simp)⟩
        | test => exact ⟨h1, hput _ _ _ (by simp)⟩
        | store p => exact ⟨h1, hput _ _ _ (by simp)⟩
  exact gen acts LzSt.init (by simp [LzSt.init]) (by simp [LzSt.init]) j t c hj

end CGraph.Lazy
