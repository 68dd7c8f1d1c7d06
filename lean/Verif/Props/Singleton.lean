import Verif.Spec.Singleton
import Mathlib.Tactic.SplitIfs

/-! # The singleton adapter: C82 -/
namespace CGraph
namespace SgSt
open Spec

theorem objRun_append (o : ObjSt) (l : List SgEv) (e : SgEv) :
    objRun o (l ++ [e]) = (objRun o l).bind (fun o' => objStep o' e) := by
  induction l generalizing o with
  | nil => simp only [List.nil_append, objRun, Option.bind_some]; cases objStep o e <;> rfl
  | cons x l ih =>
    simp only [List.cons_append, objRun]
    cases objStep o x with
    | none => rfl
    | some o' => exact ih o'

theorem exec_append (k : Nat → Nat) (s : SgSt) (a b : List SgAct) : s.exec k (a ++ b) = (s.exec k a).exec k b := by
  induction a generalizing s with
  | nil => rfl
  | cons x a ih => exact ih _

@[simp] theorem to_flag (s : SgSt) (q : Nat) (p : SgPh) : (s.to q p).flag = s.flag := rfl
@[simp] theorem to_hist (s : SgSt) (q : Nat) (p : SgPh) : (s.to q p).hist = s.hist := rfl
@[simp] theorem log_flag (s : SgSt) (e : SgEv) : (s.log e).flag = s.flag := rfl
@[simp] theorem log_hist (s : SgSt) (e : SgEv) : (s.log e).hist = s.hist ++ [e] := rfl
@[simp] theorem log_ph (s : SgSt) (e : SgEv) : (s.log e).ph = s.ph := rfl
@[simp] theorem to_self (s : SgSt) (q : Nat) (p : SgPh) : (s.to q p).ph q = p := by simp [to]
theorem to_other (s : SgSt) {q x : Nat} (p : SgPh) (h : x ≠ q) : (s.to q p).ph x = s.ph x := by simp [to, h]

/-! ## One pipeline at a time -/

/-- How the object, the flag and the pipeline in use fit together. -/
def fit (p : SgPh) (flag : Bool) (o : ObjSt) : Prop :=
  match p with
  | .down => flag = true ∧ o = .ready 0 ∨ flag = false ∧ o = .fresh
  | .ini i .test => flag = true ∧ o = .ready 0 ∨ flag = false ∧ o = .fresh ∧ i = 0
  | .ini _ .call => flag = false ∧ o = .fresh
  | .ini _ .run => flag = false ∧ o = .initing
  | .up n => flag = true ∧ o = .ready n
  | .des _ .test => flag = true ∧ o = .ready 0 ∨ flag = false ∧ o = .fresh
  | .des _ .call => flag = true ∧ o = .ready 0
  | .des _ .run => flag = true ∧ o = .ending
  | .half => flag = true ∧ o = .ready 0

/-- Invariant: the object is in the state that the pipeline in use, if there is one, expects. -/
def Inv1 (s : SgSt) : Prop :=
  ∃ o, objRun .fresh s.hist = some o ∧ ∀ q, (∀ r, r ≠ q → s.ph r = .down) → fit (s.ph q) s.flag o

theorem fit_step {k : Nat → Nat} (hk : ∀ q, 1 ≤ k q) {s : SgSt} {q : Nat} {o : ObjSt} (ho : objRun .fresh s.hist = some o)
    (hf : fit (s.ph q) s.flag o) {a : SgAct} (hc : ∀ r c, a = .ret r c → c ≤ 0)
    (ha : a = .reg q ∨ a = .init q ∨ a = .fail q ∨ a = .go q ∨ (∃ c, a = .ret q c) ∨ a = .run q ∨ a = .runEnd q ∨
      a = .destroy q) :
    ∃ o', objRun .fresh (s.step k a).hist = some o' ∧ fit ((s.step k a).ph q) (s.step k a).flag o' := by
  have keep : ∃ o', objRun .fresh s.hist = some o' ∧ fit (s.ph q) s.flag o' := ⟨o, ho, hf⟩
  rcases ha with rfl | rfl | rfl | rfl | ⟨c, rfl⟩ | rfl | rfl | rfl
  · simp only [step]; split <;> exact keep
  · simp only [step]
    split
    · rename_i h
      rw [h] at hf
      refine ⟨o, ho, ?_⟩
      rw [to_self, to_flag]
      rcases hf with h | h
      · exact .inl h
      · exact .inr ⟨h.1, h.2, rfl⟩
    · exact keep
  · simp only [step]
    split
    · rename_i i h
      rw [h] at hf
      refine ⟨o, ho, ?_⟩
      rw [to_self, to_flag]
      rcases hf with h | h
      · exact .inl h
      · exact .inr ⟨h.1, h.2.1⟩
    · exact keep
  · simp only [step]
    split
    · rename_i i h
      rw [h] at hf
      split_ifs with h1 h2
      · refine ⟨o, ho, ?_⟩
        rw [to_self, to_flag]
        rcases hf with h | h
        · exact h
        · have := hk q; omega
      · refine ⟨o, ho, ?_⟩
        rw [to_self, to_flag]
        rcases hf with h | h
        · exact .inl h
        · rw [h2] at h; cases h.1
      · refine ⟨o, ho, ?_⟩
        rw [to_self, to_flag]
        rcases hf with h | h
        · exact absurd h.1 h2
        · exact ⟨h.1, h.2.1⟩
    · rename_i i h
      rw [h] at hf
      refine ⟨.initing, ?_, ?_⟩
      · rw [log_hist, to_hist, objRun_append, ho, hf.2]; rfl
      · rw [log_ph, to_self, log_flag, to_flag]; exact ⟨hf.1, rfl⟩
    · rename_i i h
      rw [h] at hf
      split_ifs with h1 h2
      · exact ⟨o, ho, by rw [to_self, to_flag]; exact hf⟩
      · refine ⟨o, ho, ?_⟩
        rw [to_self, to_flag]
        rcases hf with h | h
        · exact h
        · rw [h2] at h; cases h.1
      · exact ⟨o, ho, by rw [to_self, to_flag]; exact hf⟩
    · rename_i i h
      rw [h] at hf
      refine ⟨.ending, ?_, ?_⟩
      · rw [log_hist, to_hist, objRun_append, ho, hf.2]; rfl
      · rw [log_ph, to_self, log_flag, to_flag]; exact ⟨hf.1, rfl⟩
    · exact keep
  · have hc0 := hc q c rfl
    simp only [step]
    split
    · rename_i i h
      rw [h] at hf
      refine ⟨if c = 0 then .ready 0 else .fresh, ?_, ?_⟩
      · show objRun .fresh (s.hist ++ [.initE q c]) = _
        rw [objRun_append, ho, hf.2]; rfl
      · show fit ((s.to q (if c < 0 then .down else .ini (i + 1) .test)).ph q) (s.flag || decide (c = 0)) _
        rw [to_self, hf.1]
        by_cases h0 : c = 0
        · subst h0; exact .inl ⟨rfl, rfl⟩
        · rw [if_pos (by omega), if_neg h0]
          exact .inr ⟨by simp [h0], rfl⟩
    · rename_i i h
      rw [h] at hf
      refine ⟨if c = 0 then .fresh else .ready 0, ?_, ?_⟩
      · show objRun .fresh (s.hist ++ [.desE q c]) = _
        rw [objRun_append, ho, hf.2]; rfl
      · show fit ((s.to q (if c < 0 then .half else .des (i + 1) .test)).ph q) (s.flag && !decide (c = 0)) _
        rw [to_self, hf.1]
        by_cases h0 : c = 0
        · subst h0; exact .inr ⟨rfl, rfl⟩
        · rw [if_pos (by omega), if_neg h0]
          exact ⟨by simp [h0], rfl⟩
    · exact keep
  · simp only [step]
    split
    · rename_i n h
      rw [h] at hf
      refine ⟨.ready (n + 1), ?_, ?_⟩
      · rw [log_hist, to_hist, objRun_append, ho, hf.2]; rfl
      · rw [log_ph, to_self, log_flag, to_flag]; exact ⟨hf.1, rfl⟩
    · exact keep
  · simp only [step]
    split
    · rename_i n h
      rw [h] at hf
      refine ⟨.ready n, ?_, ?_⟩
      · rw [log_hist, to_hist, objRun_append, ho, hf.2]; rfl
      · rw [log_ph, to_self, log_flag, to_flag]; exact ⟨hf.1, rfl⟩
    · exact keep
  · simp only [step]
    split
    · rename_i h
      rw [h] at hf
      exact ⟨o, ho, by rw [to_self, to_flag]; exact .inl hf⟩
    · rename_i h
      rw [h] at hf
      exact ⟨o, ho, by rw [to_self, to_flag]; exact .inl hf⟩
    · exact keep

/-- The pipeline that a step belongs to. -/
def _root_.CGraph.SgAct.pipe : SgAct → Nat
  | .reg q | .init q | .fail q | .go q | .ret q _ | .run q | .runEnd q | .destroy q => q

theorem step_other (k : Nat → Nat) (s : SgSt) (a : SgAct) {x : Nat} (h : x ≠ a.pipe) : (s.step k a).ph x = s.ph x := by
  cases a <;> simp only [SgAct.pipe] at h <;> simp only [step]
  all_goals split
  all_goals try rfl
  all_goals try split_ifs
  all_goals first
    | exact to_other s _ h
    | rfl

theorem pipe_cases (a : SgAct) : a = .reg a.pipe ∨ a = .init a.pipe ∨ a = .fail a.pipe ∨ a = .go a.pipe ∨
    (∃ c, a = .ret a.pipe c) ∨ a = .run a.pipe ∨ a = .runEnd a.pipe ∨ a = .destroy a.pipe := by
  cases a <;> simp [SgAct.pipe]

theorem Inv1.step {k : Nat → Nat} (hk : ∀ q, 1 ≤ k q) {s : SgSt} (h : Inv1 s) (a : SgAct) (hc : ∀ r c, a = .ret r c → c ≤ 0)
    (ho : OneInUse s) (ho' : OneInUse (s.step k a)) : Inv1 (s.step k a) := by
  obtain ⟨o, h1, h2⟩ := h
  by_cases hq : ∀ r, r ≠ a.pipe → s.ph r = .down
  · obtain ⟨o', h3, h4⟩ := fit_step hk h1 (h2 a.pipe hq) hc (pipe_cases a)
    refine ⟨o', h3, ?_⟩
    intro q hdown
    by_cases hqa : q = a.pipe
    · subst hqa; exact h4
    · have hd : (s.step k a).ph q = .down := by rw [step_other k s a hqa]; exact hq q hqa
      have hd' : (s.step k a).ph a.pipe = .down := hdown _ (Ne.symm hqa)
      rw [hd]; rw [hd'] at h4; exact h4
  · -- another pipeline is in use, so the one of this step is not, and stays so
    have hex : ∃ r, r ≠ a.pipe ∧ s.ph r ≠ .down := by
      refine Classical.byContradiction fun hcon => hq fun r hr => Classical.byContradiction fun hne => hcon ⟨r, hr, hne⟩
    obtain ⟨r, hr, hrd⟩ := hex
    have hdown : s.ph a.pipe = .down := Classical.byContradiction fun hne => hr (ho r a.pipe hrd hne)
    have hrd' : (s.step k a).ph r ≠ .down := by rw [step_other k s a hr]; exact hrd
    have hdown' : (s.step k a).ph a.pipe = .down := Classical.byContradiction fun hne => hr (ho' r a.pipe hrd' hne)
    have hsame : (s.step k a).hist = s.hist ∧ (s.step k a).flag = s.flag := by
      rcases pipe_cases a with h | h | h | h | ⟨c, h⟩ | h | h | h <;> rw [h] <;> simp [SgSt.step, hdown, to]
    refine ⟨o, by rw [hsame.1]; exact h1, ?_⟩
    intro q hq'
    have hph : (s.step k a).ph q = s.ph q := by
      by_cases hqa : q = a.pipe
      · subst hqa; rw [hdown, hdown']
      · exact step_other k s a hqa
    rw [hph, hsame.2]
    refine h2 q ?_
    intro x hx
    have := hq' x hx
    by_cases hxa : x = a.pipe
    · subst hxa; exact hdown
    · rw [step_other k s a hxa] at this; exact this

theorem Inv1.start : Inv1 start := ⟨.fresh, rfl, fun _ _ => .inr ⟨rfl, rfl⟩⟩

theorem Inv1.exec {k : Nat → Nat} (hk : ∀ q, 1 ≤ k q) : ∀ (l : List SgAct) (s : SgSt), Inv1 s → Codes l →
    (∀ n, OneInUse (s.exec k (l.take n))) → Inv1 (s.exec k l) := by
  intro l
  induction l with
  | nil => intro s h _ _; exact h
  | cons a l ih =>
    intro s h hc ho
    refine ih _ (h.step hk a ?_ (ho 0) (ho 1)) ?_ (fun n => ho (n + 1))
    · intro r c he; exact hc r c (by rw [he]; simp)
    · intro q c hm; exact hc q c (List.mem_cons_of_mem _ hm)

/-- **C82** (pipelines one after the other).  If at any time at most one pipeline that uses the object is in use, the history
of the object is a sequence of lives: `init` only when it is not initialised, `run` only while it is, `destroy` only then and
when it is not running.  The full statement drops that condition; it is false (`C82_shared_violated`, `C82_race_violated`,
`C82_code_violated`). -/
theorem C82_lives_partial (k : Nat → Nat) (hk : ∀ q, 1 ≤ k q) (l : List SgAct) (hc : Codes l)
    (ho : ∀ n, OneInUse (start.exec k (l.take n))) : Lives (start.exec k l).hist := by
  obtain ⟨o, h, -⟩ := Inv1.exec hk l start Inv1.start hc ho
  unfold Lives
  rw [h]; exact Option.some_ne_none _

/-! ## Calls one after the other -/

/-- How the object without its runs and the flag fit with the pipeline inside `init` or `destroy`. -/
def fit2 (p : SgPh) (flag : Bool) (o : ObjSt) : Prop :=
  match p with
  | .ini _ .call => flag = false ∧ o = .fresh
  | .ini _ .run => flag = false ∧ o = .initing
  | .des _ .call => flag = true ∧ o = .ready 0
  | .des _ .run => flag = true ∧ o = .ending
  | _ => flag = true ∧ o = .ready 0 ∨ flag = false ∧ o = .fresh

theorem fit2_idle {p : SgPh} {flag : Bool} {o : ObjSt} (h : changing p = false) :
    fit2 p flag o ↔ (flag = true ∧ o = .ready 0 ∨ flag = false ∧ o = .fresh) := by
  cases p <;> first | rfl | simp [changing] at h

theorem cycles_append (l : List SgEv) (e : SgEv) : cycles (l ++ [e]) = cycles l ++ cycles [e] := List.filter_append ..

/-- Invariant. -/
def Inv2 (s : SgSt) : Prop :=
  ∃ o, objRun .fresh (cycles s.hist) = some o ∧ ∀ q, (∀ r, r ≠ q → changing (s.ph r) = false) → fit2 (s.ph q) s.flag o

theorem fit2_step {k : Nat → Nat} {s : SgSt} {q : Nat} {o : ObjSt}
    (ho : objRun .fresh (cycles s.hist) = some o)
    (hf : fit2 (s.ph q) s.flag o) {a : SgAct} (hc : ∀ r c, a = .ret r c → c ≤ 0)
    (ha : a = .reg q ∨ a = .init q ∨ a = .fail q ∨ a = .go q ∨ (∃ c, a = .ret q c) ∨ a = .run q ∨ a = .runEnd q ∨
      a = .destroy q) :
    ∃ o', objRun .fresh (cycles (s.step k a).hist) = some o' ∧ fit2 ((s.step k a).ph q) (s.step k a).flag o' := by
  have keep : ∃ o', objRun .fresh (cycles s.hist) = some o' ∧ fit2 (s.ph q) s.flag o' := ⟨o, ho, hf⟩
  rcases ha with rfl | rfl | rfl | rfl | ⟨c, rfl⟩ | rfl | rfl | rfl
  · simp only [step]; split <;> exact keep
  · simp only [step]
    split
    · rename_i h
      rw [h] at hf
      exact ⟨o, ho, by rw [to_self, to_flag]; exact hf⟩
    · exact keep
  · simp only [step]
    split
    · rename_i i h
      rw [h] at hf
      exact ⟨o, ho, by rw [to_self, to_flag]; exact hf⟩
    · exact keep
  · simp only [step]
    split
    · rename_i i h
      rw [h] at hf
      split_ifs with h1 h2
      · exact ⟨o, ho, by rw [to_self, to_flag]; exact hf⟩
      · exact ⟨o, ho, by rw [to_self, to_flag]; exact hf⟩
      · refine ⟨o, ho, ?_⟩
        rw [to_self, to_flag]
        rcases hf with h | h
        · exact absurd h.1 h2
        · exact h
    · rename_i i h
      rw [h] at hf
      refine ⟨.initing, ?_, ?_⟩
      · rw [log_hist, to_hist, cycles_append, show cycles [SgEv.initB q] = [.initB q] from rfl, objRun_append, ho, hf.2]; rfl
      · rw [log_ph, to_self, log_flag, to_flag]; exact ⟨hf.1, rfl⟩
    · rename_i i h
      rw [h] at hf
      split_ifs with h1 h2
      · exact ⟨o, ho, by rw [to_self, to_flag]; exact hf⟩
      · refine ⟨o, ho, ?_⟩
        rw [to_self, to_flag]
        rcases hf with h | h
        · exact h
        · rw [h2] at h; cases h.1
      · exact ⟨o, ho, by rw [to_self, to_flag]; exact hf⟩
    · rename_i i h
      rw [h] at hf
      refine ⟨.ending, ?_, ?_⟩
      · rw [log_hist, to_hist, cycles_append, show cycles [SgEv.desB q] = [.desB q] from rfl, objRun_append, ho, hf.2]; rfl
      · rw [log_ph, to_self, log_flag, to_flag]; exact ⟨hf.1, rfl⟩
    · exact keep
  · have hc0 := hc q c rfl
    simp only [step]
    split
    · rename_i i h
      rw [h] at hf
      refine ⟨if c = 0 then .ready 0 else .fresh, ?_, ?_⟩
      · show objRun .fresh (cycles (s.hist ++ [.initE q c])) = _
        rw [cycles_append, show cycles [SgEv.initE q c] = [.initE q c] from rfl, objRun_append, ho, hf.2]; rfl
      · show fit2 ((s.to q (if c < 0 then .down else .ini (i + 1) .test)).ph q) (s.flag || decide (c = 0)) _
        rw [to_self, hf.1]
        by_cases h0 : c = 0
        · subst h0; exact .inl ⟨rfl, rfl⟩
        · rw [if_pos (by omega), if_neg h0]
          exact .inr ⟨by simp [h0], rfl⟩
    · rename_i i h
      rw [h] at hf
      refine ⟨if c = 0 then .fresh else .ready 0, ?_, ?_⟩
      · show objRun .fresh (cycles (s.hist ++ [.desE q c])) = _
        rw [cycles_append, show cycles [SgEv.desE q c] = [.desE q c] from rfl, objRun_append, ho, hf.2]; rfl
      · show fit2 ((s.to q (if c < 0 then .half else .des (i + 1) .test)).ph q) (s.flag && !decide (c = 0)) _
        rw [to_self, hf.1]
        by_cases h0 : c = 0
        · subst h0; exact .inr ⟨rfl, rfl⟩
        · rw [if_pos (by omega), if_neg h0]
          exact .inl ⟨by simp [h0], rfl⟩
    · exact keep
  · simp only [step]
    split
    · rename_i n h
      rw [h] at hf
      refine ⟨o, ?_, ?_⟩
      · rw [log_hist, to_hist, cycles_append, show cycles [SgEv.runB q s.mgr] = [] from rfl, List.append_nil, ho]
      · rw [log_ph, to_self, log_flag, to_flag]; exact hf
    · exact keep
  · simp only [step]
    split
    · rename_i n h
      rw [h] at hf
      refine ⟨o, ?_, ?_⟩
      · rw [log_hist, to_hist, cycles_append, show cycles [SgEv.runE q] = [] from rfl, List.append_nil, ho]
      · rw [log_ph, to_self, log_flag, to_flag]; exact hf
    · exact keep
  · simp only [step]
    split
    · rename_i h
      rw [h] at hf
      exact ⟨o, ho, by rw [to_self, to_flag]; exact hf⟩
    · rename_i h
      rw [h] at hf
      exact ⟨o, ho, by rw [to_self, to_flag]; exact hf⟩
    · exact keep

theorem Inv2.step {k : Nat → Nat} {s : SgSt} (h : Inv2 s) (a : SgAct) (hc : ∀ r c, a = .ret r c → c ≤ 0)
    (ho : OneChanging s) (ho' : OneChanging (s.step k a)) : Inv2 (s.step k a) := by
  obtain ⟨o, h1, h2⟩ := h
  by_cases hq : ∀ r, r ≠ a.pipe → changing (s.ph r) = false
  · obtain ⟨o', h3, h4⟩ := fit2_step (k := k) h1 (h2 a.pipe hq) hc (pipe_cases a)
    refine ⟨o', h3, ?_⟩
    intro q hidle
    by_cases hqa : q = a.pipe
    · subst hqa; exact h4
    · have hd : changing ((s.step k a).ph q) = false := by rw [step_other k s a hqa]; exact hq q hqa
      have hd' : changing ((s.step k a).ph a.pipe) = false := hidle _ (Ne.symm hqa)
      rw [fit2_idle hd]
      exact (fit2_idle hd').mp h4
  · have hex : ∃ r, r ≠ a.pipe ∧ changing (s.ph r) = true := by
      refine Classical.byContradiction fun hcon => hq fun r hr => ?_
      cases hcr : changing (s.ph r) with
      | false => rfl
      | true => exact absurd ⟨r, hr, hcr⟩ hcon
    obtain ⟨r, hr, hrd⟩ := hex
    have hidle : changing (s.ph a.pipe) = false := by
      cases hca : changing (s.ph a.pipe) with
      | false => rfl
      | true => exact absurd (ho r a.pipe hrd hca) hr
    have hrd' : changing ((s.step k a).ph r) = true := by rw [step_other k s a hr]; exact hrd
    have hidle' : changing ((s.step k a).ph a.pipe) = false := by
      cases hca : changing ((s.step k a).ph a.pipe) with
      | false => rfl
      | true => exact absurd (ho' r a.pipe hrd' hca) hr
    have hsame : cycles (s.step k a).hist = cycles s.hist ∧ (s.step k a).flag = s.flag := by
      rcases pipe_cases a with h | h | h | h | ⟨c, h⟩ | h | h | h <;> rw [h] <;> simp only [SgSt.step] <;> split <;>
        first
        | exact ⟨rfl, rfl⟩
        | (rename_i hx; rw [hx] at hidle; simp [changing] at hidle; done)
        | (refine ⟨?_, rfl⟩; rw [log_hist, to_hist, cycles_append]; exact List.append_nil _)
    refine ⟨o, by rw [hsame.1]; exact h1, ?_⟩
    intro q hq'
    have hrq : q = r := Classical.byContradiction fun hne => by
      have := hq' r (Ne.symm hne); rw [hrd'] at this; cases this
    subst hrq
    rw [step_other k s a hr, hsame.2]
    refine h2 q ?_
    intro x hx
    by_cases hxa : x = a.pipe
    · subst hxa; exact hidle
    · have := hq' x hx; rw [step_other k s a hxa] at this; exact this

theorem Inv2.start : Inv2 start := ⟨.fresh, rfl, fun _ _ => .inr ⟨rfl, rfl⟩⟩

theorem Inv2.exec {k : Nat → Nat} : ∀ (l : List SgAct) (s : SgSt), Inv2 s → Codes l →
    (∀ n, OneChanging (s.exec k (l.take n))) → Inv2 (s.exec k l) := by
  intro l
  induction l with
  | nil => intro s h _ _; exact h
  | cons a l ih =>
    intro s h hc ho
    refine ih _ (h.step a ?_ (ho 0) (ho 1)) ?_ (fun n => ho (n + 1))
    · intro r c he; exact hc r c (by rw [he]; simp)
    · intro q c hm; exact hc q c (List.mem_cons_of_mem _ hm)

/-- **C82** (`init` and `destroy` alternate).  If `init` and `destroy` of pipelines are not called at the same time by
different threads, the object is initialised and destroyed alternately, however many pipelines share it and whatever runs. -/
theorem C82_alternate_partial (k : Nat → Nat) (l : List SgAct) (hc : Codes l)
    (ho : ∀ n, OneChanging (start.exec k (l.take n))) : Lives (cycles (start.exec k l).hist) := by
  obtain ⟨o, h, -⟩ := Inv2.exec l start Inv2.start hc ho
  unfold Lives
  rw [h]; exact Option.some_ne_none _

/-! ## Where the code deviates -/

/-- `init` of pipeline `q` with one element, the object being initialised by it. -/
def initFirst (q : Nat) : List SgAct := [.init q, .go q, .go q, .ret q 0, .go q]

/-- `init` of pipeline `q` with one element when the object is initialised. -/
def initNext (q : Nat) : List SgAct := [.init q, .go q, .go q]

/-- `destroy` of pipeline `q` with one element. -/
def destroyOne (q : Nat) : List SgAct := [.destroy q, .go q, .go q, .ret q 0, .go q]

/-- **C82 is false of the code**: whichever two pipelines share the object, one after the other calling `init`, the `destroy`
of the first ends the life of the object, and the other runs it afterwards.  No two calls overlap in time. -/
theorem C82_shared_violated (q r : Nat) (h : q ≠ r) :
    let l := [.reg q, .reg r] ++ initFirst q ++ initNext r ++ destroyOne q ++ [.run r]
    (start.exec (fun _ => 1) l).hist = [.initB q, .initE q 0, .desB q, .desE q 0, .runB r (some r)] ∧
    ¬ Lives (start.exec (fun _ => 1) l).hist := by
  have h' : r ≠ q := Ne.symm h
  have hh : (start.exec (fun _ => 1) ([.reg q, .reg r] ++ initFirst q ++ initNext r ++ destroyOne q ++ [.run r])).hist =
      [.initB q, .initE q 0, .desB q, .desE q 0, .runB r (some r)] := by
    simp [initFirst, initNext, destroyOne, exec, step, start, to, log, h, h']
  refine ⟨hh, ?_⟩
  show ¬ Lives (start.exec (fun _ => 1) ([.reg q, .reg r] ++ initFirst q ++ initNext r ++ destroyOne q ++ [.run r])).hist
  rw [hh]
  intro hl
  exact hl rfl

/-- **C82 is false of the code**: when two pipelines are initialised at the same time, both may find the flag unset, and the
object is initialised twice, the second time while the first is still going on. -/
theorem C82_race_violated (q r : Nat) (h : q ≠ r) :
    let l : List SgAct := [.reg q, .reg r, .init q, .init r, .go q, .go r, .go q, .go r]
    (start.exec (fun _ => 1) l).hist = [.initB q, .initB r] ∧ ¬ Lives (start.exec (fun _ => 1) l).hist := by
  have h' : r ≠ q := Ne.symm h
  have hh : (start.exec (fun _ => 1) [.reg q, .reg r, .init q, .init r, .go q, .go r, .go q, .go r]).hist =
      [.initB q, .initB r] := by
    simp [exec, step, start, to, log, h, h']
  refine ⟨hh, ?_⟩
  show ¬ Lives (start.exec (fun _ => 1) [.reg q, .reg r, .init q, .init r, .go q, .go r, .go q, .go r]).hist
  rw [hh]
  intro hl
  exact hl rfl

/-- **C82 is false of the code**: the object has the managers of the pipeline that registered it last, also when the other
pipeline runs it. -/
theorem C82_managers_violated (q r : Nat) (h : q ≠ r) :
    (start.exec (fun _ => 1) ([.reg q, .reg r] ++ initFirst q ++ [.run q])).hist =
      [.initB q, .initE q 0, .runB q (some r)] := by
  have h' : r ≠ q := Ne.symm h
  simp [initFirst, exec, step, start, to, log, h, h']

/-- **C82 is false of the code**: one pipeline with two elements; `init` of the object answers with a positive code, which
is no error: it is called again for the second element. -/
theorem C82_code_violated (q : Nat) (c : Int) (hc : 0 < c) :
    (start.exec (fun _ => 2) [.reg q, .reg q, .init q, .go q, .go q, .ret q c, .go q, .go q, .ret q c, .go q, .run q]).hist =
      [.initB q, .initE q c, .initB q, .initE q c, .runB q (some q)] := by
  have h1 : ¬ c < 0 := by omega
  have h2 : c ≠ 0 := by omega
  simp [exec, step, start, to, log, h1, h2]

/-! ## Cases -/

/-- Two lives of the object: pipeline 3 with two elements runs it twice at a time, then pipeline 5. -/
def sgDemo : List SgAct :=
  [.reg 3, .reg 3, .init 3, .go 3, .go 3, .ret 3 0, .go 3, .go 3, .run 3, .run 3, .runEnd 3, .runEnd 3,
   .destroy 3, .go 3, .go 3, .ret 3 0, .go 3, .go 3,
   .reg 5, .init 5, .go 5, .go 5, .ret 5 (-1), .init 5, .go 5, .go 5, .ret 5 0, .go 5, .run 5]

example : (start.exec (fun q => if q = 3 then 2 else 1) sgDemo).hist =
    [.initB 3, .initE 3 0, .runB 3 (some 3), .runB 3 (some 3), .runE 3, .runE 3, .desB 3, .desE 3 0,
     .initB 5, .initE 5 (-1), .initB 5, .initE 5 0, .runB 5 (some 5)] := by decide +kernel

/-- Only pipelines 3 and 5 change. -/
theorem others (k : Nat → Nat) : ∀ (l : List SgAct) (s : SgSt), (∀ a ∈ l, a.pipe = 3 ∨ a.pipe = 5) →
    (∀ x, x ≠ 3 → x ≠ 5 → s.ph x = .down) → ∀ x, x ≠ 3 → x ≠ 5 → (s.exec k l).ph x = .down := by
  intro l
  induction l with
  | nil => intro s _ h; exact h
  | cons a l ih =>
    intro s h1 h2
    refine ih _ (fun b hb => h1 b (List.mem_cons_of_mem _ hb)) ?_
    intro x h3 h5
    rw [step_other]
    · exact h2 x h3 h5
    · rcases h1 a (by simp) with h | h <;> rw [h] <;> assumption

/-- The hypotheses of `C82_lives_partial`. -/
example : Codes sgDemo ∧ ∀ n, OneInUse (start.exec (fun q => if q = 3 then 2 else 1) (sgDemo.take n)) := by
  have hc : sgDemo.all (fun a => match a with | .ret _ c => decide (c ≤ 0) | _ => true) = true := by decide +kernel
  have hp : sgDemo.all (fun a => a.pipe == 3 || a.pipe == 5) = true := by decide +kernel
  have hn : (List.range 30).all (fun n =>
      decide ((start.exec (fun q => if q = 3 then 2 else 1) (sgDemo.take n)).ph 3 = .down) ||
      decide ((start.exec (fun q => if q = 3 then 2 else 1) (sgDemo.take n)).ph 5 = .down)) = true := by decide +kernel
  refine ⟨?_, ?_⟩
  · intro q c hm
    have := List.all_eq_true.mp hc _ hm
    simpa using this
  · intro n
    have hcase : (start.exec (fun q => if q = 3 then 2 else 1) (sgDemo.take n)).ph 3 = .down ∨
        (start.exec (fun q => if q = 3 then 2 else 1) (sgDemo.take n)).ph 5 = .down := by
      have key := fun i hi => List.all_eq_true.mp hn i (List.mem_range.mpr hi)
      rcases Nat.lt_or_ge n 30 with h | h
      · simpa using key n h
      · have h29 := key 29 (by omega)
        have e1 : sgDemo.take n = sgDemo.take 29 := by
          rw [List.take_of_length_le (show sgDemo.length ≤ n from Nat.le_trans (show 29 ≤ 30 by omega) h),
            List.take_of_length_le (show sgDemo.length ≤ 29 from Nat.le_refl _)]
        rw [e1]
        simpa using h29
    have hoth := others (fun q => if q = 3 then 2 else 1) (sgDemo.take n) start (by
      intro a ha
      have := List.all_eq_true.mp hp a (List.mem_of_mem_take ha)
      simpa using this) (fun _ _ _ => rfl)
    intro q r hq hr
    have c1 : q = 3 ∨ q = 5 := Classical.byContradiction fun hne => hq (hoth q (fun h => hne (.inl h)) (fun h => hne (.inr h)))
    have c2 : r = 3 ∨ r = 5 := Classical.byContradiction fun hne => hr (hoth r (fun h => hne (.inl h)) (fun h => hne (.inr h)))
    rcases c1 with rfl | rfl <;> rcases c2 with rfl | rfl
    · rfl
    · rcases hcase with h | h
      · exact absurd h hq
      · exact absurd h hr
    · rcases hcase with h | h
      · exact absurd h hr
      · exact absurd h hq
    · rfl

end SgSt
end CGraph
