import Verif.Spec.Timer
import Mathlib.Tactic.Tauto
import Mathlib.Tactic.SplitIfs

/-! # Invariants of the timer -/
namespace CGraph
open Spec

/-- What follows from the events so far. -/
structure TmView where
  iv : Int
  time : Nat
  opn : Option Nat
  next : Int
  /-- started, and the effective `stop` has not returned -/
  alive : Bool
  /-- the effective `stop` has been called -/
  joiner : Option Nat
  /-- tasks begun since -/
  after : Nat
  /-- calls of `stop` not returned -/
  calls : Nat

namespace TmView

def new : TmView := ⟨0, 0, none, 0, false, none, 0, 0⟩

def upd (v : TmView) : TmEv → TmView
  | .started iv z => { v with iv := iv, time := z, next := z + iv, alive := true, joiner := none, after := 0 }
  | .ignored => v
  | .taskBegin y => { v with time := y, opn := some y, after := if v.joiner.isSome then v.after + 1 else v.after }
  | .taskEnd e ms =>
    { v with time := e, opn := none, next := e + TmSt.nextLeft v.iv (v.opn.getD 0) e ms }
  | .stopCall t z =>
    if v.alive && v.joiner.isNone then { v with time := z, joiner := some t, calls := v.calls + 1 }
    else { v with time := z, calls := v.calls + 1 }
  | .stopRet t z =>
    if v.joiner = some t then { v with time := z, alive := false, joiner := none, after := 0, calls := v.calls - 1 }
    else { v with time := z, calls := v.calls - 1 }
  | .freed => v

def Ok (v : TmView) : TmEv → Prop
  | .started _ z => v.time ≤ z ∧ v.alive = false ∧ v.opn = none
  | .ignored => v.alive = true
  | .taskBegin y => v.time ≤ y ∧ v.opn = none ∧ v.next ≤ y ∧ v.alive = true ∧ (v.joiner.isSome → v.after = 0)
  | .taskEnd e _ => v.time ≤ e ∧ v.opn.isSome
  | .stopCall t z => v.time ≤ z ∧ v.joiner ≠ some t
  | .stopRet t z => v.time ≤ z ∧ 0 < v.calls ∧ (v.joiner = some t → v.opn = none ∧ v.calls = 1) ∧
      (v.joiner ≠ some t → v.joiner.isSome → 2 ≤ v.calls)
  | .freed => True

def run (v : TmView) (l : List TmEv) : TmView := l.foldl upd v

/-- Every event is possible. -/
def Valid (v : TmView) : List TmEv → Prop
  | [] => True
  | e :: l => v.Ok e ∧ (v.upd e).Valid l

theorem run_append (v : TmView) (l m : List TmEv) : v.run (l ++ m) = (v.run l).run m := by
  simp [run, List.foldl_append]

@[simp] theorem run_nil (v : TmView) : v.run [] = v := rfl
@[simp] theorem run_cons (v : TmView) (e : TmEv) (l : List TmEv) : v.run (e :: l) = (v.upd e).run l := rfl

theorem valid_append {v : TmView} {l m : List TmEv} : v.Valid (l ++ m) ↔ v.Valid l ∧ (v.run l).Valid m := by
  induction l generalizing v with
  | nil => simp [Valid]
  | cons e l ih => simp [Valid, ih, and_assoc]

theorem valid_snoc {v : TmView} {l : List TmEv} {e : TmEv} (h : v.Valid l) (h' : (v.run l).Ok e) : v.Valid (l ++ [e]) :=
  valid_append.mpr ⟨h, h', trivial⟩

end TmView

namespace TmSt

/-- Invariant. -/
structure TInv (s : TmSt) (v : TmView) : Prop where
  time : v.time ≤ s.now
  alive : v.alive = true ↔ (s.stop = false ∨ s.stopper ≠ none)
  stop : s.stopper ≠ none → s.stop = true
  joiner : v.joiner = s.stopper.map Prod.fst
  dead : v.alive = false → s.pc = .done
  fin : s.pc = .done → s.stop = true
  opn : ∀ b, v.opn = some b ↔ s.pc = .task b
  bnow : ∀ b, v.opn = some b → b ≤ s.now
  iv : v.alive = true → s.origin = v.iv
  rest : s.stop = false → (s.pc = .test ∨ s.pc = .ready ∨ s.pc = .awake false) → v.next ≤ s.now + s.left
  asleep : ∀ d, s.stop = false → s.pc = .asleep d → v.next ≤ d ∧ d ≤ s.now + s.left
  due : ((s.stop = false ∧ s.pc = .awake true) ∨ s.pc = .calling) → v.next ≤ s.now
  after : v.joiner.isSome → v.after = 0 ∨ (v.after = 1 ∧ (s.pc = .done ∨ s.pc = .test ∨ ∃ b, s.pc = .task b))
  calls : v.calls = if s.stopper = none then 0 else 1
  aft0 : v.joiner = none → v.after = 0

theorem TInv.new : TInv .new .new := by
  constructor <;> simp [TmSt.new, TmView.new]

/-- One event more. -/
def Ext (s s' : TmSt) (v : TmView) : Prop :=
  ∃ evs, s'.hist = s.hist ++ evs ∧ v.Valid evs ∧ TInv s' (v.run evs)

theorem Ext.none {s s' : TmSt} {v : TmView} (h : s'.hist = s.hist) (h' : TInv s' v) : Ext s s' v :=
  ⟨[], by simp [h], trivial, h'⟩

theorem Ext.one {s s' : TmSt} {v : TmView} {e : TmEv} (h : s'.hist = s.hist ++ [e]) (ho : v.Ok e)
    (h' : TInv s' (v.upd e)) : Ext s s' v := ⟨[e], h, ⟨ho, trivial⟩, h'⟩

theorem nextLeft_le (iv : Int) (b e : Nat) (ms : Int) (hbe : b ≤ e) :
    (ms ≤ 0 → b + iv ≤ e + nextLeft iv b e ms ∧ (iv ≤ (e : Int) - b → e + iv ≤ e + nextLeft iv b e ms)) ∧
    (0 < ms → e + nextLeft iv b e ms = e + ms) := by
  unfold nextLeft
  split_ifs <;> omega

theorem step_inv {s s' : TmSt} {v : TmView} (h : TInv s v) {a : TmAct} (hs : s.step a = some s') : Ext s s' v := by
  obtain ⟨h1, h2, h3, h4, h5, h6, h7, h8, h9, h10, h11, h12, h13, h14, h15⟩ := h
  cases a with
  | tick =>
    simp only [step, Option.some.injEq] at hs
    subst hs
    refine Ext.none rfl ⟨by simp; omega, h2, h3, h4, h5, h6, h7, fun b hb => Nat.le_succ_of_le (h8 b hb), h9, ?_, ?_, ?_, h13, h14, h15⟩
    · intro hf hp; have := h10 hf hp; simp; omega
    · intro d hf hp; have := h11 d hf hp; simp; omega
    · intro hp; have := h12 hp; simp; omega
  | start iv =>
    simp only [step] at hs
    by_cases hn : s.stopper = none
    · by_cases ht : s.stop = true
      · have hal : v.alive = false := by
          cases hv : v.alive with
          | false => rfl
          | true => rcases h2.mp hv with h | h <;> simp_all
        have hpc := h5 hal
        have ho : v.opn = none := by
          cases hv : v.opn with
          | none => rfl
          | some b => rw [h7 b, hpc] at hv; cases hv
        simp [hn, ht] at hs
        subst hs
        refine Ext.one rfl ⟨h1, hal, ho⟩ ?_
        constructor <;> simp_all [TmView.upd]
      · rw [if_neg (not_not.mpr hn), if_neg ht] at hs
        simp only [Option.some.injEq] at hs
        subst hs
        refine Ext.one rfl ?_ ⟨h1, h2, h3, h4, h5, h6, h7, h8, h9, h10, h11, h12, h13, h14, h15⟩
        exact h2.mpr (.inl (by simpa using ht))
    · simp [hn] at hs
  | stop t =>
    simp only [step] at hs
    by_cases hn : s.stopper.map Prod.fst = some t
    · rw [if_pos hn] at hs; cases hs
    · rw [if_neg hn] at hs
      by_cases ht : s.stop = true
      · rw [if_pos ht] at hs
        simp only [Option.some.injEq] at hs
        subst hs
        have hj : v.joiner ≠ some t := by rw [h4]; exact hn
        have hA : (v.alive && v.joiner.isNone) = false := by
          cases hv : v.alive with
          | false => rfl
          | true =>
            rcases h2.mp hv with h | h
            · simp_all
            · rw [h4]; cases hs : s.stopper <;> simp_all
        refine ⟨_, rfl, ?_, ?_⟩
        · refine ⟨⟨h1, hj⟩, ?_, trivial⟩
          simp only [TmView.upd, hA, Bool.false_eq_true, if_false]
          refine ⟨Nat.le_refl _, Nat.succ_pos _, fun h => absurd h hj, fun _ ha => ?_⟩
          have : s.stopper ≠ none := by rw [h4] at ha; rintro h; simp [h] at ha
          simp [h14, this]
        · simp only [TmView.run_cons, TmView.upd, hA, Bool.false_eq_true, if_false, TmView.run_nil, hj]
          exact ⟨Nat.le_refl _, h2, h3, h4, h5, h6, h7, h8, h9, h10, h11, h12, h13, by simpa using h14, h15⟩
      · have hst : s.stop = false := by simpa using ht
        have hno : s.stopper = none := by
          cases hx : s.stopper with
          | none => rfl
          | some _ => exact absurd (h3 (by simp [hx])) ht
        rw [if_neg ht] at hs
        simp only [Option.some.injEq] at hs
        subst hs
        have hal := h2.mpr (.inl hst)
        have hj : v.joiner = none := by rw [h4, hno]; rfl
        refine Ext.one rfl ⟨h1, by simp [hj]⟩ ?_
        have hpd : s.pc ≠ .done := fun hp => ht (h6 hp)
        have hu : v.upd (.stopCall t s.now) = { v with time := s.now, joiner := some t, calls := v.calls + 1 } := by
          simp [TmView.upd, hal, hj]
        rw [hu]
        refine ⟨Nat.le_refl _, by simp [hal], fun _ => rfl, rfl, fun h => by simp [hal] at h, fun _ => rfl, h7, h8, h9,
          fun h => by simp at h, fun d h => by simp at h, ?_, ?_, by simp [h14, hno],
          fun h => by simp at h⟩
        · rintro (⟨h, -⟩ | h)
          · simp at h
          · exact h12 (.inr h)
        · exact fun _ => .inl (h15 hj)
  | notify =>
    cases hst : s.stopper with
    | none => simp [step, hst] at hs
    | some x =>
      obtain ⟨t, b⟩ := x
      have hsp : s.stop = true := h3 (by simp [hst])
      cases b with
      | true => simp [step, hst] at hs
      | false =>
        by_cases hp : ∃ d, s.pc = .asleep d
        · obtain ⟨d, hp⟩ := hp
          simp only [step, hst, hp, Option.some.injEq] at hs
          subst hs
          have hal : v.alive = true := h2.mpr (.inr (by simp [hst]))
          refine Ext.none rfl ?_
          constructor <;> simp_all
        · have hs' : s' = { s with stopper := some (t, true) } := by
            cases hpc : s.pc <;> simp_all [step]
          subst hs'
          refine Ext.none rfl ⟨h1, ?_, ?_, ?_, h5, h6, h7, h8, h9, h10, h11, h12, h13, ?_, h15⟩ <;> simp_all
  | join =>
    cases hst : s.stopper with
    | none => simp [step, hst] at hs
    | some x =>
      obtain ⟨t, b⟩ := x
      cases b with
      | false => simp [step, hst] at hs
      | true =>
        by_cases hp : s.pc = .done
        · have hs' : s' = { s with stopper := none, hist := s.hist ++ [.stopRet t s.now] } := by
            simp [step, hst, hp] at hs
            rw [← hs, ← hp]
          subst hs'
          have hj : v.joiner = some t := by simp [h4, hst]
          have ho : v.opn = none := by
            cases hv : v.opn with
            | none => rfl
            | some b => rw [h7 b, hp] at hv; cases hv
          refine Ext.one rfl ⟨h1, by simp [h14, hst], fun _ => ⟨ho, by simp [h14, hst]⟩, fun h => absurd hj h⟩ ?_
          constructor <;> simp_all [TmView.upd]
        · cases hpc : s.pc <;> simp_all [step]
  | main =>
    cases hp : s.pc with
    | test =>
      simp only [step, hp, Option.some.injEq] at hs
      subst hs
      refine Ext.none rfl ?_
      cases hst : s.stop <;> constructor <;> simp_all
    | ready =>
      simp only [step, hp, Option.some.injEq] at hs
      subst hs
      refine Ext.none rfl ?_
      constructor <;> simp_all
    | awake to =>
      simp only [step, hp, Option.some.injEq] at hs
      subst hs
      refine Ext.none rfl ?_
      cases to <;> cases hst : s.stop <;> constructor <;> simp_all
    | calling =>
      simp only [step, hp, Option.some.injEq] at hs
      subst hs
      have hal : v.alive = true := by
        cases hv : v.alive with
        | true => rfl
        | false => simp_all
      refine Ext.one rfl ⟨h1, ?_, h12 (.inr hp), hal, ?_⟩ ?_
      · cases hv : v.opn with
        | none => rfl
        | some b => rw [h7 b, hp] at hv; cases hv
      · intro hj; rcases h13 hj with h | h <;> simp_all
      · constructor <;> simp_all [TmView.upd]
    | asleep d => simp [step, hp] at hs
    | task b => simp [step, hp] at hs
    | done => simp [step, hp] at hs
  | timeout =>
    cases hp : s.pc with
    | asleep d =>
      simp only [step, hp] at hs
      by_cases hd : d ≤ s.now
      · rw [if_pos hd] at hs
        simp only [Option.some.injEq] at hs
        subst hs
        refine Ext.none rfl ?_
        constructor <;> simp_all
        intro hf
        have := h11 hf
        omega
      · rw [if_neg hd] at hs; cases hs
    | _ => simp [step, hp] at hs
  | spurious =>
    cases hp : s.pc with
    | asleep d =>
      simp only [step, hp, Option.some.injEq] at hs
      subst hs
      have h11' := fun hf => h11 d hf hp
      refine Ext.none rfl ?_
      constructor <;> simp_all
      intro hf
      have := h11' hf
      omega
    | _ => simp [step, hp] at hs
  | finish ms =>
    cases hp : s.pc with
    | task b =>
      simp only [step, hp, Option.some.injEq] at hs
      subst hs
      have ho := (h7 b).mpr hp
      refine Ext.one rfl ⟨h1, by simp [ho]⟩ ?_
      constructor <;> simp_all [TmView.upd]
    | _ => simp [step, hp] at hs
  | free =>
    simp only [step, Option.some.injEq] at hs
    subst hs
    exact Ext.one rfl trivial ⟨h1, h2, h3, h4, h5, h6, h7, h8, h9, h10, h11, h12, h13, h14, h15⟩

theorem exec_ext (as : List TmAct) {s : TmSt} {v : TmView} (h : TInv s v) : Ext s (s.exec as) v := by
  induction as generalizing s v with
  | nil => exact Ext.none rfl h
  | cons a as ih =>
    cases hs : s.step a with
    | none => simpa [exec, hs] using ih h
    | some s' =>
      obtain ⟨e1, h1, v1, i1⟩ := step_inv h hs
      obtain ⟨e2, h2, v2, i2⟩ := ih i1
      refine ⟨e1 ++ e2, ?_, TmView.valid_append.mpr ⟨v1, v2⟩, ?_⟩
      · simp [exec, hs, h2, h1]
      · simpa [exec, hs, TmView.run_append] using i2

theorem exec_inv (as : List TmAct) :
    TmView.new.Valid (exec .new as).hist ∧ TInv (exec .new as) (TmView.new.run (exec .new as).hist) := by
  obtain ⟨e, h, hv, hi⟩ := exec_ext as TInv.new
  have h : (exec .new as).hist = e := by simpa [TmSt.new] using h
  rw [h]
  exact ⟨hv, hi⟩

end TmSt

namespace TmView

/-- Numbers of events agree with the view. -/
theorem run_counts {v : TmView} {l : List TmEv} (h : v.Valid l) :
    (v.opn.isSome.toNat + l.countP tmBegins = (v.run l).opn.isSome.toNat + l.countP tmEnds) ∧
    (v.calls + l.countP tmCall = (v.run l).calls + l.countP tmRet) := by
  induction l generalizing v with
  | nil => simp
  | cons e l ih =>
    obtain ⟨ho, hl⟩ := h
    have := ih hl
    cases e with
    | started iv z => simpa [upd, tmBegins, tmEnds, tmCall, tmRet] using this
    | ignored => simpa [upd, tmBegins, tmEnds, tmCall, tmRet] using this
    | freed => simpa [upd, tmBegins, tmEnds, tmCall, tmRet] using this
    | taskBegin y =>
      have h0 := ho.2.1
      simp only [upd, tmBegins, tmEnds, tmCall, tmRet, run_cons, List.countP_cons, h0] at this ⊢
      simp_all
      omega
    | taskEnd y ms =>
      have h0 := ho.2
      simp only [upd, tmBegins, tmEnds, tmCall, tmRet, run_cons, List.countP_cons, h0] at this ⊢
      simp_all
      omega
    | stopCall t z =>
      simp only [upd, tmBegins, tmEnds, tmCall, tmRet, run_cons, List.countP_cons] at this ⊢
      split_ifs at this ⊢ <;> simp_all <;> omega
    | stopRet t z =>
      have h0 := ho.2.1
      simp only [upd, tmBegins, tmEnds, tmCall, tmRet, run_cons, List.countP_cons] at this ⊢
      split_ifs at this ⊢ <;> simp_all <;> omega

theorem run_time {v : TmView} {l : List TmEv} (h : v.Valid l) : v.time ≤ (v.run l).time := by
  induction l generalizing v with
  | nil => exact Nat.le_refl _
  | cons e l ih =>
    obtain ⟨ho, hl⟩ := h
    refine Nat.le_trans ?_ (ih hl)
    cases e <;> simp only [upd, Ok] at ho ⊢ <;> first | exact Nat.le_refl _ | exact ho.1 | skip
    · split_ifs <;> exact ho.1
    · split_ifs <;> exact ho.1

/-- The interval is the one of the latest start. -/
theorem run_iv {v : TmView} {l : List TmEv} (h : ∀ e ∈ l, tmStarts e = false) : (v.run l).iv = v.iv := by
  induction l generalizing v with
  | nil => rfl
  | cons e l ih =>
    rw [run_cons, ih fun x hx => h x (List.mem_cons_of_mem _ hx)]
    have := h e List.mem_cons_self
    cases e <;> simp only [upd] <;> try rfl
    · simp [tmStarts] at this
    · split_ifs <;> rfl
    · split_ifs <;> rfl

/-- Without a start a timer that is not alive stays so. -/
theorem run_dead {v : TmView} {l : List TmEv} (hv : v.Valid l) (ha : v.alive = false)
    (h : ∀ e ∈ l, tmStarts e = false) : ∀ e ∈ l, tmBegins e = false := by
  induction l generalizing v with
  | nil => simp
  | cons e l ih =>
    obtain ⟨ho, hl⟩ := hv
    have he := h e List.mem_cons_self
    have ha' : (v.upd e).alive = false := by
      cases e <;> simp only [upd] <;> try exact ha
      · simp [tmStarts] at he
      · split_ifs <;> simp [ha]
      · split_ifs <;> simp [ha]
    intro x hx
    rcases List.mem_cons.mp hx with rfl | hx
    · cases x <;> simp only [tmBegins]
      have := ho.2.2.2.1
      simp [ha] at this
    · exact ih hl ha' (fun x hx => h x (List.mem_cons_of_mem _ hx)) x hx

/-- Between the effective `stop` and its return, at most one task begins. -/
theorem run_after {v : TmView} {l : List TmEv} (hv : v.Valid l) (hj : v.joiner.isSome) (h1 : v.after ≤ 1)
    (h : ∀ e ∈ l, tmStarts e = false) : v.after + l.countP tmBegins ≤ 1 := by
  induction l generalizing v with
  | nil => simpa using h1
  | cons e l ih =>
    obtain ⟨ho, hl⟩ := hv
    have hrest := fun x hx => h x (List.mem_cons_of_mem e hx)
    have he := h e List.mem_cons_self
    cases e with
    | started iv z => simp [tmStarts] at he
    | ignored => simpa [upd, tmBegins] using ih hl hj h1 hrest
    | freed => simpa [upd, tmBegins] using ih hl hj h1 hrest
    | taskBegin y =>
      have h0 := ho.2.2.2.2 hj
      have := ih hl (by simpa [upd] using hj) (by simp [upd, hj, h0]) hrest
      simp only [upd, hj, if_true, List.countP_cons, tmBegins] at this ⊢
      omega
    | taskEnd y ms => simpa [upd, tmBegins] using ih hl hj h1 hrest
    | stopCall t z =>
      have hn : (v.alive && v.joiner.isNone) = false := by cases hx : v.joiner <;> simp_all
      simpa [upd, tmBegins, hn] using ih hl (by simpa [upd, hn] using hj) (by simpa [upd, hn] using h1) hrest
    | stopRet t z =>
      by_cases hx : v.joiner = some t
      · have hd := run_dead hl (by simp [upd, hx]) hrest
        have : l.countP tmBegins = 0 := List.countP_eq_zero.mpr fun x hx => by simp [hd x hx]
        simp [tmBegins, this, h1]
      · simpa [upd, tmBegins, hx] using ih hl (by simpa [upd, hx] using hj) (by simpa [upd, hx] using h1) hrest

/-- The joiner stays until it returns. -/
theorem run_joiner {v : TmView} {l : List TmEv} {t : Nat} (hj : v.joiner = some t)
    (h : ∀ e ∈ l, tmStarts e = false) (hr : ∀ e ∈ l, tmRets t e = false) : (v.run l).joiner = some t := by
  induction l generalizing v with
  | nil => exact hj
  | cons e l ih =>
    rw [run_cons]
    refine ih ?_ (fun x hx => h x (List.mem_cons_of_mem _ hx)) (fun x hx => hr x (List.mem_cons_of_mem _ hx))
    have he := h e List.mem_cons_self
    have hr := hr e List.mem_cons_self
    cases e <;> simp only [upd] <;> try exact hj
    · simp [tmStarts] at he
    · simp [hj]
    · simp only [tmRets, decide_eq_false_iff_not] at hr
      rw [if_neg (by rw [hj]; simpa using fun h => hr h.symm)]
      exact hj

/-- What holds after any events. -/
theorem run_wf {v : TmView} {l : List TmEv} (hv : v.Valid l) (h1 : v.joiner.isSome → 0 < v.calls)
    (h2 : v.joiner = none → v.after = 0) (h3 : v.alive = false → v.opn = none) :
    ((v.run l).joiner.isSome → 0 < (v.run l).calls) ∧ ((v.run l).joiner = none → (v.run l).after = 0) ∧
      ((v.run l).alive = false → (v.run l).opn = none) := by
  induction l generalizing v with
  | nil => exact ⟨h1, h2, h3⟩
  | cons e l ih =>
    obtain ⟨ho, hl⟩ := hv
    refine ih hl ?_ ?_ ?_
    all_goals
      cases e <;> simp only [upd, Ok] at ho ⊢ <;> first | assumption | skip
    all_goals try (split_ifs <;> simp_all; done)
    all_goals simp_all
    all_goals try (split_ifs <;> simp_all; done)
    split_ifs with hq
    · simp
    · intro hj
      have := ho.2.2.2 hq (by simpa using hj)
      simp
      omega

/-- A task in progress and the events until the next one begins. -/
theorem run_gap {v : TmView} {l : List TmEv} {x : Nat} (hv : v.Valid l) (ho : v.opn = some x) (hxt : x ≤ v.time)
    (hs : ∀ e ∈ l, tmStarts e = false) (hb : ∀ e ∈ l, tmBegins e = false) (hn : (v.run l).opn = none) :
    ∃ l1 e ms l2, l = l1 ++ .taskEnd e ms :: l2 ∧ x ≤ e ∧ e ≤ (v.run l).time ∧
      (v.run l).next = e + TmSt.nextLeft v.iv x e ms ∧ l.countP tmEnds = 1 := by
  induction l generalizing v with
  | nil => simp [ho] at hn
  | cons a l ih =>
    obtain ⟨hok, hl⟩ := hv
    have hs' := fun x hx => hs x (List.mem_cons_of_mem a hx)
    have hb' := fun x hx => hb x (List.mem_cons_of_mem a hx)
    have h1 := hs a List.mem_cons_self
    have h2 := hb a List.mem_cons_self
    by_cases he : tmEnds a = true
    · cases a <;> simp [tmEnds] at he
      rename_i e ms
      have hx : x ≤ e := Nat.le_trans hxt hok.1
      have key : ∀ (w : TmView), w.Valid l → w.opn = none → (w.run l).next = w.next ∧ l.countP tmEnds = 0 := by
        intro w hw hwo
        clear ih hn hl hs hb
        induction l generalizing w with
        | nil => simp
        | cons c l ih' =>
          obtain ⟨hc, hw⟩ := hw
          have h1 := hs' c List.mem_cons_self
          have h2 := hb' c List.mem_cons_self
          have := ih' (fun x hx => hs' x (List.mem_cons_of_mem _ hx)) (fun x hx => hb' x (List.mem_cons_of_mem _ hx)) _ hw
          cases c <;> simp only [upd, run_cons, List.countP_cons, tmEnds, Bool.false_eq_true, if_false] at this ⊢
          · simp [tmStarts] at h1
          · simpa using this hwo
          · simp [tmBegins] at h2
          · have := hc.2; simp [hwo] at this
          · by_cases hq : (w.alive && w.joiner.isNone) = true <;> simp only [hq, if_true, if_false] at this ⊢ <;>
              exact this hwo
          · rename_i t z
            by_cases hq : w.joiner = some t <;> simp only [hq, if_true, if_false] at this ⊢ <;> exact this hwo
          · simpa using this hwo
      have hk := key _ hl rfl
      refine ⟨[], e, ms, l, rfl, hx, ?_, ?_, ?_⟩
      · exact run_time hl
      · rw [run_cons, hk.1]; simp [upd, ho]
      · rw [List.countP_cons, hk.2]; rfl
    · have hopn : (v.upd a).opn = some x := by
        cases a <;> simp only [upd] <;> try exact ho
        · simp [tmBegins] at h2
        · simp [tmEnds] at he
        · split_ifs <;> exact ho
        · split_ifs <;> exact ho
      have hiv : (v.upd a).iv = v.iv := run_iv (l := [a]) (by simpa using h1)
      have ht : x ≤ (v.upd a).time := Nat.le_trans hxt (run_time (l := [a]) ⟨hok, trivial⟩)
      obtain ⟨l1, e, ms, l2, hl', hx, hy, hz, hc⟩ := ih hl hopn ht hs' hb' hn
      refine ⟨a :: l1, e, ms, l2, by simp [hl'], hx, hy, by rw [run_cons, hz, hiv], ?_⟩
      simp [he, hc]

/-- After a start nothing begins before the interval has passed. -/
theorem run_first {v : TmView} {l : List TmEv} {b : Int} {y : Nat} (hv : v.Valid (l ++ [.taskBegin y]))
    (hb : b ≤ v.next) (hbt : v.opn = none) (hs : ∀ e ∈ l, tmStarts e = false) : b ≤ y := by
  induction l generalizing v with
  | nil => exact Int.le_trans hb hv.1.2.2.1
  | cons a l ih =>
    obtain ⟨ho, hl⟩ := hv
    have hs' := fun x hx => hs x (List.mem_cons_of_mem a hx)
    have h1 := hs a List.mem_cons_self
    cases a with
    | started _ _ => simp [tmStarts] at h1
    | ignored => exact ih hl hb hbt hs'
    | freed => exact ih hl hb hbt hs'
    | taskBegin z =>
      have h1 := ho.2.2.1
      have h2 := run_time (l := l ++ [.taskBegin y]) hl
      simp [run_append, upd] at h2
      omega
    | taskEnd z ms => have := ho.2; simp [hbt] at this
    | stopCall t z =>
      refine ih hl ?_ ?_ hs' <;> simp only [upd] <;> split_ifs <;> assumption
    | stopRet t z =>
      refine ih hl ?_ ?_ hs' <;> simp only [upd] <;> split_ifs <;> assumption

end TmView
end CGraph
