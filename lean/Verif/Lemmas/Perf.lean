import Verif.Spec.Perf
import Mathlib.Data.List.Forall2
import Mathlib.Tactic.SplitIfs

/-! # Perf aspects are invisible to user code -/
namespace CGraph
open M Spec

/-- The computation `m'` (with perf aspects) does what `m` does: same outcome, same trace but for the calls of perf
aspects, all of which satisfy `G`. -/
def Sim {α : Type} (G : Act → Prop) (m' m : M α) : Prop :=
  ∀ w' w : World, strip w'.tr = w.tr → w'.prepared = w.prepared →
    match m' w', m w with
    | none, none => True
    | some (o', v'), some (o, v) => o' = o ∧ strip v'.tr = v.tr ∧ v'.prepared = v.prepared ∧
        ∃ l, v'.tr = w'.tr ++ l ∧ ∀ ev ∈ l, ev.isPerf = true → G ev
    | _, _ => False

theorem strip_append (a b : Trace) : strip (a ++ b) = strip a ++ strip b := List.filter_append ..

theorem strip_one {ev : Act} (h : ev.isPerf = false) : strip [ev] = [ev] := by simp [strip, h]

theorem strip_perf {ev : Act} (h : ev.isPerf = true) : strip [ev] = [] := by simp [strip, h]

variable {G : Act → Prop}

theorem Sim.pure {α : Type} (a : α) : Sim G (M.pure a) (M.pure a) := by
  intro w' w h1 h2
  exact ⟨rfl, h1, h2, [], by simp, by simp⟩

theorem Sim.throw {α : Type} (x : Exc) : Sim G (M.throw (α := α) x) (M.throw x) := by
  intro w' w h1 h2
  exact ⟨rfl, h1, h2, [], by simp, by simp⟩

theorem Sim.ofOut {α : Type} (o : Out α) : Sim G (M.ofOut o) (M.ofOut o) := by
  intro w' w h1 h2
  exact ⟨rfl, h1, h2, [], by simp, by simp⟩

theorem Sim.diverge {α : Type} : Sim G (M.diverge (α := α)) M.diverge := by
  intro w' w h1 h2
  trivial

/-- Reading the trace. -/
theorem Sim.read {α : Type} (f : Trace → α) :
    Sim G (fun w => some (Out.ret (f (strip w.tr)), w)) (fun w => some (Out.ret (f w.tr), w)) := by
  intro w' w h1 h2
  exact ⟨by rw [h1], h1, h2, [], by simp, by simp⟩

theorem Sim.readOut {α : Type} (f : Trace → Out α) :
    Sim G (fun w => some (f (strip w.tr), w)) (fun w => some (f w.tr, w)) := by
  intro w' w h1 h2
  exact ⟨by rw [h1], h1, h2, [], by simp, by simp⟩

theorem Sim.bind {α β : Type} {m' m : M α} {f' f : α → M β} (h : Sim G m' m) (hf : ∀ a, Sim G (f' a) (f a)) :
    Sim G (M.bind m' f') (M.bind m f) := by
  intro w' w h1 h2
  have hm := h w' w h1 h2
  unfold M.bind
  cases hx : m' w' with
  | none =>
    cases hy : m w with
    | none => trivial
    | some y => rw [hx, hy] at hm; exact hm.elim
  | some x =>
    cases hy : m w with
    | none => rw [hx, hy] at hm; exact hm.elim
    | some y =>
      rw [hx, hy] at hm
      obtain ⟨o', v'⟩ := x
      obtain ⟨o, v⟩ := y
      obtain ⟨rfl, h3, h4, l, h5, h6⟩ := hm
      cases o' with
      | thr x => exact ⟨rfl, h3, h4, l, h5, h6⟩
      | ret a =>
        have hn := hf a v' v h3 h4
        show match f' a v', f a v with
          | none, none => True
          | some (o', u'), some (o, u) => o' = o ∧ strip u'.tr = u.tr ∧ u'.prepared = u.prepared ∧
              ∃ l, u'.tr = w'.tr ++ l ∧ ∀ ev ∈ l, ev.isPerf = true → G ev
          | _, _ => False
        cases hp : f' a v' with
        | none =>
          cases hq : f a v with
          | none => trivial
          | some q => rw [hp, hq] at hn; exact hn.elim
        | some p =>
          cases hq : f a v with
          | none => rw [hp, hq] at hn; exact hn.elim
          | some q =>
            rw [hp, hq] at hn
            obtain ⟨a1, a2, a3, l2, a4, a5⟩ := hn
            refine ⟨a1, a2, a3, l ++ l2, by rw [a4, h5, List.append_assoc], ?_⟩
            intro ev hev
            rcases List.mem_append.mp hev with h | h
            · exact h6 ev h
            · exact a5 ev h

/-- A call of user code that is recorded. -/
theorem Sim.emit {α : Type} {f' f : Trace → Out α} (mk : Out α → Act) (hf : ∀ t, f' t = f (strip t))
    (hmk : ∀ o, (mk o).isPerf = false) : Sim G (M.emit f' mk) (M.emit f mk) := by
  intro w' w h1 h2
  simp only [M.emit]
  refine ⟨by rw [hf, h1], ?_, h2, [mk (f' w'.tr)], rfl, ?_⟩
  · rw [strip_append, h1, strip_one (hmk _), hf, h1]
  · intro ev hev hp
    rw [List.mem_singleton.mp hev, hmk] at hp
    cases hp

/-- A call of a perf aspect makes no difference. -/
theorem Sim.perf {α β : Type} {f' : Trace → Out α} {mk : Out α → Act} {a : α} {k' : α → M β} {k : M β}
    (hf : ∀ t, f' t = .ret a) (hmk : ∀ o, (mk o).isPerf = true) (hG : ∀ o, G (mk o)) (hk : Sim G (k' a) k) :
    Sim G (M.bind (M.emit f' mk) k') k := by
  intro w' w h1 h2
  have := hk { w' with tr := w'.tr ++ [mk (f' w'.tr)] } w (by rw [strip_append, strip_perf (hmk _), List.append_nil, h1]) h2
  simp only [M.bind, M.emit, hf]
  rw [hf] at this
  cases hp : k' a { w' with tr := w'.tr ++ [mk (.ret a)] } with
  | none =>
    cases hq : k w with
    | none => trivial
    | some q => rw [hp, hq] at this; exact this.elim
  | some p =>
    cases hq : k w with
    | none => rw [hp, hq] at this; exact this.elim
    | some q =>
      rw [hp, hq] at this
      obtain ⟨a1, a2, a3, l2, a4, a5⟩ := this
      refine ⟨a1, a2, a3, mk (.ret a) :: l2, by rw [a4]; simp, ?_⟩
      intro ev hev hpf
      rcases List.mem_cons.mp hev with h | h
      · rw [h]; exact hG _
      · exact a5 ev h hpf

theorem Sim.catchC {α : Type} {m' m : M α} {h' h : String → M α} (hm : Sim G m' m) (hh : ∀ x, Sim G (h' x) (h x)) :
    Sim G (M.catchC m' h') (M.catchC m h) := by
  intro w' w h1 h2
  have hm := hm w' w h1 h2
  unfold M.catchC
  cases hx : m' w' with
  | none =>
    cases hy : m w with
    | none => trivial
    | some y => rw [hx, hy] at hm; exact hm.elim
  | some x =>
    cases hy : m w with
    | none => rw [hx, hy] at hm; exact hm.elim
    | some y =>
      rw [hx, hy] at hm
      obtain ⟨o', v'⟩ := x
      obtain ⟨o, v⟩ := y
      obtain ⟨rfl, h3, h4, l, h5, h6⟩ := hm
      rcases o' with a | (msg | msg)
      · exact ⟨rfl, h3, h4, l, h5, h6⟩
      · have hn := hh msg v' v h3 h4
        show match h' msg v', h msg v with
          | none, none => True
          | some (o', u'), some (o, u) => o' = o ∧ strip u'.tr = u.tr ∧ u'.prepared = u.prepared ∧
              ∃ l, u'.tr = w'.tr ++ l ∧ ∀ ev ∈ l, ev.isPerf = true → G ev
          | _, _ => False
        cases hp : h' msg v' with
        | none =>
          cases hq : h msg v with
          | none => trivial
          | some q => rw [hp, hq] at hn; exact hn.elim
        | some p =>
          cases hq : h msg v with
          | none => rw [hp, hq] at hn; exact hn.elim
          | some q =>
            rw [hp, hq] at hn
            obtain ⟨a1, a2, a3, l2, a4, a5⟩ := hn
            refine ⟨a1, a2, a3, l ++ l2, by rw [a4, h5, List.append_assoc], ?_⟩
            intro ev hev
            rcases List.mem_append.mp hev with h | h
            · exact h6 ev h
            · exact a5 ev h
      · exact ⟨rfl, h3, h4, l, h5, h6⟩

theorem Sim.capture {α : Type} {m' m : M α} (hm : Sim G m' m) : Sim G (M.capture m') (M.capture m) := by
  intro w' w h1 h2
  have hm := hm w' w h1 h2
  unfold M.capture
  cases hx : m' w' with
  | none =>
    cases hy : m w with
    | none => trivial
    | some y => rw [hx, hy] at hm; exact hm.elim
  | some x =>
    cases hy : m w with
    | none => rw [hx, hy] at hm; exact hm.elim
    | some y =>
      rw [hx, hy] at hm
      obtain ⟨h0, h3, h4, l, h5, h6⟩ := hm
      exact ⟨by rw [h0], h3, h4, l, h5, h6⟩

/-- Events before and after a computation. -/
theorem Sim.around {m' m : M CStatus} (hm : Sim G m' m) (a : Act) (b : Out CStatus → Act) (ha : a.isPerf = false)
    (hb : ∀ o, (b o).isPerf = false) :
    Sim G (fun w => match m' { w with tr := w.tr ++ [a] } with
      | none => none
      | some (o, w') => some (o, { w' with tr := w'.tr ++ [b o] }))
     (fun w => match m { w with tr := w.tr ++ [a] } with
      | none => none
      | some (o, w') => some (o, { w' with tr := w'.tr ++ [b o] })) := by
  intro w' w h1 h2
  have hm := hm { w' with tr := w'.tr ++ [a] } { w with tr := w.tr ++ [a] }
    (by rw [strip_append, h1, strip_one ha]) h2
  cases hx : m' { w' with tr := w'.tr ++ [a] } with
  | none =>
    cases hy : m { w with tr := w.tr ++ [a] } with
    | none => simp only [hx, hy]
    | some y => rw [hx, hy] at hm; exact hm.elim
  | some x =>
    cases hy : m { w with tr := w.tr ++ [a] } with
    | none => rw [hx, hy] at hm; exact hm.elim
    | some y =>
      rw [hx, hy] at hm
      obtain ⟨o', v'⟩ := x
      obtain ⟨o, v⟩ := y
      obtain ⟨rfl, h3, h4, l, h5, h6⟩ := hm
      simp only [hx, hy]
      refine ⟨trivial, ?_, h4, a :: (l ++ [b o']), ?_, ?_⟩
      · show strip (v'.tr ++ [b o']) = v.tr ++ [b o']
        rw [strip_append, h3, strip_one (hb _)]
      · show v'.tr ++ [b o'] = _
        rw [h5]; simp
      · intro ev hev hp
        rcases List.mem_cons.mp hev with h | h
        · rw [h, ha] at hp; cases hp
        · rcases List.mem_append.mp h with h | h
          · exact h6 ev h hp
          · rw [List.mem_singleton.mp h, hb] at hp; cases hp

theorem Sim.bracket {m' m : M CStatus} (hm : Sim G m' m) (e : Nat) (p : Phase) :
    Sim G (M.bracket e p m') (M.bracket e p m) :=
  hm.around (.enter e p) (.leave e p) rfl (fun _ => rfl)

theorem Sim.called {m' m : M CStatus} (hm : Sim G m' m) (e : Nat) (p : Phase) :
    Sim G (CGraph.called e p m') (CGraph.called e p m) :=
  hm.around (.call e p) (.back e p) rfl (fun _ => rfl)

theorem Sim.getPrepared (e : Nat) : Sim G (M.getPrepared e) (M.getPrepared e) := by
  intro w' w h1 h2
  exact ⟨by rw [h2], h1, h2, [], by simp, by simp⟩

theorem Sim.setPrepared (e : Nat) (b : Bool) : Sim G (M.setPrepared e b) (M.setPrepared e b) := by
  intro w' w h1 h2
  refine ⟨rfl, h1, ?_, [], by simp, by simp⟩
  show (fun k => if k = e then b else w'.prepared k) = fun k => if k = e then b else w.prepared k
  rw [h2]

theorem Sim.ite {α : Type} {c : Prop} [Decidable c] {a' a b' b : M α} (h1 : Sim G a' a) (h2 : Sim G b' b) :
    Sim G (if c then a' else b') (if c then a else b) := by
  split_ifs
  · exact h1
  · exact h2

theorem Sim.failM {α : Type} (st : CStatus) (f : CStatus → α) : Sim G (CGraph.failM st f) (CGraph.failM st f) := by
  unfold CGraph.failM
  exact Sim.ite (Sim.throw _) (Sim.pure _)

/-! ## The functions of an element -/

/-- The aspects of the user among the aspects. -/
def users (as : List Nat) : List Nat := as.filter (fun a => (perfRec a).isNone)

theorem users_cons_perf {a : Nat} {as : List Nat} (h : (perfRec a).isSome = true) : users (a :: as) = users as := by
  have : (perfRec a).isNone = false := by cases hp : perfRec a <;> simp_all
  simp [users, this]

theorem users_cons_user {a : Nat} {as : List Nat} (h : (perfRec a).isSome = false) : users (a :: as) = a :: users as := by
  have : (perfRec a).isNone = true := by cases hp : perfRec a <;> simp_all
  simp [users, this]

/-- All perf aspects of the list satisfy the requirement. -/
def Fits (G : Act → Prop) (e : Nat) (as : List Nat) : Prop :=
  ∀ a ∈ as, (perfRec a).isSome = true → (∀ p r, G (.beginA e a p r)) ∧ (∀ p st r, G (.finishA e a p st r)) ∧
    (∀ r, G (.crashA e a r)) ∧ (∀ r, G (.timeoutA e a r))

theorem Fits.tail {e a : Nat} {as : List Nat} (h : Fits G e (a :: as)) : Fits G e as :=
  fun x hx => h x (List.mem_cons_of_mem _ hx)

theorem isPerf_begin (e a : Nat) (p : Phase) (r : Out CStatus) : (Act.beginA e a p r).isPerf = (perfRec a).isSome := rfl
theorem isPerf_finish (e a : Nat) (p : Phase) (st : CStatus) (r : Out Unit) :
    (Act.finishA e a p st r).isPerf = (perfRec a).isSome := rfl
theorem isPerf_crash (e a : Nat) (r : Out Unit) : (Act.crashA e a r).isPerf = (perfRec a).isSome := rfl
theorem isPerf_timeout (e a : Nat) (r : Out Unit) : (Act.timeoutA e a r).isPerf = (perfRec a).isSome := rfl

theorem assign_ok_ok (r : CStatus) (h : r.code ≤ 0) (h2 : (CStatus.ok.assign r).isErr = false) :
    CStatus.ok.assign r = CStatus.ok := by
  unfold CStatus.assign at h2 ⊢
  split_ifs at h2 ⊢ with h3
  · exfalso
    apply h3
    show (0 : Int) = r.code
    have h2' : ¬ r.code < 0 := of_decide_eq_false h2
    omega
  · rfl

theorem sim_begin {U : User} (hU : NoWarn U) (e : Nat) (p : Phase) :
    ∀ as, Fits G e as → Sim G (doBegin (withPerf U) e p as CStatus.ok) (doBegin U e p (users as) CStatus.ok) := by
  intro as
  induction as with
  | nil => intro _; exact Sim.pure _
  | cons a as ih =>
    intro hf
    by_cases hp : (perfRec a).isSome = true
    · rw [users_cons_perf hp]
      refine Sim.perf (a := CStatus.ok) ?_ ?_ ?_ ?_
      · intro t; simp [withPerf, hp]
      · intro o; rw [isPerf_begin, hp]
      · intro o; exact (hf a (by simp) hp).1 p o
      · exact ih hf.tail
    · have hp : (perfRec a).isSome = false := by simpa using hp
      rw [users_cons_user hp]
      simp only [doBegin]
      intro w' w h1 h2
      have hU' := hU e a p (strip w'.tr)
      have hk : ∀ r, U.beginA e a p (strip w'.tr) = .ret r →
          Sim G (if (CStatus.ok.assign r).isErr then failM (CStatus.ok.assign r) id
            else doBegin (withPerf U) e p as (CStatus.ok.assign r))
            (if (CStatus.ok.assign r).isErr then failM (CStatus.ok.assign r) id
            else doBegin U e p (users as) (CStatus.ok.assign r)) := by
        intro r hr
        by_cases he : (CStatus.ok.assign r).isErr = true
        · rw [if_pos he, if_pos he]; exact Sim.failM _ _
        · have he' : (CStatus.ok.assign r).isErr = false := by simpa using he
          rw [if_neg he, if_neg he, assign_ok_ok r (hU' r hr) he']
          exact ih hf.tail
      cases hr : U.beginA e a p (strip w'.tr) with
      | thr x =>
        have hl : (withPerf U).beginA e a p w'.tr = .thr x := by simp [withPerf, hp, hr]
        have hr' : U.beginA e a p w.tr = .thr x := by rw [← h1]; exact hr
        simp only [M.bind, M.emit, hl, hr']
        refine ⟨trivial, ?_, h2, [.beginA e a p (.thr x)], rfl, ?_⟩
        · rw [strip_append, h1, strip_one (by rw [isPerf_begin, hp])]
        · intro ev hev hpf
          rw [List.mem_singleton.mp hev, isPerf_begin, hp] at hpf; cases hpf
      | ret r =>
        have hl : (withPerf U).beginA e a p w'.tr = .ret r := by simp [withPerf, hp, hr]
        have hr' : U.beginA e a p w.tr = .ret r := by rw [← h1]; exact hr
        have hs : Sim G (M.bind (M.emit (fun _ => Out.ret r) (.beginA e a p)) fun r =>
            if (CStatus.ok.assign r).isErr then failM (CStatus.ok.assign r) id
            else doBegin (withPerf U) e p as (CStatus.ok.assign r))
            (M.bind (M.emit (fun _ => Out.ret r) (.beginA e a p)) fun r =>
            if (CStatus.ok.assign r).isErr then failM (CStatus.ok.assign r) id
            else doBegin U e p (users as) (CStatus.ok.assign r)) := by
          have h3 : ∀ (k' k : CStatus → M CStatus), Sim G (k' r) (k r) →
              Sim G (M.bind (M.emit (fun _ => Out.ret r) (.beginA e a p)) k')
                (M.bind (M.emit (fun _ => Out.ret r) (.beginA e a p)) k) := by
            intro k' k hkk
            have : Sim G (M.bind (M.emit (fun _ => Out.ret r) (.beginA e a p)) (fun _ => k' r))
                (M.bind (M.emit (fun _ => Out.ret r) (.beginA e a p)) (fun _ => k r)) :=
              Sim.bind (Sim.emit _ (fun _ => rfl) (fun o => by rw [isPerf_begin, hp])) (fun _ => hkk)
            exact this
          exact h3 _ _ (hk r hr)
        have := hs w' w h1 h2
        simp only [M.bind, M.emit, hl, hr'] at this ⊢
        exact this

theorem sim_finish (U : User) (e : Nat) (p : Phase) (st : CStatus) :
    ∀ as, Fits G e as → Sim G (doFinish (withPerf U) e p st as) (doFinish U e p st (users as)) := by
  intro as
  induction as with
  | nil => intro _; exact Sim.pure _
  | cons a as ih =>
    intro hf
    by_cases hp : (perfRec a).isSome = true
    · rw [users_cons_perf hp]
      exact Sim.perf (a := ()) (fun t => by simp [withPerf, hp]) (fun o => by rw [isPerf_finish, hp])
        (fun o => (hf a (by simp) hp).2.1 p st o) (ih hf.tail)
    · have hp : (perfRec a).isSome = false := by simpa using hp
      rw [users_cons_user hp]
      exact Sim.bind (Sim.emit _ (fun t => by simp [withPerf, hp]) (fun o => by rw [isPerf_finish, hp]))
        (fun _ => ih hf.tail)

theorem sim_crash (U : User) (e : Nat) :
    ∀ as, Fits G e as → Sim G (doCrash (withPerf U) e as) (doCrash U e (users as)) := by
  intro as
  induction as with
  | nil => intro _; exact Sim.pure _
  | cons a as ih =>
    intro hf
    by_cases hp : (perfRec a).isSome = true
    · rw [users_cons_perf hp]
      exact Sim.perf (a := ()) (fun t => by simp [withPerf, hp]) (fun o => by rw [isPerf_crash, hp])
        (fun o => (hf a (by simp) hp).2.2.1 o) (ih hf.tail)
    · have hp : (perfRec a).isSome = false := by simpa using hp
      rw [users_cons_user hp]
      exact Sim.bind (Sim.emit _ (fun t => by simp [withPerf, hp]) (fun o => by rw [isPerf_crash, hp]))
        (fun _ => ih hf.tail)

theorem sim_timeout (U : User) (e : Nat) :
    ∀ as, Fits G e as → Sim G (doTimeout (withPerf U) e as) (doTimeout U e (users as)) := by
  intro as
  induction as with
  | nil => intro _; exact Sim.pure _
  | cons a as ih =>
    intro hf
    by_cases hp : (perfRec a).isSome = true
    · rw [users_cons_perf hp]
      exact Sim.perf (a := ()) (fun t => by simp [withPerf, hp]) (fun o => by rw [isPerf_timeout, hp])
        (fun o => (hf a (by simp) hp).2.2.2 o) (ih hf.tail)
    · have hp : (perfRec a).isSome = false := by simpa using hp
      rw [users_cons_user hp]
      exact Sim.bind (Sim.emit _ (fun t => by simp [withPerf, hp]) (fun o => by rw [isPerf_timeout, hp]))
        (fun _ => ih hf.tail)

/-- The element without perf aspects. -/
def plain (e : Elem) : Elem := { e with aspects := users e.aspects }

theorem sim_async (U : User) (e : Elem) (hf : Fits G e.id e.aspects) {b' b : M CStatus} (hb : Sim G b' b) :
    Sim G (asyncRun (withPerf U) e b') (asyncRun U (plain e) b) := by
  unfold asyncRun
  refine Sim.bind hb.capture fun o => Sim.bind (Sim.emit _ (fun t => rfl) (fun o => rfl)) fun r => ?_
  refine Sim.ite (Sim.ofOut _) (Sim.bind (sim_timeout U e.id e.aspects hf) fun _ => ?_)
  exact Sim.ite (Sim.pure _) (Sim.pure _)

theorem sim_hold (U : User) (e : Elem) (hf : Fits G e.id e.aspects) {b' b : M CStatus} (hb : Sim G b' b) :
    ∀ f st, Sim G (holdLoop (withPerf U) e b' f st) (holdLoop U (plain e) b f st) := by
  intro f
  induction f with
  | zero => intro st; exact Sim.diverge
  | succ f ih =>
    intro st
    simp only [holdLoop]
    refine Sim.bind (Sim.bracket ?_ e.id .run) fun r => Sim.bind (Sim.emit _ (fun t => rfl) (fun o => rfl)) fun h => ?_
    · exact Sim.ite (sim_async U e hf hb) hb
    · exact Sim.ite (ih _) (Sim.pure _)

theorem sim_rounds {U : User} (hU : NoWarn U) (F : Nat) (e : Elem) (hf : Fits G e.id e.aspects) {b' b : M CStatus}
    (hb : Sim G b' b) : ∀ n st, Sim G (rounds (withPerf U) F e b' n st) (rounds U F (plain e) b n st) := by
  intro n
  induction n with
  | zero => intro st; exact Sim.pure _
  | succ n ih =>
    intro st
    simp only [rounds]
    refine Sim.ite (Sim.bind (Sim.emit _ (fun t => rfl) (fun o => rfl)) fun s => ?_) (Sim.pure _)
    refine Sim.ite (Sim.bind (sim_begin hU e.id .run e.aspects hf) fun b => ?_) (Sim.pure _)
    refine Sim.ite (Sim.failM _ _) (Sim.bind (sim_hold U e hf hb F _) fun st' => ?_)
    exact Sim.bind (sim_finish U e.id .run st' e.aspects hf) fun _ => ih _

theorem sim_onCrash (U : User) (e : Elem) (hf : Fits G e.id e.aspects) (msg : String) :
    Sim G (onCrash (withPerf U) e msg) (onCrash U (plain e) msg) :=
  Sim.bind (sim_crash U e.id e.aspects hf) fun _ => Sim.emit _ (fun _ => rfl) (fun _ => rfl)

theorem sim_fatRun {U : User} (hU : NoWarn U) (F : Nat) (e : Elem) (hf : Fits G e.id e.aspects) {b' b : M CStatus}
    (hb : Sim G b' b) : Sim G (fatRun (withPerf U) F e b') (fatRun U F (plain e) b) := by
  unfold fatRun
  refine Sim.ite (Sim.catchC ?_ (sim_onCrash U e hf)) (Sim.pure _)
  unfold runBranch
  refine Sim.bind ?_ fun p => Sim.ite (Sim.pure _) (Sim.bind (sim_rounds hU F e hf hb _ _) fun r => ?_)
  · unfold prepare
    refine Sim.bind (Sim.getPrepared _) fun p => Sim.ite (Sim.pure _) ?_
    refine Sim.bind (Sim.emit _ (fun _ => rfl) (fun _ => rfl)) fun r => Sim.ite (Sim.failM _ _) ?_
    exact Sim.bind (Sim.setPrepared _ _) fun _ => Sim.pure _
  · refine Sim.ite (Sim.pure _) (Sim.bind (Sim.emit _ (fun _ => rfl) (fun _ => rfl)) fun c => ?_)
    exact Sim.ite (Sim.throw _) (Sim.pure _)

theorem sim_fatLife {U : User} (hU : NoWarn U) (e : Elem) (hf : Fits G e.id e.aspects) (p : Phase) {b' b : M CStatus}
    (hb : Sim G b' b) : Sim G (fatLife (withPerf U) e p b') (fatLife U (plain e) p b) := by
  unfold fatLife
  refine Sim.ite (Sim.catchC ?_ (sim_onCrash U e hf)) (Sim.pure _)
  unfold lifeBranch
  refine Sim.bind (Sim.ite (Sim.setPrepared _ _) (Sim.pure _)) fun _ => ?_
  refine Sim.bind (sim_begin hU e.id p e.aspects hf) fun b => Sim.ite (Sim.failM _ _) ?_
  refine Sim.bind (hb.bracket _ _) fun r => Sim.bind (sim_finish U e.id p _ e.aspects hf) fun _ => Sim.pure _

/-! ## Groups -/

/-- Children with and without perf aspects. -/
def Sims (G : Act → Prop) : List (Nat × M CStatus) → List (Nat × M CStatus) → Prop :=
  List.Forall₂ (fun a b => a.1 = b.1 ∧ Sim G a.2 b.2)

theorem sim_cluster {bs' bs : List (Nat × M CStatus)} (h : Sims G bs' bs) :
    ∀ st, Sim G (clusterBody bs' st) (clusterBody bs st) := by
  induction h with
  | nil => intro st; exact Sim.pure _
  | cons h _ ih =>
    intro st
    exact Sim.bind h.2 fun r => Sim.ite (Sim.failM _ _) (ih _)

theorem sim_serial (U : User) {bs' bs : List (Nat × M CStatus)} (h : Sims G bs' bs) :
    ∀ st, Sim G (serialBody (withPerf U) bs' st) (serialBody U bs st) := by
  induction h with
  | nil => intro st; exact Sim.pure _
  | cons h _ ih =>
    intro st
    simp only [serialBody, h.1]
    exact Sim.bind (Sim.emit _ (fun _ => rfl) (fun _ => rfl)) fun m =>
      Sim.ite (Sim.bind h.2 fun r => Sim.ite (Sim.failM _ _) (ih _)) (ih _)

theorem Sims.get {bs' bs : List (Nat × M CStatus)} (h : Sims G bs' bs) (i : Nat) :
    (bs'[i]? = none ∧ bs[i]? = none) ∨ ∃ b' b, bs'[i]? = some b' ∧ bs[i]? = some b ∧ b'.1 = b.1 ∧ Sim G b'.2 b.2 := by
  induction h generalizing i with
  | nil => simp
  | cons h _ ih =>
    cases i with
    | zero => exact .inr ⟨_, _, rfl, rfl, h⟩
    | succ i => simpa using ih i

theorem sim_condition (U : User) (e : Nat) {bs' bs : List (Nat × M CStatus)} (h : Sims G bs' bs) :
    Sim G (conditionBody (withPerf U) e bs') (conditionBody U e bs) := by
  have hl : bs'.length = bs.length := h.length_eq
  have hn : bs' ≠ [] ↔ bs ≠ [] := by rw [← List.length_pos_iff, ← List.length_pos_iff, hl]
  unfold conditionBody
  refine Sim.bind (Sim.emit _ (fun _ => rfl) (fun _ => rfl)) fun i => ?_
  simp only [hn, hl]
  refine Sim.ite ?_ (Sim.ite ?_ (Sim.pure _))
  · rw [List.getLast?_eq_getElem?, List.getLast?_eq_getElem?, hl]
    rcases h.get (bs.length - 1) with ⟨h1, h2⟩ | ⟨b', b, h1, h2, -, h3⟩
    · rw [h1, h2]; exact Sim.pure _
    · rw [h1, h2]; exact Sim.bind h3 fun _ => Sim.pure _
  · rcases h.get i.toNat with ⟨h1, h2⟩ | ⟨b', b, h1, h2, -, h3⟩
    · rw [h1, h2]; exact Sim.pure _
    · rw [h1, h2]; exact Sim.bind h3 fun _ => Sim.pure _

theorem sim_collect : ∀ os st, Sim G (collect os st) (collect os st) := by
  intro os
  induction os with
  | nil => intro st; exact Sim.pure _
  | cons o os ih =>
    intro st
    cases o with
    | none => exact ih st
    | some o => exact Sim.bind (Sim.ofOut _) fun r => ih _

theorem sim_tasks {ms' ms : List (Nat × M CStatus)} (h : Sims G ms' ms) :
    ∀ is, Sim G (runTasks ms' is) (runTasks ms is) := by
  intro is
  induction is with
  | nil => exact Sim.pure _
  | cons i is ih =>
    simp only [runTasks]
    rcases h.get i with ⟨h1, h2⟩ | ⟨b', b, h1, h2, -, h3⟩
    · rw [h1, h2]; exact ih
    · rw [h1, h2]; exact Sim.bind h3.capture fun o => Sim.bind ih fun _ => Sim.pure _

/-- `matching` followed by something that treats related lists alike. -/
theorem sim_matching {α : Type} (U : User) {bs' bs : List (Nat × M CStatus)} (h : Sims G bs' bs) :
    ∀ {k' k : List (Nat × M CStatus) → M α}, (∀ ms' ms, Sims G ms' ms → Sim G (k' ms') (k ms)) →
      Sim G (M.bind (matching (withPerf U) bs') k') (M.bind (matching U bs) k) := by
  induction h with
  | nil => intro k' k hk; exact hk [] [] .nil
  | cons h _ ih =>
    intro k' k hk
    have assoc : ∀ {α β γ : Type} (m : M α) (f : α → M β) (g : β → M γ),
        M.bind (M.bind m f) g = M.bind m (fun a => M.bind (f a) g) := by
      intro α β γ m f g
      funext w
      unfold M.bind
      rcases m w with _ | ⟨_ | _, _⟩ <;> rfl
    simp only [matching, assoc, h.1]
    refine Sim.bind (Sim.emit _ (fun _ => rfl) (fun _ => rfl)) fun m => ?_
    refine ih ?_
    intro ms' ms hms
    cases m with
    | true => exact hk _ _ (.cons h hms)
    | false => exact hk _ _ hms

theorem sim_parallel (U : User) (e : Nat) {bs' bs : List (Nat × M CStatus)} (h : Sims G bs' bs) :
    Sim G (parallelBody (withPerf U) e bs') (parallelBody U e bs) := by
  unfold parallelBody
  refine sim_matching U h fun ms' ms hms => ?_
  have hl : ms'.length = ms.length := hms.length_eq
  rw [hl]
  refine Sim.bind (Sim.read (U.order e)) fun prop => Sim.bind (sim_tasks hms _) fun rs => sim_collect _ _

theorem sim_group (U : User) (k : Kind) (e : Nat) {bs' bs : List (Nat × M CStatus)} (h : Sims G bs' bs) :
    Sim G (groupBody (withPerf U) k e bs') (groupBody U k e bs) := by
  cases k with
  | cluster => exact sim_cluster h _
  | condition => exact sim_condition U e h
  | multiSerial => exact sim_serial U h _
  | multiParallel => exact sim_parallel U e h

theorem sim_lifeBody {bs' bs : List (Nat × M CStatus)} (h : Sims G bs' bs) :
    ∀ st, Sim G (lifeBody bs' st) (lifeBody bs st) := by
  induction h with
  | nil => intro st; exact Sim.ite (Sim.failM _ _) (Sim.pure _)
  | cons h _ ih => intro st; exact Sim.bind h.2 fun r => ih _

/-- All elements fit. -/
def FitsAll (G : Act → Prop) (asp : Nat → List Nat) : Prop := ∀ e, Fits G e (asp e)

theorem plain_with (asp : Nat → List Nat) (e : Elem) :
    plain { e with aspects := asp e.id } = { e with aspects := (fun x => users (asp x)) e.id } := rfl

mutual
theorem sim_run {U : User} (hU : NoWarn U) (F : Nat) (asp : Nat → List Nat) (hf : FitsAll G asp) :
    ∀ t : Tree, Sim G ((t.withAsp asp).run (withPerf U) F) ((t.withAsp (fun e => users (asp e))).run U F)
  | .node e => by
    simp only [Tree.withAsp, Tree.run]
    refine Sim.called ?_ _ _
    exact sim_fatRun hU F { e with aspects := asp e.id } (hf e.id) (Sim.readOut _)
  | .group k e kids => by
    simp only [Tree.withAsp, Tree.run]
    refine Sim.called ?_ _ _
    exact sim_fatRun hU F { e with aspects := asp e.id } (hf e.id) (sim_group U k e.id (sim_runs hU F asp hf kids))
theorem sim_runs {U : User} (hU : NoWarn U) (F : Nat) (asp : Nat → List Nat) (hf : FitsAll G asp) :
    ∀ ts : List Tree, Sims G (Tree.runs (withPerf U) F (Tree.withAsps asp ts))
      (Tree.runs U F (Tree.withAsps (fun e => users (asp e)) ts))
  | [] => .nil
  | t :: ts => by
    simp only [Tree.withAsps, Tree.runs]
    refine .cons ⟨?_, sim_run hU F asp hf t⟩ (sim_runs hU F asp hf ts)
    cases t <;> rfl
end

mutual
theorem sim_life {U : User} (hU : NoWarn U) (p : Phase) (asp : Nat → List Nat) (hf : FitsAll G asp) :
    ∀ t : Tree, Sim G ((t.withAsp asp).life (withPerf U) p) ((t.withAsp (fun e => users (asp e))).life U p)
  | .node e => by
    simp only [Tree.withAsp, Tree.life]
    refine Sim.called ?_ _ _
    exact sim_fatLife hU { e with aspects := asp e.id } (hf e.id) p (Sim.readOut _)
  | .group k e kids => by
    simp only [Tree.withAsp, Tree.life]
    refine Sim.called ?_ _ _
    exact sim_fatLife hU { e with aspects := asp e.id } (hf e.id) p (sim_lifeBody (sim_lifes hU p asp hf kids) _)
theorem sim_lifes {U : User} (hU : NoWarn U) (p : Phase) (asp : Nat → List Nat) (hf : FitsAll G asp) :
    ∀ ts : List Tree, Sims G (Tree.lifes (withPerf U) p (Tree.withAsps asp ts))
      (Tree.lifes U p (Tree.withAsps (fun e => users (asp e)) ts))
  | [] => .nil
  | t :: ts => by
    simp only [Tree.withAsps, Tree.lifes]
    refine .cons ⟨?_, sim_life hU p asp hf t⟩ (sim_lifes hU p asp hf ts)
    cases t <;> rfl
end

theorem sim_engine (next : Trace → Option Nat) {ms' ms : List (Nat × M CStatus)} (h : Sims G ms' ms) :
    ∀ f st, Sim G (engineLoop (fun t => next (strip t)) ms' f st) (engineLoop next ms f st) := by
  intro f
  induction f with
  | zero => intro st; exact Sim.diverge
  | succ f ih =>
    intro st
    simp only [engineLoop]
    refine Sim.bind (Sim.read next) fun i => ?_
    cases i with
    | none => exact Sim.pure _
    | some i =>
      rcases h.get i with ⟨h1, h2⟩ | ⟨b', b, h1, h2, -, h3⟩
      · simp only [h1, h2]; exact Sim.pure _
      · simp only [h1, h2]; exact Sim.bind h3 fun r => ih _

theorem sim_process {U : User} (hU : NoWarn U) (next : Trace → Option Nat) (F : Nat) (asp : Nat → List Nat)
    (hf : FitsAll G asp) (ts : List Tree) :
    Sim G (processElems (withPerf U) (fun t => next (strip t)) F (Tree.withAsps asp ts))
      (processElems U next F (Tree.withAsps (fun e => users (asp e)) ts)) := by
  unfold processElems
  refine Sim.bind (sim_cluster (sim_lifes hU .init asp hf ts) _) fun st => Sim.ite (Sim.failM _ _) ?_
  refine Sim.bind (sim_engine next (sim_runs hU F asp hf ts) F _) fun r => ?_
  exact Sim.bind (sim_cluster (sim_lifes hU .destroy asp hf ts) _) fun d => Sim.pure _

end CGraph
