import Verif.Model.Visible
import Verif.Lemmas.HappensBefore
import Verif.Lemmas.DynRun

/-! Lemmas for C95: what the threads of the dynamic engine have learned of each other. -/
namespace CGraph
namespace Visible
open Spec Hb DynSt

/-- What has to happen before `x` starts. -/
def need (c : DynCfg) (x : Eid) : List Mk :=
  if c.g.deps x = [] then [.begin] else (c.g.deps x).map (fun d => .ev (.finish d))

/-- The element on behalf of which the thread goes on. -/
def past : Job → Option Eid
  | .after e => some e
  | .nIter e (_ :: _) _ => some e
  | .nPost e _ _ _ => some e
  | .tailInc e => some e
  | _ => none

/-- What a thread at `j` has learned. -/
structure JK (c : DynCfg) (log : List Act) (r t : Nat) (j : Job) : Prop where
  held : ∀ x ∈ j.held, ∀ m ∈ need c x, Kn log t (r, m)
  past : ∀ e, past j = some e → Kn log t (r, .ev (.finish e))
  body : ∀ e, j = .body e → Kn log t (r, .ev (.start e))

theorem JK.app {c : DynCfg} {log u : List Act} {r t : Nat} {j : Job} (h : JK c log r t j) : JK c (log ++ u) r t j :=
  ⟨fun x hx m hm => (h.held x hx m hm).app, fun e he => (h.past e he).app, fun e he => (h.body e he).app⟩

/-- What has to come before a note. -/
def LogAt (c : DynCfg) (log : List Act) (i : Nat) (r : Nat) : Mk → Prop
  | .begin => 0 < r ∧ (1 < r → ∃ k b, NotedAt log k (r - 1, .ret b) ∧ HappensBefore log k i)
  | .ev (.start x) => x ∈ c.g.elems ∧ ∀ m ∈ need c x, ∃ k, NotedAt log k (r, m) ∧ HappensBefore log k i
  | .ev (.finish x) => ∃ k, NotedAt log k (r, .ev (.start x)) ∧ HappensBefore log k i
  | .ret b => (∃ k, NotedAt log k (r, .begin) ∧ HappensBefore log k i) ∧
      (b = false → ∀ v ∈ c.g.elems, c.g.succs v = [] → ∃ k, NotedAt log k (r, .ev (.finish v)) ∧ HappensBefore log k i)

def LogOk (c : DynCfg) (log : List Act) : Prop := ∀ i r m, NotedAt log i (r, m) → LogAt c log i r m

theorem LogAt.app {c : DynCfg} {log u : List Act} {i r : Nat} {m : Mk} (h : LogAt c log i r m) : LogAt c (log ++ u) i r m := by
  cases m with
  | begin =>
    refine ⟨h.1, fun hr => ?_⟩
    obtain ⟨k, b, h1, h2⟩ := h.2 hr
    exact ⟨k, b, noted_app h1, hb_app h2⟩
  | ev e =>
    cases e with
    | start x =>
      refine ⟨h.1, fun m hm => ?_⟩
      obtain ⟨k, h1, h2⟩ := h.2 m hm
      exact ⟨k, noted_app h1, hb_app h2⟩
    | finish x =>
      obtain ⟨k, h1, h2⟩ := h
      exact ⟨k, noted_app h1, hb_app h2⟩
  | ret b =>
    obtain ⟨⟨k, h1, h2⟩, h3⟩ := h
    refine ⟨⟨k, noted_app h1, hb_app h2⟩, fun hb v hv hs => ?_⟩
    obtain ⟨k, h1, h2⟩ := h3 hb v hv hs
    exact ⟨k, noted_app h1, hb_app h2⟩

theorem LogOk.snoc {c : DynCfg} {log : List Act} (h : LogOk c log) (t : Nat) (o : Op)
    (ho : ∀ r m, o = .note (r, m) → LogAt c (log ++ [⟨t, o⟩]) log.length r m) : LogOk c (log ++ [⟨t, o⟩]) := by
  intro i r m hn
  rcases noted_new hn with h1 | ⟨rfl, h2⟩
  · exact (h i r m h1).app
  · exact ho r m h2

theorem LogOk.silent {c : DynCfg} {log : List Act} (h : LogOk c log) (t : Nat) (ops : List Op)
    (ho : ∀ o ∈ ops, ∀ m, o ≠ .note m) : LogOk c (log ++ ops.map (fun o => ⟨t, o⟩)) := by
  induction ops generalizing log with
  | nil => simpa using h
  | cons o ops ih =>
    have := ih (h.snoc t o (fun r m hm => absurd hm (ho o (by simp) _))) (fun o' ho' => ho o' (List.mem_cons_of_mem _ ho'))
    simpa using this

/-- The events noted for run `r`. -/
def evs (log : List Act) (r : Nat) : List Ev :=
  log.filterMap (fun a => match a.op with | .note (r', .ev e) => if r' = r then some e else none | _ => none)

theorem evs_app (log u : List Act) (r : Nat) : evs (log ++ u) r = evs log r ++ evs u r := by simp [evs]

/-- What a step of thread `t` from `j` does. -/
structure JEff (c : DynCfg) (s s' : DynSt) (log log' : List Act) (t n : Nat) (sent : Bool) (oj : Option Job) : Prop where
  jk : ∀ j', oj = some j' → JK c log' s.nrun t j'
  qu : (s'.queue = s.queue ∧ sent = false) ∨
    ∃ x, s'.queue = s.queue ++ [x] ∧ sent = true ∧ ∀ m ∈ need c x, TokK log' n (s.nrun, m)
  lk : ∀ d x, (d, x) ∈ s'.fired → c.shapeOf d = .normal → LocK log' (.left x) (s.nrun, .ev (.finish d))
  ek : ∀ v ∈ s'.ended, LocK log' .fin (s.nrun, .ev (.finish v))
  ok : LogOk c log'
  tr : evs log' s.nrun = s'.trace
  rn : ∀ i r m, NotedAt log' i (r, m) → r ≤ s.nrun

theorem need_single {c : DynCfg} {x e : Eid} (he : e ∈ c.g.deps x) (hl : (c.g.deps x).length = 1) :
    need c x = [.ev (.finish e)] := by
  obtain ⟨y, hy⟩ := List.length_eq_one_iff.1 hl
  rw [hy] at he
  simp at he
  subst he
  simp [need, hy]

section
variable {c : DynCfg} {s s' : DynSt} {log : List Act} {t n : Nat}

/-- The parts of the invariant that a thread needs. -/
structure Base (c : DynCfg) (s : DynSt) (log : List Act) : Prop where
  lk : ∀ d x, (d, x) ∈ s.fired → c.shapeOf d = .normal → LocK log (.left x) (s.nrun, .ev (.finish d))
  ek : ∀ v ∈ s.ended, LocK log .fin (s.nrun, .ev (.finish v))
  ok : LogOk c log
  tr : evs log s.nrun = s.trace
  rn : ∀ i r m, NotedAt log i (r, m) → r ≤ s.nrun

/-- Operations that do not matter. -/
def dull : Op → Prop
  | .store _ => False
  | .note _ => False
  | _ => True

theorem Base.dull (h : Base c s log) (ops : List Op) (ho : ∀ o ∈ ops, dull o) :
    Base c s (log ++ ops.map (fun o => ⟨t, o⟩)) := by
  have h1 : ∀ l, ∀ b ∈ ops.map (fun o => (⟨t, o⟩ : Act)), b.op ≠ .store l := by
    intro l b hb
    obtain ⟨o, ho1, rfl⟩ := List.mem_map.1 hb
    intro h0
    have := ho o ho1
    simp at h0
    rw [h0] at this
    exact this
  have h2 : ∀ o ∈ ops, ∀ m, o ≠ .note m := by
    intro o ho1 m h0
    have := ho o ho1
    rw [h0] at this
    exact this
  refine ⟨fun d x hd hs => (h.lk d x hd hs).app (h1 _), fun v hv => (h.ek v hv).app (h1 _), h.ok.silent t ops h2, ?_, ?_⟩
  · rw [evs_app, h.tr]
    have : evs (ops.map (fun o => (⟨t, o⟩ : Act))) s.nrun = [] := by
      unfold evs
      rw [List.filterMap_eq_nil_iff]
      intro a ha
      obtain ⟨o, ho1, rfl⟩ := List.mem_map.1 ha
      have := h2 o ho1
      cases o <;> simp_all
    rw [this, List.append_nil]
  · intro i r m hn
    obtain ⟨tid, hn⟩ := hn
    by_cases hi : i < log.length
    · rw [List.getElem?_append_left hi] at hn; exact h.rn i r m ⟨tid, hn⟩
    · rw [List.getElem?_append_right (by omega)] at hn
      obtain ⟨o, ho1, ho2⟩ := List.mem_map.1 (List.mem_of_getElem? hn)
      simp at ho2
      exact absurd ho2.2 (h2 o ho1 _)

/-- A step that changes neither what has been counted nor what has been noted. -/
theorem JEff.plain (h : Base c s log) {ops : List Op} {oj : Option Job} {sent : Bool} (ho : ∀ o ∈ ops, Visible.dull o)
    (h1 : s'.fired = s.fired) (h2 : s'.ended = s.ended) (h3 : s'.trace = s.trace)
    (hj : ∀ j', oj = some j' → JK c (log ++ ops.map (fun o => ⟨t, o⟩)) s.nrun t j')
    (hq : (s'.queue = s.queue ∧ sent = false) ∨ ∃ x, s'.queue = s.queue ++ [x] ∧ sent = true ∧
      ∀ m ∈ need c x, TokK (log ++ ops.map (fun o => ⟨t, o⟩)) n (s.nrun, m)) :
    JEff c s s' log (log ++ ops.map (fun o => ⟨t, o⟩)) t n sent oj := by
  have hb := h.dull (t := t) ops ho
  exact ⟨hj, hq, by rw [h1]; exact hb.lk, by rw [h2]; exact hb.ek, hb.ok, by rw [h3]; exact hb.tr, hb.rn⟩

theorem postK (hx : ∀ m ∈ need c x, Kn log t (s.nrun, m)) :
    ∀ m ∈ need c x, TokK (log ++ ([.read .status, .send n] : List Op).map (fun o => ⟨t, o⟩)) n (s.nrun, m) := by
  intro m hm
  have h1 : Kn (log ++ [⟨t, .read .status⟩]) t (s.nrun, m) := (hx m hm).app
  have := TokK.send (n := n) h1
  simpa using this

theorem notify_same (s : DynSt) : s.notify.queue = s.queue ∧ s.notify.fired = s.fired ∧ s.notify.ended = s.ended ∧
    s.notify.trace = s.trace ∧ s.notify.nrun = s.nrun := by
  unfold DynSt.notify; split <;> simp

theorem jobStep_k (w : c.g.WF) {st : CStatus} {j : Job} {oj : Option Job} {J : List Job} {fr : List Eid}
    (hi : Inv c s (j :: J) fr) (hs : jobStep c s st j = some (s', oj)) (hb : Base c s log) (hk : JK c log s.nrun t j) :
    JEff c s s' log (log ++ (jobOps c s st n j).map (fun o => ⟨t, o⟩)) t n (VSt.sends (jobOps c s st n j)) oj := by
  have hi' := jobStep_inv w hi hs
  have kapp : ∀ {m : Nat × Mk} {u : List Act}, Kn log t m → Kn (log ++ u) t m := fun h => h.app
  cases j with
  | exec e =>
    simp only [jobStep, Option.some.injEq, Prod.mk.injEq] at hs
    obtain ⟨rfl, rfl⟩ := hs
    have hne : ∀ m ∈ need c e, Kn log t (s.nrun, m) := hk.held e (by simp [Job.held])
    have e1 : log ++ (jobOps c s st n (.exec e)).map (fun o => (⟨t, o⟩ : Act)) =
        (log ++ [⟨t, .store (.left e)⟩]) ++ [⟨t, .note (s.nrun, .ev (.start e))⟩] := by simp [jobOps]
    rw [e1]
    refine ⟨fun j' hj' => ?_, .inl ⟨rfl, rfl⟩, fun d x hd hsh => ?_, fun v hv => ?_, ?_, ?_, ?_⟩
    · simp at hj'; subst hj'
      refine ⟨by simp [Job.held], by simp [past], fun e' he' => ?_⟩
      simp at he'; subst he'
      exact Kn.note _ _ _
    · refine LocK.app ?_ (by simp)
      by_cases hx : x = e
      · subst hx
        refine LocK.rel (hne _ ?_) (.inl rfl)
        have hd' := hi.edgeS d x (by have : 0 < s.fired.count (d, x) := List.count_pos_iff.2 hd; omega)
        have hd2 := (w.sym d x).1 hd'
        have : c.g.deps x ≠ [] := fun h0 => by rw [h0] at hd2; simp at hd2
        simp only [need, if_neg this, List.mem_map]
        exact ⟨d, hd2, rfl⟩
      · exact (hb.lk d x hd hsh).app (by simp; exact fun h0 => hx h0.symm)
    · exact ((hb.ek v hv).app (by simp)).app (by simp)
    · refine LogOk.snoc (hb.ok.snoc t _ (by simp)) t _ ?_
      intro r m hm
      simp only [MemOp.note.injEq, Prod.mk.injEq] at hm
      obtain ⟨rfl, rfl⟩ := hm
      refine ⟨(hi.rdy e (by simp [Job.held]; omega)).1, fun m hm => ?_⟩
      exact Kn.hb_last ((hne m hm).app (u := [⟨t, .store (.left e)⟩]))
    · simp only [evs_app, hb.tr]
      simp [evs]
    · intro i r m hn
      rcases noted_new hn with h1 | ⟨-, h2⟩
      · rcases noted_new h1 with h1 | ⟨-, h2⟩
        · exact hb.rn i r m h1
        · simp at h2
      · simp at h2; omega
  | body e =>
    simp only [jobStep] at hs
    split at hs
    · rename_i hst
      simp only [Option.some.injEq, Prod.mk.injEq] at hs
      obtain ⟨rfl, rfl⟩ := hs
      have e1 : log ++ (jobOps c s st n (.body e)).map (fun o => (⟨t, o⟩ : Act)) =
          log ++ [⟨t, .note (s.nrun, .ev (.finish e))⟩] := by simp [jobOps, hst]
      have e2 : VSt.sends (jobOps c s st n (.body e)) = false := by simp [jobOps, hst, VSt.sends]
      rw [e1, e2]
      refine ⟨fun j' hj' => ?_, .inl ⟨rfl, rfl⟩, fun d x hd hsh => (hb.lk d x hd hsh).app (by simp),
        fun v hv => (hb.ek v hv).app (by simp), ?_, ?_, ?_⟩
      · simp at hj'; subst hj'
        refine ⟨by simp [Job.held], fun e' he' => ?_, by simp⟩
        simp [past] at he'; subst he'
        exact Kn.note _ _ _
      · refine hb.ok.snoc t _ ?_
        intro r m hm
        simp only [MemOp.note.injEq, Prod.mk.injEq] at hm
        obtain ⟨rfl, rfl⟩ := hm
        exact Kn.hb_last (hk.body e rfl)
      · simp only [evs_app, hb.tr]
        simp [evs]
      · intro i r m hn
        rcases noted_new hn with h1 | ⟨-, h2⟩
        · exact hb.rn i r m h1
        · simp at h2; omega
    · rename_i hst
      simp only [Option.some.injEq, Prod.mk.injEq] at hs
      obtain ⟨rfl, rfl⟩ := hs
      have e0 : jobOps c s st n (.body e) = [] := by simp [jobOps, hst]
      rw [e0]
      refine JEff.plain hb (by simp) rfl rfl rfl (fun j' hj' => ?_) (.inl ⟨rfl, rfl⟩)
      simp at hj'; subst hj'
      exact ⟨by simp [Job.held], by simp [past], by simp⟩
  | after e =>
    have hp := hk.past e rfl
    simp only [jobStep] at hs
    have hd : ∀ o ∈ jobOps c s st n (.after e), dull o := by simp [jobOps, dull]
    have e2 : VSt.sends (jobOps c s st n (.after e)) = false := rfl
    rw [e2]
    split at hs
    · simp only [Option.some.injEq, Prod.mk.injEq] at hs
      obtain ⟨rfl, rfl⟩ := hs
      exact JEff.plain hb hd rfl rfl rfl (by simp) (.inl ⟨rfl, rfl⟩)
    · split at hs
      · simp only [Option.some.injEq, Prod.mk.injEq] at hs
        obtain ⟨rfl, rfl⟩ := hs
        refine JEff.plain hb hd rfl rfl rfl (fun j' hj' => ?_) (.inl ⟨rfl, rfl⟩)
        simp only [Option.some.injEq] at hj'; subst hj'
        refine ⟨by simp [Job.held], fun e' he' => ?_, by simp⟩
        have : e' = e := by
          cases hsu : c.g.succs e <;> rw [hsu] at he' <;> simp [past] at he'
          exact he'.symm
        subst this
        exact hp.app
      · rename_i hsh
        obtain ⟨x, hx, hl⟩ := DynCfg.shape_linkable hsh
        simp only [hx, Option.some.injEq, Prod.mk.injEq] at hs
        obtain ⟨rfl, rfl⟩ := hs
        have hb' := hb.dull (t := t) _ hd
        refine ⟨fun j' hj' => ?_, .inl ⟨rfl, rfl⟩, fun d y hdy hn => ?_, hb'.ek, hb'.ok, hb'.tr, hb'.rn⟩
        · simp only [Option.some.injEq] at hj'; subst hj'
          refine ⟨fun y hy m hm => ?_, by simp [past], by simp⟩
          simp [Job.held] at hy; subst hy
          have he : e ∈ c.g.deps y := (w.sym e y).1 (by rw [hx]; simp)
          rw [need_single he hl] at hm
          simp at hm; subst hm
          exact hp.app
        · simp at hdy
          rcases hdy with hdy | ⟨rfl, rfl⟩
          · exact hb'.lk d y hdy hn
          · rw [hn] at hsh; simp at hsh
      · rename_i hsh
        have hr := DynCfg.shape_root hsh
        simp only [Option.some.injEq, Prod.mk.injEq] at hs
        obtain ⟨rfl, rfl⟩ := hs
        have hb' := hb.dull (t := t) _ hd
        refine ⟨fun j' hj' => ?_, .inl ⟨rfl, rfl⟩, fun d y hdy hn => ?_, hb'.ek, hb'.ok, hb'.tr, hb'.rn⟩
        · simp only [Option.some.injEq] at hj'; subst hj'
          refine ⟨fun y hy m hm => ?_, by simp [past], by simp⟩
          simp [Job.held] at hy
          have he : e ∈ c.g.deps y := (w.sym e y).1 hy
          rw [need_single he (hr y hy)] at hm
          simp at hm; subst hm
          exact hp.app
        · simp at hdy
          rcases hdy with hdy | ⟨-, h2⟩
          · exact hb'.lk d y hdy hn
          · rw [← h2, hsh] at hn; simp at hn
      · simp only [Option.some.injEq, Prod.mk.injEq] at hs
        obtain ⟨rfl, rfl⟩ := hs
        refine JEff.plain hb hd rfl rfl rfl (fun j' hj' => ?_) (.inl ⟨rfl, rfl⟩)
        simp only [Option.some.injEq] at hj'; subst hj'
        refine ⟨by simp [Job.held], fun e' he' => ?_, by simp⟩
        simp [past] at he'; subst he'
        exact hp.app
  | nIter e rest q =>
    cases rest with
    | nil =>
      have e0 : jobOps c s st n (.nIter e [] q) = [] := rfl
      rw [e0]
      cases q with
      | none =>
        simp only [jobStep, Option.some.injEq, Prod.mk.injEq] at hs
        obtain ⟨rfl, rfl⟩ := hs
        exact JEff.plain hb (by simp) rfl rfl rfl (by simp) (.inl ⟨rfl, rfl⟩)
      | some y =>
        simp only [jobStep, Option.some.injEq, Prod.mk.injEq] at hs
        obtain ⟨rfl, rfl⟩ := hs
        refine JEff.plain hb (by simp) rfl rfl rfl (fun j' hj' => ?_) (.inl ⟨rfl, rfl⟩)
        simp only [Option.some.injEq] at hj'; subst hj'
        exact ⟨fun x hx m hm => (hk.held x (by simpa [Job.held] using hx) m hm).app, by simp [past], by simp⟩
    | cons x rest =>
      have hp := hk.past e rfl
      have hok := hi.jobs _ (List.mem_cons_self ..)
      have e1 : log ++ (jobOps c s st n (.nIter e (x :: rest) q)).map (fun o => (⟨t, o⟩ : Act)) =
          log ++ [⟨t, .rmw (.left x)⟩] := rfl
      have e2 : VSt.sends (jobOps c s st n (.nIter e (x :: rest) q)) = false := rfl
      have hd : ∀ o ∈ ([.rmw (.left x)] : List Op), dull o := by simp [dull]
      have hb' := hb.dull (t := t) _ hd
      rw [e1, e2]
      have hex : x ∈ c.g.succs e := hi.edgeS e x (by simp [Job.pend, cnt]; omega)
      have hdx : e ∈ c.g.deps x := (w.sym e x).1 hex
      -- what is learned when the counter is zero
      have learn : (∀ d ∈ c.g.deps x, (d, x) ∈ s.fired ++ [(e, x)]) → ∀ m ∈ need c x,
          Kn (log ++ [⟨t, .rmw (.left x)⟩]) t (s.nrun, m) := by
        intro hr m hm
        have : c.g.deps x ≠ [] := fun h0 => by rw [h0] at hdx; simp at hdx
        simp only [need, if_neg this, List.mem_map] at hm
        obtain ⟨d, hd, rfl⟩ := hm
        by_cases hde : d = e
        · subst hde; exact hp.app
        · have h1 := hr d hd
          simp [hde] at h1
          exact Kn.acq (hb.lk d x h1 (DynCfg.shape_normal w hok.1 hok.2 hex d hd)) (.inr rfl)
      have hq0 : ∀ y, q = some y → ∀ m ∈ need c y, Kn (log ++ [⟨t, .rmw (.left x)⟩]) t (s.nrun, m) := by
        intro y hy m hm
        exact (hk.held y (by rw [hy]; simp [Job.held]) m hm).app
      have lk' : ∀ d y, (d, y) ∈ s.fired ++ [(e, x)] → c.shapeOf d = .normal →
          LocK (log ++ [⟨t, .rmw (.left x)⟩]) (.left y) (s.nrun, .ev (.finish d)) := by
        intro d y hdy hn
        simp only [List.mem_append, List.mem_singleton, Prod.mk.injEq] at hdy
        rcases hdy with hdy | ⟨rfl, rfl⟩
        · exact hb'.lk d y hdy hn
        · exact LocK.rel hp (.inr rfl)
      have pk : ∀ e', past (.nIter e rest (some x)) = some e' → Kn (log ++ [⟨t, .rmw (.left x)⟩]) t (s.nrun, .ev (.finish e')) := by
        intro e' he'
        have : e' = e := by cases rest <;> simp [past] at he'; exact he'.symm
        subst this; exact hp.app
      simp only [jobStep] at hs
      split at hs
      · split at hs
        · simp only [Option.some.injEq, Prod.mk.injEq] at hs
          obtain ⟨rfl, rfl⟩ := hs
          have hr := (hi'.rdy x (by simp [Job.held, cnt]; omega)).2
          refine ⟨fun j' hj' => ?_, .inl ⟨rfl, rfl⟩, lk', hb'.ek, hb'.ok, hb'.tr, hb'.rn⟩
          simp only [Option.some.injEq] at hj'; subst hj'
          refine ⟨fun y hy m hm => ?_, pk, by simp⟩
          simp [Job.held] at hy; subst hy
          exact learn hr m hm
        · rename_i y
          simp only [Option.some.injEq, Prod.mk.injEq] at hs
          obtain ⟨rfl, rfl⟩ := hs
          have hr := (hi'.rdy x (by simp [Job.held, cnt]; omega)).2
          refine ⟨fun j' hj' => ?_, .inl ⟨rfl, rfl⟩, lk', hb'.ek, hb'.ok, hb'.tr, hb'.rn⟩
          simp only [Option.some.injEq] at hj'; subst hj'
          refine ⟨fun z hz m hm => ?_, fun e' he' => ?_, by simp⟩
          · simp [Job.held] at hz
            rcases hz with rfl | rfl
            · exact learn hr m hm
            · exact hq0 _ rfl m hm
          · simp [past] at he'; subst he'; exact hp.app
      · simp only [Option.some.injEq, Prod.mk.injEq] at hs
        obtain ⟨rfl, rfl⟩ := hs
        refine ⟨fun j' hj' => ?_, .inl ⟨rfl, rfl⟩, lk', hb'.ek, hb'.ok, hb'.tr, hb'.rn⟩
        simp only [Option.some.injEq] at hj'; subst hj'
        refine ⟨fun z hz m hm => ?_, fun e' he' => ?_, by simp⟩
        · cases q with
          | none => simp [Job.held] at hz
          | some y => simp [Job.held] at hz; subst hz; exact hq0 _ rfl m hm
        · have : e' = e := by cases rest <;> simp [past] at he'; exact he'.symm
          subst this; exact hp.app
  | nPost e x rest y =>
    have hp := hk.past e rfl
    have hx : ∀ m ∈ need c x, Kn log t (s.nrun, m) := hk.held x (by simp [Job.held])
    have hy : ∀ m ∈ need c y, Kn log t (s.nrun, m) := hk.held y (by simp [Job.held])
    have jk : ∀ (u : List Act) j', some (Job.nIter e rest (some y)) = some j' → JK c (log ++ u) s.nrun t j' := by
      intro u j' hj'
      simp only [Option.some.injEq] at hj'; subst hj'
      refine ⟨fun z hz m hm => ?_, fun e' he' => ?_, by simp⟩
      · simp [Job.held] at hz; subst hz; exact (hy m hm).app
      · have : e' = e := by cases rest <;> simp [past] at he'; exact he'.symm
        subst this; exact hp.app
    simp only [jobStep] at hs
    split at hs
    · rename_i he
      simp only [Option.some.injEq, Prod.mk.injEq] at hs
      obtain ⟨rfl, rfl⟩ := hs
      have e0 : jobOps c s st n (.nPost e x rest y) = [.read .status] := by simp [jobOps, postOps, he]
      rw [e0]
      exact JEff.plain hb (by simp [dull]) rfl rfl rfl (jk _) (.inl ⟨rfl, rfl⟩)
    · rename_i he
      simp only [Option.some.injEq, Prod.mk.injEq] at hs
      obtain ⟨rfl, rfl⟩ := hs
      have e0 : jobOps c s st n (.nPost e x rest y) = [.read .status, .send n] := by simp [jobOps, postOps, he]
      rw [e0]
      exact JEff.plain hb (by simp [dull]) rfl rfl rfl (jk _) (.inr ⟨x, rfl, rfl, postK hx⟩)
  | rIter e rest =>
    match rest, hi, hs, hk with
    | [], hi, hs, hk =>
      simp only [jobStep, Option.some.injEq, Prod.mk.injEq] at hs
      obtain ⟨rfl, rfl⟩ := hs
      have e0 : jobOps c s st n (.rIter e []) = [] := rfl
      rw [e0]
      exact JEff.plain hb (by simp) rfl rfl rfl (by simp) (.inl ⟨rfl, rfl⟩)
    | [x], hi, hs, hk =>
      simp only [jobStep, Option.some.injEq, Prod.mk.injEq] at hs
      obtain ⟨rfl, rfl⟩ := hs
      have e0 : jobOps c s st n (.rIter e [x]) = [] := rfl
      rw [e0]
      refine JEff.plain hb (by simp) rfl rfl rfl (fun j' hj' => ?_) (.inl ⟨rfl, rfl⟩)
      simp only [Option.some.injEq] at hj'; subst hj'
      exact ⟨fun y hy m hm => (hk.held y (by simpa [Job.held] using hy) m hm).app, by simp [past], by simp⟩
    | x :: y :: rest, hi, hs, hk =>
      have jk : ∀ (u : List Act) j', some (Job.rIter e (y :: rest)) = some j' → JK c (log ++ u) s.nrun t j' := by
        intro u j' hj'
        simp only [Option.some.injEq] at hj'; subst hj'
        refine ⟨fun z hz m hm => (hk.held z ?_ m hm).app, by simp [past], by simp⟩
        simp only [Job.held] at hz ⊢
        exact List.mem_cons_of_mem _ hz
      simp only [jobStep] at hs
      split at hs
      · rename_i he
        simp only [Option.some.injEq, Prod.mk.injEq] at hs
        obtain ⟨rfl, rfl⟩ := hs
        have e0 : jobOps c s st n (.rIter e (x :: y :: rest)) = [.read .status] := by simp [jobOps, postOps, he]
        rw [e0]
        exact JEff.plain hb (by simp [dull]) rfl rfl rfl (jk _) (.inl ⟨rfl, rfl⟩)
      · rename_i he
        simp only [Option.some.injEq, Prod.mk.injEq] at hs
        obtain ⟨rfl, rfl⟩ := hs
        have e0 : jobOps c s st n (.rIter e (x :: y :: rest)) = [.read .status, .send n] := by simp [jobOps, postOps, he]
        rw [e0]
        exact JEff.plain hb (by simp [dull]) rfl rfl rfl (jk _) (.inr ⟨x, rfl, rfl, postK (hk.held x (by simp [Job.held]))⟩)
  | proc e =>
    have hx : ∀ m ∈ need c e, Kn log t (s.nrun, m) := hk.held e (by simp [Job.held])
    simp only [jobStep] at hs
    split at hs
    · rename_i he
      simp only [Option.some.injEq, Prod.mk.injEq] at hs
      obtain ⟨rfl, rfl⟩ := hs
      have e0 : jobOps c s st n (.proc e) = [.read .status] := by simp [jobOps, he]
      rw [e0]
      exact JEff.plain hb (by simp [dull]) rfl rfl rfl (by simp) (.inl ⟨rfl, rfl⟩)
    · rename_i he
      split at hs
      · rename_i hdf
        simp only [Option.some.injEq, Prod.mk.injEq] at hs
        obtain ⟨rfl, rfl⟩ := hs
        have e0 : jobOps c s st n (.proc e) = [.read .status] := by simp [jobOps, he, hdf]
        rw [e0]
        refine JEff.plain hb (by simp [dull]) rfl rfl rfl (fun j' hj' => ?_) (.inl ⟨rfl, rfl⟩)
        simp only [Option.some.injEq] at hj'; subst hj'
        exact ⟨fun y hy m hm => (hk.held y (by simpa [Job.held] using hy) m hm).app, by simp [past], by simp⟩
      · rename_i hdf
        simp only [Option.some.injEq, Prod.mk.injEq] at hs
        obtain ⟨rfl, rfl⟩ := hs
        have e0 : jobOps c s st n (.proc e) = [.read .status, .send n] := by simp [jobOps, he, hdf]
        rw [e0]
        exact JEff.plain hb (by simp [dull]) rfl rfl rfl (by simp) (.inr ⟨e, rfl, rfl, postK hx⟩)
  | tailInc e =>
    have hp := hk.past e rfl
    simp only [jobStep, Option.some.injEq, Prod.mk.injEq] at hs
    obtain ⟨rfl, rfl⟩ := hs
    have e1 : log ++ (jobOps c s st n (.tailInc e)).map (fun o => (⟨t, o⟩ : Act)) = log ++ [⟨t, .rmw .fin⟩] := rfl
    have hd : ∀ o ∈ ([.rmw .fin] : List Op), dull o := by simp [dull]
    have hb' := hb.dull (t := t) _ hd
    rw [e1]
    refine ⟨fun j' hj' => ?_, .inl ⟨rfl, rfl⟩, hb'.lk, fun v hv => ?_, hb'.ok, hb'.tr, hb'.rn⟩
    · split at hj'
      · simp at hj'; subst hj'
        exact ⟨by simp [Job.held], by simp [past], by simp⟩
      · simp at hj'
    · simp at hv
      rcases hv with hv | rfl
      · exact hb'.ek v hv
      · exact LocK.rel hp (.inr rfl)
  | tailNotify =>
    obtain ⟨n1, n2, n3, n4, -⟩ := notify_same s
    simp only [jobStep] at hs
    split at hs
    · simp at hs
    · simp only [Option.some.injEq, Prod.mk.injEq] at hs
      obtain ⟨rfl, rfl⟩ := hs
      exact JEff.plain hb (by simp [jobOps, dull]) n2 n3 n4 (by simp) (.inl ⟨n1, rfl⟩)
  | errSet st' =>
    simp only [jobStep, Option.some.injEq, Prod.mk.injEq] at hs
    obtain ⟨rfl, rfl⟩ := hs
    refine JEff.plain hb (by simp [jobOps, dull]) rfl rfl rfl (fun j' hj' => ?_) (.inl ⟨rfl, rfl⟩)
    simp at hj'; subst hj'
    exact ⟨by simp [Job.held], by simp [past], by simp⟩
  | errNotify =>
    obtain ⟨n1, n2, n3, n4, -⟩ := notify_same s
    simp only [jobStep, Option.some.injEq, Prod.mk.injEq] at hs
    obtain ⟨rfl, rfl⟩ := hs
    exact JEff.plain hb (by simp [jobOps, dull]) n2 n3 n4 (by simp) (.inl ⟨n1, rfl⟩)

end

/-- What everyone has learned. -/
structure KInv (c : DynCfg) (v : VSt) : Prop where
  lenQ : v.qt.length = v.s.queue.length
  lenJ : v.jt.length = v.s.jobs.length
  qk : ∀ (i : Nat) (x : Eid) (n : Nat), v.s.queue[i]? = some x → v.qt[i]? = some n → ∀ m ∈ need c x, TokK v.log n (v.s.nrun, m)
  jk : ∀ (i : Nat) (j : Job) (n : Nat), v.s.jobs[i]? = some j → v.jt[i]? = some n → JK c v.log v.s.nrun n j
  mn : ∀ j, v.s.main = .inline j → JK c v.log v.s.nrun 0 j
  fr : ∀ r, v.s.main = .fronts r → ∀ x ∈ r, c.g.deps x = []
  bg : v.s.main ≠ .idle → Kn v.log 0 (v.s.nrun, .begin)
  re : v.s.nrun ≠ 0 → v.s.main = .idle → ∃ b, Kn v.log 0 (v.s.nrun, .ret b)
  base : Base c v.s v.log

theorem kinv_init (c : DynCfg) : KInv c (VSt.init c) := by
  refine ⟨rfl, rfl, by simp [VSt.init, DynSt.init], by simp [VSt.init, DynSt.init], by simp [VSt.init, DynSt.init],
    by simp [VSt.init, DynSt.init], by simp [VSt.init, DynSt.init], by simp [VSt.init, DynSt.init], ?_⟩
  refine ⟨by simp [VSt.init, DynSt.init], by simp [VSt.init, DynSt.init], ?_, rfl, ?_⟩
  · rintro i r m ⟨tid, h⟩; simp [VSt.init] at h
  · rintro i r m ⟨tid, h⟩; simp [VSt.init] at h

theorem KInv.queue {c : DynCfg} {v : VSt} {s' : DynSt} (h : KInv c v) {u : List Act} {sent : Bool}
    (hq : (s'.queue = v.s.queue ∧ sent = false) ∨ ∃ x, s'.queue = v.s.queue ++ [x] ∧ sent = true ∧
      ∀ m ∈ need c x, TokK (v.log ++ u) v.next (v.s.nrun, m)) :
    (if sent then v.qt ++ [v.next] else v.qt).length = s'.queue.length ∧
    ∀ (i : Nat) (x : Eid) (n : Nat), s'.queue[i]? = some x → (if sent then v.qt ++ [v.next] else v.qt)[i]? = some n →
      ∀ m ∈ need c x, TokK (v.log ++ u) n (v.s.nrun, m) := by
  have hl := h.lenQ
  rcases hq with ⟨h1, h2⟩ | ⟨x, h1, h2, h3⟩
  · subst h2
    rw [h1]
    exact ⟨by simpa using hl, fun i x n hx hn m hm => (h.qk i x n hx (by simpa using hn) m hm).app⟩
  · subst h2
    rw [h1]
    refine ⟨by simp [hl], fun i y n hx hn m hm => ?_⟩
    simp only [if_true] at hn
    by_cases hi : i < v.s.queue.length
    · rw [List.getElem?_append_left hi] at hx
      rw [List.getElem?_append_left (by omega)] at hn
      exact (h.qk i y n hx hn m hm).app
    · rw [List.getElem?_append_right (by omega)] at hx hn
      have : i - v.s.queue.length = 0 := by
        by_contra h0
        rw [List.getElem?_eq_none (by simp; omega)] at hx
        simp at hx
      rw [this] at hx
      rw [hl, this] at hn
      simp at hx hn
      subst hx hn
      exact h3 m hm

/-- A step of the caller that does not return. -/
theorem KInv.main {c : DynCfg} {v : VSt} {s' : DynSt} {ops : List Op} {oj : Option Job} (h : KInv c v)
    (he : JEff c v.s s' v.log (v.log ++ ops.map (fun o => ⟨0, o⟩)) 0 v.next (VSt.sends ops) oj)
    (h0 : v.s.main ≠ .idle) (h1 : s'.jobs = v.s.jobs) (h2 : s'.nrun = v.s.nrun)
    (hm : ∀ j, s'.main = .inline j → oj = some j)
    (hf : ∀ r, s'.main = .fronts r → ∀ x ∈ r, c.g.deps x = []) (hn : s'.main ≠ .idle) :
    KInv c { v.put 0 ops with s := s' } := by
  obtain ⟨q1, q2⟩ := h.queue he.qu
  refine ⟨q1, by rw [h1]; exact h.lenJ, ?_, ?_, ?_, hf, fun _ => ?_, fun _ hi => absurd hi hn, ?_⟩
  · simp only [VSt.put, h2]; exact q2
  · simp only [VSt.put, h2, h1]
    intro i j n hj hn
    exact (h.jk i j n hj hn).app
  · simp only [VSt.put, h2]
    intro j hj
    exact he.jk j (hm j hj)
  · simp only [VSt.put, h2]; exact (h.bg h0).app
  · obtain ⟨-, -, a3, a4, a5, a6, a7⟩ := he
    rw [← h2] at a3 a4 a6 a7
    exact ⟨a3, a4, a5, a6, a7⟩

/-- When all tails have been counted, who knows what the counter knows knows that they have ended. -/
theorem ended_all {c : DynCfg} {s : DynSt} {J : List Job} {fr : List Eid} (w : c.g.WF) (ha : AcyclicOn c.g.Edge c.g.elems)
    (hi : DynSt.Inv c s J fr) (hf : c.totalEnd ≤ s.fin) : ∀ v ∈ c.g.elems, c.g.succs v = [] → v ∈ s.ended := by
  intro v hv hs
  obtain ⟨q1, -, -, q4, -, -⟩ := hi.quiet w ha hf
  have h1 := hi.complete w ha hf v hv
  have h2 := hi.tailsE q1 v hs
  have h3 : cnt (Job.endp c.g) J v = 0 := by
    unfold cnt
    rw [List.count_eq_zero]
    intro h0
    obtain ⟨j, hj, hv⟩ := List.mem_flatMap.1 h0
    have := q4 j hj
    cases j <;> simp_all [Job.harmless, Job.endp]
  exact List.count_pos_iff.1 (by omega)

theorem ret_base {c : DynCfg} {s : DynSt} {log : List Act} {J : List Job} {fr : List Eid} (w : c.g.WF)
    (ha : AcyclicOn c.g.Edge c.g.elems) (hi : DynSt.Inv c s J fr) (hb : Base c s log) {pre : List Op} {b : Bool}
    (hp : ∀ o ∈ pre, dull o) (hbg : Kn log 0 (s.nrun, .begin)) (hb2 : b = false → c.totalEnd ≤ s.fin) :
    Base c s (log ++ (.load .fin :: (pre ++ [.note (s.nrun, .ret b)])).map (fun o => ⟨0, o⟩)) := by
  have h1 := hb.dull (t := 0) (.load .fin :: pre) (by simpa [dull] using hp)
  have e1 : log ++ (.load .fin :: (pre ++ [.note (s.nrun, .ret b)]) : List Op).map (fun o => (⟨0, o⟩ : Act)) =
      (log ++ (.load .fin :: pre : List Op).map (fun o => (⟨0, o⟩ : Act))) ++ [⟨0, .note (s.nrun, .ret b)⟩] := by simp
  rw [e1]
  refine ⟨fun d x hd hs => (h1.lk d x hd hs).app (by simp), fun v hv => (h1.ek v hv).app (by simp), ?_, ?_, ?_⟩
  · refine h1.ok.snoc 0 _ ?_
    intro r m hm
    simp only [MemOp.note.injEq, Prod.mk.injEq] at hm
    obtain ⟨rfl, rfl⟩ := hm
    constructor
    · have := (hbg.app (u := (.load .fin :: pre : List Op).map (fun o => (⟨0, o⟩ : Act)))).hb_last (o := .note (s.nrun, .ret b))
      simpa using this
    · intro hbf v hv hs
      have hv2 := ended_all w ha hi (hb2 hbf) v hv hs
      have hk : Kn (log ++ [⟨0, .load .fin⟩]) 0 (s.nrun, .ev (.finish v)) := Kn.acq (hb.ek v hv2) (.inl rfl)
      have hk2 := hk.app (u := pre.map (fun o => (⟨0, o⟩ : Act)))
      have := hk2.hb_last (o := .note (s.nrun, .ret b))
      simpa using this
  · rw [evs_app, h1.tr]; simp [evs]
  · intro i r m hn
    rcases noted_new hn with h2 | ⟨-, h2⟩
    · exact h1.rn i r m h2
    · simp at h2; omega

theorem KInv.ret {c : DynCfg} {v : VSt} (w : c.g.WF) (ha : AcyclicOn c.g.Edge c.g.elems) (h : KInv c v)
    (hi : DynSt.Inv c v.s v.s.jobs []) {pre : List Op} (hp : ∀ o ∈ pre, dull o)
    (hsend : VSt.sends pre = false) (hid : v.s.main ≠ .idle) (hb2 : v.s.status.isErr = false → c.totalEnd ≤ v.s.fin) :
    KInv c { v.put 0 (.load .fin :: (pre ++ [.note (v.s.nrun, .ret v.s.status.isErr)])) with s := v.s.ret } := by
  have hs : VSt.sends (.load .fin :: (pre ++ [.note (v.s.nrun, .ret v.s.status.isErr)])) = false := by
    simp [VSt.sends] at hsend ⊢
    exact hsend
  have hb := ret_base w ha hi h.base hp (h.bg hid) hb2
  refine ⟨?_, h.lenJ, ?_, ?_, by simp [DynSt.ret], by simp [DynSt.ret], by simp [DynSt.ret], fun _ _ => ?_, ?_⟩
  · simp only [VSt.put, hs]; exact h.lenQ
  · simp only [VSt.put, hs]
    intro i x n hx hn m hm
    exact (h.qk i x n hx hn m hm).app
  · intro i j n hj hn
    exact (h.jk i j n hj hn).app
  · refine ⟨v.s.status.isErr, ?_⟩
    have := Kn.note (v.log ++ (.load .fin :: pre : List Op).map (fun o => (⟨0, o⟩ : Act))) 0 (v.s.nrun, .ret v.s.status.isErr)
    simpa [VSt.put, DynSt.ret] using this
  · exact ⟨hb.lk, hb.ek, hb.ok, hb.tr, hb.rn⟩

/-- A step of thread `i` of the pool. -/
theorem KInv.work {c : DynCfg} {v : VSt} {s' : DynSt} {ops : List Op} {oj : Option Job} {t i : Nat} (h : KInv c v)
    (hit : v.jt[i]? = some t)
    (he : JEff c v.s s' v.log (v.log ++ ops.map (fun o => ⟨t, o⟩)) t v.next (VSt.sends ops) oj)
    (h2 : s'.nrun = v.s.nrun) (hm : s'.main = v.s.main ∨ (v.s.main = .asleep ∧ s'.main = .waking)) :
    (∀ j', oj = some j' → KInv c { v.put t ops with s := { s' with jobs := v.s.jobs.set i j' } }) ∧
    (oj = none → KInv c { v.put t ops with s := { s' with jobs := v.s.jobs.eraseIdx i }, jt := v.jt.eraseIdx i }) := by
  obtain ⟨q1, q2⟩ := h.queue he.qu
  have hil : i < v.jt.length := (List.getElem?_eq_some_iff.1 hit).1
  have hl := h.lenJ
  have b : Base c s' (v.log ++ ops.map (fun o => ⟨t, o⟩)) := by
    obtain ⟨-, -, a3, a4, a5, a6, a7⟩ := he
    rw [← h2] at a3 a4 a6 a7
    exact ⟨a3, a4, a5, a6, a7⟩
  have m1 : ∀ j, s'.main = .inline j → v.s.main = .inline j := by
    intro j hj; rcases hm with hm | ⟨-, hm⟩ <;> rw [hm] at hj
    · exact hj
    · simp at hj
  have m2 : ∀ r, s'.main = .fronts r → v.s.main = .fronts r := by
    intro j hj; rcases hm with hm | ⟨-, hm⟩ <;> rw [hm] at hj
    · exact hj
    · simp at hj
  have m3 : s'.main = .idle ↔ v.s.main = .idle := by
    rcases hm with hm | ⟨hm1, hm⟩ <;> rw [hm]
    rw [hm1]; simp
  constructor
  · intro j' hj'
    refine ⟨q1, by simp [VSt.put, hl], ?_, ?_, ?_, ?_, ?_, ?_, ⟨b.lk, b.ek, b.ok, b.tr, b.rn⟩⟩
    · simp only [VSt.put, h2]; exact q2
    · simp only [VSt.put, h2]
      intro k j n hj hn
      by_cases hk : k = i
      · subst hk
        rw [hit] at hn
        rw [List.getElem?_set_self (by omega)] at hj
        simp at hj hn; subst hj hn
        exact he.jk _ hj'
      · rw [List.getElem?_set_ne (Ne.symm hk)] at hj
        exact (h.jk k j n hj hn).app
    · simp only [VSt.put, h2]
      exact fun j hj => (h.mn j (m1 j hj)).app
    · exact fun r hr => h.fr r (m2 r hr)
    · simp only [VSt.put, h2, ne_eq, m3]
      exact fun hi => (h.bg hi).app
    · simp only [VSt.put, h2, ne_eq, m3]
      intro h0 hi
      obtain ⟨b, hb⟩ := h.re h0 hi
      exact ⟨b, hb.app⟩
  · intro hj'
    refine ⟨q1, ?_, ?_, ?_, ?_, ?_, ?_, ?_, ⟨b.lk, b.ek, b.ok, b.tr, b.rn⟩⟩
    · simp only [VSt.put]
      rw [List.length_eraseIdx_of_lt hil, List.length_eraseIdx_of_lt (by omega)]
      omega
    · simp only [VSt.put, h2]; exact q2
    · simp only [VSt.put, h2]
      intro k j n hj hn
      rw [List.getElem?_eraseIdx] at hj hn
      by_cases hk : k < i
      · rw [if_pos hk] at hj hn
        exact (h.jk k j n hj hn).app
      · rw [if_neg hk] at hj hn
        exact (h.jk _ j n hj hn).app
    · simp only [VSt.put, h2]
      exact fun j hj => (h.mn j (m1 j hj)).app
    · exact fun r hr => h.fr r (m2 r hr)
    · simp only [VSt.put, h2, ne_eq, m3]
      exact fun hi => (h.bg hi).app
    · simp only [VSt.put, h2, ne_eq, m3]
      intro h0 hi
      obtain ⟨b, hb⟩ := h.re h0 hi
      exact ⟨b, hb.app⟩

/-- Nothing of the run before is going on. -/
theorem clean_harmless {c : DynCfg} {s : DynSt} (w : c.g.WF) (ha : AcyclicOn c.g.Edge c.g.elems) (h : DynSt.SInv c s)
    (hid : s.main = .idle) (hcl : Clean s) : s.queue = [] ∧ ∀ j ∈ s.jobs, j.harmless = true := by
  by_cases h0 : s.nrun = 0
  · have := h.first h0
    subst this
    simp [DynSt.init]
  · have hi := h.inv h0
    rw [allJobs_of (by simp [hid]), frs_of (by simp [hid])] at hi
    obtain ⟨r, hr⟩ := Option.ne_none_iff_exists'.1 (h.idle h0 hid)
    have hr2 := (h.ret r hr).2.2
    by_cases hfin : c.totalEnd ≤ s.fin
    · obtain ⟨-, q2, -, q4, -, -⟩ := hi.quiet w ha hfin
      exact ⟨q2, q4⟩
    · obtain ⟨p, hp, -⟩ := hi.stErr (hr2.resolve_right hfin)
      rcases hcl with hcl | hcl
      · simp [hcl] at hp
      · exact hcl

theorem JK.harmless {c : DynCfg} {log : List Act} {r t : Nat} {j : Job} (h : j.harmless = true) : JK c log r t j := by
  unfold Job.harmless at h
  split at h
  · exact ⟨by simp [Job.held], by simp [Visible.past], by simp⟩
  · exact ⟨by simp [Job.held], by simp [Visible.past], by simp⟩
  · exact ⟨by simp [Job.held], by simp [Visible.past], by simp⟩
  · exact ⟨by simp [Job.held], by simp [Visible.past], by simp⟩
  · simp at h

theorem KInv.begin {c : DynCfg} {v : VSt} {s' : DynSt} (h : KInv c v) (hid : v.s.main = .idle) (hq : v.s.queue = [])
    (hj : ∀ j ∈ v.s.jobs, j.harmless = true) (e1 : s'.queue = []) (e2 : s'.jobs = v.s.jobs) (e3 : s'.main = .fronts c.fronts)
    (e4 : s'.trace = []) (e5 : s'.fired = []) (e6 : s'.ended = []) (e7 : s'.nrun = v.s.nrun + 1) :
    KInv c { v.put 0 (beginOps c v.s) with s := s' } := by
  obtain ⟨pre, hpre, hp1, hp2⟩ : ∃ pre, beginOps c v.s = pre ++ [.note (v.s.nrun + 1, .begin)] ∧ (∀ o ∈ pre, ∀ m, o ≠ .note m) ∧
      VSt.sends (beginOps c v.s) = false := by
    refine ⟨.read .status :: ((if v.s.status.isOK then [] else c.g.elems.map (fun e => .store (.left e)) ++ [.write .status]) ++
      [.store .fin]), by simp [beginOps], ?_, ?_⟩
    · intro o ho m
      by_cases hok : v.s.status.isOK = true
      · simp [hok] at ho
        rcases ho with rfl | rfl <;> simp
      · simp [hok] at ho
        rcases ho with rfl | ⟨e, -, rfl⟩ | rfl | rfl <;> simp
    · by_cases hok : v.s.status.isOK = true <;> simp [hok, beginOps, VSt.sends]
  have hlog : (v.put 0 (beginOps c v.s)).log =
      (v.log ++ pre.map (fun o => ⟨0, o⟩)) ++ [⟨0, .note (v.s.nrun + 1, .begin)⟩] := by
    rw [hpre]; simp [VSt.put]
  have hev : ∀ (l : List Act), (∀ i r m, NotedAt l i (r, m) → r ≤ v.s.nrun) → evs l (v.s.nrun + 1) = [] := by
    intro l hl
    unfold evs
    rw [List.filterMap_eq_nil_iff]
    intro a ha
    obtain ⟨i, hi, rfl⟩ := List.mem_iff_getElem.1 ha
    split
    · rename_i r e heq
      have := hl i r (.ev e) ⟨(l[i]).tid, by rw [List.getElem?_eq_getElem hi, ← heq]⟩
      rw [if_neg (by omega)]
    · rfl
  have hrn : ∀ i r m, NotedAt (v.log ++ pre.map (fun o => (⟨0, o⟩ : Act))) i (r, m) → r ≤ v.s.nrun := by
    rintro i r m ⟨tid, hn⟩
    by_cases hi : i < v.log.length
    · rw [List.getElem?_append_left hi] at hn; exact h.base.rn i r m ⟨tid, hn⟩
    · rw [List.getElem?_append_right (by omega)] at hn
      obtain ⟨o, ho1, ho2⟩ := List.mem_map.1 (List.mem_of_getElem? hn)
      simp at ho2
      exact absurd ho2.2 (hp1 o ho1 _)
  refine ⟨?_, by rw [e2]; exact h.lenJ, by simp [e1], ?_, by simp [e3], ?_, fun _ => ?_, by simp [e3], ?_⟩
  · have := h.lenQ; rw [hq] at this
    simp [VSt.put, hp2, e1, this]
  · simp only [e2]
    intro i j n hji _
    exact JK.harmless (hj j (List.mem_of_getElem? hji))
  · simp only [e3]
    intro r hr x hx
    simp at hr; subst hr
    simp [DynCfg.fronts] at hx
    exact hx.2
  · simp only [hlog, e7]
    exact Kn.note _ _ _
  · simp only [hlog]
    refine ⟨by simp [e5], by simp [e6], ?_, ?_, ?_⟩
    · refine (h.base.ok.silent 0 pre hp1).snoc 0 _ ?_
      intro r m hm
      simp only [MemOp.note.injEq, Prod.mk.injEq] at hm
      obtain ⟨rfl, rfl⟩ := hm
      refine ⟨by omega, fun hr => ?_⟩
      obtain ⟨b, hb⟩ := h.re (by omega) hid
      obtain ⟨k, h1, h2⟩ := (hb.app (u := pre.map (fun o => (⟨0, o⟩ : Act)))).hb_last (o := .note (v.s.nrun + 1, .begin))
      exact ⟨k, b, h1, h2⟩
    · rw [e7, evs_app, hev _ hrn, e4]; simp [evs]
    · intro i r m hn
      rw [e7]
      rcases noted_new hn with h1 | ⟨-, h1⟩
      · have := hrn i r m h1; omega
      · simp at h1; omega

theorem KInv.take {c : DynCfg} {v : VSt} {i : Nat} {e : Eid} (h : KInv c v) (hq : v.s.queue[i]? = some e) :
    KInv c { v with s := { v.s with queue := v.s.queue.eraseIdx i, jobs := v.s.jobs ++ [.exec e] },
                    qt := v.qt.eraseIdx i, jt := v.jt ++ [v.qt.getD i 0], log := v.log ++ [⟨v.qt.getD i 0, .recv (v.qt.getD i 0)⟩] } := by
  have hil : i < v.s.queue.length := (List.getElem?_eq_some_iff.1 hq).1
  have hl := h.lenQ
  have hlj := h.lenJ
  have hn : v.qt[i]? = some (v.qt.getD i 0) := by
    rw [List.getD_eq_getElem?_getD, List.getElem?_eq_getElem (by omega)]; rfl
  generalize v.qt.getD i 0 = n at hn
  have hb := h.base.dull (t := n) [.recv n] (by simp [dull])
  refine ⟨?_, by simp [hlj], ?_, ?_, fun j hj => (h.mn j hj).app, h.fr, fun h0 => (h.bg h0).app, ?_, ⟨hb.lk, hb.ek, hb.ok, hb.tr, hb.rn⟩⟩
  · simp only
    rw [List.length_eraseIdx_of_lt hil, List.length_eraseIdx_of_lt (by omega)]; omega
  · intro k x n' hx hn' m hm
    simp only [List.getElem?_eraseIdx] at hx hn'
    by_cases hk : k < i
    · rw [if_pos hk] at hx hn'
      exact (h.qk k x n' hx hn' m hm).app
    · rw [if_neg hk] at hx hn'
      exact (h.qk _ x n' hx hn' m hm).app
  · intro k j n' hj hn'
    simp only at hj hn'
    by_cases hk : k < v.s.jobs.length
    · rw [List.getElem?_append_left hk] at hj
      rw [List.getElem?_append_left (by omega)] at hn'
      exact (h.jk k j n' hj hn').app
    · rw [List.getElem?_append_right (by omega)] at hj hn'
      have h0 : k - v.s.jobs.length = 0 := by
        by_contra h0
        rw [List.getElem?_eq_none (by simp; omega)] at hj
        simp at hj
      rw [h0] at hj
      rw [hlj, h0] at hn'
      simp at hj hn'
      subst hj hn'
      refine ⟨fun x hx m hm => ?_, by simp [past], by simp⟩
      simp [Job.held] at hx; subst hx
      exact Kn.recv (h.qk i _ n hq hn m hm)
  · intro h0 hi
    obtain ⟨b, hb⟩ := h.re h0 hi
    exact ⟨b, hb.app⟩

theorem kinv_step {c : DynCfg} (w : c.g.WF) (ha : AcyclicOn c.g.Edge c.g.elems) {v v' : VSt} {a : DynAct} (hk : KInv c v)
    (h : DynSt.SInv c v.s) (hs : VSt.step c v a = some v') (hb : a = .begin → Clean v.s) : KInv c v' := by
  unfold VSt.step at hs
  cases hds : DynSt.step c v.s a with
  | none => rw [hds] at hs; simp at hs
  | some s' =>
  rw [hds] at hs
  cases a with
  | begin =>
    simp only [Option.some.injEq] at hs
    subst hs
    simp only [DynSt.step] at hds
    split at hds
    case isFalse => simp at hds
    rename_i hid
    obtain ⟨h1, h2⟩ := clean_harmless w ha h hid (hb rfl)
    simp only [Option.some.injEq] at hds
    subst hds
    by_cases hok : v.s.status.isOK = true
    · exact hk.begin hid h1 h2 (by simp [hok, h1]) (by simp [hok]) rfl rfl rfl rfl rfl
    · exact hk.begin hid h1 h2 (by simp [hok, h1]) (by simp [hok]) rfl rfl rfl rfl rfl
  | spurious =>
    simp only [Option.some.injEq] at hs
    subst hs
    simp only [DynSt.step] at hds
    split at hds
    case isFalse => simp at hds
    rename_i hm
    simp only [Option.some.injEq] at hds
    subst hds
    obtain ⟨b1, b2, b3, b4, b5⟩ := hk.base
    exact ⟨hk.lenQ, hk.lenJ, hk.qk, hk.jk, by simp, by simp, fun _ => hk.bg (by simp [hm]), by simp, ⟨b1, b2, b3, b4, b5⟩⟩
  | take i =>
    simp only [Option.some.injEq] at hs
    subst hs
    simp only [DynSt.step] at hds
    split at hds
    · simp at hds
    rename_i e hq
    split at hds
    case isFalse => simp at hds
    simp only [Option.some.injEq] at hds
    subst hds
    exact hk.take hq
  | work i st =>
    simp only [DynSt.step] at hds
    cases hj : v.s.jobs[i]? with
    | none => rw [hj] at hds; simp at hds
    | some j =>
    rw [hj] at hds
    simp only [hj] at hs
    simp only at hds
    have hnr : v.s.nrun ≠ 0 := by
      intro h0
      rw [h.first h0] at hj
      simp [DynSt.init] at hj
    have hil : i < v.s.jobs.length := (List.getElem?_eq_some_iff.1 hj).1
    have hl := hk.lenJ
    have ht : v.jt[i]? = some (v.jt.getD i 0) := by
      rw [List.getD_eq_getElem?_getD, List.getElem?_eq_getElem (by omega)]; rfl
    have hi : DynSt.Inv c v.s (j :: v.s.allJobs.erase j) v.s.frs := by
      refine (h.inv hnr).perm (List.perm_cons_erase ?_)
      have hm : j ∈ v.s.jobs := List.mem_of_getElem? hj
      unfold allJobs
      split
      · exact List.mem_cons_of_mem _ hm
      · exact hm
    cases hjs : DynSt.jobStep c v.s st j with
    | none => rw [hjs] at hds; simp at hds
    | some p =>
    obtain ⟨s1, oj⟩ := p
    obtain ⟨f1, f2, f3, f4⟩ := jobStep_frame hjs
    have he := jobStep_k (n := v.next) w hi hjs hk.base (hk.jk i j _ hj ht)
    obtain ⟨k1, k2⟩ := hk.work ht he f2 f4
    rw [hjs] at hds hs
    cases oj with
    | none =>
      simp only [Option.some.injEq] at hds hs
      subst hds hs
      exact k2 rfl
    | some j' =>
      simp only [Option.some.injEq] at hds hs
      subst hds hs
      exact k1 j' rfl
  | main st =>
    simp only [Option.some.injEq] at hs
    subst hs
    have hidle : v.s.main ≠ .idle := by
      intro h0; simp [DynSt.step, h0] at hds
    have hnr : v.s.nrun ≠ 0 := by
      intro h0
      rw [h.first h0] at hidle
      simp [DynSt.init] at hidle
    have hi := h.inv hnr
    have hneed : ∀ r, v.s.main = .fronts r → ∀ x ∈ r, ∀ m ∈ need c x, Kn v.log 0 (v.s.nrun, m) := by
      intro r hr x hx m hm
      rw [need, if_pos (hk.fr r hr x hx), List.mem_singleton] at hm
      subst hm
      exact hk.bg hidle
    simp only [DynSt.step] at hds
    cases hm : v.s.main with
    | idle => exact absurd hm hidle
    | fronts r =>
      match r, hm with
      | [], hm =>
        rw [hm] at hds
        simp only [Option.some.injEq] at hds
        subst hds
        have e0 : mainOps c v.s st v.next = [] := by simp [mainOps, hm]
        rw [e0]
        exact hk.main (oj := none) (JEff.plain hk.base (by simp) rfl rfl rfl (by simp) (.inl ⟨rfl, rfl⟩)) hidle rfl rfl
          (by simp [toWait]) (by simp [toWait]) (by simp [toWait])
      | [x], hm =>
        rw [hm] at hds
        simp only at hds
        split at hds
        · rename_i he
          simp only [Option.some.injEq] at hds
          subst hds
          have e0 : mainOps c v.s st v.next = [.read .status] := by simp [mainOps, hm, he]
          rw [e0]
          exact hk.main (oj := none) (JEff.plain hk.base (by simp [dull]) rfl rfl rfl (by simp) (.inl ⟨rfl, rfl⟩)) hidle rfl rfl
            (by simp [toWait]) (by simp [toWait]) (by simp [toWait])
        · rename_i he
          split at hds
          · rename_i hd
            simp only [Option.some.injEq] at hds
            subst hds
            have e0 : mainOps c v.s st v.next = [.read .status] := by simp [mainOps, hm, he, hd]
            rw [e0]
            refine hk.main (oj := some (.exec x)) (JEff.plain hk.base (by simp [dull]) rfl rfl rfl (fun j' hj' => ?_) (.inl ⟨rfl, rfl⟩))
              hidle rfl rfl (by simp) (by simp) (by simp)
            simp only [Option.some.injEq] at hj'; subst hj'
            refine ⟨fun y hy m hm' => ?_, by simp [past], by simp⟩
            simp [Job.held] at hy; subst hy
            exact (hneed _ hm _ (by simp) m hm').app
          · rename_i hd
            simp only [Option.some.injEq] at hds
            subst hds
            have e0 : mainOps c v.s st v.next = [.read .status, .send v.next] := by simp [mainOps, hm, he, hd]
            rw [e0]
            exact hk.main (oj := none) (JEff.plain hk.base (by simp [dull]) rfl rfl rfl (by simp)
              (.inr ⟨x, rfl, rfl, postK (hneed _ hm x (by simp))⟩)) hidle rfl rfl
              (by simp [toWait]) (by simp [toWait]) (by simp [toWait])
      | x :: y :: rest, hm =>
        rw [hm] at hds
        simp only at hds
        have hfr : ∀ r, MainPc.fronts (y :: rest) = .fronts r → ∀ z ∈ r, c.g.deps z = [] := by
          intro r hr z hz
          simp at hr; subst hr
          exact hk.fr _ hm z (List.mem_cons_of_mem _ hz)
        split at hds
        · rename_i he
          simp only [Option.some.injEq] at hds
          subst hds
          have e0 : mainOps c v.s st v.next = [.read .status] := by simp [mainOps, postOps, hm, he]
          rw [e0]
          exact hk.main (oj := none) (JEff.plain hk.base (by simp [dull]) rfl rfl rfl (by simp) (.inl ⟨rfl, rfl⟩)) hidle rfl rfl
            (by simp) hfr (by simp)
        · rename_i he
          simp only [Option.some.injEq] at hds
          subst hds
          have e0 : mainOps c v.s st v.next = [.read .status, .send v.next] := by simp [mainOps, postOps, hm, he]
          rw [e0]
          exact hk.main (oj := none) (JEff.plain hk.base (by simp [dull]) rfl rfl rfl (by simp)
            (.inr ⟨x, rfl, rfl, postK (hneed _ hm x (by simp))⟩)) hidle rfl rfl (by simp) hfr (by simp)
    | inline j =>
      rw [hm] at hds
      simp only at hds
      have e0 : mainOps c v.s st v.next = jobOps c v.s st v.next j := by simp [mainOps, hm]
      rw [e0]
      have hi2 : DynSt.Inv c v.s (j :: v.s.jobs) v.s.frs := by
        have := hi; simp only [allJobs, hm] at this; exact this
      cases hjs : DynSt.jobStep c v.s st j with
      | none => rw [hjs] at hds; simp at hds
      | some p =>
      obtain ⟨s1, oj⟩ := p
      obtain ⟨f1, f2, f3, f4⟩ := jobStep_frame hjs
      have he := jobStep_k (n := v.next) w hi2 hjs hk.base (hk.mn j hm)
      obtain ⟨a1, a2, a3, a4, a5, a6, a7⟩ := he
      rw [hjs] at hds
      cases oj with
      | none =>
        simp only [Option.some.injEq] at hds
        subst hds
        exact hk.main (oj := none) ⟨a1, a2, a3, a4, a5, a6, a7⟩ hidle f1 f2 (by simp [toWait]) (by simp [toWait]) (by simp [toWait])
      | some j' =>
        simp only [Option.some.injEq] at hds
        subst hds
        exact hk.main (oj := some j') ⟨a1, a2, a3, a4, a5, a6, a7⟩ hidle f1 f2 (by simp) (by simp) (by simp)
    | poll k =>
      cases k with
      | zero =>
        rw [hm] at hds
        simp only [Option.some.injEq] at hds
        subst hds
        have e0 : mainOps c v.s st v.next = [] := by simp [mainOps, hm]
        rw [e0]
        exact hk.main (oj := none) (JEff.plain hk.base (by simp) rfl rfl rfl (by simp) (.inl ⟨rfl, rfl⟩)) hidle rfl rfl
          (by simp) (by simp) (by simp)
      | succ k =>
        rw [hm] at hds
        simp only at hds
        split at hds
        · rename_i hf
          simp only [Option.some.injEq] at hds
          subst hds
          have e0 : mainOps c v.s st v.next = .load .fin :: ([.read .status] ++ [.note (v.s.nrun, .ret v.s.status.isErr)]) := by
            simp [mainOps, hm, hf, retOps]
          rw [e0]
          rw [allJobs_of (by simp [hm]), frs_of (by simp [hm])] at hi
          exact hk.ret w ha hi (by simp [dull]) rfl hidle (fun _ => hf)
        · rename_i hf
          simp only [Option.some.injEq] at hds
          subst hds
          have e0 : mainOps c v.s st v.next = [.load .fin] := by simp [mainOps, hm, hf]
          rw [e0]
          exact hk.main (oj := none) (JEff.plain hk.base (by simp [dull]) rfl rfl rfl (by simp) (.inl ⟨rfl, rfl⟩)) hidle rfl rfl
            (by simp) (by simp) (by simp)
    | lock =>
      rw [hm] at hds
      simp only [Option.some.injEq] at hds
      subst hds
      have e0 : mainOps c v.s st v.next = [.lock .mtx] := by simp [mainOps, hm]
      rw [e0]
      exact hk.main (oj := none) (JEff.plain hk.base (by simp [dull]) rfl rfl rfl (by simp) (.inl ⟨rfl, rfl⟩)) hidle rfl rfl
        (by simp) (by simp) (by simp)
    | check =>
      rw [hm] at hds
      simp only at hds
      rw [allJobs_of (by simp [hm]), frs_of (by simp [hm])] at hi
      by_cases hf : v.s.fin ≥ c.totalEnd
      · rw [if_pos (.inl hf)] at hds
        simp only [Option.some.injEq] at hds
        subst hds
        have e0 : mainOps c v.s st v.next =
            .load .fin :: ([.unlock .mtx, .read .status] ++ [.note (v.s.nrun, .ret v.s.status.isErr)]) := by
          simp [mainOps, hm, hf, retOps]
        rw [e0]
        exact hk.ret w ha hi (by simp [dull]) rfl hidle (fun _ => hf)
      · by_cases he : v.s.status.isErr = true
        · rw [if_pos (.inr he)] at hds
          simp only [Option.some.injEq] at hds
          subst hds
          have e0 : mainOps c v.s st v.next =
              .load .fin :: ([.read .status, .unlock .mtx, .read .status] ++ [.note (v.s.nrun, .ret v.s.status.isErr)]) := by
            simp [mainOps, hm, hf, he, retOps]
          rw [e0]
          exact hk.ret w ha hi (by simp [dull]) rfl hidle (fun h0 => by rw [he] at h0; simp at h0)
        · rw [if_neg (by simp [hf, he])] at hds
          simp only [Option.some.injEq] at hds
          subst hds
          have e0 : mainOps c v.s st v.next = [.load .fin, .read .status] := by simp [mainOps, hm, hf, he]
          rw [e0]
          exact hk.main (oj := none) (JEff.plain hk.base (by simp [dull]) rfl rfl rfl (by simp) (.inl ⟨rfl, rfl⟩)) hidle rfl rfl
            (by simp) (by simp) (by simp)
    | preSleep =>
      rw [hm] at hds
      simp only [Option.some.injEq] at hds
      subst hds
      have e0 : mainOps c v.s st v.next = [.unlock .mtx] := by simp [mainOps, hm]
      rw [e0]
      exact hk.main (oj := none) (JEff.plain hk.base (by simp [dull]) rfl rfl rfl (by simp) (.inl ⟨rfl, rfl⟩)) hidle rfl rfl
        (by simp) (by simp) (by simp)
    | asleep => rw [hm] at hds; simp at hds
    | waking =>
      rw [hm] at hds
      simp only [Option.some.injEq] at hds
      subst hds
      have e0 : mainOps c v.s st v.next = [.lock .mtx] := by simp [mainOps, hm]
      rw [e0]
      exact hk.main (oj := none) (JEff.plain hk.base (by simp [dull]) rfl rfl rfl (by simp) (.inl ⟨rfl, rfl⟩)) hidle rfl rfl
        (by simp) (by simp) (by simp)

/-- States reachable when a new run is only begun from a clean state. -/
inductive VReach (c : DynCfg) : VSt → Prop
  | init : VReach c (VSt.init c)
  | step {v a v'} : VReach c v → VSt.step c v a = some v' → (a = .begin → Clean v.s) → VReach c v'

theorem step_s {c : DynCfg} {v v' : VSt} {a : DynAct} (h : VSt.step c v a = some v') : DynSt.step c v.s a = some v'.s := by
  unfold VSt.step at h
  grind

theorem step_some {c : DynCfg} {v : VSt} {a : DynAct} {s' : DynSt} (h : DynSt.step c v.s a = some s') :
    ∃ v', VSt.step c v a = some v' ∧ v'.s = s' := by
  unfold VSt.step
  rw [h]
  cases a with
  | work i st =>
    simp only [DynSt.step] at h
    cases hj : v.s.jobs[i]? with
    | none => rw [hj] at h; simp at h
    | some j =>
      rw [hj] at h
      simp only at h
      cases hjs : DynSt.jobStep c v.s st j with
      | none => rw [hjs] at h; simp at h
      | some p =>
        obtain ⟨s1, oj⟩ := p
        cases oj with
        | none => refine ⟨_, by simp only [hj, hjs]; rfl, rfl⟩
        | some j' => refine ⟨_, by simp only [hj, hjs]; rfl, rfl⟩
  | _ => simp

theorem VReach.reach {c : DynCfg} {v : VSt} (h : VReach c v) : Reach c v.s := by
  induction h with
  | init => exact .init
  | step _ h2 h3 ih => exact .step ih (step_s h2) h3

theorem kinv_reach {c : DynCfg} (w : c.g.WF) (ha : AcyclicOn c.g.Edge c.g.elems) {v : VSt} (h : VReach c v) : KInv c v := by
  induction h with
  | init => exact kinv_init c
  | step h1 h2 h3 ih => exact kinv_step w ha ih (sinv_reach w ha h1.reach) h2 h3

theorem mem_notes_job {c : DynCfg} {s : DynSt} {st : CStatus} {n : Nat} {j : Job} {r : Nat} {m : Mk}
    (h : .note (r, m) ∈ jobOps c s st n j) : r = s.nrun := by
  unfold jobOps at h
  split at h <;> (try split at h) <;> simp_all [postOps] <;> grind

theorem mem_notes_main {c : DynCfg} {s : DynSt} {st : CStatus} {n : Nat} {r : Nat} {m : Mk}
    (h : .note (r, m) ∈ mainOps c s st n) : r = s.nrun := by
  unfold mainOps at h
  split at h
  case h_5 => exact mem_notes_job h
  all_goals (simp [postOps, retOps] at h) <;> grind

/-- What a step writes is of the run that is going on after it. -/
theorem step_notes {c : DynCfg} {v v' : VSt} {a : DynAct} (h : VSt.step c v a = some v') :
    ∃ u, v'.log = v.log ++ u ∧ ∀ t r m, (⟨t, .note (r, m)⟩ : Act) ∈ u → r = v'.s.nrun := by
  have hs := step_s h
  unfold VSt.step at h
  rw [hs] at h
  cases a with
  | begin =>
    simp only [Option.some.injEq] at h
    refine ⟨(beginOps c v.s).map (fun o => ⟨0, o⟩), by rw [← h]; rfl, fun t r m hm => ?_⟩
    obtain ⟨o, ho, he⟩ := List.mem_map.1 hm
    simp at he
    rw [he.2] at ho
    have h1 : r = v.s.nrun + 1 := by
      by_cases hok : v.s.status.isOK = true <;> simp [beginOps, hok] at ho <;> omega
    simp only [DynSt.step] at hs
    split at hs
    · simp only [Option.some.injEq] at hs
      rw [← hs]; exact h1
    · simp at hs
  | main st =>
    simp only [Option.some.injEq] at h
    refine ⟨(mainOps c v.s st v.next).map (fun o => ⟨0, o⟩), by rw [← h]; rfl, fun t r m hm => ?_⟩
    obtain ⟨o, ho, he⟩ := List.mem_map.1 hm
    simp at he
    rw [he.2] at ho
    rw [mem_notes_main ho]
    have hf : ∀ {j s1 oj}, DynSt.jobStep c v.s st j = some (s1, oj) → s1.nrun = v.s.nrun := fun hj => (jobStep_frame hj).2.1
    simp only [DynSt.step] at hs
    grind [toWait, DynSt.ret, push]
  | take i =>
    simp only [Option.some.injEq] at h
    exact ⟨_, by rw [← h], by simp⟩
  | spurious =>
    simp only [Option.some.injEq] at h
    exact ⟨[], by rw [← h]; simp, by simp⟩
  | work i st =>
    simp only [DynSt.step] at hs
    cases hj : v.s.jobs[i]? with
    | none => rw [hj] at hs; simp at hs
    | some j =>
    rw [hj] at hs
    simp only [hj] at h
    simp only at hs
    cases hjs : DynSt.jobStep c v.s st j with
    | none => rw [hjs] at hs; simp at hs
    | some p =>
    obtain ⟨s1, oj⟩ := p
    have f2 := (jobStep_frame hjs).2.1
    have hn : v'.s.nrun = v.s.nrun := by
      rw [hjs] at hs
      cases oj <;> simp only [Option.some.injEq] at hs <;> rw [← hs] <;> exact f2
    refine ⟨(jobOps c v.s st v.next j).map (fun o => ⟨v.jt.getD i 0, o⟩), ?_, fun t r m hm => ?_⟩
    · rw [hjs] at h
      cases oj <;> simp only [Option.some.injEq] at h <;> rw [← h] <;> rfl
    · obtain ⟨o, ho, he⟩ := List.mem_map.1 hm
      simp at he
      rw [he.2] at ho
      rw [mem_notes_job ho, hn]

theorem evs_nil {u : List Act} {r : Nat} (h : ∀ t r' m, (⟨t, .note (r', m)⟩ : Act) ∈ u → r' ≠ r) : evs u r = [] := by
  unfold evs
  rw [List.filterMap_eq_nil_iff]
  rintro ⟨t, o⟩ ha
  cases o with
  | note p =>
    obtain ⟨r', m⟩ := p
    have := h t r' m ha
    cases m <;> simp [this]
  | _ => rfl

/-- Every start and every end is noted at most once in each run. -/
theorem evs_once {c : DynCfg} (w : c.g.WF) (ha : AcyclicOn c.g.Edge c.g.elems) {v : VSt} (h : VReach c v) :
    ∀ r x, (evs v.log r).count x ≤ 1 := by
  induction h with
  | init => simp [evs, VSt.init]
  | @step v a v' h1 h2 h3 ih =>
    intro r x
    have hr := VReach.step h1 h2 h3
    obtain ⟨u, hu, hn⟩ := step_notes h2
    by_cases hc : r = v'.s.nrun
    · rw [hc, (kinv_reach w ha hr).base.tr]
      have hs := sinv_reach w ha hr.reach
      by_cases h0 : v'.s.nrun = 0
      · rw [hs.first h0]; simp [DynSt.init]
      · have hi := hs.inv h0
        cases x with
        | start e => have := hi.tok e; omega
        | finish e => exact hi.finished_le e
    · rw [hu, evs_app, evs_nil (u := u) (fun t r' m hm => by rw [hn t r' m hm]; exact Ne.symm hc), List.append_nil]
      exact ih r x

theorem filterMap_twice {α β : Type} [DecidableEq β] {f : α → Option β} {b : β} {l : List α} {i j : Nat} {x y : α}
    (hij : i < j) (hi : l[i]? = some x) (hj : l[j]? = some y) (hx : f x = some b) (hy : f y = some b) :
    2 ≤ (l.filterMap f).count b := by
  induction l generalizing i j with
  | nil => simp at hi
  | cons z l ih =>
    cases j with
    | zero => omega
    | succ j =>
      simp at hj
      cases i with
      | zero =>
        simp at hi
        subst hi
        have : b ∈ l.filterMap f := List.mem_filterMap.2 ⟨y, List.mem_of_getElem? hj, hy⟩
        have := List.count_pos_iff.2 this
        rw [List.filterMap_cons_some hx, List.count_cons_self]
        omega
      | succ i =>
        simp at hi
        have := ih (by omega) hi hj
        have h2 : (l.filterMap f).count b ≤ ((z :: l).filterMap f).count b :=
          ((List.sublist_cons_self z l).filterMap f).count_le b
        omega

theorem noted_unique {c : DynCfg} (w : c.g.WF) (ha : AcyclicOn c.g.Edge c.g.elems) {v : VSt} (h : VReach c v) {r : Nat} {x : Ev}
    {i j : Nat} (hi : NotedAt v.log i (r, .ev x)) (hj : NotedAt v.log j (r, .ev x)) : i = j := by
  obtain ⟨t1, hi⟩ := hi
  obtain ⟨t2, hj⟩ := hj
  have h1 := evs_once w ha h r x
  rcases Nat.lt_trichotomy i j with hl | hl | hl
  · have := filterMap_twice (b := x) hl hi hj (f := fun a : Act => match a.op with
      | .note (r', .ev e) => if r' = r then some e else none | _ => none) (by simp) (by simp)
    unfold evs at h1; omega
  · exact hl
  · have := filterMap_twice (b := x) hl hj hi (f := fun a : Act => match a.op with
      | .note (r', .ev e) => if r' = r then some e else none | _ => none) (by simp) (by simp)
    unfold evs at h1; omega

/-! ### consequences -/

section
variable {c : DynCfg} {v : VSt}

theorem hb_trans {t : List Act} {i j k : Nat} (h1 : HappensBefore t i j) (h2 : HappensBefore t j k) : HappensBefore t i k :=
  Relation.TransGen.trans h1 h2

/-- A start and what came before it. -/
theorem dep_before (h : LogOk c v.log) {r i : Nat} {d e : Eid} (hd : d ∈ c.g.deps e) (hi : NotedAt v.log i (r, .ev (.start e))) :
    ∃ k k', NotedAt v.log k (r, .ev (.finish d)) ∧ HappensBefore v.log k i ∧
      NotedAt v.log k' (r, .ev (.start d)) ∧ HappensBefore v.log k' k := by
  have h1 := (h i r _ hi).2 (.ev (.finish d)) (by
    have : c.g.deps e ≠ [] := fun h0 => by rw [h0] at hd; simp at hd
    simp only [need, if_neg this, List.mem_map]
    exact ⟨d, hd, rfl⟩)
  obtain ⟨k, hk, hki⟩ := h1
  obtain ⟨k', hk', hkk⟩ := h k r _ hk
  exact ⟨k, k', hk, hki, hk', hkk⟩

theorem trans_before (h : LogOk c v.log) {d e : Eid} (hde : Relation.TransGen c.g.Edge d e) :
    ∀ r i, NotedAt v.log i (r, .ev (.start e)) → ∃ k, NotedAt v.log k (r, .ev (.finish d)) ∧ HappensBefore v.log k i := by
  induction hde with
  | single hd =>
    intro r i hi
    obtain ⟨k, k', h1, h2, -, -⟩ := dep_before h hd hi
    exact ⟨k, h1, h2⟩
  | tail _ hd ih =>
    intro r i hi
    obtain ⟨k, k', h1, h2, h3, h4⟩ := dep_before h hd hi
    obtain ⟨q, h5, h6⟩ := ih r k' h3
    exact ⟨q, h5, hb_trans h6 (hb_trans h4 h2)⟩

open Classical in
theorem begin_before (ha : AcyclicOn c.g.Edge c.g.elems) (h : LogOk c v.log) {r i : Nat} {e : Eid}
    (hi : NotedAt v.log i (r, .ev (.start e))) : ∃ k, NotedAt v.log k (r, .begin) ∧ HappensBefore v.log k i := by
  by_contra hne
  let R := c.g.elems.filter (fun x => decide (∃ i, NotedAt v.log i (r, .ev (.start x)) ∧
    ¬ ∃ k, NotedAt v.log k (r, .begin) ∧ HappensBefore v.log k i))
  have hR : R = [] := by
    refine Graph.no_deadlock (g := c.g) R (fun x hx => ha x (List.mem_of_mem_filter hx)) ?_
    intro x hx
    obtain ⟨hx1, hx2⟩ := List.mem_filter.1 hx
    obtain ⟨i, hi, hn⟩ := of_decide_eq_true hx2
    cases hd : c.g.deps x with
    | nil => exact absurd ((h i r _ hi).2 .begin (by simp [need, hd])) hn
    | cons d ds =>
      have hdx : d ∈ c.g.deps x := by rw [hd]; simp
      obtain ⟨k, k', h1, h2, h3, h4⟩ := dep_before h hdx hi
      refine ⟨d, List.mem_filter.2 ⟨(h k' r _ h3).1, decide_eq_true ⟨k', h3, ?_⟩⟩, by rw [← hd]; exact hdx⟩
      rintro ⟨q, h5, h6⟩
      exact hn ⟨q, h5, hb_trans h6 (hb_trans h4 h2)⟩
  have : e ∈ R := List.mem_filter.2 ⟨(h i r _ hi).1, decide_eq_true ⟨i, hi, hne⟩⟩
  rw [hR] at this
  simp at this

open Classical in
theorem all_before (w : c.g.WF) (ha : AcyclicOn c.g.Edge c.g.elems) (h : LogOk c v.log) {r i : Nat}
    (hi : NotedAt v.log i (r, .ret false)) : ∀ e ∈ c.g.elems, ∃ k, NotedAt v.log k (r, .ev (.finish e)) ∧ HappensBefore v.log k i := by
  by_contra hne
  let R := c.g.elems.filter (fun x => decide (¬ ∃ k, NotedAt v.log k (r, .ev (.finish x)) ∧ HappensBefore v.log k i))
  have hR : R = [] := by
    refine no_deadlock_succ w R (fun x hx => ha x (List.mem_of_mem_filter hx)) ?_
    intro x hx
    obtain ⟨hx1, hx2⟩ := List.mem_filter.1 hx
    have hn := of_decide_eq_true hx2
    cases hd : c.g.succs x with
    | nil => exact absurd ((h i r _ hi).2 rfl x hx1 hd) hn
    | cons y ys =>
      have hxy : y ∈ c.g.succs x := by rw [hd]; simp
      refine ⟨y, List.mem_filter.2 ⟨w.closedS x hx1 y hxy, decide_eq_true ?_⟩, by simp⟩
      rintro ⟨k, h1, h2⟩
      obtain ⟨k', h3, h4⟩ := h k r _ h1
      obtain ⟨q, -, h5, h6, -, -⟩ := dep_before h ((w.sym x y).1 hxy) h3
      exact hn ⟨q, h5, hb_trans h6 (hb_trans h4 h2)⟩
  apply hne
  intro e he
  by_contra h0
  have : e ∈ R := List.mem_filter.2 ⟨he, decide_eq_true h0⟩
  rw [hR] at this
  simp at this

/-- A begin and the return of an earlier run. -/
theorem ret_before (h : LogOk c v.log) {r : Nat} (hr : 0 < r) (hok : ∀ k, ¬ NotedAt v.log k (r, .ret true)) :
    ∀ n i, NotedAt v.log i (r + 1 + n, .begin) → ∃ k, NotedAt v.log k (r, .ret false) ∧ HappensBefore v.log k i := by
  intro n
  induction n with
  | zero =>
    intro i hi
    obtain ⟨k, b, h1, h2⟩ := (h i _ _ hi).2 (by omega)
    have e0 : r + 1 + 0 - 1 = r := by omega
    rw [e0] at h1
    cases b with
    | true => exact absurd h1 (hok k)
    | false => exact ⟨k, h1, h2⟩
  | succ n ih =>
    intro i hi
    obtain ⟨k, b, h1, h2⟩ := (h i _ _ hi).2 (by omega)
    have e0 : r + 1 + (n + 1) - 1 = r + 1 + n := by omega
    rw [e0] at h1
    obtain ⟨⟨k', h3, h4⟩, -⟩ := h k _ _ h1
    obtain ⟨q, h5, h6⟩ := ih k' h3
    exact ⟨q, h5, hb_trans h6 (hb_trans h4 h2)⟩

end

/-! ### what a thread does after a failure -/

/-- The operations of line 147-148. -/
def errOp : Op → Prop
  | .lock .stMtx | .read .status | .write .status | .unlock .stMtx => True
  | _ => False

def Tame (log : List Act) : Prop :=
  ∀ n, n ≠ 0 → ∀ (k0 k : Nat) (a : Act), log[k0]? = some ⟨n, .lock .stMtx⟩ → log[k]? = some a → a.tid = n → k0 ≤ k → errOp a.op

def Locked (log : List Act) : Prop :=
  ∀ (k : Nat) (n : Nat) (l : Loc), n ≠ 0 → log[k]? = some ⟨n, .write l⟩ → ∃ k0 : Nat, k0 ≤ k ∧ log[k0]? = some ⟨n, .lock .stMtx⟩

/-- Task numbers are not used twice; a thread that has recorded a failure does nothing more. -/
structure TInv (v : VSt) : Prop where
  lenJ : v.jt.length = v.s.jobs.length
  lenQ : v.qt.length = v.s.queue.length
  pos : 0 < v.next
  ndq : v.qt.Nodup
  ndj : v.jt.Nodup
  dis : ∀ n ∈ v.qt, n ∉ v.jt
  ltq : ∀ n ∈ v.qt, 0 < n ∧ n < v.next
  ltj : ∀ n ∈ v.jt, 0 < n ∧ n < v.next
  tl : ∀ a ∈ v.log, a.tid < v.next
  qn : ∀ n ∈ v.qt, ∀ a ∈ v.log, a.tid ≠ n
  le : ∀ (i : Nat) (j : Job) (n : Nat), v.s.jobs[i]? = some j → v.jt[i]? = some n → (⟨n, .lock .stMtx⟩ : Act) ∈ v.log → j = .errNotify
  tame : Tame v.log
  lk : Locked v.log

theorem job_ops_err {c : DynCfg} {s : DynSt} {st : CStatus} {n : Nat} {j : Job}
    (h : .lock .stMtx ∈ jobOps c s st n j ∨ ∃ l, .write l ∈ jobOps c s st n j) : ∃ st', j = .errSet st' := by
  unfold jobOps at h
  split at h <;> (try split at h) <;> simp_all [postOps] <;> grind

theorem tame_app {log : List Act} {t : Nat} {ops : List Op} (h : Tame log)
    (h1 : t ≠ 0 → (⟨t, .lock .stMtx⟩ : Act) ∈ log → ops = []) (h2 : t ≠ 0 → .lock .stMtx ∈ ops → ∀ o ∈ ops, errOp o) :
    Tame (log ++ ops.map (fun o => ⟨t, o⟩)) := by
  intro n hn k0 k a hk0 hk hat hle
  by_cases hk1 : k < log.length
  · rw [List.getElem?_append_left hk1] at hk
    rw [List.getElem?_append_left (by omega)] at hk0
    exact h n hn k0 k a hk0 hk hat hle
  · rw [List.getElem?_append_right (by omega)] at hk
    obtain ⟨o, ho, rfl⟩ := List.mem_map.1 (List.mem_of_getElem? hk)
    simp only at hat
    subst hat
    by_cases hk2 : k0 < log.length
    · rw [List.getElem?_append_left hk2] at hk0
      have := h1 hn (List.mem_of_getElem? hk0)
      rw [this] at ho; simp at ho
    · rw [List.getElem?_append_right (by omega)] at hk0
      obtain ⟨o', ho', he⟩ := List.mem_map.1 (List.mem_of_getElem? hk0)
      simp at he
      subst he
      exact h2 hn ho' o ho

theorem locked_app {log : List Act} {t : Nat} {ops : List Op} (h : Locked log)
    (h1 : t ≠ 0 → (∃ l, .write l ∈ ops) → ops.head? = some (.lock .stMtx)) : Locked (log ++ ops.map (fun o => ⟨t, o⟩)) := by
  intro k n l hn hk
  by_cases hk1 : k < log.length
  · rw [List.getElem?_append_left hk1] at hk
    obtain ⟨k0, h1, h2⟩ := h k n l hn hk
    exact ⟨k0, h1, get_app h2⟩
  · rw [List.getElem?_append_right (by omega)] at hk
    obtain ⟨o, ho, he⟩ := List.mem_map.1 (List.mem_of_getElem? hk)
    simp at he
    obtain ⟨rfl, rfl⟩ := he
    have h2 := h1 hn ⟨l, ho⟩
    refine ⟨log.length, by omega, ?_⟩
    rw [List.getElem?_append_right (by omega)]
    cases ops with
    | nil => simp at h2
    | cons o' ops => simp at h2; simp [h2]

/-- The part of `TInv` that does not depend on what the jobs are. -/
theorem TInv.put {v : VSt} {s' : DynSt} {t : Nat} {ops : List Op} {jt' : List Nat} (h : TInv v)
    (ht : t < v.next) (htq : t ∉ v.qt)
    (hq : (s'.queue = v.s.queue ∧ VSt.sends ops = false) ∨ (∃ x, s'.queue = v.s.queue ++ [x] ∧ VSt.sends ops = true))
    (hj1 : jt'.length = s'.jobs.length) (hj2 : jt'.Nodup) (hj3 : ∀ n ∈ jt', n ∈ v.jt)
    (h1 : t ≠ 0 → (⟨t, .lock .stMtx⟩ : Act) ∈ v.log → ops = []) (h2 : t ≠ 0 → .lock .stMtx ∈ ops → ∀ o ∈ ops, errOp o)
    (h3 : t ≠ 0 → (∃ l, .write l ∈ ops) → ops.head? = some (.lock .stMtx))
    (h4 : ∀ (i : Nat) (j : Job) (n : Nat), s'.jobs[i]? = some j → jt'[i]? = some n →
      (⟨n, .lock .stMtx⟩ : Act) ∈ v.log ++ ops.map (fun o => (⟨t, o⟩ : Act)) → j = .errNotify) :
    TInv { v.put t ops with s := s', jt := jt' } := by
  have hb : ∀ n ∈ (v.put t ops).qt, n ∈ v.qt ∨ (n = v.next ∧ VSt.sends ops = true) := by
    intro n hn
    simp only [VSt.put] at hn
    split at hn
    · rename_i hs; simp at hn; exact hn.imp id (fun h => ⟨h, hs⟩)
    · exact .inl hn
  have hnx : v.next ≤ (v.put t ops).next := by simp only [VSt.put]; split <;> omega
  have hnx2 : VSt.sends ops = true → (v.put t ops).next = v.next + 1 := by intro hs; simp [VSt.put, hs]
  refine ⟨hj1, ?_, ?_, ?_, hj2, ?_, ?_, ?_, ?_, ?_, h4, tame_app h.tame h1 h2, locked_app h.lk h3⟩
  · rcases hq with ⟨e1, e2⟩ | ⟨x, e1, e2⟩
    · simp [VSt.put, e1, e2, h.lenQ]
    · simp [VSt.put, e1, e2, h.lenQ]
  · have := h.pos; simp only; omega
  · simp only [VSt.put]
    split
    · refine List.nodup_append.2 ⟨h.ndq, by simp, fun a ha b hb => ?_⟩
      simp at hb; subst hb
      have := (h.ltq a ha).2; omega
    · exact h.ndq
  · intro n hn hn2
    rcases hb n hn with hn | ⟨rfl, -⟩
    · exact h.dis n hn (hj3 n hn2)
    · have := (h.ltj _ (hj3 _ hn2)).2; omega
  · intro n hn
    rcases hb n hn with hn | ⟨rfl, hs⟩
    · have := h.ltq n hn; simp only; omega
    · have := hnx2 hs; have := h.pos; simp only; omega
  · intro n hn
    have := h.ltj n (hj3 n hn); simp only; omega
  · intro a ha
    rcases List.mem_append.1 ha with ha | ha
    · have := h.tl a ha; simp only; omega
    · obtain ⟨o, -, rfl⟩ := List.mem_map.1 ha
      simp only; omega
  · intro n hn a ha
    rcases List.mem_append.1 ha with ha | ha
    · rcases hb n hn with hn | ⟨rfl, -⟩
      · exact h.qn n hn a ha
      · have := h.tl a ha; omega
    · obtain ⟨o, -, rfl⟩ := List.mem_map.1 ha
      simp only
      rcases hb n hn with hn | ⟨rfl, -⟩
      · rintro rfl; exact htq hn
      · omega

theorem tinv_init (c : DynCfg) : TInv (VSt.init c) := by
  constructor <;> simp [VSt.init, DynSt.init, Tame, Locked]

theorem job_queue {c : DynCfg} {s s' : DynSt} {st : CStatus} {n : Nat} {j : Job} {oj : Option Job}
    (h : DynSt.jobStep c s st j = some (s', oj)) :
    (s'.queue = s.queue ∧ VSt.sends (jobOps c s st n j) = false) ∨ (∃ x, s'.queue = s.queue ++ [x] ∧ VSt.sends (jobOps c s st n j) = true) := by
  obtain ⟨n1, -, -, -, -⟩ := notify_same s
  unfold DynSt.jobStep at h
  unfold jobOps VSt.sends postOps
  grind [push]

theorem main_queue {c : DynCfg} {s s' : DynSt} {st : CStatus} {n : Nat} (h : DynSt.step c s (.main st) = some s') :
    (s'.queue = s.queue ∧ VSt.sends (mainOps c s st n) = false) ∨ (∃ x, s'.queue = s.queue ++ [x] ∧ VSt.sends (mainOps c s st n) = true) := by
  simp only [DynSt.step] at h
  unfold mainOps
  cases hm : s.main with
  | inline j =>
    rw [hm] at h
    simp only at h
    cases hj : DynSt.jobStep c s st j with
    | none => rw [hj] at h; simp at h
    | some p =>
      obtain ⟨s1, oj⟩ := p
      have := job_queue (n := n) hj
      rw [hj] at h
      cases oj <;> simp only [Option.some.injEq] at h <;> subst h <;> simpa [toWait] using this
  | _ => simp only [hm] at h; grind [push, toWait, DynSt.ret, VSt.sends, postOps, retOps]

theorem main_jobs {c : DynCfg} {s s' : DynSt} {st : CStatus} (h : DynSt.step c s (.main st) = some s') : s'.jobs = s.jobs := by
  have hf : ∀ {j s1 oj}, DynSt.jobStep c s st j = some (s1, oj) → s1.jobs = s.jobs := fun hj => (jobStep_frame hj).1
  simp only [DynSt.step] at h
  grind [toWait, DynSt.ret, push]

theorem tinv_step {c : DynCfg} {v v' : VSt} {a : DynAct} (h : TInv v) (hs : VSt.step c v a = some v') : TInv v' := by
  have hst := step_s hs
  unfold VSt.step at hs
  rw [hst] at hs
  have h0q : 0 ∉ v.qt := fun h0 => by have := h.ltq 0 h0; omega
  have le0 : ∀ (s' : DynSt) (ops : List Op), s'.jobs = v.s.jobs → ∀ (i : Nat) (j : Job) (n : Nat), s'.jobs[i]? = some j →
      v.jt[i]? = some n → (⟨n, .lock .stMtx⟩ : Act) ∈ v.log ++ ops.map (fun o => (⟨0, o⟩ : Act)) → j = .errNotify := by
    intro s' ops hj i j n h1 h2 h3
    rw [hj] at h1
    rcases List.mem_append.1 h3 with h3 | h3
    · exact h.le i j n h1 h2 h3
    · obtain ⟨o, -, he⟩ := List.mem_map.1 h3
      simp at he
      have := (h.ltj n (List.mem_of_getElem? h2)).1
      omega
  cases a with
  | begin =>
    simp only [Option.some.injEq] at hs
    rw [← hs]
    simp only [DynSt.step] at hst
    split at hst
    case isFalse => simp at hst
    have e1 : v'.s.jobs = v.s.jobs ∧ v'.s.queue = v.s.queue := by
      simp only [Option.some.injEq] at hst
      rw [← hst]
      by_cases hok : v.s.status.isOK = true <;> simp [hok]
    refine h.put (jt' := v.jt) h.pos h0q (.inl ⟨e1.2, ?_⟩) (by rw [e1.1]; exact h.lenJ) h.ndj (fun n hn => hn) (by simp) (by simp) (by simp)
      (le0 _ _ e1.1)
    by_cases hok : v.s.status.isOK = true <;> simp [hok, beginOps, VSt.sends]
  | main st =>
    simp only [Option.some.injEq] at hs
    rw [← hs]
    have e1 := main_jobs hst
    exact h.put (jt' := v.jt) h.pos h0q (main_queue hst) (by rw [e1]; exact h.lenJ) h.ndj (fun n hn => hn) (by simp) (by simp) (by simp)
      (le0 _ _ e1)
  | spurious =>
    simp only [Option.some.injEq] at hs
    rw [← hs]
    simp only [DynSt.step] at hst
    split at hst
    case isFalse => simp at hst
    simp only [Option.some.injEq] at hst
    rw [← hst]
    obtain ⟨a1, a2, a3, a4, a5, a6, a7, a8, a9, a10, a11, a12, a13⟩ := h
    exact ⟨a1, a2, a3, a4, a5, a6, a7, a8, a9, a10, a11, a12, a13⟩
  | take i =>
    simp only [Option.some.injEq] at hs
    simp only [DynSt.step] at hst
    split at hst
    · simp at hst
    rename_i e hq
    split at hst
    case isFalse => simp at hst
    simp only [Option.some.injEq] at hst
    rw [← hs, ← hst]
    have hil : i < v.s.queue.length := (List.getElem?_eq_some_iff.1 hq).1
    have hl := h.lenQ
    have hlj := h.lenJ
    have hn : v.qt[i]? = some (v.qt.getD i 0) := by
      rw [List.getD_eq_getElem?_getD, List.getElem?_eq_getElem (by omega)]; rfl
    generalize v.qt.getD i 0 = n at hn
    have hnq : n ∈ v.qt := List.mem_of_getElem? hn
    have hsub : ∀ m ∈ v.qt.eraseIdx i, m ∈ v.qt := fun m hm => (List.eraseIdx_sublist v.qt i).subset hm
    have hne : ∀ m ∈ v.qt.eraseIdx i, m ≠ n := by
      rintro m hm rfl
      obtain ⟨hi2, he⟩ := List.getElem?_eq_some_iff.1 hn
      obtain ⟨k, hk, he2⟩ := List.mem_iff_getElem.1 hm
      rw [List.getElem_eraseIdx] at he2
      split at he2
      · have := (List.Nodup.getElem_inj_iff h.ndq).1 (he2.trans he.symm); omega
      · have := (List.Nodup.getElem_inj_iff h.ndq).1 (he2.trans he.symm); omega
    refine ⟨by simp [hlj], ?_, h.pos, h.ndq.sublist (List.eraseIdx_sublist _ _), ?_, ?_, fun m hm => h.ltq m (hsub m hm), ?_, ?_, ?_, ?_, ?_, ?_⟩
    · simp only
      rw [List.length_eraseIdx_of_lt hil, List.length_eraseIdx_of_lt (by omega)]; omega
    · refine List.nodup_append.2 ⟨h.ndj, by simp, fun a ha b hb => ?_⟩
      simp at hb; subst hb
      rintro rfl
      exact h.dis _ hnq ha
    · intro m hm hm2
      simp at hm2
      rcases hm2 with hm2 | rfl
      · exact h.dis m (hsub m hm) hm2
      · exact hne _ hm rfl
    · intro m hm
      simp at hm
      rcases hm with hm | rfl
      · exact h.ltj m hm
      · exact h.ltq _ hnq
    · intro a ha
      simp at ha
      rcases ha with ha | rfl
      · exact h.tl a ha
      · exact (h.ltq _ hnq).2
    · intro m hm a ha
      simp at ha
      rcases ha with ha | rfl
      · exact h.qn m (hsub m hm) a ha
      · exact (hne m hm).symm
    · intro k j m hj hm hlk
      simp at hlk
      simp only at hj hm
      by_cases hk : k < v.s.jobs.length
      · rw [List.getElem?_append_left hk] at hj
        rw [List.getElem?_append_left (by omega)] at hm
        exact h.le k j m hj hm hlk
      · rw [List.getElem?_append_right (by omega)] at hm
        have := List.mem_of_getElem? hm
        simp at this
        subst this
        exact absurd rfl (h.qn _ hnq _ hlk)
    · exact tame_app (ops := [.recv n]) h.tame (fun _ h0 => absurd rfl (h.qn _ hnq _ h0)) (by simp)
    · exact locked_app (ops := [.recv n]) h.lk (by simp)
  | work i st =>
    simp only [DynSt.step] at hst
    cases hj : v.s.jobs[i]? with
    | none => rw [hj] at hst; simp at hst
    | some j =>
    rw [hj] at hst
    simp only [hj] at hs
    simp only at hst
    have hil : i < v.s.jobs.length := (List.getElem?_eq_some_iff.1 hj).1
    have hl := h.lenJ
    have ht : v.jt[i]? = some (v.jt.getD i 0) := by
      rw [List.getD_eq_getElem?_getD, List.getElem?_eq_getElem (by omega)]; rfl
    cases hjs : DynSt.jobStep c v.s st j with
    | none => rw [hjs] at hst; simp at hst
    | some p =>
    obtain ⟨s1, oj⟩ := p
    obtain ⟨f1, f2, f3, f4⟩ := jobStep_frame hjs
    rw [hjs] at hs hst
    generalize v.jt.getD i 0 = t at hs ht
    have htm : t ∈ v.jt := List.mem_of_getElem? ht
    have htl := (h.ltj t htm).2
    have htq : t ∉ v.qt := fun h0 => h.dis t h0 htm
    have c1 : t ≠ 0 → (⟨t, .lock .stMtx⟩ : Act) ∈ v.log → jobOps c v.s st v.next j = [] := by
      intro _ h0
      rw [h.le i j t hj ht h0]; rfl
    have c2 : t ≠ 0 → .lock .stMtx ∈ jobOps c v.s st v.next j → ∀ o ∈ jobOps c v.s st v.next j, errOp o := by
      intro _ h0
      obtain ⟨st', rfl⟩ := job_ops_err (.inl h0)
      simp [jobOps, errOp]
    have c3 : t ≠ 0 → (∃ l, .write l ∈ jobOps c v.s st v.next j) → (jobOps c v.s st v.next j).head? = some (.lock .stMtx) := by
      intro _ h0
      obtain ⟨st', rfl⟩ := job_ops_err (.inr h0)
      simp [jobOps]
    have other : ∀ k n, v.jt[k]? = some n → k ≠ i →
        (⟨n, .lock .stMtx⟩ : Act) ∈ v.log ++ (jobOps c v.s st v.next j).map (fun o => (⟨t, o⟩ : Act)) → (⟨n, .lock .stMtx⟩ : Act) ∈ v.log := by
      intro k n hk hki h0
      rcases List.mem_append.1 h0 with h0 | h0
      · exact h0
      · obtain ⟨o, -, he⟩ := List.mem_map.1 h0
        simp at he
        obtain ⟨hk2, he2⟩ := List.getElem?_eq_some_iff.1 hk
        obtain ⟨hi2, he3⟩ := List.getElem?_eq_some_iff.1 ht
        have := (List.Nodup.getElem_inj_iff h.ndj).1 (he2.trans (he.1.symm.trans he3.symm))
        exact absurd this hki
    cases oj with
    | none =>
      simp only [Option.some.injEq] at hs hst
      rw [← hs, ← hst]
      refine h.put (s' := { s1 with jobs := v.s.jobs.eraseIdx i }) (jt' := v.jt.eraseIdx i) htl htq (by have := job_queue (n := v.next) hjs; exact this) ?_ (h.ndj.sublist (List.eraseIdx_sublist _ _))
        (fun n hn => (List.eraseIdx_sublist _ _).subset hn) c1 c2 c3 ?_
      · simp only
        rw [List.length_eraseIdx_of_lt hil, List.length_eraseIdx_of_lt (by omega)]; omega
      · intro k j' n hj' hn' h0
        simp only [List.getElem?_eraseIdx] at hj' hn'
        by_cases hk : k < i
        · rw [if_pos hk] at hj' hn'
          exact h.le k j' n hj' hn' (other k n hn' (by omega) h0)
        · rw [if_neg hk] at hj' hn'
          exact h.le _ j' n hj' hn' (other _ n hn' (by omega) h0)
    | some j1 =>
      simp only [Option.some.injEq] at hs hst
      rw [← hs, ← hst]
      refine h.put (s' := { s1 with jobs := v.s.jobs.set i j1 }) (jt' := v.jt) htl htq (by have := job_queue (n := v.next) hjs; exact this) (by simp [hl]) h.ndj (fun n hn => hn) c1 c2 c3 ?_
      intro k j' n hj' hn' h0
      simp only at hj'
      by_cases hk : k = i
      · subst hk
        rw [ht] at hn'
        simp at hn'; subst hn'
        rw [List.getElem?_set_self hil] at hj'
        simp at hj'; subst hj'
        rcases List.mem_append.1 h0 with h0 | h0
        · rw [h.le k j t hj ht h0] at hjs
          simp [DynSt.jobStep] at hjs
        · obtain ⟨o, ho, he⟩ := List.mem_map.1 h0
          simp at he
          rw [he] at ho
          obtain ⟨st', rfl⟩ := job_ops_err (.inl ho)
          simp [DynSt.jobStep] at hjs
          exact hjs.2.symm
      · rw [List.getElem?_set_ne (Ne.symm hk)] at hj'
        exact h.le k j' n hj' hn' (other k n hn' hk h0)

theorem tinv_run (c : DynCfg) (v : VSt) (h : TInv v) (acts : List DynAct) : TInv (VSt.run c v acts) := by
  induction acts generalizing v with
  | nil => exact h
  | cons a as ih =>
    simp only [VSt.run]
    cases hs : VSt.step c v a with
    | none => exact ih v h
    | some v' => exact ih v' (tinv_step h hs)

/-- What a failed task writes does not get to any thread that does not lock `status_lock_`. -/
theorem TInv.unseen {v : VSt} (h : TInv v) {i j t u : Nat} {l : Loc} {b : Act} (ht : t ≠ 0) (hi : v.log[i]? = some ⟨t, .write l⟩)
    (h0 : ∀ a ∈ v.log, a ≠ ⟨0, .lock .stMtx⟩)
    (hj : v.log[j]? = some b) (hb : b.tid = u) (hu : ∀ a ∈ v.log, a ≠ ⟨u, .lock .stMtx⟩) : ¬ HappensBefore v.log i j := by
  obtain ⟨q, hq1, hq2⟩ := h.lk i t l ht hi
  refine not_hb (S := fun k => ∃ (k0 n : Nat) (a : Act), k0 ≤ k ∧ v.log[k0]? = some ⟨n, .lock .stMtx⟩ ∧ v.log[k]? = some a ∧ a.tid = n)
    ?_ ⟨q, t, _, hq1, hq2, hi, rfl⟩ ?_
  · rintro x y hxy ⟨k0, n, a, hk, hk0, ha, hat⟩
    have hn : n ≠ 0 := fun h1 => h0 _ (List.mem_of_getElem? hk0) (by rw [h1])
    rcases hxy with ⟨hlt, a', b', h1, h2, h3⟩ | ⟨hlt, a', b', h1, h2, h3, -⟩
    · rw [ha] at h1; simp at h1; subst h1
      exact ⟨k0, n, b', by omega, hk0, h2, by rw [← h3]; exact hat⟩
    · rw [ha] at h1; simp at h1; subst h1
      have := h.tame n hn k0 x a hk0 ha hat hk
      have hp : b'.op = .lock .stMtx := by
        revert this h3
        cases ho : a.op <;> cases ho2 : b'.op <;> simp [errOp, Pairs] <;> grind
      refine ⟨y, b'.tid, b', Nat.le_refl _, ?_, h2, rfl⟩
      rw [h2, ← hp]
  · rintro ⟨k0, n, a, hk, hk0, ha, hat⟩
    rw [hj] at ha; simp at ha; subst ha
    rw [hb] at hat; subst hat
    exact hu _ (List.mem_of_getElem? hk0) rfl

end Visible
end CGraph
