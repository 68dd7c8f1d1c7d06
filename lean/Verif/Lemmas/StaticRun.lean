import Verif.Model.StaticRun
import Verif.Lemmas.Status

/-! Invariant of the static engine's run under every interleaving. -/
namespace CGraph
namespace StaticSt

/-- Every start event is the first one of its element and comes after the finish events of all elements in
`before` of it. -/
def GoodTrace (before : Eid → Eid → Prop) (tr : List Ev) : Prop :=
  ∀ pre e post, tr = pre ++ .start e :: post → .start e ∉ pre ∧ ∀ d, before d e → .finish d ∈ pre

theorem goodTrace_nil (b) : GoodTrace b [] := by intro pre e post h; simp at h

theorem goodTrace_start {b tr} (h : GoodTrace b tr) {e} (h1 : .start e ∉ tr)
    (h2 : ∀ d, b d e → .finish d ∈ tr) : GoodTrace b (tr ++ [.start e]) := by
  intro pre x post he
  rcases List.eq_nil_or_concat post with hp | ⟨post', y, hp⟩
  · subst hp
    have := List.append_inj' he rfl
    have hx : e = x := by simpa using this.2
    subst hx; rw [← this.1]; exact ⟨h1, h2⟩
  · subst hp
    have he' : tr ++ [.start e] = (pre ++ .start x :: post') ++ [y] := by rw [he]; simp
    exact h pre x post' (List.append_inj' he' rfl).1

theorem goodTrace_finish {b tr} (h : GoodTrace b tr) (e) : GoodTrace b (tr ++ [.finish e]) := by
  intro pre x post he
  rcases List.eq_nil_or_concat post with hp | ⟨post', y, hp⟩
  · subst hp
    have := (List.append_inj' he rfl).2
    simp at this
  · subst hp
    have he' : tr ++ [.finish e] = (pre ++ .start x :: post') ++ [y] := by rw [he]; simp
    exact h pre x post' (List.append_inj' he' rfl).1

/-- `d` is in a strictly earlier layer than `e`. -/
def Earlier (mat : List (List Eid)) (d e : Eid) : Prop :=
  ∃ pre l post, mat = pre ++ l :: post ∧ e ∈ l ∧ d ∈ pre.flatten

/-- Invariant; `past` are the completed layers, `cur` the elements of the current one. -/
structure Inv (mat : List (List Eid)) (fp : Eid → CStatus) (past : List (List Eid)) (cur : List Eid)
    (s : StaticSt) : Prop where
  split : (mat = past ++ cur :: s.layers) ∨ (mat = s.layers ∧ past = [] ∧ cur = [])
  pastFin : ∀ l ∈ past, ∀ e ∈ l, Ev.finish e ∈ s.trace ∧ (fp e).isErr = false
  curCov : ∀ e ∈ cur, e ∈ s.toCommit ∨ e ∈ s.macros ∨ s.macroRunning = some e ∨ e ∈ s.queued ∨
    e ∈ s.running ∨ Ev.finish e ∈ s.trace
  subC : ∀ e ∈ s.toCommit, e ∈ cur
  subM : ∀ e ∈ s.macros, e ∈ cur
  subR : ∀ e, s.macroRunning = some e → e ∈ cur
  subQ : ∀ e ∈ s.queued, e ∈ cur ∧ e ∈ s.futures
  subP : ∀ e ∈ s.running, e ∈ cur ∧ e ∈ s.futures
  started : ∀ e, Ev.start e ∈ s.trace → e ∈ past.flatten ∨ e ∈ cur
  fin : ∀ e, Ev.finish e ∈ s.trace → Ev.start e ∈ s.trace
  nodC : s.toCommit.Nodup
  nodM : s.macros.Nodup
  nodQ : s.queued.Nodup
  nodP : s.running.Nodup
  exCM : ∀ e ∈ s.toCommit, e ∉ s.macros
  freshC : ∀ e ∈ s.toCommit, Ev.start e ∉ s.trace
  freshM : ∀ e ∈ s.macros, Ev.start e ∉ s.trace
  freshQ : ∀ e ∈ s.queued, Ev.start e ∉ s.trace
  openR : ∀ e, s.macroRunning = some e → Ev.finish e ∉ s.trace
  openP : ∀ e ∈ s.running, Ev.finish e ∉ s.trace
  startR : ∀ e, s.macroRunning = some e → Ev.start e ∈ s.trace
  startP : ∀ e ∈ s.running, Ev.start e ∈ s.trace
  good : GoodTrace (Earlier mat) s.trace
  fut : ∀ e ∈ s.futures, e ∈ cur ∧ (e ∈ s.queued ∨ e ∈ s.running ∨ e ∈ s.finished)
  finished : ∀ e ∈ s.finished, Ev.finish e ∈ s.trace
  futNodup : s.futures.Nodup
  futM : ∀ e ∈ s.futures, e ∉ s.toCommit ∧ e ∉ s.macros ∧ s.macroRunning ≠ some e
  stOk : s.status.isErr = false → ∀ e ∈ cur, e ∉ s.toCommit → e ∉ s.macros → s.macroRunning ≠ some e →
    e ∉ s.futures → (fp e).isErr = false
  stErr : s.status.isErr = true → ∃ e ∈ cur, s.status = fp e
  stOk' : s.status.isErr = false → s.status = CStatus.ok
  retQ : s.ret.isSome → s.toCommit = [] ∧ s.macros = [] ∧ s.macroRunning = none ∧ s.futures = []
  retV : ∀ r, s.ret = some r → checkStatus s.status = some r ∨
    (s.status.isErr = false ∧ s.layers = [] ∧ r = .ret s.status)

theorem inv_init (mat : List (List Eid)) (fp : Eid → CStatus) : Inv mat fp [] [] (init mat) := by
  constructor <;> simp [init, goodTrace_nil]

/-- In a duplicate-free matrix an element sits in one layer only. -/
theorem earlier_cur {mat past : List (List Eid)} {cur : List Eid} {rest} (hm : mat = past ++ cur :: rest)
    (hn : mat.flatten.Nodup) {d e : Eid} (he : e ∈ cur) (h : Earlier mat d e) : ∃ l ∈ past, d ∈ l := by
  obtain ⟨pre, l, post, h1, h2, h3⟩ := h
  rw [hm] at h1
  rw [hm] at hn
  -- compare the two decompositions
  have key : ∀ (past pre : List (List Eid)) (cur l : List Eid) (rest post : List (List Eid)),
      past ++ cur :: rest = pre ++ l :: post → (past ++ cur :: rest).flatten.Nodup → e ∈ cur → e ∈ l →
      past = pre := by
    intro past
    induction past with
    | nil =>
      intro pre cur l rest post heq hnd hec hel
      cases pre with
      | nil => rfl
      | cons a pre =>
        simp only [List.nil_append, List.cons_append, List.cons.injEq] at heq
        simp only [List.nil_append, List.flatten_cons, List.nodup_append] at hnd
        exfalso
        refine hnd.2.2 e hec e ?_ rfl
        rw [heq.2]
        exact List.mem_flatten.2 ⟨l, by simp, hel⟩
    | cons b past ih =>
      intro pre cur l rest post heq hnd hec hel
      cases pre with
      | nil =>
        simp only [List.nil_append, List.cons_append, List.cons.injEq] at heq
        simp only [List.cons_append, List.flatten_cons, List.nodup_append] at hnd
        exfalso
        refine hnd.2.2 e (by rw [heq.1]; exact hel) e ?_ rfl
        exact List.mem_flatten.2 ⟨cur, by simp, hec⟩
      | cons a pre =>
        simp only [List.cons_append, List.cons.injEq] at heq
        simp only [List.cons_append, List.flatten_cons, List.nodup_append] at hnd
        rw [heq.1, ih pre cur l rest post heq.2 hnd.2.1 hec hel]
  have := key past pre cur l rest post h1 hn he h2
  rw [← this] at h3
  exact List.mem_flatten.1 h3

theorem Inv.before {mat fp past cur s} (h : Inv mat fp past cur s) (hn : mat.flatten.Nodup) {d e : Eid}
    (he : e ∈ cur) (hb : Earlier mat d e) : Ev.finish d ∈ s.trace := by
  rcases h.split with hs | ⟨_, _, hs⟩
  · obtain ⟨l, hl, hd⟩ := earlier_cur hs hn he hb
    exact (h.pastFin l hl d hd).1
  · rw [hs] at he; cases he

set_option maxHeartbeats 2000000 in
theorem inv_step {mat fp past cur s} (hn : mat.flatten.Nodup) (direct : Eid → Bool)
    (h : Inv mat fp past cur s) (a : StaticAct) (s' : StaticSt) (hs : s.step direct fp a = some s') :
    ∃ past' cur', Inv mat fp past' cur' s' := by
  have hbef := fun d e he hb => h.before hn (d := d) (e := e) he hb
  obtain ⟨split, pastFin, curCov, subC, subM, subR, subQ, subP, started, fin, nodC, nodM, nodQ, nodP, exCM,
    freshC, freshM, freshQ, openR, openP, startR, startP, good, fut, finished, futNodup, futM, stOk, stErr, stOk', retQ,
    retV⟩ := h
  cases a with
  | take e =>
    simp only [step] at hs
    split at hs
    · rename_i he
      have := Option.some.inj hs; subst this
      refine ⟨past, cur, ?_⟩
      have hgood := goodTrace_start good (freshQ e he) (fun d hb => hbef d e (subQ e he).1 hb)
      have hmem : ∀ x, x ∈ s.queued.erase e ↔ x ≠ e ∧ x ∈ s.queued := fun x => nodQ.mem_erase_iff
      have hnq := nodQ.erase e
      constructor <;> (try dsimp only) <;> first | assumption | grind
    · cases hs
  | done e =>
    simp only [step] at hs
    split at hs
    · rename_i he
      have := Option.some.inj hs; subst this
      refine ⟨past, cur, ?_⟩
      have hgood := goodTrace_finish good e
      have hmem : ∀ x, x ∈ s.running.erase e ↔ x ≠ e ∧ x ∈ s.running := fun x => nodP.mem_erase_iff
      have hnq := nodP.erase e
      constructor <;> (try dsimp only) <;> first | assumption | grind
    · cases hs
  | main =>
    simp only [step] at hs
    split at hs
    · cases hs
    · rename_i hret
      have hret' : s.ret = none := by simpa using hret
      split at hs
      · rename_i e hm
        have := Option.some.inj hs; subst this
        refine ⟨past, cur, ?_⟩
        have hgood := goodTrace_finish good e
        have hae := CStatus.add_isErr s.status (fp e)
        have h1 : s.status.isErr = true → s.status.add (fp e) = s.status := CStatus.add_of_err _
        have h2 : s.status.isErr = false → (fp e).isErr = true → s.status.add (fp e) = fp e :=
          CStatus.add_of_not_err
        have h3 : (fp e).isErr = false → s.status.add (fp e) = s.status := CStatus.add_not_err_right
        constructor <;> (try dsimp only) <;> first | assumption | grind
      · rename_i hm
        split at hs
        · rename_i e es hc
          split at hs
          · have := Option.some.inj hs; subst this
            refine ⟨past, cur, ?_⟩
            rw [hc] at nodC
            constructor <;> (try dsimp only) <;> first | assumption | grind
          · have := Option.some.inj hs; subst this
            refine ⟨past, cur, ?_⟩
            rw [hc] at nodC
            constructor <;> (try dsimp only) <;> first | assumption | grind
        · rename_i hc
          split at hs
          · rename_i e es hmc
            have := Option.some.inj hs; subst this
            refine ⟨past, cur, ?_⟩
            rw [hmc] at nodM
            have hgood := goodTrace_start good (freshM e (by rw [hmc]; simp))
              (fun d hb => hbef d e (subM e (by rw [hmc]; simp)) hb)
            constructor <;> (try dsimp only) <;> first | assumption | grind
          · rename_i hmc
            split at hs
            · rename_i e es hf
              split at hs
              · rename_i hfin
                have := Option.some.inj hs; subst this
                refine ⟨past, cur, ?_⟩
                rw [hf] at futNodup
                have hae := CStatus.add_isErr s.status (fp e)
                have h1 : s.status.isErr = true → s.status.add (fp e) = s.status := CStatus.add_of_err _
                have h2 : s.status.isErr = false → (fp e).isErr = true → s.status.add (fp e) = fp e :=
                  CStatus.add_of_not_err
                have h3 : (fp e).isErr = false → s.status.add (fp e) = s.status := CStatus.add_not_err_right
                constructor <;> (try dsimp only) <;> first | assumption | grind
              · cases hs
            · rename_i hf
              split at hs
              · rename_i r hr
                have := Option.some.inj hs; subst this
                refine ⟨past, cur, ?_⟩
                constructor <;> (try dsimp only) <;> first | assumption | grind
              · rename_i hr
                have hne : s.status.isErr = false := by
                  unfold checkStatus at hr
                  cases h : s.status.isErr
                  · rfl
                  · rw [h] at hr; simp only [if_true] at hr; split at hr <;> cases hr
                split at hs
                · rename_i hl
                  have := Option.some.inj hs; subst this
                  refine ⟨past, cur, ?_⟩
                  constructor <;> (try dsimp only) <;> first | assumption | grind
                · rename_i l ls hl
                  have := Option.some.inj hs; subst this
                  have hq : s.queued = [] := by
                    cases hq : s.queued with
                    | nil => rfl
                    | cons a t =>
                      have := (subQ a (by rw [hq]; simp)).2; rw [hf] at this; cases this
                  have hp : s.running = [] := by
                    cases hq : s.running with
                    | nil => rfl
                    | cons a t =>
                      have := (subP a (by rw [hq]; simp)).2; rw [hf] at this; cases this
                  have hcur : ∀ e ∈ cur, Ev.finish e ∈ s.trace ∧ (fp e).isErr = false := by
                    intro e he
                    have h1 := curCov e he
                    have h2 := stOk hne e he
                    rw [hc, hmc, hm, hq, hp] at h1
                    rw [hc, hmc, hm, hf] at h2
                    simp at h1 h2
                    exact ⟨h1, h2⟩
                  have hst := stOk' hne
                  -- elements of the new layer are not in earlier layers
                  have hdis : ∀ e ∈ l, e ∉ past.flatten ∧ e ∉ cur := by
                    intro e he
                    rcases split with hs | ⟨hs, hp0, hc0⟩
                    · rw [hs, hl] at hn
                      simp only [List.flatten_append, List.flatten_cons, List.nodup_append] at hn
                      exact ⟨fun hx => hn.2.2 e hx e (by simp [he]) rfl,
                        fun hx => hn.2.1.2.2 e hx e (by simp [he]) rfl⟩
                    · rw [hp0, hc0]; simp
                  have hln : l.Nodup := by
                    rcases split with hs | ⟨hs, hp0, hc0⟩
                    · rw [hs, hl] at hn
                      simp only [List.flatten_append, List.flatten_cons, List.nodup_append] at hn
                      exact hn.2.1.2.1.1
                    · rw [hs, hl] at hn
                      simp only [List.flatten_cons, List.nodup_append] at hn
                      exact hn.1
                  have hfresh : ∀ e ∈ l, Ev.start e ∉ s.trace := by
                    intro e he hx
                    rcases started e hx with h | h
                    · exact (hdis e he).1 h
                    · exact (hdis e he).2 h
                  rcases split with hs | ⟨hs, hp0, hc0⟩
                  · refine ⟨past ++ [cur], l, ?_⟩
                    have hfl : (past ++ [cur]).flatten = past.flatten ++ cur := by simp
                    constructor <;> (try dsimp only) <;> first | assumption | grind
                  · refine ⟨[], l, ?_⟩
                    subst hp0 hc0
                    constructor <;> (try dsimp only) <;> first | assumption | grind

theorem inv_run {mat} (hn : mat.flatten.Nodup) (direct : Eid → Bool) (fp : Eid → CStatus)
    (sched : List StaticAct) : ∃ past cur, Inv mat fp past cur (run direct fp (init mat) sched) := by
  have gen : ∀ (sched : List StaticAct) (s : StaticSt) (past cur), Inv mat fp past cur s →
      ∃ past cur, Inv mat fp past cur (run direct fp s sched) := by
    intro sched
    induction sched with
    | nil => intro s past cur h; exact ⟨past, cur, h⟩
    | cons a as ih =>
      intro s past cur h
      simp only [run]
      cases hs : s.step direct fp a with
      | none => exact ih s past cur h
      | some s' =>
        obtain ⟨p', c', h'⟩ := inv_step hn direct h a s' hs
        exact ih s' p' c' h'
  exact gen sched _ _ _ (inv_init mat fp)

end StaticSt
end CGraph
