import Verif.Lemmas.Lifetime
import Verif.Lemmas.Visible
import Verif.Props.Dynamic

/-! # C96: destroy waits for the work of the pipeline

Over `Model/Lifetime.lean`, with `Spec/Lifetime.lean`. -/
namespace CGraph
namespace Lifetime
open Spec DynSt

theorem run_append (c : DynCfg) (own : Bool) (l : LSt) (as bs : List Act) :
    LSt.run c own l (as ++ bs) = LSt.run c own (LSt.run c own l as) bs := by
  induction as generalizing l with
  | nil => rfl
  | cons a as ih => simp only [List.cons_append, LSt.run, ih]

/-! ### the pipeline's own pool -/

theorem over_run_own {c : DynCfg} {l : LSt} (h : Over l) (acts : List Act) : Over (LSt.run c true l acts) := by
  induction acts generalizing l with
  | nil => exact h
  | cons a as ih =>
    simp only [LSt.run]
    cases hs : LSt.step c true l a with
    | none => exact ih h
    | some l' => exact ih (over_step h hs (by simp))

/-- **C96** (own pool): for every graph, schedule, number of runs, and whatever fails in them: `destroy` of an element is called only when
no body of it is being executed and none is executed afterwards, and the engine is not used after it was deleted. -/
theorem C96_own (c : DynCfg) (acts : List Act) :
    ElementsSafe (LSt.run c true (LSt.init c) acts).log ∧ EngineSafe (LSt.run c true (LSt.init c) acts).log :=
  have h := over_run_own (over_init c) acts
  ⟨h.es, h.en⟩

/-! ### each element once, then the engine -/

/-- What is still to be destroyed. -/
structure Todo (c : DynCfg) (l : LSt) : Prop where
  early : l.phase.late = false → (∀ e, .destroyed e ∉ l.log) ∧ .deleted ∉ l.log
  mid : ∀ rest, l.phase = .elems rest → (∀ e, l.log.count (.destroyed e) + rest.count e = c.g.elems.count e) ∧ .deleted ∉ l.log
  stop : l.phase = .stopped → (∀ e, l.log.count (.destroyed e) ≤ c.g.elems.count e) ∧ .deleted ∉ l.log
  fin : l.phase = .freed → ∃ pre post, l.log = pre ++ .deleted :: post ∧ .deleted ∉ pre ∧ .deleted ∉ post ∧
    (∀ e, pre.count (.destroyed e) = c.g.elems.count e) ∧ ∀ e, .destroyed e ∉ post

theorem todo_step {c : DynCfg} {own : Bool} {l l' : LSt} {a : Act} (h : Todo c l) (hs : l.step c own a = some l') : Todo c l' := by
  cases a with
  | dyn a =>
    obtain ⟨-, hp, ⟨evs, hl, h1, h2, -⟩, -, -, -⟩ := dyn_step hs
    have h3 : ∀ e, evs.count (.destroyed e) = 0 := fun e => List.count_eq_zero.2 (h1 e)
    refine ⟨fun g => ?_, fun rest g => ?_, fun g => ?_, fun g => ?_⟩ <;> rw [hp] at g <;> rw [hl]
    · have := h.early g; simp [this, h1, h2]
    · have := h.mid rest g; simp only [List.count_append, h3, Nat.add_zero]; simp [this, h2]
    · have := h.stop g; simp only [List.count_append, h3, Nat.add_zero]; simp [this, h2]
    · obtain ⟨pre, post, g1, g2, g3, g4, g5⟩ := h.fin g
      exact ⟨pre, post ++ evs, by rw [g1]; simp, g2, by simp [g3, h2], g4, fun e => by simp [g5, h1]⟩
  | destroy =>
    simp only [LSt.step] at hs
    split at hs <;> simp only [Option.some.injEq, reduceCtorEq] at hs
    rename_i hg
    subst hs
    have he := h.early (by rw [hg.2]; rfl)
    refine ⟨fun _ => he, fun rest g => ?_, fun g => ?_, fun g => ?_⟩ <;> cases own <;> simp at g
    subst g
    exact ⟨fun e => by rw [List.count_eq_zero.2 (he.1 e)]; simp, he.2⟩
  | joined =>
    simp only [LSt.step] at hs
    split at hs <;> simp only [Option.some.injEq, reduceCtorEq] at hs
    rename_i hg
    subst hs
    have he := h.early (by rw [hg.1]; rfl)
    refine ⟨fun _ => he, fun rest g => ?_, fun g => ?_, fun g => ?_⟩ <;> simp at g
    subst g
    exact ⟨fun e => by simp only; rw [List.count_eq_zero.2 (he.1 e)]; simp, he.2⟩
  | one i ok =>
    simp only [LSt.step] at hs
    split at hs
    case h_2 => simp at hs
    rename_i rest hp
    split at hs <;> simp only [Option.some.injEq, reduceCtorEq] at hs
    rename_i x hx
    subst hs
    obtain ⟨hi, hxe⟩ := List.getElem?_eq_some_iff.1 hx
    obtain ⟨g1, g2⟩ := h.mid rest hp
    have key : ∀ e, (l.log ++ [LifeEv.destroyed x]).count (LifeEv.destroyed e) + (rest.eraseIdx i).count e = c.g.elems.count e := by
      intro e
      have h1 := (List.getElem_cons_eraseIdx_perm hi).count_eq e
      rw [hxe] at h1
      rw [← g1 e, ← h1]
      simp only [List.count_append, List.count_cons, List.count_nil, beq_iff_eq, LifeEv.destroyed.injEq]
      omega
    refine ⟨fun g => ?_, fun r g => ?_, fun g => ?_, fun g => ?_⟩ <;> cases ok <;> simp [Phase.late] at g
    · subst g; exact ⟨key, by simp [g2]⟩
    · exact ⟨fun e => by have := key e; simp only; omega, by simp [g2]⟩
  | delete =>
    simp only [LSt.step] at hs
    split at hs <;> simp only [Option.some.injEq, reduceCtorEq] at hs
    rename_i hp
    subst hs
    obtain ⟨g1, g2⟩ := h.mid [] hp
    exact ⟨fun g => by simp [Phase.late] at g, fun r g => by simp at g, fun g => by simp at g,
      fun _ => ⟨l.log, [], rfl, g2, by simp, fun e => by simpa using g1 e, by simp⟩⟩

/-- **C96** (once, either pool): `destroy` of an element is called at most once, the engine is deleted at most once, and before that
`destroy` of every element was called. -/
theorem C96_once (c : DynCfg) (hn : c.g.elems.Nodup) (own : Bool) (acts : List Act) :
    (∀ e, (LSt.run c own (LSt.init c) acts).log.count (.destroyed e) ≤ 1) ∧
    (LSt.run c own (LSt.init c) acts).log.count .deleted ≤ 1 ∧
    ∀ pre post, (LSt.run c own (LSt.init c) acts).log = pre ++ .deleted :: post →
      (∀ e ∈ c.g.elems, pre.count (.destroyed e) = 1) ∧ ∀ e, .destroyed e ∉ post := by
  have h : Todo c (LSt.run c own (LSt.init c) acts) := by
    suffices h : ∀ l, Todo c l → Todo c (LSt.run c own l acts) from
      h _ ⟨by simp [LSt.init], by simp [LSt.init], by simp [LSt.init], by simp [LSt.init]⟩
    induction acts with
    | nil => intro l h; exact h
    | cons a as ih =>
      intro l h
      simp only [LSt.run]
      cases hs : LSt.step c own l a with
      | none => exact ih l h
      | some l' => exact ih l' (todo_step h hs)
  generalize LSt.run c own (LSt.init c) acts = l at h
  have hle : ∀ e, c.g.elems.count e ≤ 1 := fun e => List.nodup_iff_count_le_one.1 hn e
  by_cases hf : l.phase = .freed
  · obtain ⟨pre, post, g1, g2, g3, g4, g5⟩ := h.fin hf
    have hc : l.log.count .deleted = 1 := by
      rw [g1, List.count_append, List.count_cons_self, List.count_eq_zero.2 g2, List.count_eq_zero.2 g3]
    refine ⟨fun e => ?_, hc.le, fun pre' post' he => ?_⟩
    · have := hle e
      rw [g1, List.count_append, List.count_cons_of_ne (by simp), List.count_eq_zero.2 (g5 e), g4]
      omega
    · have h1 : LifeEv.deleted ∉ pre' ∧ LifeEv.deleted ∉ post' := by
        rw [he, List.count_append, List.count_cons_self] at hc
        exact ⟨List.count_eq_zero.1 (by omega), List.count_eq_zero.1 (by omega)⟩
      have h2 : pre' = pre ∧ post' = post := by
        rw [g1] at he
        rcases List.append_eq_append_iff.1 he with ⟨as, e1, e2⟩ | ⟨as, e1, e2⟩
        · cases as with
          | nil => simp at e1 e2; exact ⟨e1, e2.symm⟩
          | cons a as => simp at e2; exact absurd (by rw [e1, ← e2.1]; simp) h1.1
        · cases as with
          | nil => simp at e1 e2; exact ⟨e1.symm, e2⟩
          | cons a as => simp at e2; exact absurd (by rw [e1, ← e2.1]; simp) g2
      obtain ⟨rfl, rfl⟩ := h2
      exact ⟨fun e he => by rw [g4, List.count_eq_one_of_mem hn he], g5⟩
  · have hd : LifeEv.deleted ∉ l.log ∧ ∀ e, l.log.count (.destroyed e) ≤ 1 := by
      cases hp : l.phase with
      | alive => have := h.early (by rw [hp]; rfl); exact ⟨this.2, fun e => by rw [List.count_eq_zero.2 (this.1 e)]; omega⟩
      | closing => have := h.early (by rw [hp]; rfl); exact ⟨this.2, fun e => by rw [List.count_eq_zero.2 (this.1 e)]; omega⟩
      | elems rest => have := h.mid rest hp; exact ⟨this.2, fun e => by have := this.1 e; have := hle e; omega⟩
      | freed => exact absurd hp hf
      | stopped => have := h.stop hp; exact ⟨this.2, fun e => by have := this.1 e; have := hle e; omega⟩
    refine ⟨hd.2, by rw [List.count_eq_zero.2 hd.1]; omega, fun pre post he => ?_⟩
    exact absurd (by rw [he]; simp) hd.1

/-! ### a shared pool -/

/-- **C96** (shared pool, nothing left): if at the call of `destroy` no thread of the pool is in the engine and no task of it waits, the same
holds.  Missing: the code does not wait for this, see below. -/
theorem C96_shared_quiet_partial (c : DynCfg) (own : Bool) (pre post : List Act) (hp : Act.destroy ∉ pre)
    (hm : (LSt.run c own (LSt.init c) pre).s.main = .idle) (hj : (LSt.run c own (LSt.init c) pre).s.jobs = [])
    (hq : (LSt.run c own (LSt.init c) pre).s.queue = []) :
    ElementsSafe (LSt.run c own (LSt.init c) (pre ++ .destroy :: post)).log ∧
    EngineSafe (LSt.run c own (LSt.init c) (pre ++ .destroy :: post)).log := by
  have h1 : Over (LSt.run c own (LSt.init c) pre) := by
    clear hm hj hq
    suffices h : ∀ l, Over l → Over (LSt.run c own l pre) from h _ (over_init c)
    induction pre with
    | nil => intro l h; exact h
    | cons a as ih =>
      intro l h
      simp only [LSt.run]
      have ih := ih (fun hx => hp (by simp [hx]))
      cases hs : LSt.step c own l a with
      | none => exact ih l h
      | some l' => exact ih l' (over_step h hs (fun ha => absurd (by simp [ha]) hp))
  rw [run_append]
  generalize LSt.run c own (LSt.init c) pre = l at *
  suffices h : ∀ (as : List Act) l, Over l → (l.phase = .alive → l.s.main = .idle → l.s.jobs = [] ∧ l.s.queue = []) → l.phase ≠ .alive →
      Over (LSt.run c own l as) by
    simp only [LSt.run]
    cases hs : LSt.step c own l .destroy with
    | none =>
      -- `destroy` is refused: it was called before
      have hna : l.phase ≠ .alive := by
        intro ha; simp [LSt.step, hm, ha] at hs
      have := h post l h1 (fun ha => absurd ha hna) hna
      exact ⟨this.es, this.en⟩
    | some l' =>
      have h2 := over_step h1 hs (fun _ _ => ⟨hj, hq⟩)
      have hna : l'.phase ≠ .alive := by
        simp only [LSt.step] at hs
        split at hs <;> simp only [Option.some.injEq, reduceCtorEq] at hs
        subst hs
        simp only
        split <;> simp
      have := h post l' h2 (fun ha => absurd ha hna) hna
      exact ⟨this.es, this.en⟩
  intro as
  induction as with
  | nil => intro l h _ _; exact h
  | cons a as ih =>
    intro l h _ hna
    simp only [LSt.run]
    cases hs : LSt.step c own l a with
    | none => exact ih l h (fun ha => absurd ha hna) hna
    | some l' =>
      have hna' : l'.phase ≠ .alive := by
        cases a with
        | dyn a => rw [(dyn_step hs).2.1]; exact hna
        | destroy => simp [LSt.step, hna] at hs
        | joined => simp only [LSt.step] at hs; split at hs <;> simp at hs; subst hs; simp
        | one i ok =>
          simp only [LSt.step] at hs
          split at hs
          · split at hs <;> simp at hs
            subst hs; simp only; split <;> simp
          · simp at hs
        | delete => simp only [LSt.step] at hs; split at hs <;> simp at hs; subst hs; simp
      exact ih l' (over_step h hs (fun ha => by subst ha; simp [LSt.step, hna] at hs)) (fun ha => absurd ha hna') hna'

theorem harmless_evs {j : Job} (h : j.harmless = true) (e : Eid) : .start e ∉ jobEvs j ∧ .over e ∉ jobEvs j ∧ j.bodyOf = [] := by
  rcases jobEvs_cases j with ⟨x, rfl, -⟩ | ⟨x, rfl, -⟩ | ⟨h1, h2 | ⟨-, h2⟩⟩
  · simp [Job.harmless] at h
  · simp [Job.harmless] at h
  · rw [h2]; simp [h1]
  · rw [h2]; simp [h1]

/-- **C96** (shared pool, no failures): as long as no element fails, bodies of elements are over when their `destroy` is called, with a shared
pool too.  Missing: the engine, and runs with failures, see below. -/
theorem C96_shared_elements_partial (c : DynCfg) (w : c.g.WF) (ha : AcyclicOn c.g.Edge c.g.elems) (acts : List Act)
    (hn : ∀ a, Act.dyn a ∈ acts → NoFail [a]) : ElementsSafe (LSt.run c false (LSt.init c) acts).log := by
  suffices h : ∀ l, Base l → Reach c l.s → l.s.failed = [] → l.phase ≠ .closing → ElementsSafe l.log →
      ElementsSafe (LSt.run c false l acts).log from
    h _ (base_init c) .init rfl (by simp [LSt.init]) (by intro _ _ _ h; simp [LSt.init] at h)
  induction acts with
  | nil => intro l _ _ _ _ h; exact h
  | cons a as ih =>
    intro l hb hr hf hc he
    simp only [LSt.run]
    have ih := ih (fun b hb => hn b (by simp [hb]))
    cases hs : LSt.step c false l a with
    | none => exact ih l hb hr hf hc he
    | some l' =>
      have he' : ElementsSafe l'.log := by
        refine elems_step hb he (fun hl => ?_) hs
        have hid := hb.busy (by intro hp; rw [hp] at hl; simp [Phase.late] at hl)
        obtain ⟨-, hh⟩ := Visible.clean_harmless w ha (sinv_reach w ha hr) hid (.inl hf)
        refine ⟨fun e => ?_, fun j hj e => ⟨(harmless_evs (hh j hj) e).1, (harmless_evs (hh j hj) e).2.1⟩⟩
        rw [bodies_of (by simp [hid])]
        unfold cnt
        rw [List.count_eq_zero]
        intro hm
        obtain ⟨j, hj, hx⟩ := List.mem_flatMap.1 hm
        rw [(harmless_evs (hh j hj) e).2.2] at hx
        simp at hx
      refine ih l' (base_step hb hs) ?_ ?_ ?_ he'
      all_goals
        cases a with
        | dyn a =>
          obtain ⟨h1, h2, -⟩ := dyn_step hs
          first
            | exact .step hr h1 (fun _ => .inl hf)
            | exact step_failed h1 hf (hn a (by simp) a (by simp))
            | (rw [h2]; exact hc)
        | destroy =>
          simp only [LSt.step] at hs
          split at hs <;> simp only [Option.some.injEq, reduceCtorEq] at hs
          subst hs
          first | exact hr | exact hf | simp
        | joined => simp [LSt.step, hc] at hs
        | one i ok =>
          simp only [LSt.step] at hs
          split at hs
          case h_2 => simp at hs
          split at hs <;> simp only [Option.some.injEq, reduceCtorEq] at hs
          subst hs
          first | exact hr | exact hf | (simp only; split <;> simp)
        | delete =>
          simp only [LSt.step] at hs
          split at hs <;> simp only [Option.some.injEq, reduceCtorEq] at hs
          subst hs
          first | exact hr | exact hf | simp

/-- Destroying all elements in order. -/
theorem run_all (c : DynCfg) (own : Bool) (s : DynSt) (es : List Eid) (log : List LifeEv) :
    LSt.run c own ⟨s, .elems es, log⟩ (es.map (fun _ => .one 0 true)) = ⟨s, .elems [], log ++ es.map .destroyed⟩ := by
  induction es generalizing log with
  | nil => simp [LSt.run]
  | cons e es ih =>
    simp only [List.map_cons, LSt.run, LSt.step]
    simp only [List.getElem?_cons_zero, List.eraseIdx_zero, List.tail_cons, Option.getD_some, if_true]
    rw [ih]
    simp

theorem run_destroy {c : DynCfg} {l : LSt} (hp : l.phase = .alive) (hm : l.s.main = .idle) :
    LSt.run c false l (.destroy :: c.g.elems.map (fun _ => .one 0 true)) = ⟨l.s, .elems [], l.log ++ c.g.elems.map .destroyed⟩ := by
  have : LSt.step c false l .destroy = some ⟨l.s, .elems c.g.elems, l.log⟩ := by
    simp [LSt.step, hp, hm]
  simp only [LSt.run, this, Option.getD_some]
  exact run_all ..

/-- **C96** (shared pool, the engine, negation): whenever `destroy` is called while a thread of a shared pool is about to access the engine —
the last tail has let the caller go and is about to notify it — there is a continuation in which the engine is used after it was deleted. -/
theorem C96_shared_engine_violated (c : DynCfg) (l : LSt) (hp : l.phase = .alive) (hm : l.s.main = .idle) (j : Job) (hj : j ∈ l.s.jobs)
    (ht : touches j = true) : ∃ acts, Act.dyn .begin ∉ acts ∧ ¬ EngineSafe (LSt.run c false l acts).log := by
  obtain ⟨i, hi, hij⟩ := List.mem_iff_getElem.1 hj
  have hg : l.s.jobs[i]? = some j := List.getElem?_eq_some_iff.2 ⟨hi, hij⟩
  refine ⟨(.destroy :: c.g.elems.map (fun _ => .one 0 true)) ++ [.delete, .dyn (.work i CStatus.ok)], by simp, ?_⟩
  rw [run_append, run_destroy hp hm]
  have hev : jobEvs j = [.used] := by
    rcases jobEvs_cases j with ⟨x, rfl, -⟩ | ⟨x, rfl, -⟩ | ⟨-, h | ⟨-, h⟩⟩
    · simp [touches] at ht
    · simp [touches] at ht
    · exfalso
      cases j <;> simp_all [jobEvs, touches]
    · exact h
  have hst : (DynSt.step c l.s (.work i CStatus.ok)).isSome = true := by
    simp only [DynSt.step, hg]
    have : (jobStep c l.s CStatus.ok j).isSome = true := by
      unfold jobStep
      grind
    obtain ⟨⟨s1, oj⟩, h1⟩ := Option.isSome_iff_exists.1 this
    rw [h1]
    cases oj <;> rfl
  obtain ⟨s2, hs2⟩ := Option.isSome_iff_exists.1 hst
  intro h
  refine h (l.log ++ c.g.elems.map .destroyed) [.used] ?_ (by simp)
  simp only [LSt.run, LSt.step, hs2, hg, hev, Option.getD_some, if_true]
  simp

/-- **C96** (shared pool, elements, negation): whenever `destroy` is called while a thread of a shared pool is in, or about to start, the body of
an element of the pipeline — after a run that returned an error — there is a continuation in which this element is destroyed with its body
unfinished, or started again. -/
theorem C96_shared_elements_violated (c : DynCfg) (l : LSt) (hp : l.phase = .alive) (hm : l.s.main = .idle) (e : Eid) (he : e ∈ c.g.elems)
    (hj : .exec e ∈ l.s.jobs ∨ .body e ∈ l.s.jobs ∨ (e ∈ l.s.queue ∧ l.s.jobs.length < c.workers)) :
    ∃ acts, Act.dyn .begin ∉ acts ∧ ¬ ElementsSafe (LSt.run c false l acts).log := by
  obtain ⟨p, q, hpq⟩ := List.append_of_mem he
  -- one more step of thread `i`, which is in `j`
  have key : ∀ (as : List Act) (s' : DynSt) (i : Nat) (j : Job) (x : LifeEv), Act.dyn .begin ∉ as → s'.jobs[i]? = some j →
      jobEvs j = [x] → (x = .start e ∨ x = .over e) → (DynSt.step c s' (.work i CStatus.ok)).isSome = true →
      LSt.run c false ⟨l.s, .elems [], l.log ++ c.g.elems.map .destroyed⟩ as = ⟨s', .elems [], l.log ++ c.g.elems.map .destroyed⟩ →
      ∃ acts, Act.dyn .begin ∉ acts ∧ ¬ ElementsSafe (LSt.run c false l acts).log := by
    intro as s' i j x hnb hg hev hx hst hr
    obtain ⟨s2, hs2⟩ := Option.isSome_iff_exists.1 hst
    refine ⟨(.destroy :: c.g.elems.map (fun _ => .one 0 true)) ++ (as ++ [.dyn (.work i CStatus.ok)]), by simpa using hnb, ?_⟩
    rw [run_append, run_destroy hp hm, run_append, hr]
    intro h
    have h2 := h (l.log ++ p.map .destroyed) (q.map .destroyed ++ [x]) e (by
      simp only [LSt.run, LSt.step, hs2, hg, hev, Option.getD_some]
      simp [hpq])
    rcases hx with rfl | rfl
    · exact h2.2.1 (by simp)
    · exact h2.2.2 (by simp)
  rcases hj with hj | hj | ⟨hj, hw⟩
  · obtain ⟨i, hi, hij⟩ := List.mem_iff_getElem.1 hj
    have hg : l.s.jobs[i]? = some (.exec e) := List.getElem?_eq_some_iff.2 ⟨hi, hij⟩
    exact key [] l.s i (.exec e) (.start e) (by simp) hg rfl (.inl rfl) (by simp [DynSt.step, hg, jobStep]) rfl
  · obtain ⟨i, hi, hij⟩ := List.mem_iff_getElem.1 hj
    have hg : l.s.jobs[i]? = some (.body e) := List.getElem?_eq_some_iff.2 ⟨hi, hij⟩
    exact key [] l.s i (.body e) (.over e) (by simp) hg rfl (.inr rfl)
      (by simp only [DynSt.step, hg, jobStep]; split <;> simp_all) rfl
  · obtain ⟨i, hi, hij⟩ := List.mem_iff_getElem.1 hj
    have hg : l.s.queue[i]? = some e := List.getElem?_eq_some_iff.2 ⟨hi, hij⟩
    have hg2 : (l.s.jobs ++ [Job.exec e])[l.s.jobs.length]? = some (.exec e) := by simp
    refine key [.dyn (.take i)] { l.s with queue := l.s.queue.eraseIdx i, jobs := l.s.jobs ++ [.exec e] } l.s.jobs.length (.exec e)
      (.start e) (by simp) hg2 rfl (.inl rfl) (by simp [DynSt.step, jobStep]) ?_
    simp [LSt.run, LSt.step, DynSt.step, hg, hw]

/-! ### examples -/

/-- A run that returns OK: the pool executes `0` and the tail `2`; the caller, which executed `1`, sees the count of tails and returns
before the thread of the pool notifies it. -/
def exRun : List Act :=
  [.dyn .begin, .dyn (.main .ok), .dyn (.main .ok), .dyn (.main .ok), .dyn (.main .ok), .dyn (.main .ok), .dyn (.main .ok), .dyn (.main .ok),
   .dyn (.take 0), .dyn (.work 0 .ok), .dyn (.work 0 .ok), .dyn (.work 0 .ok), .dyn (.work 0 .ok), .dyn (.work 0 .ok), .dyn (.work 0 .ok),
   .dyn (.work 0 .ok), .dyn (.work 0 .ok), .dyn (.work 0 .ok), .dyn (.work 0 .ok), .dyn (.main .ok)]

/-- The hypotheses of `C96_shared_engine_violated`, after a run that returned OK. -/
example : (LSt.run exJoinCfg false (LSt.init exJoinCfg) exRun).phase = .alive ∧
    (LSt.run exJoinCfg false (LSt.init exJoinCfg) exRun).s.main = .idle ∧
    (LSt.run exJoinCfg false (LSt.init exJoinCfg) exRun).s.lastRet = some .ok ∧
    (LSt.run exJoinCfg false (LSt.init exJoinCfg) exRun).s.jobs = [.tailNotify] ∧ touches .tailNotify = true := by decide +kernel

/-- The engine is used after its deletion; with a pool of its own the pipeline waits for the thread. -/
example : (LSt.run exJoinCfg false (LSt.init exJoinCfg) (exRun ++
      [.destroy, .one 0 true, .one 1 true, .one 0 true, .delete, .dyn (.work 0 .ok)])).log.drop 14 =
      [.destroyed 0, .destroyed 2, .destroyed 1, .deleted, .used] ∧
    (LSt.run exJoinCfg true (LSt.init exJoinCfg) (exRun ++
      [.destroy, .joined, .one 0 true, .dyn (.work 0 .ok), .joined, .one 0 true, .one 1 true, .one 0 true, .delete])).log.drop 14 =
      [.used, .destroyed 0, .destroyed 2, .destroyed 1, .deleted] := by decide +kernel

/-- `1`, executed by the caller, fails while `0` waits in the pool. -/
def exFail : List Act :=
  [.dyn .begin, .dyn (.main .ok), .dyn (.main .ok), .dyn (.main .ok), .dyn (.main (.err "bad")), .dyn (.main .ok), .dyn (.main .ok),
   .dyn (.main .ok), .dyn (.main .ok), .dyn (.main .ok), .dyn (.main .ok)]

/-- The hypotheses of `C96_shared_elements_violated`; with a pool of its own the task is dropped or executed before. -/
example : (LSt.run exJoinCfg false (LSt.init exJoinCfg) exFail).phase = .alive ∧
    (LSt.run exJoinCfg false (LSt.init exJoinCfg) exFail).s.main = .idle ∧
    (LSt.run exJoinCfg false (LSt.init exJoinCfg) exFail).s.lastRet = some (.err "bad") ∧
    (LSt.run exJoinCfg false (LSt.init exJoinCfg) exFail).s.queue = [0] ∧ (0 : Eid) ∈ exJoinCfg.g.elems ∧
    (LSt.run exJoinCfg false (LSt.init exJoinCfg) (exFail ++ [.destroy, .one 0 true, .dyn (.take 0), .dyn (.work 0 .ok)])).log.drop 10 =
      [.destroyed 0, .start 0] ∧
    (LSt.run exJoinCfg true (LSt.init exJoinCfg) (exFail ++ [.destroy, .joined, .one 0 true, .dyn (.take 0), .dyn (.work 0 .ok)])).log.drop 10 =
      [.destroyed 0] ∧
    (LSt.run exJoinCfg true (LSt.init exJoinCfg) (exFail ++ [.destroy, .dyn (.take 0), .joined, .dyn (.work 0 .ok), .dyn (.work 0 .ok),
      .joined, .dyn (.work 0 .ok), .joined, .one 0 true])).log.drop 10 = [.start 0, .over 0, .used, .destroyed 0] := by decide +kernel

/-- `C96_shared_quiet_partial`: the thread has notified before `destroy`. -/
example : (LSt.run exJoinCfg false (LSt.init exJoinCfg) (exRun ++ [.dyn (.work 0 .ok)])).s.main = .idle ∧
    (LSt.run exJoinCfg false (LSt.init exJoinCfg) (exRun ++ [.dyn (.work 0 .ok)])).s.jobs = [] ∧
    (LSt.run exJoinCfg false (LSt.init exJoinCfg) (exRun ++ [.dyn (.work 0 .ok)])).s.queue = [] ∧
    Act.destroy ∉ exRun ++ [.dyn (.work 0 .ok)] := by decide +kernel

/-- `C96_shared_elements_partial`: this schedule, with `destroy`, has no failures. -/
example : ∀ a, Act.dyn a ∈ exRun ++ [.destroy, .one 0 true] → NoFail [a] := by
  intro a ha b hb st h
  simp [exRun] at ha
  simp at hb
  subst hb
  rcases h with rfl | ⟨i, rfl⟩ <;> simp at ha <;> simp_all

example : exJoinCfg.g.elems.Nodup := by decide

end Lifetime
end CGraph
