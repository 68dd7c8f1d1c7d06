import Verif.Model.Lifetime
import Verif.Lemmas.DynRun

/-! Lemmas for C96. -/
namespace CGraph
namespace Lifetime
open Spec DynSt

/-! ### the specification, one event more -/

theorem snoc_split {α : Type} {t pre post : List α} {x d : α} (h : t ++ [x] = pre ++ d :: post) :
    (pre = t ∧ x = d ∧ post = []) ∨ ∃ p, post = p ++ [x] ∧ t = pre ++ d :: p := by
  rcases List.eq_nil_or_concat post with rfl | ⟨p, y, rfl⟩
  · obtain ⟨h1, h2⟩ := List.append_inj' h rfl
    simp only [List.cons.injEq, and_true] at h2
    exact .inl ⟨h1.symm, h2, rfl⟩
  · rw [show pre ++ d :: p.concat y = (pre ++ d :: p) ++ [y] by simp] at h
    obtain ⟨h1, h2⟩ := List.append_inj' h rfl
    simp only [List.cons.injEq, and_true] at h2
    subst h2
    exact .inr ⟨p, by simp, h1⟩

theorem elementsSafe_snoc {t : List LifeEv} {x : LifeEv} (h : ElementsSafe t)
    (hd : ∀ e, x = .destroyed e → t.count (.start e) = t.count (.over e))
    (hx : ∀ e, x = .start e ∨ x = .over e → .destroyed e ∉ t) : ElementsSafe (t ++ [x]) := by
  intro pre post e he
  rcases snoc_split he with ⟨rfl, rfl, rfl⟩ | ⟨p, rfl, rfl⟩
  · exact ⟨hd e rfl, by simp, by simp⟩
  · obtain ⟨h1, h2, h3⟩ := h pre p e rfl
    refine ⟨h1, ?_, ?_⟩
    · intro hm
      rcases List.mem_append.1 hm with hm | hm
      · exact h2 hm
      · exact hx e (.inl (List.mem_singleton.1 hm).symm) (by simp)
    · intro hm
      rcases List.mem_append.1 hm with hm | hm
      · exact h3 hm
      · exact hx e (.inr (List.mem_singleton.1 hm).symm) (by simp)

theorem engineSafe_snoc {t : List LifeEv} {x : LifeEv} (h : EngineSafe t) (hx : x = .used → .deleted ∉ t) : EngineSafe (t ++ [x]) := by
  intro pre post he
  rcases snoc_split he with ⟨rfl, rfl, rfl⟩ | ⟨p, rfl, rfl⟩
  · simp
  · intro hm
    rcases List.mem_append.1 hm with hm | hm
    · exact h pre p rfl hm
    · exact hx (List.mem_singleton.1 hm).symm (by simp)

/-- The events of a step of a thread. -/
theorem jobEvs_cases (j : Job) : (∃ e, j = .exec e ∧ jobEvs j = [.start e]) ∨ (∃ e, j = .body e ∧ jobEvs j = [.over e]) ∨
    (j.bodyOf = [] ∧ (jobEvs j = [] ∨ (touches j = true ∧ jobEvs j = [.used]))) := by
  cases j with
  | exec e => exact .inl ⟨e, rfl, rfl⟩
  | body e => exact .inr (.inl ⟨e, rfl, rfl⟩)
  | _ =>
    refine .inr (.inr ⟨rfl, ?_⟩)
    simp only [jobEvs]
    split <;> simp_all

/-- Bodies being executed. -/
def bodies (s : DynSt) (e : Eid) : Nat := cnt Job.bodyOf s.allJobs e

/-- Starts, ends and bodies going on, over one step of a thread. -/
theorem jobStep_bodies {c : DynCfg} {s s' : DynSt} {st j oj} (hs : jobStep c s st j = some (s', oj)) (e : Eid) :
    (jobEvs j).count (.start e) + j.bodyOf.count e = (jobEvs j).count (.over e) + (oj.elim [] Job.bodyOf).count e := by
  rcases jobEvs_cases j with ⟨x, rfl, h⟩ | ⟨x, rfl, h⟩ | ⟨hb, h⟩
  · simp only [jobStep, Option.some.injEq, Prod.mk.injEq] at hs
    obtain ⟨-, rfl⟩ := hs
    rw [h]
    simp [Job.bodyOf, List.count_cons]
  · rw [h]
    simp only [jobStep] at hs
    split at hs <;> simp only [Option.some.injEq, Prod.mk.injEq] at hs <;> obtain ⟨-, rfl⟩ := hs <;>
      simp [Job.bodyOf, List.count_cons]
  · have : oj.elim [] Job.bodyOf = [] ∨ ∃ x, j = .exec x := by
      unfold jobStep at hs
      grind [Job.bodyOf]
    rcases this with h1 | ⟨x, rfl⟩
    · rw [hb, h1]
      rcases h with h | ⟨-, h⟩ <;> rw [h] <;> simp
    · simp only [jobEvs] at h; simp at h

/-- `jobs` after a step of thread `i`. -/
theorem cnt_set {J : List Job} {i : Nat} {j j' : Job} (h : J[i]? = some j) (e : Eid) :
    cnt Job.bodyOf (J.set i j') e + j.bodyOf.count e = cnt Job.bodyOf J e + j'.bodyOf.count e := by
  obtain ⟨hi, hj⟩ := List.getElem?_eq_some_iff.1 h
  have h1 := cnt_perm Job.bodyOf (List.set_perm_cons_eraseIdx hi j') e
  have h2 := cnt_perm Job.bodyOf (List.getElem_cons_eraseIdx_perm hi) e
  rw [hj] at h2
  simp only [cnt, List.flatMap_cons, List.count_append] at h1 h2 ⊢
  omega

theorem cnt_erase {J : List Job} {i : Nat} {j : Job} (h : J[i]? = some j) (e : Eid) :
    cnt Job.bodyOf (J.eraseIdx i) e + j.bodyOf.count e = cnt Job.bodyOf J e := by
  obtain ⟨hi, hj⟩ := List.getElem?_eq_some_iff.1 h
  have h2 := cnt_perm Job.bodyOf (List.getElem_cons_eraseIdx_perm hi) e
  rw [hj] at h2
  simp only [cnt, List.flatMap_cons, List.count_append] at h2 ⊢
  omega

theorem bodies_eq (s : DynSt) (e : Eid) :
    bodies s e = (match s.main with | .inline j => j.bodyOf.count e | _ => 0) + cnt Job.bodyOf s.jobs e := by
  unfold bodies allJobs
  cases s.main <;> simp [cnt]

theorem bodies_of {s : DynSt} (h : ∀ j, s.main = .inline j → j.bodyOf = []) (e : Eid) : bodies s e = cnt Job.bodyOf s.jobs e := by
  rw [bodies_eq]
  split
  · rename_i j hj; rw [h j hj]; simp
  · simp

theorem bodies_congr {s s' : DynSt} (hj : s'.jobs = s.jobs) (h : ∀ j, s.main ≠ .inline j) (h' : ∀ j, s'.main = .inline j → j.bodyOf = [])
    (e : Eid) : bodies s' e = bodies s e := by
  rw [bodies_of h', bodies_of (fun j hj => absurd hj (h j)), hj]

/-! ### every start is matched -/

def Counts (l : LSt) : Prop := ∀ e, l.log.count (.start e) = l.log.count (.over e) + bodies l.s e

theorem counts_init (c : DynCfg) : Counts (LSt.init c) := by
  intro e; simp [LSt.init, bodies_eq, DynSt.init, cnt]

/-- A step of the caller that is not a step of a job. -/
theorem main_bodies {c : DynCfg} {s s' : DynSt} {st} (hs : DynSt.step c s (.main st) = some s') (hm : ∀ j, s.main ≠ .inline j) (e : Eid) :
    bodies s' e = bodies s e := by
  refine bodies_congr ?_ hm ?_ e
  · simp only [DynSt.step] at hs
    split at hs <;> grind [push, toWait, DynSt.ret]
  · intro j hj
    simp only [DynSt.step] at hs
    split at hs <;> grind [push, toWait, DynSt.ret, Job.bodyOf]

theorem counts_step {c : DynCfg} {own : Bool} {l l' : LSt} {a : Act} (h : Counts l) (hs : l.step c own a = some l') : Counts l' := by
  intro e
  have he := h e
  cases a with
  | dyn a =>
    simp only [LSt.step] at hs
    split at hs
    · simp at hs
    rename_i s' hd
    cases a with
    | begin =>
      simp only at hs
      split at hs <;> simp only [Option.some.injEq, reduceCtorEq] at hs
      subst hs
      rw [he]
      simp only
      congr 1
      simp only [DynSt.step] at hd
      split at hd <;> simp only [Option.some.injEq, reduceCtorEq] at hd
      rename_i hid
      refine (bodies_congr ?_ (by simp [hid]) ?_ e).symm
      · subst hd; simp only; split <;> rfl
      · subst hd; simp
    | main st =>
      simp only at hs
      split at hs
      · rename_i j hm
        simp only [Option.some.injEq] at hs
        subst hs
        simp only [DynSt.step, hm] at hd
        split at hd
        · simp at hd
        · rename_i s1 j' hj
          simp only [Option.some.injEq] at hd
          subst hd
          have h1 := jobStep_bodies hj e
          obtain ⟨hf, -⟩ := jobStep_frame hj
          rw [bodies_eq] at he ⊢
          simp only [hm, hf, List.count_append, Option.elim] at he h1 ⊢
          omega
        · rename_i s1 hj
          simp only [Option.some.injEq] at hd
          subst hd
          have h1 := jobStep_bodies hj e
          obtain ⟨hf, -⟩ := jobStep_frame hj
          rw [bodies_eq] at he ⊢
          simp only [toWait, hm, hf, List.count_append, Option.elim, List.count_nil] at he h1 ⊢
          omega
      · rename_i hm
        simp only [Option.some.injEq] at hs
        subst hs
        rw [main_bodies hd (fun j hj => hm j hj)]
        simpa using he
    | take i =>
      simp only at hs
      split at hs <;> simp only [Option.some.injEq, reduceCtorEq] at hs
      subst hs
      rw [he]
      simp only [DynSt.step] at hd
      split at hd
      · simp at hd
      split at hd <;> simp only [Option.some.injEq, reduceCtorEq] at hd
      subst hd
      simp only [bodies_eq]
      simp [cnt, Job.bodyOf]
    | work i st =>
      simp only at hs
      split at hs
      · simp at hs
      rename_i j hj
      simp only [Option.some.injEq] at hs
      subst hs
      simp only [DynSt.step, hj] at hd
      split at hd
      · simp at hd
      · rename_i s1 j' hjs
        simp only [Option.some.injEq] at hd
        subst hd
        have h1 := jobStep_bodies hjs e
        obtain ⟨hf, -, -, hmn⟩ := jobStep_frame hjs
        have h2 := cnt_set (j' := j') hj e
        have h3 : bodies { s1 with jobs := l.s.jobs.set i j' } e + j.bodyOf.count e = bodies l.s e + j'.bodyOf.count e := by
          rw [bodies_eq, bodies_eq]
          rcases hmn with hmn | ⟨hm1, hm2⟩
          · simp only [hmn]; omega
          · simp only [hm1, hm2]; omega
        simp only [List.count_append, Option.elim] at he h1 ⊢
        omega
      · rename_i s1 hjs
        simp only [Option.some.injEq] at hd
        subst hd
        have h1 := jobStep_bodies hjs e
        obtain ⟨hf, -, -, hmn⟩ := jobStep_frame hjs
        have h2 := cnt_erase hj e
        have h3 : bodies { s1 with jobs := l.s.jobs.eraseIdx i } e + j.bodyOf.count e = bodies l.s e := by
          rw [bodies_eq, bodies_eq]
          rcases hmn with hmn | ⟨hm1, hm2⟩
          · simp only [hmn]; omega
          · simp only [hm1, hm2]; omega
        simp only [List.count_append, Option.elim, List.count_nil] at he h1 ⊢
        omega
    | spurious =>
      simp only [Option.some.injEq] at hs
      subst hs
      rw [he]
      simp only [DynSt.step] at hd
      split at hd <;> simp only [Option.some.injEq, reduceCtorEq] at hd
      rename_i hm
      subst hd
      congr 1
      exact (bodies_congr (s := l.s) (s' := { l.s with main := .waking }) rfl (by simp [hm]) (fun j hj => by simp at hj) e).symm
  | destroy =>
    simp only [LSt.step] at hs
    split at hs <;> simp only [Option.some.injEq, reduceCtorEq] at hs
    subst hs
    exact he
  | joined =>
    simp only [LSt.step] at hs
    split at hs <;> simp only [Option.some.injEq, reduceCtorEq] at hs
    subst hs
    simpa [bodies_eq] using he
  | one i ok =>
    simp only [LSt.step] at hs
    split at hs
    · split at hs <;> simp only [Option.some.injEq, reduceCtorEq] at hs
      subst hs
      simpa using he
    · simp at hs
  | delete =>
    simp only [LSt.step] at hs
    split at hs <;> simp only [Option.some.injEq, reduceCtorEq] at hs
    subst hs
    simpa using he

/-! ### phases -/

/-- Elements are being destroyed, or that is over. -/
def Phase.late : Phase → Bool
  | .elems _ => true
  | .freed => true
  | .stopped => true
  | _ => false

/-- The log while nothing is destroyed; the caller while something is. -/
structure Base (l : LSt) : Prop where
  early : l.phase.late = false → (∀ e, .destroyed e ∉ l.log) ∧ .deleted ∉ l.log
  busy : l.phase ≠ .alive → l.s.main = .idle
  live : l.phase ≠ .freed → .deleted ∉ l.log
  counts : Counts l

theorem base_init (c : DynCfg) : Base (LSt.init c) :=
  ⟨by simp [LSt.init], by simp [LSt.init], by simp [LSt.init], counts_init c⟩

theorem jobEvs_quiet (j : Job) : (∀ e, .destroyed e ∉ jobEvs j) ∧ .deleted ∉ jobEvs j := by
  rcases jobEvs_cases j with ⟨x, rfl, h⟩ | ⟨x, rfl, h⟩ | ⟨-, h | ⟨-, h⟩⟩ <;> rw [h] <;> simp

/-- A step of the engine leaves the phase; events of it; an idle caller stays idle. -/
theorem dyn_step {c : DynCfg} {own : Bool} {l l' : LSt} {a : DynAct} (hs : l.step c own (.dyn a) = some l') :
    DynSt.step c l.s a = some l'.s ∧ l'.phase = l.phase ∧
    (∃ evs, l'.log = l.log ++ evs ∧ (∀ e, .destroyed e ∉ evs) ∧ .deleted ∉ evs ∧
      (evs = [] ∨ l.s.main ≠ .idle ∨ ∃ i st j, a = .work i st ∧ l.s.jobs[i]? = some j ∧ evs = jobEvs j)) ∧
    (l.s.main = .idle → l.phase ≠ .alive → l'.s.main = .idle) ∧
    (a = .begin → l.phase = .alive) ∧ ((∃ i, a = .take i) → own = false ∨ l.phase = .alive ∨ l.phase = .closing) := by
  simp only [LSt.step] at hs
  split at hs
  · simp at hs
  rename_i s' hd
  cases a with
  | begin =>
    simp only at hs
    split at hs <;> simp only [Option.some.injEq, reduceCtorEq] at hs
    rename_i hp
    subst hs
    exact ⟨hd, rfl, ⟨[], by simp, by simp, by simp, .inl rfl⟩, fun _ h => absurd hp h, fun _ => hp, by simp⟩
  | main st =>
    have hni : l.s.main ≠ .idle := by
      intro h; simp only [DynSt.step, h] at hd; simp at hd
    simp only at hs
    split at hs <;> simp only [Option.some.injEq] at hs <;> subst hs
    · exact ⟨hd, rfl, ⟨_, rfl, (jobEvs_quiet _).1, (jobEvs_quiet _).2, .inr (.inl hni)⟩, fun h => absurd h hni, by simp, by simp⟩
    · exact ⟨hd, rfl, ⟨_, rfl, by simp, by simp, .inr (.inl hni)⟩, fun h => absurd h hni, by simp, by simp⟩
  | take i =>
    simp only at hs
    split at hs <;> simp only [Option.some.injEq, reduceCtorEq] at hs
    rename_i hp
    subst hs
    refine ⟨hd, rfl, ⟨[], by simp, by simp, by simp, .inl rfl⟩, fun h _ => ?_, by simp, fun _ => hp⟩
    simp only [DynSt.step] at hd
    grind
  | work i st =>
    simp only at hs
    split at hs <;> simp only [Option.some.injEq, reduceCtorEq] at hs
    rename_i j hj
    subst hs
    refine ⟨hd, rfl, ⟨_, rfl, (jobEvs_quiet _).1, (jobEvs_quiet _).2, .inr (.inr ⟨i, st, j, rfl, hj, rfl⟩)⟩, fun h _ => ?_, by simp,
      by simp⟩
    simp only [DynSt.step, hj] at hd
    split at hd
    · simp at hd
    all_goals
      rename_i hjs
      simp only [Option.some.injEq] at hd
      subst hd
      obtain ⟨-, -, -, hmn⟩ := jobStep_frame hjs
      rcases hmn with hmn | ⟨hmn, -⟩
      · simpa [hmn] using h
      · rw [h] at hmn; simp at hmn
  | spurious =>
    simp only [Option.some.injEq] at hs
    subst hs
    refine ⟨hd, rfl, ⟨[], by simp, by simp, by simp, .inl rfl⟩, fun h _ => ?_, by simp, by simp⟩
    simp only [DynSt.step, h] at hd
    simp at hd

theorem base_step {c : DynCfg} {own : Bool} {l l' : LSt} {a : Act} (h : Base l) (hs : l.step c own a = some l') : Base l' := by
  have hc := counts_step h.counts hs
  cases a with
  | dyn a =>
    obtain ⟨-, hp, ⟨evs, hl, h1, h2, -⟩, hm, -, -⟩ := dyn_step hs
    refine ⟨fun h' => ?_, fun h' => ?_, fun h' => ?_, hc⟩
    · rw [hp] at h'
      obtain ⟨g1, g2⟩ := h.early h'
      rw [hl]
      simp [g1, g2, h1, h2]
    · rw [hp] at h'
      exact hm (h.busy h') h'
    · rw [hp] at h'
      rw [hl]
      simp [h.live h', h2]
  | destroy =>
    simp only [LSt.step] at hs
    split at hs <;> simp only [Option.some.injEq, reduceCtorEq] at hs
    rename_i hg
    subst hs
    obtain ⟨hg1, hg2⟩ := hg
    obtain ⟨g1, g2⟩ := h.early (by rw [hg2]; rfl)
    exact ⟨fun _ => ⟨g1, g2⟩, fun _ => hg1, fun _ => g2, hc⟩
  | joined =>
    simp only [LSt.step] at hs
    split at hs <;> simp only [Option.some.injEq, reduceCtorEq] at hs
    rename_i hg
    subst hs
    obtain ⟨hg1, hg2⟩ := hg
    obtain ⟨g1, g2⟩ := h.early (by rw [hg1]; rfl)
    exact ⟨fun _ => ⟨g1, g2⟩, fun _ => h.busy (by simp [hg1]), fun _ => g2, hc⟩
  | one i ok =>
    simp only [LSt.step] at hs
    split at hs
    case h_2 => simp at hs
    rename_i rest hp
    split at hs <;> simp only [Option.some.injEq, reduceCtorEq] at hs
    subst hs
    refine ⟨fun h' => ?_, fun _ => h.busy (by simp [hp]), fun _ => ?_, hc⟩
    · cases ok <;> simp [Phase.late] at h'
    · have := h.live (by simp [hp]); simp [this]
  | delete =>
    simp only [LSt.step] at hs
    split at hs <;> simp only [Option.some.injEq, reduceCtorEq] at hs
    rename_i hp
    subst hs
    exact ⟨fun h' => by simp [Phase.late] at h', fun _ => h.busy (by simp [hp]), fun h' => by simp at h', hc⟩

/-- `P` of states in a late phase makes the log safe if it is kept by steps there, threads do not start or end bodies (`A`) and do not use
the engine (`B`) there. -/
theorem elems_step {c : DynCfg} {own : Bool} {l l' : LSt} {a : Act} (hb : Base l) (he : ElementsSafe l.log)
    (hA : l.phase.late = true → (∀ e, bodies l.s e = 0) ∧ ∀ j ∈ l.s.jobs, (∀ e, .start e ∉ jobEvs j ∧ .over e ∉ jobEvs j))
    (hs : l.step c own a = some l') : ElementsSafe l'.log := by
  cases a with
  | dyn a =>
    obtain ⟨-, hp, ⟨evs, hl, h1, h2, h3⟩, hm, -, -⟩ := dyn_step hs
    have key : ∀ e, (.start e ∈ evs ∨ .over e ∈ evs) → .destroyed e ∉ l.log := by
      intro e hmem
      by_cases hlate : l.phase.late = true
      · rcases h3 with h3 | h3 | ⟨i, st, j, -, hj, rfl⟩
        · subst h3; simp at hmem
        · exact absurd (hb.busy (by intro h; rw [h] at hlate; simp [Phase.late] at hlate)) h3
        · have := (hA hlate).2 j (List.mem_of_getElem? hj) e
          exact absurd hmem (by simp [this])
      · exact (hb.early (by simpa using hlate)).1 e
    rw [hl]
    clear h3 hl
    induction evs using List.reverseRecOn with
    | nil => simpa using he
    | append_singleton evs x ih =>
      rw [← List.append_assoc]
      have ih := ih (fun e => by have := h1 e; simp at this; exact this.1) (by simp at h2; exact h2.1)
        (fun e hm => key e (by simp; tauto))
      refine elementsSafe_snoc ih (fun e hx => absurd (h1 e) (by simp [hx])) (fun e hx hm => ?_)
      rcases List.mem_append.1 hm with hm | hm
      · exact key e (by rcases hx with rfl | rfl <;> simp) hm
      · exact h1 e (by simp [hm])
  | destroy =>
    simp only [LSt.step] at hs
    split at hs <;> simp only [Option.some.injEq, reduceCtorEq] at hs
    subst hs; exact he
  | joined =>
    simp only [LSt.step] at hs
    split at hs <;> simp only [Option.some.injEq, reduceCtorEq] at hs
    subst hs; exact he
  | one i ok =>
    simp only [LSt.step] at hs
    split at hs
    case h_2 => simp at hs
    rename_i rest hp
    split at hs <;> simp only [Option.some.injEq, reduceCtorEq] at hs
    rename_i e hi
    subst hs
    refine elementsSafe_snoc he (fun e' _ => ?_) (by simp)
    have := hb.counts e'
    rw [(hA (by rw [hp]; rfl)).1] at this
    exact this
  | delete =>
    simp only [LSt.step] at hs
    split at hs <;> simp only [Option.some.injEq, reduceCtorEq] at hs
    subst hs
    exact elementsSafe_snoc he (by simp) (by simp)

theorem engine_step {c : DynCfg} {own : Bool} {l l' : LSt} {a : Act} (hb : Base l) (he : EngineSafe l.log)
    (hB : l.phase = .freed → ∀ j ∈ l.s.jobs, .used ∉ jobEvs j) (hs : l.step c own a = some l') : EngineSafe l'.log := by
  cases a with
  | dyn a =>
    obtain ⟨-, hp, ⟨evs, hl, h1, h2, h3⟩, hm, -, -⟩ := dyn_step hs
    have key : .used ∈ evs → .deleted ∉ l.log := by
      intro hmem
      by_cases hf : l.phase = .freed
      · rcases h3 with h3 | h3 | ⟨i, st, j, -, hj, rfl⟩
        · subst h3; simp at hmem
        · exact absurd (hb.busy (by simp [hf])) h3
        · exact absurd hmem (hB hf j (List.mem_of_getElem? hj))
      · exact hb.live hf
    rw [hl]
    clear h3 hl
    induction evs using List.reverseRecOn with
    | nil => simpa using he
    | append_singleton evs x ih =>
      rw [← List.append_assoc]
      have ih := ih (fun e => by have := h1 e; simp at this; exact this.1) (by simp at h2; exact h2.1)
        (fun hm => key (by simp [hm]))
      refine engineSafe_snoc ih (fun hx hm => ?_)
      subst hx
      rcases List.mem_append.1 hm with hm | hm
      · exact key (by simp) hm
      · exact h2 (by simp [hm])
  | destroy =>
    simp only [LSt.step] at hs
    split at hs <;> simp only [Option.some.injEq, reduceCtorEq] at hs
    subst hs; exact he
  | joined =>
    simp only [LSt.step] at hs
    split at hs <;> simp only [Option.some.injEq, reduceCtorEq] at hs
    subst hs; exact he
  | one i ok =>
    simp only [LSt.step] at hs
    split at hs
    case h_2 => simp at hs
    split at hs <;> simp only [Option.some.injEq, reduceCtorEq] at hs
    subst hs
    exact engineSafe_snoc he (by simp)
  | delete =>
    simp only [LSt.step] at hs
    split at hs <;> simp only [Option.some.injEq, reduceCtorEq] at hs
    subst hs
    exact engineSafe_snoc he (by simp)

/-! ### nothing of the engine is left in the pool -/

/-- In a late phase nothing is left. -/
structure Over (l : LSt) : Prop extends Base l where
  none : l.phase.late = true → l.s.jobs = [] ∧ l.s.queue = []
  es : ElementsSafe l.log
  en : EngineSafe l.log

theorem bodies_idle {s : DynSt} (hm : s.main = .idle) (hj : s.jobs = []) (e : Eid) : bodies s e = 0 := by
  rw [bodies_eq, hm, hj]; rfl

/-- `hd`: a shared pool is destroyed only when nothing is left. -/
theorem over_step {c : DynCfg} {own : Bool} {l l' : LSt} {a : Act} (h : Over l) (hs : l.step c own a = some l')
    (hd : a = .destroy → own = false → l.s.jobs = [] ∧ l.s.queue = []) : Over l' := by
  have hb := base_step h.toBase hs
  have hA : l.phase.late = true → (∀ e, bodies l.s e = 0) ∧ ∀ j ∈ l.s.jobs, (∀ e, .start e ∉ jobEvs j ∧ .over e ∉ jobEvs j) := by
    intro hl
    obtain ⟨h1, -⟩ := h.none hl
    refine ⟨bodies_idle (h.busy (by intro hp; rw [hp] at hl; simp [Phase.late] at hl)) h1, by simp [h1]⟩
  refine ⟨hb, ?_, elems_step h.toBase h.es hA hs, engine_step h.toBase h.en ?_ hs⟩
  · intro hl
    cases a with
    | dyn a =>
      obtain ⟨hds, hp, -, -, hbg, htk⟩ := dyn_step hs
      rw [hp] at hl
      obtain ⟨h1, h2⟩ := h.none hl
      have hna : l.phase ≠ .alive := by intro hp; rw [hp] at hl; simp [Phase.late] at hl
      have hid := h.busy hna
      cases a with
      | begin => exact absurd (hbg rfl) hna
      | main st => simp [DynSt.step, hid] at hds
      | take i => simp [DynSt.step, h2] at hds
      | work i st => simp [DynSt.step, h1] at hds
      | spurious => simp [DynSt.step, hid] at hds
    | destroy =>
      simp only [LSt.step] at hs
      split at hs <;> simp only [Option.some.injEq, reduceCtorEq] at hs
      subst hs
      cases own with
      | true => simp [Phase.late] at hl
      | false => exact hd rfl rfl
    | joined =>
      simp only [LSt.step] at hs
      split at hs <;> simp only [Option.some.injEq, reduceCtorEq] at hs
      rename_i hg
      subst hs
      exact ⟨hg.2, rfl⟩
    | one i ok =>
      simp only [LSt.step] at hs
      split at hs
      case h_2 => simp at hs
      rename_i rest hp
      split at hs <;> simp only [Option.some.injEq, reduceCtorEq] at hs
      subst hs
      exact h.none (by rw [hp]; rfl)
    | delete =>
      simp only [LSt.step] at hs
      split at hs <;> simp only [Option.some.injEq, reduceCtorEq] at hs
      rename_i hp
      subst hs
      exact h.none (by rw [hp]; rfl)
  · intro hf
    rw [(h.none (by rw [hf]; rfl)).1]
    simp

theorem over_init (c : DynCfg) : Over (LSt.init c) :=
  ⟨base_init c, by simp [LSt.init, Phase.late], by intro _ _ _ h; simp [LSt.init] at h, by intro _ _ h; simp [LSt.init] at h⟩

end Lifetime
end CGraph
