import Verif.Lemmas.Coord

/-! # C97: the number of threads can be changed from inside a task

Over `Model/Coord.lean`. -/
namespace CGraph
namespace Coord
open St

/-- The number of steps of a schedule that are possible. -/
def moved (c : PoolCfg) : St → List Act → Nat
  | _, [] => 0
  | s, a :: as =>
    match s.step c a with
    | none => moved c s as
    | some s' => moved c s' as + 1

/-- Every thread that is not secondary has returned from all its calls. -/
def Returned (s : St) : Prop := ∀ (i : Nat) (th : Th), s.ths[i]? = some th → th.sec = false → th.pc = .ready ∧ th.todo = []

theorem run_append (c : PoolCfg) (s : St) (as bs : List Act) : run c s (as ++ bs) = run c (run c s as) bs := by
  induction as generalizing s with
  | nil => rfl
  | cons a as ih => simp only [List.cons_append, run, ih]

theorem run_keeps {c : PoolCfg} {P : St → Prop} (hP : ∀ s s' a, P s → s.step c a = some s' → P s') {s : St} (h : P s) (acts : List Act) :
    P (run c s acts) := by
  induction acts generalizing s with
  | nil => exact h
  | cons a as ih =>
    simp only [run]
    cases hs : s.step c a with
    | none => exact ih h
    | some s' => exact ih (hP s s' a h hs)

theorem moved_le {c : PoolCfg} (acts : List Act) : ∀ (s : St) (K : Nat), room s ≤ K → moved c s acts ≤ left K s := by
  induction acts with
  | nil => intro s K _; simp [moved]
  | cons a as ih =>
    intro s K hK
    simp only [moved]
    cases hs : s.step c a with
    | none => exact ih s K hK
    | some s' =>
      obtain ⟨hc, th, hi, hm⟩ := step_move hs
      obtain ⟨h1, h2⟩ := move_left hc hK hi hm
      have := ih s' K (by omega)
      simp only
      omega

/-- **C97** (bounded): whatever the threads and tasks do and however they are scheduled, there is a bound to the number of steps: nobody goes
round in circles.  If something does not return, it is blocked. -/
theorem C97_bounded (c : PoolCfg) (callers queue : List (List Call)) :
    ∃ B, ∀ acts, moved c (St.init callers queue) acts ≤ B :=
  ⟨left (room (St.init callers queue)) (St.init callers queue), fun acts => moved_le acts _ _ (Nat.le_refl _)⟩

/-- Progress and the bound: everything can be brought to an end. -/
theorem finish {c : PoolCfg} {P : St → Prop} (hP : ∀ s s' a, P s → s.step c a = some s' → P s')
    (hpr : ∀ s, P s → ∀ (i : Nat) (th : Th), s.ths[i]? = some th → th.sec = false → (th.pc ≠ .ready ∨ th.todo ≠ []) →
      ∃ a, (s.step c a).isSome = true) :
    ∀ (n : Nat) (s : St) (K : Nat), P s → room s ≤ K → left K s ≤ n → ∃ acts, Returned (run c s acts) := by
  intro n
  induction n with
  | zero =>
    intro s K h hK hn
    refine ⟨[], fun i th hi hs => ?_⟩
    by_contra hc
    obtain ⟨a, ha⟩ := hpr s h i th hi hs (by tauto)
    obtain ⟨s', hs'⟩ := Option.isSome_iff_exists.1 ha
    obtain ⟨hcr, t, ht, hm⟩ := step_move hs'
    have := (move_left hcr hK ht hm).1
    omega
  | succ n ih =>
    intro s K h hK hn
    by_cases hr : Returned s
    · exact ⟨[], hr⟩
    · unfold Returned at hr
      push Not at hr
      obtain ⟨i, th, hi, hs, hu⟩ := hr
      obtain ⟨a, ha⟩ := hpr s h i th hi hs (by tauto)
      obtain ⟨s', hs'⟩ := Option.isSome_iff_exists.1 ha
      obtain ⟨hcr, t, ht, hm⟩ := step_move hs'
      obtain ⟨h1, h2⟩ := move_left hcr hK ht hm
      obtain ⟨acts, hacts⟩ := ih s' K (hP s s' a h hs') (by omega) (by omega)
      refine ⟨a :: acts, ?_⟩
      simp only [run, hs', Option.getD_some]
      exact hacts

/-- Tasks of secondary threads leave the number of threads alone. -/
def Tame (queue : List (List Call)) : Prop := ∀ task ∈ queue, ∀ x ∈ task, x = Call.work

theorem good_init {callers queue : List (List Call)} (h : Tame queue) : Good (St.init callers queue) := by
  refine ⟨fun i th hi => ?_, by simp [St.init], h, lk_init _ _, by simp [St.init], rfl⟩
  simp only [St.init, List.getElem?_map, Option.map_eq_some_iff] at hi
  obtain ⟨x, -, rfl⟩ := hi
  exact ⟨by simp, by simp, by simp [refs], by simp [joinOf]⟩

/-- **C97** (tasks of secondary threads leave the number of threads alone): any number of callers — with the primary threads and the monitor
among them — may create and release threads at the same time: the program is never terminated, it can always go on until all of them
have returned, and it never stops before that.  Missing: tasks that secondary threads execute, see below. -/
theorem C97_returns_partial (c : PoolCfg) (callers queue : List (List Call)) (ht : Tame queue) (acts : List Act) :
    (run c (St.init callers queue) acts).crash = false ∧
    (∃ more, Returned (run c (St.init callers queue) (acts ++ more))) ∧
    ((∀ a, (run c (St.init callers queue) acts).step c a = none) → Returned (run c (St.init callers queue) acts)) := by
  have h := run_keeps (c := c) (fun _ _ _ => good_step) (good_init (callers := callers) ht) acts
  refine ⟨h.cr, ?_, fun hn i th hi hs => ?_⟩
  · obtain ⟨more, hm⟩ := finish (fun _ _ _ => good_step) (fun s h i th hi hs hu => good_progress h hi hs hu) _ _ _ h (Nat.le_refl _)
      (Nat.le_refl (left (room (run c (St.init callers queue) acts)) (run c (St.init callers queue) acts)))
    exact ⟨more, by rw [run_append]; exact hm⟩
  · by_contra hc
    obtain ⟨a, ha⟩ := good_progress (c := c) h hi hs (by tauto)
    rw [hn a] at ha
    simp at ha

/-! ### nobody joins -/

/-- Calls that end no thread. -/
def Adds (l : List Call) : Prop := ∀ x ∈ l, x = .work ∨ ∃ n, x = .create n

structure Free (s : St) : Prop where
  ok : ∀ (i : Nat) (th : Th), s.ths[i]? = some th → Adds th.todo ∧ (th.pc = .ready ∨ ∃ r, th.pc = .adding r) ∧ (th.sec = true → th.go = true)
  q : ∀ task ∈ s.queue, Adds task
  h : s.holder = none
  cr : s.crash = false

theorem free_step {c : PoolCfg} {s s' : St} {a : Act} (h : Free s) (hs : s.step c a = some s') : Free s' := by
  obtain ⟨-, th, hi, hm⟩ := step_move hs
  obtain ⟨hok1, hok2, hok3⟩ := h.ok a.i th hi
  have key : ∀ (q s1 : St) (x : Th), q.ths = s.ths → s1.ths = (q.setTh a.i x).ths → Adds x.todo →
      (x.pc = .ready ∨ ∃ r, x.pc = .adding r) → (x.sec = true → x.go = true) →
      ∀ (i : Nat) (t : Th), s1.ths[i]? = some t → Adds t.todo ∧ (t.pc = .ready ∨ ∃ r, t.pc = .adding r) ∧ (t.sec = true → t.go = true) := by
    intro q s1 x hq hs1 h1 h2 h3 i t hit
    rw [hs1] at hit
    simp only [setTh, hq] at hit
    rw [get_set hi] at hit
    split at hit
    · simp only [Option.some.injEq] at hit; subst hit; exact ⟨h1, h2, h3⟩
    · exact h.ok i t hit
  have tl : ∀ {x l}, Adds (x :: l) → Adds l := fun h y hy => h y (List.mem_cons_of_mem _ hy)
  have hd : ∀ {x l}, Adds (x :: l) → x = .work ∨ ∃ n, x = .create n := fun h => h _ (List.mem_cons_self ..)
  cases hm with
  | take k hq hg =>
    exact ⟨key { s with queue := s.queue.eraseIdx k } _ _ rfl rfl (h.q _ (List.mem_of_getElem? hq)) (.inl rfl) (fun _ => hg),
      fun t ht => h.q t (List.mem_of_mem_eraseIdx ht), h.h, h.cr⟩
  | leave hg => have := hok3 rfl; simp only at this; rw [hg] at this; simp at this
  | work => exact ⟨key s _ _ rfl rfl (tl hok1) (.inl rfl) hok3, h.q, h.h, h.cr⟩
  | size => exact ⟨key s _ _ rfl rfl (tl hok1) (.inr ⟨_, rfl⟩) hok3, h.q, h.h, h.cr⟩
  | release => have := hd hok1; simp at this
  | pass => have := hd hok1; simp at this
  | @add b g r todo hh =>
    refine ⟨fun i t hit => ?_, h.q, h.h, h.cr⟩
    simp only [grow] at hit
    by_cases hlt : i < (s.setTh a.i ⟨b, g, .ready, todo⟩).ths.length
    · rw [List.getElem?_append_left hlt] at hit
      exact key s _ ⟨b, g, .ready, todo⟩ rfl rfl hok1 (.inl rfl) hok3 i t hit
    · rw [List.getElem?_append_right (by omega), List.getElem?_replicate] at hit
      split at hit <;> simp only [Option.some.injEq, reduceCtorEq] at hit
      subst hit
      exact ⟨by simp [Adds], .inl rfl, fun _ => rfl⟩
  | _ => simp at hok2

theorem free_progress {c : PoolCfg} {s : St} (h : Free s) {i : Nat} {th : Th} (hi : s.ths[i]? = some th)
    (hu : th.pc ≠ .ready ∨ th.todo ≠ []) : ∃ a, (s.step c a).isSome = true := by
  refine ⟨⟨i, false, 0⟩, ?_⟩
  obtain ⟨-, h2, -⟩ := h.ok i th hi
  obtain ⟨b, g, pc, todo⟩ := th
  unfold step
  rw [h.cr]
  simp only [hi, h.h]
  simp only at h2 hu
  rcases h2 with rfl | ⟨r, rfl⟩
  · cases todo with
    | nil => simp at hu
    | cons x rest => cases x <;> simp
  · simp

/-- **C97** (only creating): if threads are only created and never released or retired, the same holds, with tasks of secondary threads that
create threads too. -/
theorem C97_create_partial (c : PoolCfg) (callers queue : List (List Call)) (hcl : ∀ l ∈ callers, Adds l) (hq : ∀ l ∈ queue, Adds l)
    (acts : List Act) :
    (run c (St.init callers queue) acts).crash = false ∧
    (∃ more, Returned (run c (St.init callers queue) (acts ++ more))) ∧
    ((∀ a, (run c (St.init callers queue) acts).step c a = none) → Returned (run c (St.init callers queue) acts)) := by
  have h0 : Free (St.init callers queue) := by
    refine ⟨fun i th hi => ?_, hq, rfl, rfl⟩
    simp only [St.init, List.getElem?_map, Option.map_eq_some_iff] at hi
    obtain ⟨x, hx, rfl⟩ := hi
    exact ⟨hcl x (List.mem_of_getElem? hx), .inl rfl, fun _ => rfl⟩
  have h := run_keeps (c := c) (fun _ _ _ => free_step) h0 acts
  refine ⟨h.cr, ?_, fun hn i th hi hs => ?_⟩
  · obtain ⟨more, hm⟩ := finish (fun _ _ _ => free_step) (fun s h i th hi _ hu => free_progress h hi hu) _ _ _ h (Nat.le_refl _)
      (Nat.le_refl (left (room (run c (St.init callers queue) acts)) (run c (St.init callers queue) acts)))
    exact ⟨more, by rw [run_append]; exact hm⟩
  · by_contra hc
    obtain ⟨a, ha⟩ := free_progress (c := c) h hi (by tauto)
    rw [hn a] at ha
    simp at ha

/-! ### tasks of secondary threads -/

/-- The thread is about to take `st_mutex_`. -/
def wantsLock (th : Th) : Prop := (th.pc = .ready ∧ ∃ x rest, th.todo = x :: rest ∧ (x = .pass ∨ ∃ n, x = .release n)) ∨ ∃ r, th.pc = .adding r

/-- **C97** (negation, deadlock): whenever a thread `j` joins, with `st_mutex_` held, a thread `i` whose task is about to take `st_mutex_`,
neither of them moves ever again, whatever the others do; the mutex stays locked. -/
theorem C97_deadlock_violated (c : PoolCfg) (callers queue : List (List Call)) (acts : List Act) (i j : Nat) (ti tj : Th)
    (hi : (run c (St.init callers queue) acts).ths[i]? = some ti) (hj : (run c (St.init callers queue) acts).ths[j]? = some tj)
    (hw : wantsLock ti) (hjn : (∃ n rest, tj.pc = .pjoin n i rest) ∨ ∃ rest, tj.pc = .fjoin i rest) (more : List Act) :
    ∃ ti' tj' : Th, (run c (St.init callers queue) (acts ++ more)).ths[i]? = some ti' ∧ ti'.pc = ti.pc ∧ ti'.todo = ti.todo ∧
      (run c (St.init callers queue) (acts ++ more)).ths[j]? = some tj' ∧ tj'.pc = tj.pc ∧ tj'.todo = tj.todo ∧
      (run c (St.init callers queue) (acts ++ more)).holder = some j := by
  have hlk : Lk (run c (St.init callers queue) acts) := run_keeps (c := c) (fun _ _ _ => lk_step) (lk_init callers queue) acts
  have hjh : tj.pc.holds = true := by rcases hjn with ⟨n, rest, h⟩ | ⟨rest, h⟩ <;> rw [h] <;> rfl
  rw [run_append]
  generalize run c (St.init callers queue) acts = s at *
  have h0 : Lk s ∧ s.holder = some j ∧ (∃ x : Th, s.ths[i]? = some x ∧ x.pc = ti.pc ∧ x.todo = ti.todo) ∧
      ∃ x : Th, s.ths[j]? = some x ∧ x.pc = tj.pc ∧ x.todo = tj.todo := ⟨hlk, hlk j tj hj hjh, ⟨ti, hi, rfl, rfl⟩, ⟨tj, hj, rfl, rfl⟩⟩
  have hkeep := run_keeps (c := c) (P := fun s => Lk s ∧ s.holder = some j ∧ (∃ x : Th, s.ths[i]? = some x ∧ x.pc = ti.pc ∧ x.todo = ti.todo) ∧
      ∃ x : Th, s.ths[j]? = some x ∧ x.pc = tj.pc ∧ x.todo = tj.todo) ?_ h0 more
  · obtain ⟨-, e1, ⟨x, e2, e3, e4⟩, ⟨y, e5, e6, e7⟩⟩ := hkeep
    exact ⟨x, y, e2, e3, e4, e5, e6, e7, e1⟩
  · rintro s s' a ⟨h1, h2, ⟨x, hx1, hx2, hx3⟩, ⟨y, hy1, hy2, hy3⟩⟩ hs
    have h1' := lk_step h1 hs
    obtain ⟨-, th, hth, hm⟩ := step_move hs
    -- neither of the two makes the step
    have hai : a.i ≠ i := by
      rintro rfl
      rw [hx1, Option.some.injEq] at hth; subst hth
      obtain ⟨b, g, pc, todo⟩ := x
      simp only at hx2 hx3
      subst hx2 hx3
      rcases hw with ⟨hp, y, rest, ht, hy⟩ | ⟨r, hp⟩
      · rw [hp, ht] at hm
        rcases hy with rfl | ⟨n, rfl⟩
        · cases hm with | pass hh => rw [h2] at hh; simp at hh
        · cases hm with | release hh => rw [h2] at hh; simp at hh
      · rw [hp] at hm
        cases hm with | add hh => rw [h2] at hh; simp at hh
    have hne : s.isEnded i = false := by
      unfold isEnded
      rw [hx1]
      rcases hw with ⟨hp, -⟩ | ⟨r, hp⟩ <;> simp [hx2, hp]
    have haj : a.i ≠ j := by
      rintro rfl
      rw [hy1, Option.some.injEq] at hth; subst hth
      obtain ⟨b, g, pc, todo⟩ := y
      simp only at hy2 hy3
      subst hy2 hy3
      rcases hjn with ⟨n, rest, hp⟩ | ⟨rest, hp⟩
      · rw [hp] at hm
        cases hm with | pjoined he => rw [hne] at he; simp at he
      · rw [hp] at hm
        cases hm with | fjoined he => rw [hne] at he; simp at he
    obtain ⟨o1, -⟩ := move_ths hth hm
    obtain ⟨g, e1, -⟩ := o1 i x (Ne.symm hai) hx1
    obtain ⟨g', e2, -⟩ := o1 j y (Ne.symm haj) hy1
    exact ⟨h1', h1' j _ e2 (by simp only [hy2]; exact hjh), ⟨_, e1, hx2, hx3⟩, ⟨_, e2, hy2, hy3⟩⟩

/-- **C97** (negation, termination): whenever a secondary thread that has been told to end, and is the first of the list, is about to release
threads in its task — as it is when the task has released a thread before — and the mutex is free, its next two steps terminate the
program. -/
theorem C97_self_violated (c : PoolCfg) (s : St) (hc : s.crash = false) (hh : s.holder = none) (i : Nat) (rest : List Nat) (b : Bool) (n : Int)
    (todo : List Call) (hs : s.secs = i :: rest) (hi : s.ths[i]? = some ⟨b, false, .ready, .release n :: todo⟩) :
    (run c s [⟨i, false, 0⟩, ⟨i, false, 0⟩]).crash = true := by
  have h1 : s.step c ⟨i, false, 0⟩ = some ({ s with holder := some i }.setTh i ⟨b, false, .purge n s.secs, todo⟩) := by
    unfold step; simp [hc, hi, hh]
  have h2 : ({ s with holder := some i }.setTh i ⟨b, false, .purge n s.secs, todo⟩).ths[i]? = some ⟨b, false, .purge n (i :: rest), todo⟩ := by
    simp only [setTh]; rw [get_set hi, if_pos rfl, hs]
  have h3 : ({ s with holder := some i }.setTh i ⟨b, false, .purge n s.secs, todo⟩).step c ⟨i, false, 0⟩ =
      some { { s with holder := some i }.setTh i ⟨b, false, .purge n s.secs, todo⟩ with crash := true } := by
    have h4 : ({ s with holder := some i }.setTh i ⟨b, false, .purge n s.secs, todo⟩).goes i = false := by unfold goes; rw [h2]
    have h5 : (setTh { s with holder := some i } i ⟨b, false, .purge n s.secs, todo⟩).crash = false := hc
    unfold step
    rw [h5]
    simp only [h2, h4]
    simp
  simp only [run, h1, h3, Option.getD_some]

/-! ### what one call does -/

/-- **C97** (create): an element `GCoordinator<size>` with `size ≥ 0` that is not disturbed adds `size` threads, or as many as the configuration
allows. -/
theorem C97_create_effect (c : PoolCfg) (s : St) (hc : s.crash = false) (hh : s.holder = none) (i : Nat) (b g : Bool) (size : Int)
    (h0 : 0 ≤ size) (todo : List Call) (hi : s.ths[i]? = some ⟨b, g, .ready, coordCall size :: todo⟩) :
    ∃ s', run c s [⟨i, false, 0⟩, ⟨i, false, 0⟩] = s' ∧ s'.ths[i]? = some ⟨b, g, .ready, todo⟩ ∧ s'.holder = none ∧
      (s'.secs.length : Int) = s.secs.length + max 0 (min size (c.maxSize - c.defaultSize - s.secs.length)) ∧
      (∀ t ∈ s.secs, t ∈ s'.secs) := by
  refine ⟨_, rfl, ?_⟩
  have hcc : coordCall size = .create size := by simp [coordCall, h0]
  rw [hcc] at hi
  have h1 : s.step c ⟨i, false, 0⟩ = some (s.setTh i ⟨b, g, .adding (PoolMgr.realSize c size s.secs.length), todo⟩) := by
    unfold step; simp [hc, hi]
  have h2 : (s.setTh i ⟨b, g, .adding (PoolMgr.realSize c size s.secs.length), todo⟩).ths[i]? =
      some ⟨b, g, .adding (PoolMgr.realSize c size s.secs.length), todo⟩ := by
    simp only [setTh]; rw [get_set hi, if_pos rfl]
  have h3 : (s.setTh i ⟨b, g, .adding (PoolMgr.realSize c size s.secs.length), todo⟩).step c ⟨i, false, 0⟩ =
      some (((s.setTh i ⟨b, g, .adding (PoolMgr.realSize c size s.secs.length), todo⟩).setTh i ⟨b, g, .ready, todo⟩).grow
        (PoolMgr.realSize c size s.secs.length).toNat) := by
    unfold step
    rw [show (s.setTh i ⟨b, g, .adding (PoolMgr.realSize c size s.secs.length), todo⟩).crash = false from hc]
    simp only [h2]
    rw [show (s.setTh i ⟨b, g, .adding (PoolMgr.realSize c size s.secs.length), todo⟩).holder = none from hh]
    simp
  simp only [run, h1, h3, Option.getD_some]
  refine ⟨?_, hh, ?_, ?_⟩
  · have h4 : ((s.setTh i ⟨b, g, .adding (PoolMgr.realSize c size s.secs.length), todo⟩).setTh i ⟨b, g, .ready, todo⟩).ths[i]? =
        some ⟨b, g, .ready, todo⟩ := by
      simp only [setTh] at h2 ⊢; rw [get_set h2, if_pos rfl]
    simp only [grow]
    rw [List.getElem?_append_left (List.getElem?_eq_some_iff.1 h4).1, h4]
  · simp only [grow, setTh, List.length_append, List.length_range', PoolMgr.realSize]
    omega
  · intro t ht; simp only [grow, setTh]; simp [ht]

theorem goes_setTh {s : St} {i : Nat} {x : Th} (hi : s.ths[i]? = some x) (y : Th) (hg : y.go = x.go) (t : Nat) :
    (s.setTh i y).goes t = s.goes t := by
  unfold goes setTh
  simp only [get_set hi]
  by_cases h : t = i
  · subst h; simp [hi, hg]
  · simp [h]

theorem purge_run {c : PoolCfg} {i : Nat} {b g : Bool} {n : Int} {todo : List Call} (rest : List Nat) :
    ∀ s : St, s.crash = false → s.ths[i]? = some ⟨b, g, .purge n rest, todo⟩ → (∀ t ∈ rest, s.goes t = true) →
      run c s (List.replicate rest.length ⟨i, false, 0⟩) = s.setTh i ⟨b, g, .purge n [], todo⟩ := by
  induction rest with
  | nil =>
    intro s _ hi _
    simp only [List.length_nil, List.replicate_zero, run, setTh]
    obtain ⟨h1, h2⟩ := List.getElem?_eq_some_iff.1 hi
    have : s.ths.set i ⟨b, g, .purge n [], todo⟩ = s.ths := by rw [← h2]; exact List.set_getElem_self h1
    rw [this]
  | cons t rest ih =>
    intro s hc hi hg
    have h1 : s.step c ⟨i, false, 0⟩ = some (s.setTh i ⟨b, g, .purge n rest, todo⟩) := by
      unfold step; simp [hc, hi, hg t (List.mem_cons_self ..)]
    have h2 : (s.setTh i ⟨b, g, .purge n rest, todo⟩).ths[i]? = some ⟨b, g, .purge n rest, todo⟩ := by
      simp only [setTh]; rw [get_set hi, if_pos rfl]
    simp only [List.length_cons, List.replicate_succ, run, h1, Option.getD_some]
    rw [ih (s.setTh i ⟨b, g, .purge n rest, todo⟩) hc h2
      (fun u hu => (goes_setTh hi ⟨b, g, .purge n rest, todo⟩ rfl u).trans (hg u (List.mem_cons_of_mem _ hu)))]
    simp [setTh]

theorem goes_unset {s : St} {t u : Nat} : (s.unset t).goes u = (if u = t then false else s.goes u) := by
  unfold unset
  cases ht : s.ths[t]? with
  | none =>
    simp only
    split
    · rename_i h; subst h; unfold goes; rw [ht]
    · rfl
  | some x =>
    unfold goes setTh
    simp only [get_set ht]
    by_cases h : u = t <;> simp [h]

theorem goes_mark (l : List Nat) : ∀ (s : St) (k : Nat) (u : Nat), (s.mark l k).goes u = (if u ∈ l.take k then false else s.goes u) := by
  induction l with
  | nil => intro s k u; simp [mark]
  | cons t l ih =>
    intro s k u
    cases k with
    | zero => simp [mark]
    | succ k =>
      have h1 : ((k + 1 : Nat) : Int) > 0 := by omega
      have h2 : ((k + 1 : Nat) : Int) - 1 = (k : Nat) := by omega
      simp only [mark, if_pos h1, h2, ih, goes_unset, List.take_succ_cons, List.mem_cons]
      by_cases hu : u = t <;> by_cases hm : u ∈ l.take k <;> simp [hu, hm]

/-- **C97** (release): an element `GCoordinator<-k>` that is not disturbed, and finds no thread that was told to end before, tells the first `k`
threads of the list to end and no other; it tells none, and returns an error, if there are less than `k`.  It waits for none of them. -/
theorem C97_release_effect (c : PoolCfg) (s : St) (hc : s.crash = false) (hh : s.holder = none) (i : Nat) (b g : Bool) (k : Nat)
    (h0 : 0 < k) (todo : List Call) (hi : s.ths[i]? = some ⟨b, g, .ready, coordCall (-(k : Int)) :: todo⟩)
    (hg : ∀ t ∈ s.secs, s.goes t = true) :
    ∃ s', run c s (List.replicate (s.secs.length + 2) ⟨i, false, 0⟩) = s' ∧ s'.crash = false ∧ s'.holder = none ∧ s'.secs = s.secs ∧
      (∃ g', s'.ths[i]? = some ⟨b, g', .ready, todo⟩) ∧
      s'.refused = s.refused + (if k ≤ s.secs.length then 0 else 1) ∧
      ∀ t, s'.goes t = (if k ≤ s.secs.length ∧ t ∈ s.secs.take k then false else s.goes t) := by
  refine ⟨_, rfl, ?_⟩
  have hcc : coordCall (-(k : Int)) = .release k := by
    have : ¬ (-(k : Int) ≥ 0) := by omega
    simp only [coordCall, if_neg this, Call.release.injEq]; omega
  rw [hcc] at hi
  let s1 : St := setTh { s with holder := some i } i ⟨b, g, .purge k s.secs, todo⟩
  have h1 : s.step c ⟨i, false, 0⟩ = some s1 := by
    unfold step; simp [hc, hi, hh, s1]
  have h2 : s1.ths[i]? = some ⟨b, g, .purge k s.secs, todo⟩ := by
    simp only [s1, setTh]; rw [get_set hi, if_pos rfl]
  have h3 : ∀ t, s1.goes t = s.goes t := fun t => goes_setTh (s := { s with holder := some i }) hi ⟨b, g, .purge k s.secs, todo⟩ rfl t
  have hrep : List.replicate (s.secs.length + 2) (⟨i, false, 0⟩ : Act) =
      ⟨i, false, 0⟩ :: (List.replicate s.secs.length ⟨i, false, 0⟩ ++ [⟨i, false, 0⟩]) := by
    rw [List.replicate_succ, List.replicate_succ']
  rw [hrep]
  simp only [run, h1, Option.getD_some, run_append]
  rw [purge_run s.secs s1 hc h2 (fun t ht => by rw [h3]; exact hg t ht)]
  let s2 : St := s1.setTh i ⟨b, g, .purge k [], todo⟩
  have h4 : s2.ths[i]? = some ⟨b, g, .purge k [], todo⟩ := by
    simp only [s2]; unfold setTh; simp only; rw [get_set h2, if_pos rfl]
  have h5 : ∀ t, s2.goes t = s.goes t := fun t => (goes_setTh h2 ⟨b, g, .purge k [], todo⟩ rfl t).trans (h3 t)
  have h6 : ∀ t, (s2.setTh i ⟨b, g, .ready, todo⟩).goes t = s.goes t := fun t => (goes_setTh h4 ⟨b, g, .ready, todo⟩ rfl t).trans (h5 t)
  have h7 : (s2.setTh i ⟨b, g, .ready, todo⟩).ths[i]? = some ⟨b, g, .ready, todo⟩ := by
    unfold setTh; simp only; rw [get_set h4, if_pos rfl]
  by_cases hk : k ≤ s.secs.length
  · have h8 : s2.step c ⟨i, false, 0⟩ = some { (s2.setTh i ⟨b, g, .ready, todo⟩).mark s.secs k with holder := none } := by
      have e1 : s2.crash = false := hc
      have e2 : s2.secs = s.secs := rfl
      have e3 : ¬ ((k : Int) > (s.secs.length : Int)) := by omega
      unfold step
      rw [e1]
      simp only [h4, e2, if_neg e3]
      simp
    have h9 : (s2.step c ⟨i, false, 0⟩).getD s2 = { (s2.setTh i ⟨b, g, .ready, todo⟩).mark s.secs k with holder := none } := by
      rw [h8]; rfl
    obtain ⟨m1, m2, m3, m4, m5, m6⟩ := sameTh_mark (s2.setTh i ⟨b, g, .ready, todo⟩) s.secs k
    obtain ⟨g', hg', -⟩ := (m6 i).2 _ h7
    show ((s2.step c ⟨i, false, 0⟩).getD s2).crash = false ∧ ((s2.step c ⟨i, false, 0⟩).getD s2).holder = none ∧ _
    rw [h9]
    refine ⟨m4.trans hc, rfl, m1, ⟨g', hg'⟩, ?_, fun t => ?_⟩
    · rw [if_pos hk]; exact m5
    · have := goes_mark s.secs (s2.setTh i ⟨b, g, .ready, todo⟩) k t
      rw [h6] at this
      simp only [hk, true_and]
      exact this
  · have h8 : s2.step c ⟨i, false, 0⟩ =
        some { s2.setTh i ⟨b, g, .ready, todo⟩ with holder := none, refused := s.refused + 1 } := by
      have e1 : s2.crash = false := hc
      have e2 : s2.secs = s.secs := rfl
      have e3 : (k : Int) > (s.secs.length : Int) := by omega
      unfold step
      rw [e1]
      simp only [h4, e2, if_pos e3]
      simp
      rfl
    have h9 : (s2.step c ⟨i, false, 0⟩).getD s2 =
        { s2.setTh i ⟨b, g, .ready, todo⟩ with holder := none, refused := s.refused + 1 } := by
      rw [h8]; rfl
    show ((s2.step c ⟨i, false, 0⟩).getD s2).crash = false ∧ ((s2.step c ⟨i, false, 0⟩).getD s2).holder = none ∧ _
    rw [h9]
    refine ⟨hc, rfl, rfl, ⟨g, h7⟩, ?_, fun t => ?_⟩
    · rw [if_neg hk]
    · simp only [hk, false_and, if_false]
      exact h6 t

/-! ### examples -/

/-- Two primary and at most two secondary threads. -/
def cfg : PoolCfg := { defaultSize := 2, maxSize := 4 }

def steps (i n : Nat) : List Act := List.replicate n ⟨i, false, 0⟩

/-- Hypotheses of `C97_returns_partial`: two callers create and release, the monitor retires, tasks wait. -/
example : Tame [[.work], [.work, .work]] := by simp [Tame]

/-- Not trivial: in this execution threads are created, one is told to end and joined, and then the monitor passes. -/
example :
    let s := run cfg (St.init [[coordCall 2], [coordCall (-1), coordCall (-1)], [.pass]] [[.work], [.work, .work]])
      (steps 0 2 ++ [⟨3, false, 0⟩] ++ steps 1 4 ++ steps 3 2 ++ steps 1 5 ++ [⟨2, true, 0⟩, ⟨2, true, 0⟩, ⟨2, true, 0⟩])
    s.crash = false ∧ s.secs = [4] ∧ (s.ths.map (·.pc)) = [.ready, .ready, .ready, .ended, .ready] ∧ s.refused = 0 ∧ s.goes 4 = false := by
  decide +kernel

/-- Hypotheses of `C97_create_partial` with tasks of secondary threads that create. -/
example : (∀ l ∈ [[Call.create 1], [.work, .create 3]], Adds l) ∧ ∀ l ∈ [[Call.create 1, .work]], Adds l := by
  simp [Adds]

/-- `C97_self_violated` is reached: a task with two elements `GCoordinator<-1>` after each other, executed by the only secondary thread. -/
example :
    let s := run cfg (St.init [[coordCall 1]] [[coordCall (-1), coordCall (-1)]]) (steps 0 2 ++ steps 1 4)
    s.crash = false ∧ s.holder = none ∧ s.secs = [1] ∧ s.ths[1]? = some ⟨true, false, .ready, [.release 1]⟩ ∧
      (run cfg s (steps 1 2)).crash = true := by
  decide +kernel

/-- `C97_deadlock_violated` is reached: a caller releases one thread twice; the first time it tells the thread to end, while its task goes on,
the second time it joins it; the task releases threads too. -/
example :
    let s := run cfg (St.init [[coordCall 2], [coordCall (-1), coordCall (-1)]] [[.work, coordCall (-1)]])
      (steps 0 2 ++ steps 2 1 ++ steps 1 4 ++ steps 1 2 ++ steps 2 1)
    s.ths[1]? = some ⟨false, true, .pjoin 1 2 [3], []⟩ ∧ s.ths[2]? = some ⟨true, false, .ready, [.release 1]⟩ := by
  decide +kernel

/-- The same with the monitor, which finds the thread without a task just before it takes one that creates threads. -/
example :
    let s := run cfg (St.init [[coordCall 1], [.pass]] [[coordCall 1]])
      (steps 0 2 ++ [⟨1, true, 0⟩, ⟨1, true, 0⟩] ++ steps 2 2 ++ [⟨1, true, 0⟩])
    s.ths[1]? = some ⟨false, true, .fjoin 2 [], []⟩ ∧ s.ths[2]? = some ⟨true, false, .adding 1, []⟩ := by
  decide +kernel

/-- Hypotheses of the two effects. -/
example :
    let s := run cfg (St.init [[coordCall 5, coordCall (-1), coordCall (-3)]] []) (steps 0 2)
    s.secs.length = 2 ∧ (∀ t ∈ s.secs, s.goes t = true) ∧ (run cfg s (steps 0 4)).goes 1 = false ∧ (run cfg s (steps 0 4)).goes 2 = true := by
  decide +kernel

end Coord
end CGraph
