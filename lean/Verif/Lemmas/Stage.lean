import Verif.Spec.Stage

/-! # Lemmas about stages -/
namespace CGraph
namespace StageSt
open Spec

/-- A statement about the part before every occurrence of `x`, for a list extended by one event. -/
theorem split_snoc {x e : StageEv} {l : List StageEv} {P : List StageEv → Prop}
    (h : ∀ p q, l = p ++ x :: q → P p) (he : e = x → P l) : ∀ p q, l ++ [e] = p ++ x :: q → P p := by
  intro p q hp
  rcases List.append_eq_append_iff.mp hp with ⟨a, ha, hb⟩ | ⟨a, ha, hb⟩
  · cases a with
    | nil =>
      simp only [List.nil_append, List.cons.injEq] at hb
      rw [List.append_nil] at ha
      subst ha
      exact he hb.1
    | cons y ys => simp at hb
  · cases a with
    | nil =>
      simp only [List.nil_append, List.cons.injEq] at hb
      rw [List.append_nil] at ha
      subst ha
      exact he hb.1.symm
    | cons y ys =>
      simp only [List.cons_append, List.cons.injEq] at hb
      obtain ⟨rfl, hb⟩ := hb
      exact h p ys ha

@[simp] theorem round_arrive (l : List StageEv) (t : Nat) : stageRound (l ++ [.arrive t]) = stageRound l ++ [t] := by
  simp [stageRound]
@[simp] theorem round_launch (l : List StageEv) : stageRound (l ++ [.launch]) = [] := by simp [stageRound]
@[simp] theorem round_leave (l : List StageEv) (t : Nat) : stageRound (l ++ [.leave t]) = stageRound l := by simp [stageRound]
@[simp] theorem round_nil : stageRound [] = [] := rfl
@[simp] theorem arrivals_append (l m : List StageEv) : arrivals (l ++ m) = arrivals l ++ arrivals m := by
  simp [arrivals, List.filterMap_append]
@[simp] theorem launches_append (l m : List StageEv) : launches (l ++ m) = launches l + launches m := by
  simp [launches, List.count_append]

/-- Thread `t` arrived and did not leave since. -/
def Came (l : List StageEv) (t : Nat) : Prop := ∃ p q, l = p ++ .arrive t :: q ∧ .leave t ∉ q

theorem Came.snoc {l : List StageEv} {t : Nat} {e : StageEv} (h : Came l t) (he : e ≠ .leave t) : Came (l ++ [e]) t := by
  obtain ⟨p, q, rfl, hq⟩ := h
  refine ⟨p, q ++ [e], by simp, ?_⟩
  simp only [List.mem_append, List.mem_singleton, not_or]
  exact ⟨hq, fun h => he h.symm⟩

theorem released_snoc {l : List StageEv} {t : Nat} {e : StageEv} (h : released l t) (he : e ≠ .leave t) :
    released (l ++ [e]) t := by
  obtain ⟨p, q, rfl, h1, h2⟩ := h
  refine ⟨p, q ++ [e], by simp, by simp [h1], ?_⟩
  simp only [List.mem_append, List.mem_singleton, not_or]
  exact ⟨h2, fun h => he h.symm⟩

theorem Came.launch {l : List StageEv} {t : Nat} (h : Came l t) : released (l ++ [.launch]) t := by
  obtain ⟨p, q, rfl, hq⟩ := h
  exact ⟨p, q ++ [.launch], by simp, by simp, by simp [hq]⟩

theorem came_arrive (l : List StageEv) (t : Nat) : Came (l ++ [.arrive t]) t := ⟨l, [], rfl, by simp⟩

/-- The invariant of a stage with threshold `n`. -/
structure Inv (n : Nat) (s : StageSt) : Prop where
  lt : s.cur < n
  len : (stageRound s.hist).length = s.cur
  nodup : (stageRound s.hist).Nodup
  mem : ∀ t ∈ stageRound s.hist, s.pc t ≠ .out
  counts : ∀ t, s.hist.count (.arrive t) = s.hist.count (.leave t) + if s.pc t = .out then 0 else 1
  came : ∀ t, s.pc t ≠ .out → Came s.hist t
  rel : ∀ t, s.pc t ≠ .out → t ∉ stageRound s.hist → released s.hist t
  sleep : s.cur = 0 → ∀ t, s.pc t ≠ .asleep
  total : (arrivals s.hist).length = n * launches s.hist + s.cur
  launchOK : ∀ p q, s.hist = p ++ .launch :: q → (stageRound p).length = n ∧ (stageRound p).Nodup
  leaveOK : ∀ t p q, s.hist = p ++ .leave t :: q → released p t

theorem inv_init {n : Nat} (h : 0 < n) : Inv n init where
  lt := h
  len := rfl
  nodup := List.nodup_nil
  mem := by simp [init]
  counts := by simp [init]
  came := by simp [init]
  rel := by simp [init]
  sleep := by simp [init]
  total := by simp [init, arrivals, launches]
  launchOK := by simp [init]
  leaveOK := by simp [init]

theorem Inv.arrive {n : Nat} {s : StageSt} (h : Inv n s) {t : Nat} (ht : s.pc t = .out) : Inv n (s.arrive n t) := by
  have hn : 0 < n := Nat.lt_of_le_of_lt (Nat.zero_le _) h.lt
  have htr : t ∉ stageRound s.hist := fun hm => h.mem t hm ht
  have hnd : (stageRound s.hist ++ [t]).Nodup := by
    rw [List.nodup_append]
    refine ⟨h.nodup, by simp, ?_⟩
    intro a ha b hb hab
    simp only [List.mem_singleton] at hb
    subst hab; subst hb; exact htr ha
  unfold StageSt.arrive
  simp only
  by_cases hc : s.cur + 1 ≥ n
  · have hcn : s.cur + 1 = n := by have := h.lt; omega
    rw [if_pos hc]
    have hl : s.hist ++ [StageEv.arrive t, .launch, .leave t]
        = ((s.hist ++ [.arrive t]) ++ [.launch]) ++ [.leave t] := by simp
    rw [hl]
    refine { lt := hn, len := ?_, nodup := ?_, mem := ?_, counts := ?_, came := ?_, rel := ?_, sleep := ?_,
             total := ?_, launchOK := ?_, leaveOK := ?_ }
    · rw [round_leave, round_launch]; rfl
    · rw [round_leave, round_launch]; exact List.nodup_nil
    · intro u hu; rw [round_leave, round_launch] at hu; cases hu
    · intro u
      have := h.counts u
      simp only [wakeAll, List.count_append, List.count_singleton]
      by_cases hu : u = t
      · subst hu
        simp [ht] at this ⊢
        omega
      · have h1 : (StageEv.arrive t == StageEv.arrive u) = false := by simp; exact fun h => hu h.symm
        have h2 : (StageEv.leave t == StageEv.leave u) = false := by simp; exact fun h => hu h.symm
        simp only [h1, h2]
        rw [this]
        have h3 : (StageEv.leave t == StageEv.arrive u) = false := by simp
        have h4 : (StageEv.arrive t == StageEv.leave u) = false := by simp
        have h5 : (StageEv.launch == StageEv.arrive u) = false := by simp
        have h6 : (StageEv.launch == StageEv.leave u) = false := by simp
        simp only [h3, h4, h5, h6]
        by_cases ha : s.pc u = .asleep <;> simp [ha]
    · intro u hu
      have hu' : s.pc u ≠ .out := by
        intro h0; simp [wakeAll, h0] at hu
      have hut : u ≠ t := fun e => hu' (e ▸ ht)
      exact (((h.came u hu').snoc (by simp)).snoc (by simp)).snoc (by simp; exact fun e => hut e.symm)
    · intro u hu _
      have hu' : s.pc u ≠ .out := by
        intro h0; simp [wakeAll, h0] at hu
      have hut : u ≠ t := fun e => hu' (e ▸ ht)
      exact released_snoc ((h.came u hu').snoc (by simp)).launch (by simp; exact fun e => hut e.symm)
    · intro _ u
      simp only [wakeAll]
      by_cases ha : s.pc u = .asleep <;> simp [ha]
    · have := h.total
      simp [arrivals, launches] at this ⊢
      rw [this, Nat.mul_add]; omega
    · refine split_snoc (P := fun p => (stageRound p).length = n ∧ (stageRound p).Nodup) ?_ (fun e => by cases e)
      refine split_snoc (P := fun p => (stageRound p).length = n ∧ (stageRound p).Nodup) ?_ (fun _ => ?_)
      · exact split_snoc (P := fun p => (stageRound p).length = n ∧ (stageRound p).Nodup) h.launchOK (fun e => by cases e)
      · rw [round_arrive]
        exact ⟨by rw [List.length_append, h.len]; exact hcn, hnd⟩
    · intro u
      refine split_snoc (P := fun p => released p u) ?_ ?_
      · refine split_snoc (P := fun p => released p u) ?_ (fun e => by cases e)
        exact split_snoc (P := fun p => released p u) (h.leaveOK u) (fun e => by cases e)
      · intro e
        simp only [StageEv.leave.injEq] at e
        subst e
        exact (came_arrive _ _).launch
  · rw [if_neg hc, if_neg (by omega)]
    refine { lt := (by show s.cur + 1 < n; omega), len := ?_, nodup := ?_, mem := ?_, counts := ?_, came := ?_, rel := ?_, sleep := ?_,
             total := ?_, launchOK := ?_, leaveOK := ?_ }
    · simp [h.len]
    · simpa using hnd
    · intro u hu
      simp only [round_arrive, List.mem_append, List.mem_singleton] at hu
      simp only [setPc]
      by_cases hut : u = t
      · simp [hut]
      · rw [if_neg hut]; exact h.mem u (hu.resolve_right hut)
    · intro u
      have := h.counts u
      simp only [setPc, List.count_append, List.count_singleton]
      by_cases hu : u = t
      · subst hu
        simp [ht] at this ⊢
        omega
      · have h1 : (StageEv.arrive t == StageEv.arrive u) = false := by simp; exact fun h => hu h.symm
        have h4 : (StageEv.arrive t == StageEv.leave u) = false := by simp
        simp only [h1, h4, if_neg hu]
        rw [this]; simp
    · intro u hu
      by_cases hut : u = t
      · subst hut; exact came_arrive _ _
      · simp only [setPc, if_neg hut] at hu
        exact (h.came u hu).snoc (by simp)
    · intro u hu hr
      simp only [round_arrive, List.mem_append, List.mem_singleton, not_or] at hr
      simp only [setPc, if_neg hr.2] at hu
      exact released_snoc (h.rel u hu hr.1) (by simp)
    · intro h0; simp at h0
    · have := h.total
      simp [arrivals, launches] at this ⊢
      rw [this]; omega
    · exact split_snoc (P := fun p => (stageRound p).length = n ∧ (stageRound p).Nodup) h.launchOK (fun e => by cases e)
    · intro u
      exact split_snoc (P := fun p => released p u) (h.leaveOK u) (fun e => by cases e)

theorem Inv.test {n : Nat} {s : StageSt} (h : Inv n s) {t : Nat} (ht : s.pc t = .awake) : Inv n (s.test n t) := by
  have hlt := h.lt
  unfold StageSt.test
  by_cases hc : s.cur = 0 ∨ s.cur ≥ n
  · have hc0 : s.cur = 0 := by omega
    rw [if_pos hc]
    have hr0 : stageRound s.hist = [] := List.length_eq_zero_iff.mp (by rw [h.len, hc0])
    refine { lt := hlt, len := ?_, nodup := ?_, mem := ?_, counts := ?_, came := ?_, rel := ?_, sleep := ?_,
             total := ?_, launchOK := ?_, leaveOK := ?_ }
    · simpa [setPc] using h.len
    · simpa [setPc] using h.nodup
    · simp [hr0]
    · intro u
      have := h.counts u
      simp only [setPc, List.count_append, List.count_singleton]
      by_cases hu : u = t
      · subst hu
        simp [ht] at this ⊢
        omega
      · have h1 : (StageEv.leave t == StageEv.leave u) = false := by simp; exact fun h => hu h.symm
        have h4 : (StageEv.leave t == StageEv.arrive u) = false := by simp
        simp only [h1, h4, if_neg hu]
        rw [this]; simp
    · intro u hu
      by_cases hut : u = t
      · subst hut; simp [setPc] at hu
      · simp only [setPc, if_neg hut] at hu
        exact (h.came u hu).snoc (by simp; exact fun e => hut e.symm)
    · intro u hu _
      by_cases hut : u = t
      · subst hut; simp [setPc] at hu
      · simp only [setPc, if_neg hut] at hu
        exact released_snoc (h.rel u hu (by simp [hr0])) (by simp; exact fun e => hut e.symm)
    · intro _ u
      by_cases hut : u = t
      · subst hut; simp [setPc]
      · simp only [setPc, if_neg hut]
        exact h.sleep hc0 u
    · have := h.total
      simpa [arrivals, launches, setPc] using this
    · exact split_snoc (P := fun p => (stageRound p).length = n ∧ (stageRound p).Nodup) h.launchOK (fun e => by cases e)
    · intro u
      refine split_snoc (P := fun p => released p u) (h.leaveOK u) ?_
      intro e
      simp only [StageEv.leave.injEq] at e
      subst e
      exact h.rel _ (by simp [ht]) (by simp [hr0])
  · rw [if_neg hc]
    have hpc : ∀ u, (s.setPc t .asleep).pc u = .out ↔ s.pc u = .out := by
      intro u
      by_cases hut : u = t
      · subst hut; simp [setPc, ht]
      · simp [setPc, hut]
    exact { lt := hlt, len := h.len, nodup := h.nodup, mem := fun u hu h0 => h.mem u hu ((hpc u).mp h0)
            counts := by intro u; simp only [hpc]; exact h.counts u
            came := fun u hu => h.came u (fun h0 => hu ((hpc u).mpr h0))
            rel := fun u hu => h.rel u (fun h0 => hu ((hpc u).mpr h0))
            sleep := fun h0 => absurd (Or.inl h0) hc
            total := h.total, launchOK := h.launchOK, leaveOK := h.leaveOK }

theorem Inv.spurious {n : Nat} {s : StageSt} (h : Inv n s) {t : Nat} (ht : s.pc t = .asleep) :
    Inv n (s.setPc t .awake) := by
  have hpc : ∀ u, (s.setPc t .awake).pc u = .out ↔ s.pc u = .out := by
    intro u
    by_cases hut : u = t
    · subst hut; simp [setPc, ht]
    · simp [setPc, hut]
  exact { lt := h.lt, len := h.len, nodup := h.nodup, mem := fun u hu h0 => h.mem u hu ((hpc u).mp h0)
          counts := by intro u; simp only [hpc]; exact h.counts u
          came := fun u hu => h.came u (fun h0 => hu ((hpc u).mpr h0))
          rel := fun u hu => h.rel u (fun h0 => hu ((hpc u).mpr h0))
          sleep := fun h0 => absurd ht (h.sleep h0 t)
          total := h.total, launchOK := h.launchOK, leaveOK := h.leaveOK }

theorem Inv.step {n : Nat} {s s' : StageSt} (h : Inv n s) {a : StageAct} (ha : s.step n a = some s') : Inv n s' := by
  cases a with
  | arrive t =>
    simp only [StageSt.step] at ha
    split at ha
    · cases ha; exact h.arrive (by assumption)
    · cases ha
  | spurious t =>
    simp only [StageSt.step] at ha
    split at ha
    · cases ha; exact h.spurious (by assumption)
    · cases ha
  | test t =>
    simp only [StageSt.step] at ha
    split at ha
    · cases ha; exact h.test (by assumption)
    · cases ha

theorem Inv.exec {n : Nat} (acts : List StageAct) : ∀ {s : StageSt}, Inv n s → Inv n (s.exec n acts) := by
  induction acts with
  | nil => exact fun h => h
  | cons a as ih =>
    intro s h
    rw [StageSt.exec]
    apply ih
    cases ha : s.step n a with
    | none => exact h
    | some s' => exact h.step ha

theorem Inv.inside_iff {n : Nat} {s : StageSt} (h : Inv n s) (t : Nat) : inside s.hist t ↔ s.pc t ≠ .out := by
  unfold inside
  rw [h.counts t]
  by_cases ho : s.pc t = .out <;> simp [ho]

/-- The steps only append to what was seen. -/
theorem step_hist {n : Nat} {s s' : StageSt} {a : StageAct} (ha : s.step n a = some s') :
    ∃ new, s'.hist = s.hist ++ new := by
  cases a with
  | arrive t =>
    simp only [StageSt.step] at ha
    split at ha
    · cases ha
      unfold StageSt.arrive
      simp only
      split
      · exact ⟨_, rfl⟩
      · split <;> exact ⟨_, rfl⟩
    · cases ha
  | spurious t =>
    simp only [StageSt.step] at ha
    split at ha
    · cases ha; exact ⟨[], by simp [setPc]⟩
    · cases ha
  | test t =>
    simp only [StageSt.step] at ha
    split at ha
    · cases ha
      unfold StageSt.test
      split
      · exact ⟨_, rfl⟩
      · exact ⟨[], by simp [setPc]⟩
    · cases ha

theorem exec_hist {n : Nat} (acts : List StageAct) : ∀ s : StageSt, ∃ new, (s.exec n acts).hist = s.hist ++ new := by
  induction acts with
  | nil => exact fun s => ⟨[], by simp [StageSt.exec]⟩
  | cons a as ih =>
    intro s
    rw [StageSt.exec]
    obtain ⟨n2, h2⟩ := ih ((s.step n a).getD s)
    cases ha : s.step n a with
    | none => rw [ha] at h2; exact ⟨n2, h2⟩
    | some s' =>
      rw [ha] at h2
      obtain ⟨n1, h1⟩ := step_hist ha
      exact ⟨n1 ++ n2, by simp only [Option.getD_some] at h2 ⊢; rw [h2, h1, List.append_assoc]⟩

theorem exec_append {n : Nat} (xs ys : List StageAct) : ∀ s : StageSt,
    s.exec n (xs ++ ys) = (s.exec n xs).exec n ys := by
  induction xs with
  | nil => exact fun _ => rfl
  | cons a as ih => intro s; simp only [List.cons_append, StageSt.exec]; exact ih _

end StageSt
end CGraph
