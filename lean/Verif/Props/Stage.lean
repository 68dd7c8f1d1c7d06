import Verif.Lemmas.Stage
import Mathlib.Data.List.Perm.Subperm
import Mathlib.Data.List.Induction

/-! # Properties of stages: C56, C57, C75 -/
namespace CGraph
namespace StageSt
open Spec

/-! ## C56 -/

/-- **C56** (the hook).  Whatever the threads do, when the hook is executed exactly `n` threads have arrived since its
previous execution, and they are different threads. -/
theorem C56_launch (n : Nat) (hn : 0 < n) (acts : List StageAct) (p q : List StageEv)
    (h : (init.exec n acts).hist = p ++ .launch :: q) : (stageRound p).length = n ∧ (stageRound p).Nodup :=
  ((inv_init hn).exec acts).launchOK p q h

/-- **C56** (nobody passes early).  A thread leaves only after the hook was executed after its arrival. -/
theorem C56_leave (n : Nat) (hn : 0 < n) (acts : List StageAct) (t : Nat) (p q : List StageEv)
    (h : (init.exec n acts).hist = p ++ .leave t :: q) :
    ∃ p1 p2, p = p1 ++ .arrive t :: p2 ∧ .launch ∈ p2 ∧ .leave t ∉ p2 :=
  ((inv_init hn).exec acts).leaveOK t p q h

/-- **C56** (the hook runs once per group).  At any time the hook was executed once for every `n` arrivals, and every
thread left as often as it arrived, or once less. -/
theorem C56_count (n : Nat) (hn : 0 < n) (acts : List StageAct) :
    launches (init.exec n acts).hist = (arrivals (init.exec n acts).hist).length / n ∧
    ∀ t, (init.exec n acts).hist.count (.leave t) ≤ (init.exec n acts).hist.count (.arrive t) ∧
      (init.exec n acts).hist.count (.arrive t) ≤ (init.exec n acts).hist.count (.leave t) + 1 := by
  have h := (inv_init hn).exec acts
  constructor
  · rw [h.total, Nat.mul_add_div hn, Nat.div_eq_of_lt h.lt, Nat.add_zero]
  · intro t
    rw [h.counts t]
    split <;> omega

/-- A step that is no arrival, while no group is open. -/
theorem quiet_step {n : Nat} {s : StageSt} (h : Inv n s) (h0 : s.cur = 0) {a : StageAct} (ha : ∀ t, a ≠ .arrive t) :
    ((s.step n a).getD s).cur = 0 ∧ (∀ u, s.pc u = .out → ((s.step n a).getD s).pc u = .out) ∧
      (∀ t, a = .test t → ((s.step n a).getD s).pc t = .out) := by
  cases a with
  | arrive t => exact absurd rfl (ha t)
  | spurious t =>
    have : s.step n (.spurious t) = none := by simp [StageSt.step, h.sleep h0 t]
    rw [this]
    exact ⟨h0, fun _ hu => hu, by intro t ht; cases ht⟩
  | test t =>
    by_cases ht : s.pc t = .awake
    · have : s.step n (.test t) = some { s.setPc t .out with hist := s.hist ++ [.leave t] } := by
        simp [StageSt.step, ht, StageSt.test, h0]
      rw [this]
      refine ⟨h0, ?_, ?_⟩
      · intro u hu
        simp only [Option.getD_some, setPc]
        split
        · rfl
        · exact hu
      · intro v hv
        cases hv
        simp [setPc]
    · have : s.step n (.test t) = none := by simp [StageSt.step, ht]
      rw [this]
      refine ⟨h0, fun _ hu => hu, ?_⟩
      intro v hv
      cases hv
      have := h.sleep h0 t
      cases hp : s.pc t with
      | out => exact hp
      | asleep => exact absurd hp this
      | awake => exact absurd hp ht

theorem quiet_exec {n : Nat} (acts : List StageAct) : ∀ {s : StageSt}, Inv n s → s.cur = 0 →
    (∀ a ∈ acts, ∀ t, a ≠ .arrive t) → (∀ u, s.pc u = .out → (s.exec n acts).pc u = .out) ∧
      ∀ t, .test t ∈ acts → (s.exec n acts).pc t = .out := by
  induction acts with
  | nil => intro s _ _ _; exact ⟨fun _ h => h, by simp⟩
  | cons a as ih =>
    intro s h h0 hq
    obtain ⟨h1, h2, h3⟩ := quiet_step h h0 (hq a (by simp))
    have hI : Inv n ((s.step n a).getD s) := by
      have := h.exec [a]
      simpa [StageSt.exec] using this
    obtain ⟨i1, i2⟩ := ih hI h1 (fun b hb => hq b (by simp [hb]))
    rw [StageSt.exec]
    refine ⟨fun u hu => i1 u (h2 u hu), ?_⟩
    intro t ht
    rcases List.mem_cons.mp ht with rfl | ht
    · exact i1 t (h3 t rfl)
    · exact i2 t ht

/-- **C56** (everybody is released).  When the number of arrivals is a multiple of the threshold (in particular: when
`n` threads have entered once) nobody sleeps, and after every further schedule without new arrivals in which the thread
gets the mutex once, it has left. -/
theorem C56_release (n : Nat) (hn : 0 < n) (acts acts2 : List StageAct)
    (hm : n ∣ (arrivals (init.exec n acts).hist).length) (h2 : ∀ a ∈ acts2, ∀ t, a ≠ .arrive t) (t : Nat)
    (ht : .test t ∈ acts2) : ¬ inside (init.exec n (acts ++ acts2)).hist t := by
  have h := (inv_init hn).exec acts
  have h0 : (init.exec n acts).cur = 0 := by
    rw [h.total] at hm
    have hd : n ∣ (init.exec n acts).cur := (Nat.dvd_add_right (Nat.dvd_mul_right n _)).mp hm
    exact Nat.eq_zero_of_dvd_of_lt hd h.lt
  rw [((inv_init hn).exec (acts ++ acts2)).inside_iff t, exec_append]
  exact fun hne => hne ((quiet_exec acts2 h h0 h2).2 t ht)

/-- Three threads, threshold 3: two wait, the third releases them. -/
def exThree : List StageAct := [.arrive 0, .arrive 1, .spurious 0, .test 0, .arrive 2]

example : (init.exec 3 exThree).hist = [.arrive 0, .arrive 1, .arrive 2] ++ .launch :: [.leave 2] := by decide +kernel
example : (init.exec 3 (exThree ++ [.test 1, .test 0])).hist
    = [.arrive 0, .arrive 1, .arrive 2, .launch, .leave 2] ++ .leave 1 :: [.leave 0] := by decide +kernel
example : 3 ∣ (arrivals (init.exec 3 exThree).hist).length ∧ (.test 0 : StageAct) ∈ [.test 1, .test 0] ∧
    inside (init.exec 3 exThree).hist 0 := by unfold inside; decide +kernel

/-! ## C57 -/

/-- Nobody can leave any more: a group is open and all threads that take part are inside. -/
theorem stuck_exec {n : Nat} (acts : List StageAct) : ∀ {s : StageSt}, 0 < s.cur → s.cur < n →
    (∀ t < n, s.pc t ≠ .out) → (∀ a ∈ acts, a.thread < n) → (s.exec n acts).hist = s.hist := by
  induction acts with
  | nil => intro s _ _ _ _; rfl
  | cons a as ih =>
    intro s h0 h1 hp ha
    have hat := ha a (by simp)
    have key : ((s.step n a).getD s).cur = s.cur ∧ ((s.step n a).getD s).hist = s.hist ∧
        ∀ t < n, ((s.step n a).getD s).pc t ≠ .out := by
      cases a with
      | arrive t =>
        have : s.step n (.arrive t) = none := by simp [StageSt.step, hp t hat]
        rw [this]; exact ⟨rfl, rfl, hp⟩
      | spurious t =>
        by_cases hs : s.pc t = .asleep
        · have : s.step n (.spurious t) = some (s.setPc t .awake) := by simp [StageSt.step, hs]
          rw [this]
          refine ⟨rfl, rfl, ?_⟩
          intro u hu
          simp only [Option.getD_some, setPc]
          split
          · simp
          · exact hp u hu
        · have : s.step n (.spurious t) = none := by simp [StageSt.step, hs]
          rw [this]; exact ⟨rfl, rfl, hp⟩
      | test t =>
        by_cases hs : s.pc t = .awake
        · have hc : ¬ (s.cur = 0 ∨ s.cur ≥ n) := by omega
          have : s.step n (.test t) = some (s.setPc t .asleep) := by simp [StageSt.step, hs, StageSt.test, hc]
          rw [this]
          refine ⟨rfl, rfl, ?_⟩
          intro u hu
          simp only [Option.getD_some, setPc]
          split
          · simp
          · exact hp u hu
        · have : s.step n (.test t) = none := by simp [StageSt.step, hs]
          rw [this]; exact ⟨rfl, rfl, hp⟩
    rw [StageSt.exec, ih (by rw [key.1]; exact h0) (by rw [key.1]; exact h1) key.2.2 (fun b hb => ha b (by simp [hb]))]
    exact key.2.1

/-- The first `k < n` arrivals. -/
theorem arrivals_exec {n : Nat} : ∀ k, k < n → ∃ l, init.exec n ((List.range k).map .arrive)
    = ⟨k, fun t => if t < k then .asleep else .out, l⟩ := by
  intro k
  induction k with
  | zero => intro _; exact ⟨[], by simp [StageSt.exec, init]⟩
  | succ k ih =>
    intro hk
    obtain ⟨l, hl⟩ := ih (by omega)
    refine ⟨l ++ [.arrive k], ?_⟩
    rw [List.range_succ, List.map_append, exec_append, hl]
    have h1 : ¬ (k + 1 ≥ n) := by omega
    simp only [List.map_cons, List.map_nil, StageSt.exec, StageSt.step, Nat.lt_irrefl, if_false, if_true,
      StageSt.arrive, if_neg h1, Option.getD_some, setPc]
    rw [if_neg (by omega)]
    congr 1
    funext t
    by_cases h : t = k
    · subst h; simp
    · by_cases h2 : t < k
      · have : t < k + 1 := by omega
        simp [h, h2, this]
      · have : ¬ t < k + 1 := by omega
        simp [h, h2, this]

/-- Sleepers that were released and test the condition too late. -/
theorem late_exec {n : Nat} {s : StageSt} (h0 : 0 < s.cur) (h1 : s.cur < n) :
    ∀ k, (∀ t < k, s.pc t = .awake) → (s.exec n ((List.range k).map .test)).cur = s.cur ∧
      ∀ t, (s.exec n ((List.range k).map .test)).pc t = if t < k then .asleep else s.pc t := by
  intro k
  induction k with
  | zero => intro _; exact ⟨rfl, by simp [StageSt.exec]⟩
  | succ k ih =>
    intro hp
    obtain ⟨i1, i2⟩ := ih (fun t ht => hp t (by omega))
    rw [List.range_succ, List.map_append, exec_append]
    generalize s.exec n ((List.range k).map .test) = s1 at i1 i2
    have hk : s1.pc k = .awake := by rw [i2 k]; simp [hp k (by omega)]
    have hc : ¬ (s1.cur = 0 ∨ s1.cur ≥ n) := by omega
    simp only [List.map_cons, List.map_nil, StageSt.exec, StageSt.step, hk, if_true, StageSt.test, if_neg hc,
      Option.getD_some, setPc]
    refine ⟨i1, ?_⟩
    intro t
    by_cases h : t = k
    · subst h; simp
    · rw [if_neg h, i2 t]
      by_cases h2 : t < k
      · have : t < k + 1 := by omega
        simp [h2, this]
      · have : ¬ t < k + 1 := by omega
        simp [h2, this]

/-- **C57** (fails for every threshold of two or more).  `n` threads use the stage: all enter, the last one releases the
others, returns and enters again before the others have got the mutex.  From then on all `n` threads are inside and
nobody ever leaves, whatever the schedule. -/
theorem C57_violated (n : Nat) (hn : 2 ≤ n) : ∃ acts : List StageAct, (∀ a ∈ acts, a.thread < n) ∧
    (∀ t < n, inside (init.exec n acts).hist t) ∧
    ∀ more : List StageAct, (∀ a ∈ more, a.thread < n) →
      (init.exec n (acts ++ more)).hist = (init.exec n acts).hist := by
  obtain ⟨m, rfl⟩ : ∃ m, n = m + 1 := ⟨n - 1, by omega⟩
  have hm : 0 < m := by omega
  let acts : List StageAct := (List.range m).map .arrive ++ ([.arrive m, .arrive m] ++ (List.range m).map .test)
  have hmid : ∃ l, init.exec (m + 1) ((List.range m).map .arrive ++ [.arrive m, .arrive m])
      = ⟨1, fun t => if t < m then .awake else if t = m then .asleep else .out, l⟩ := by
    obtain ⟨l, hl⟩ := arrivals_exec (n := m + 1) m (by omega)
    rw [exec_append, hl]
    have h1 : ¬ (0 + 1 ≥ m + 1) := by omega
    simp only [StageSt.exec, StageSt.step, Nat.lt_irrefl, if_false, if_true, StageSt.arrive, ge_iff_le, Nat.le_refl,
      Option.getD_some, wakeAll, setPc]
    refine ⟨l ++ [.arrive m, .launch, .leave m] ++ [.arrive m], ?_⟩
    have h2 : ¬ (m + 1 ≤ 0 + 1) := by omega
    have h3 : ¬ (m + 1 ≤ 1) := by omega
    simp [h3]
    funext t
    by_cases h : t = m
    · subst h; simp
    · by_cases h4 : t < m <;> simp [h, h4]
  obtain ⟨l, hmid⟩ := hmid
  have hend : (init.exec (m + 1) acts).cur = 1 ∧ ∀ t < m + 1, (init.exec (m + 1) acts).pc t ≠ .out := by
    have h1 : acts = ((List.range m).map .arrive ++ [.arrive m, .arrive m]) ++ (List.range m).map .test := by
      simp [acts]
    rw [h1, exec_append, hmid]
    obtain ⟨i1, i2⟩ := late_exec (n := m + 1)
      (s := ⟨1, fun t => if t < m then .awake else if t = m then .asleep else .out, l⟩) (by simp)
      (by show 1 < m + 1; omega) m (by intro t ht; simp [ht])
    refine ⟨i1, ?_⟩
    intro t ht
    rw [i2 t]
    by_cases h : t < m
    · simp [h]
    · have : t = m := by omega
      subst this
      simp
  refine ⟨acts, ?_, ?_, ?_⟩
  · intro a ha
    simp only [acts, List.mem_append, List.mem_map, List.mem_range, List.mem_cons, List.not_mem_nil, or_false] at ha
    rcases ha with ⟨t, ht, rfl⟩ | (rfl | rfl) | ⟨t, ht, rfl⟩ <;> simp [StageAct.thread] <;> omega
  · intro t ht
    rw [((inv_init (by omega)).exec acts).inside_iff t]
    exact hend.2 t ht
  · intro more hmore
    rw [exec_append]
    exact stuck_exec more (by rw [hend.1]; omega) (by rw [hend.1]; omega) hend.2 hmore

theorem separated_prefix {l m : List StageEv} (h : Separated (l ++ m)) : Separated l := by
  intro p q t hl
  exact h p (q ++ m) t (by rw [hl]; simp)

/-- With separated groups everybody inside belongs to the open group. -/
theorem sep_exec {n : Nat} (acts : List StageAct) : ∀ {s : StageSt}, Inv n s →
    (stageRound s.hist ≠ [] → ∀ t, s.pc t ≠ .out → t ∈ stageRound s.hist) → Separated (s.exec n acts).hist →
    (stageRound (s.exec n acts).hist ≠ [] → ∀ t, (s.exec n acts).pc t ≠ .out → t ∈ stageRound (s.exec n acts).hist) := by
  induction acts with
  | nil => intro s _ h _; exact h
  | cons a as ih =>
    intro s h hs hsep
    rw [StageSt.exec] at hsep ⊢
    cases ha : s.step n a with
    | none => rw [ha] at hsep; exact ih h hs hsep
    | some s' =>
      rw [ha] at hsep
      refine ih (h.step ha) ?_ hsep
      simp only [Option.getD_some] at hsep
      show stageRound s'.hist ≠ [] → ∀ t, s'.pc t ≠ .out → t ∈ stageRound s'.hist
      obtain ⟨new, hnew⟩ := exec_hist (n := n) as s'
      have hsep' : Separated s'.hist := by rw [hnew] at hsep; exact separated_prefix hsep
      cases a with
      | arrive t =>
        simp only [StageSt.step] at ha
        split at ha
        · rename_i ht
          cases ha
          intro hne u hu
          revert hne hu hsep'
          unfold StageSt.arrive
          simp only
          split
          · have hl : s.hist ++ [StageEv.arrive t, .launch, .leave t]
              = ((s.hist ++ [.arrive t]) ++ [.launch]) ++ [.leave t] := by simp
            rw [hl, round_leave, round_launch]
            intro _ hne; exact absurd rfl hne
          · rw [if_neg (by omega)]
            intro hsep' _ hu
            simp only [setPc] at hu
            rw [round_arrive]
            by_cases hut : u = t
            · simp [hut]
            · rw [if_neg hut] at hu
              by_cases hr : stageRound s.hist = []
              · exact absurd ((h.inside_iff u).mpr hu) (hsep' s.hist [] t rfl hr u)
              · exact List.mem_append_left _ (hs hr u hu)
        · cases ha
      | spurious t =>
        simp only [StageSt.step] at ha
        split at ha
        · rename_i ht
          cases ha
          intro hne u hu
          apply hs hne u
          intro h0
          apply hu
          simp only [setPc]
          rw [if_neg]
          · exact h0
          · rintro rfl; rw [h0] at ht; cases ht
        · cases ha
      | test t =>
        simp only [StageSt.step] at ha
        split at ha
        · rename_i ht
          cases ha
          intro hne u hu
          revert hne hu
          unfold StageSt.test
          split
          · rename_i hc
            intro hne
            rw [round_leave] at hne
            have : s.cur = 0 := by have := h.lt; omega
            exact absurd (List.length_eq_zero_iff.mp (by rw [h.len, this])) hne
          · intro hne hu
            apply hs hne u
            intro h0
            apply hu
            simp only [setPc]
            rw [if_neg]
            · exact h0
            · rintro rfl; rw [h0] at ht; cases ht
        · cases ha

/-- **C57** (separated groups).  Suppose whoever opens a new group does so after everybody of the earlier groups has left.
Then, after any number of groups: a thread that is inside and whose group is complete leaves at its next turn; and if as
many threads as the threshold are inside, all of them do, so that they never block each other.
Missing: threads that enter again while others of the same group are still inside (`C57_violated`). -/
theorem C57_separated_partial (n : Nat) (hn : 0 < n) (acts : List StageAct)
    (hsep : Separated (init.exec n acts).hist) :
    let s := init.exec n acts
    (∀ t, inside s.hist t → t ∉ stageRound s.hist →
      ∃ s', s.step n (.test t) = some s' ∧ s'.hist = s.hist ++ [.leave t]) ∧
    (∀ L : List Nat, L.Nodup → n ≤ L.length → (∀ t ∈ L, inside s.hist t) →
      ∀ t ∈ L, ∃ s', s.step n (.test t) = some s' ∧ s'.hist = s.hist ++ [.leave t]) := by
  intro s
  have h : Inv n s := (inv_init hn).exec acts
  have hs := sep_exec acts (inv_init hn) (by simp [init]) hsep
  have key : s.cur = 0 → ∀ t, inside s.hist t →
      ∃ s', s.step n (.test t) = some s' ∧ s'.hist = s.hist ++ [.leave t] := by
    intro h0 t ht
    have hne := (h.inside_iff t).mp ht
    have ha : s.pc t = .awake := by
      cases hp : s.pc t with
      | out => exact absurd hp hne
      | asleep => exact absurd hp (h.sleep h0 t)
      | awake => rfl
    exact ⟨_, by simp only [StageSt.step, ha, if_true]; rfl, by simp [StageSt.test, h0]⟩
  refine ⟨?_, ?_⟩
  · intro t ht hr
    apply key _ t ht
    have hne := (h.inside_iff t).mp ht
    by_cases hz : stageRound s.hist = []
    · rw [← h.len, hz]; rfl
    · exact absurd (hs hz t hne) hr
  · intro L hL hlen hin t ht
    apply key _ t (hin t ht)
    by_cases hz : stageRound s.hist = []
    · rw [← h.len, hz]; rfl
    · have hsub : L ⊆ stageRound s.hist := fun u hu => hs hz u ((h.inside_iff u).mp (hin u hu))
      have := (List.subperm_of_subset hL hsub).length_le
      rw [h.len] at this
      have := h.lt
      omega

/-- Two threads, two groups one after the other. -/
def exTwoGroups : List StageAct := [.arrive 0, .arrive 1, .test 0, .arrive 1, .arrive 0]

example : (init.exec 2 exTwoGroups).hist
    = [.arrive 0, .arrive 1, .launch, .leave 1, .leave 0, .arrive 1, .arrive 0, .launch, .leave 0] := by decide +kernel
example : Separated (init.exec 2 exTwoGroups).hist := by
  have h : (init.exec 2 exTwoGroups).hist
    = [.arrive 0, .arrive 1, .launch, .leave 1, .leave 0, .arrive 1, .arrive 0, .launch, .leave 0] := by decide +kernel
  rw [h]
  intro p q t hp hr u
  rcases p with _ | ⟨a1, _ | ⟨a2, _ | ⟨a3, _ | ⟨a4, _ | ⟨a5, _ | ⟨a6, _ | ⟨a7, _ | ⟨a8, _ | ⟨a9, p⟩⟩⟩⟩⟩⟩⟩⟩⟩ <;>
    simp only [List.nil_append, List.cons_append, List.cons.injEq] at hp
  · simp [inside]
  · obtain ⟨rfl, _⟩ := hp; simp [stageRound] at hr
  · simp at hp
  · simp at hp
  · simp at hp
  · obtain ⟨rfl, rfl, rfl, rfl, rfl, _⟩ := hp
    simp only [inside, List.count_cons, List.count_nil]
    by_cases h0 : 0 = u <;> by_cases h1 : 1 = u <;> simp [h0, h1] <;> omega
  · obtain ⟨rfl, rfl, rfl, rfl, rfl, rfl, _⟩ := hp; simp [stageRound] at hr
  · simp at hp
  · simp at hp
  · simp at hp
example : inside (init.exec 2 exTwoGroups).hist 1 ∧ 1 ∉ stageRound (init.exec 2 exTwoGroups).hist := by
  unfold inside; decide +kernel

end StageSt

/-! ## C75 -/
namespace StageMgr

/-- The threshold asked for by the first acceptable registration of a key. -/
def firstFor (key : String) (ops : List (String × Int)) : Option Int :=
  (ops.find? fun o => o.1 = key ∧ 0 < o.2).map (·.2)

theorem lookup_snoc (l : List (String × Nat)) (k k' : String) (a : Nat) :
    (l ++ [(k, a)]).lookup k' = (l.lookup k').or (if k' = k then some a else none) := by
  induction l with
  | nil =>
    by_cases h : k' = k
    · subst h; simp [List.lookup]
    · have : (k' == k) = false := by simpa using h
      simp [List.lookup, this, h]
  | cons x l ih =>
    obtain ⟨y, b⟩ := x
    by_cases h : k' = y
    · subst h; simp [List.lookup]
    · have : (k' == y) = false := by simpa using h
      simp only [List.cons_append, List.lookup, this]
      exact ih

/-- Every entry of the map points to a stage with the threshold of the first registration. -/
theorem adds_lookup (ops : List (String × Int)) : ∀ key,
    match (adds ops).map.lookup key with
    | some a => (adds ops).heap[a]? = firstFor key ops ∧ (firstFor key ops).isSome
    | none => firstFor key ops = none := by
  induction ops using List.reverseRecOn with
  | nil => intro key; simp [adds, new, firstFor]
  | append_singleton ops o ih =>
    obtain ⟨k, n⟩ := o
    intro key
    have hadd : adds (ops ++ [(k, n)]) = ((adds ops).add k n).1 := by simp [adds]
    have hfirst : firstFor key (ops ++ [(k, n)])
        = (firstFor key ops).or (if k = key ∧ 0 < n then some n else none) := by
      unfold firstFor
      rw [List.find?_append]
      cases h : ops.find? (fun o => decide (o.1 = key ∧ 0 < o.2)) with
      | some x => simp
      | none => by_cases h2 : k = key ∧ 0 < n <;> simp [h2]
    rw [hadd, hfirst]
    have ihk := ih key
    unfold add
    by_cases hn : n ≤ 0
    · rw [if_pos hn]
      have : ¬ (k = key ∧ 0 < n) := by omega
      rw [if_neg this, Option.or_none]
      exact ihk
    · rw [if_neg hn]
      simp only
      have hlt : ∀ (a : Nat) (v : Int), (adds ops).heap[a]? = some v → ((adds ops).heap ++ [n])[a]? = some v := by
        intro a v h
        rw [List.getElem?_append_left]
        · exact h
        · exact (List.getElem?_eq_some_iff.mp h).1
      by_cases hex : ((adds ops).map.lookup k).isSome
      · rw [if_pos hex]
        cases hl : (adds ops).map.lookup key with
        | some a =>
          rw [hl] at ihk
          obtain ⟨h1, h2⟩ := ihk
          obtain ⟨v, hv⟩ := Option.isSome_iff_exists.mp h2
          simp only
          rw [hv] at h1 ⊢
          exact ⟨hlt a v h1, rfl⟩
        | none =>
          rw [hl] at ihk
          simp only at ihk ⊢
          have : ¬ (k = key ∧ 0 < n) := by
            rintro ⟨rfl, _⟩
            rw [hl] at hex; cases hex
          rw [ihk, if_neg this]; rfl
      · rw [if_neg hex, lookup_snoc]
        cases hl : (adds ops).map.lookup key with
        | some a =>
          rw [hl] at ihk
          obtain ⟨h1, h2⟩ := ihk
          obtain ⟨v, hv⟩ := Option.isSome_iff_exists.mp h2
          simp only [Option.some_or]
          rw [hv] at h1 ⊢
          exact ⟨hlt a v h1, rfl⟩
        | none =>
          rw [hl] at ihk
          simp only at ihk
          rw [ihk]
          by_cases hk : key = k
          · subst hk
            have : key = key ∧ 0 < n := ⟨rfl, by omega⟩
            simp [this.2]
          · have : ¬ (k = key ∧ 0 < n) := fun h => hk h.1.symm
            simp [hk, this]

/-- **C75** (which stage is entered).  After any registrations, entering by a key reaches a stage with the threshold of the
*first* accepted registration of that key; a key never registered with a positive threshold is refused. -/
theorem C75_first_partial (ops : List (String × Int)) (key : String) :
    (∀ a, (adds ops).find key = .ok a → (adds ops).heap[a]? = firstFor key ops ∧ (firstFor key ops).isSome) ∧
    ((∃ e, (adds ops).find key = .error e) ↔ ∀ o ∈ ops, o.1 = key → o.2 ≤ 0) := by
  have h := adds_lookup ops key
  have hnone : firstFor key ops = none ↔ ∀ o ∈ ops, o.1 = key → o.2 ≤ 0 := by
    simp [firstFor, List.find?_eq_none]
  unfold find
  cases hl : (adds ops).map.lookup key with
  | some a =>
    rw [hl] at h
    refine ⟨?_, ?_⟩
    · intro b hb; cases hb; exact h
    · rw [← hnone]
      constructor
      · rintro ⟨e, he⟩; cases he
      · intro h0; rw [h0] at h; cases h.2
  | none =>
    rw [hl] at h
    refine ⟨fun b hb => (by cases hb), ?_⟩
    rw [← hnone]
    exact ⟨fun _ => h, fun _ => ⟨_, rfl⟩⟩

/-- **C75** (a second registration is silently lost).  Registering an existing key again succeeds, whatever threshold is
asked for; all keys keep their stages, and the new stage is reachable through no key. -/
theorem C75_duplicate_violated (s : StageMgr) (key : String) (n : Int) (hn : 0 < n)
    (hs : (s.map.lookup key).isSome) (hwf : ∀ e ∈ s.map, e.2 < s.heap.length) :
    (s.add key n).2 = .ret () ∧ (∀ k, (s.add key n).1.find k = s.find k) ∧
    (s.add key n).1.heap[s.heap.length]? = some n ∧ ∀ e ∈ (s.add key n).1.map, e.2 ≠ s.heap.length := by
  have h0 : ¬ n ≤ 0 := by omega
  unfold add
  rw [if_neg h0]
  simp only [hs, if_true]
  refine ⟨trivial, fun _ => rfl, by simp, ?_⟩
  intro e he h
  have := hwf e he
  omega

example : (adds [("a", 2), ("b", 0), ("a", 3), ("c", 1)]).find "a" = .ok 0 ∧
    (adds [("a", 2), ("b", 0), ("a", 3), ("c", 1)]).heap = [2, 3, 1] := ⟨by rfl, by decide +kernel⟩
example : ((adds [("a", 2), ("c", 1)]).map.lookup "a").isSome ∧
    ∀ e ∈ (adds [("a", 2), ("c", 1)]).map, e.2 < (adds [("a", 2), ("c", 1)]).heap.length := by decide +kernel

end StageMgr
end CGraph
