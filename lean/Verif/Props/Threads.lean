import Mathlib.Data.Int.CardIntervalMod
import Verif.Model.Threads

/-! # C115 — the threads of a pool: their index, CPU and scheduling -/
namespace CGraph.Threads
open Spec ThSt

/-! ### the record of the threads -/

theorem loop_out (h : Nat → Nat) {k : Nat} : ∀ (ts : List Nat) (i : Nat) (r : List (Nat × Int)), k ∉ ts.map h →
    (initLoop h i ts r).lookup k = r.lookup k := by
  intro ts
  induction ts with
  | nil => intro i r _; rfl
  | cons t ts ih =>
    intro i r hk
    simp only [List.map_cons, List.mem_cons, not_or] at hk
    rw [initLoop, ih _ _ hk.2, List.lookup_cons]
    have : (k == h t) = false := by simpa using hk.1
    rw [this]

theorem loop_in (h : Nat → Nat) : ∀ (ts : List Nat) (i : Nat) (r : List (Nat × Int)), (ts.map h).Nodup →
    ∀ j t, ts[j]? = some t → (initLoop h i ts r).lookup (h t) = some ((i + j : Nat) : Int) := by
  intro ts
  induction ts with
  | nil => intro i r _ j t ht; simp at ht
  | cons a ts ih =>
    intro i r hn j t ht
    simp only [List.map_cons, List.nodup_cons] at hn
    cases j with
    | zero =>
      simp only [List.getElem?_cons_zero, Option.some.injEq] at ht
      subst ht
      rw [initLoop, loop_out h _ _ _ hn.1]
      simp
    | succ j =>
      simp only [List.getElem?_cons_succ] at ht
      rw [initLoop, ih _ _ hn.2 j t ht]
      congr 2; omega

theorem prim_get (e : Env) (c : ThCfg) : ∀ (ts : List Nat) (i j : Nat), (primLoop e c i ts)[j]? = (ts[j]?).map (mkPrim e c (i + j)) := by
  intro ts
  induction ts with
  | nil => intro i j; simp [primLoop]
  | cons t ts ih =>
    intro i j
    cases j with
    | zero => simp [primLoop]
    | succ j =>
      simp only [primLoop, List.getElem?_cons_succ, ih]
      congr 2; omega

theorem prim_tid (e : Env) (c : ThCfg) : ∀ (ts : List Nat) (i : Nat), (primLoop e c i ts).map Th.tid = ts := by
  intro ts
  induction ts with
  | nil => intro i; rfl
  | cons t ts ih => intro i; simp [primLoop, ih, mkPrim]

/-- What holds after any sequence of operations. -/
structure Inv (e : Env) (s : ThSt) : Prop where
  nodup : s.alive.Nodup
  fresh : s.isInit = false → s.recd = [] ∧ s.prims = [] ∧ s.secs = [] ∧ s.starter = none
  user : ∀ u, s.starter = some u → u ∈ s.users
  recPrim : ∀ (i : Nat) (t : Th), s.prims[i]? = some t → s.recd.lookup (e.h t.tid) = some (i : Int)
  recStart : ∀ u, s.starter = some u → s.recd.lookup (e.h u) = some (-1)
  recOnly : ∀ t, t ∉ s.prims.map Th.tid → s.isInit = true →
    s.recd.lookup (e.h t) = none ∨ (s.recd.lookup (e.h t) = some (-1) ∧ (s.starter = some t ∨ s.starter = none))
  size : s.isInit = true → s.prims.length = s.cfg.size
  prim : ∀ (i : Nat) (t : Th), s.prims[i]? = some t → t = mkPrim e s.cfg i t.tid
  sec : ∀ t ∈ s.secs, t = mkSec s.cfg t.tid

theorem inv_step {e : Env} (hi : Function.Injective e.h) {s : ThSt} (inv : Inv e s) (o : ThOp) : Inv e (s.step e o) := by
  cases o with
  | begin t =>
    simp only [step]
    split
    · exact inv
    · rename_i ht
      exact ⟨List.nodup_cons.2 ⟨ht, inv.nodup⟩, inv.fresh, fun u hu => List.mem_cons_of_mem _ (inv.user u hu), inv.recPrim,
        inv.recStart, inv.recOnly, inv.size, inv.prim, inv.sec⟩
  | exit t =>
    have hs : ∀ u, (if s.starter = some t then none else s.starter) = some u → s.starter = some u ∧ u ≠ t := by
      intro u hu
      split at hu
      · simp at hu
      · rename_i hne
        exact ⟨hu, fun h => hne (h ▸ hu)⟩
    refine ⟨?_, fun h => ?_, fun u hu => ?_, inv.recPrim, fun u hu => inv.recStart u (hs u hu).1, fun v hv h => ?_, inv.size, inv.prim,
      inv.sec⟩
    · refine List.Nodup.sublist ?_ inv.nodup
      exact List.Sublist.append List.filter_sublist (List.Sublist.refl _)
    · obtain ⟨h1, h2, h3, h4⟩ := inv.fresh h
      exact ⟨h1, h2, h3, by simp [step, h4]⟩
    · obtain ⟨h1, h2⟩ := hs u hu
      exact List.mem_filter.2 ⟨inv.user u h1, by simpa using h2⟩
    · rcases inv.recOnly v hv h with h1 | ⟨h1, h2 | h2⟩
      · exact .inl h1
      · refine .inr ⟨h1, ?_⟩
        simp only [step, h2]
        by_cases hvt : v = t
        · simp [hvt]
        · simp [hvt]
      · exact .inr ⟨h1, .inr (by simp [step, h2])⟩
  | setConfig c =>
    simp only [step]
    split
    · exact inv
    · rename_i h
      have h : s.isInit = false := by simpa using h
      obtain ⟨h1, h2, h3, h4⟩ := inv.fresh h
      exact ⟨inv.nodup, inv.fresh, inv.user, inv.recPrim, inv.recStart, inv.recOnly, fun h' => absurd h' (by simp [h]),
        fun i t ht => by simp [h2] at ht, fun t ht => by simp [h3] at ht⟩
  | init u ps ss =>
    simp only [step]
    split
    · exact inv
    · rename_i h
      have h : s.isInit = false := by simpa using h
      obtain ⟨h1, h2, h3, h4⟩ := inv.fresh h
      split
      · rename_i hc
        obtain ⟨hu, hl, hs, hn, hd⟩ := hc
        have ht := prim_tid e s.cfg ps 0
        have hps : (ps.map e.h).Nodup := (List.nodup_append.1 hn).1.map hi
        have hup : e.h u ∉ ps.map e.h := by
          intro hm
          obtain ⟨t, h5, h6⟩ := List.mem_map.1 hm
          have := hi h6
          subst this
          exact hd t (List.mem_append_left _ h5) (List.mem_append_left _ hu)
        have hsec : (ss.map (mkSec s.cfg)).map Th.tid = ss := by
          rw [List.map_map]
          exact (List.map_congr_left (fun a _ => rfl)).trans (List.map_id ss)
        refine ⟨?_, fun h' => by simp at h', fun v hv => ?_, fun i t hp => ?_, fun v hv => ?_, fun v hv _ => ?_, fun _ => ?_,
          fun i t hp => ?_, fun t hm => ?_⟩
        · show (s.users ++ ((primLoop e s.cfg 0 ps).map Th.tid ++ (ss.map (mkSec s.cfg)).map Th.tid)).Nodup
          rw [ht, hsec]
          refine List.nodup_append.2 ⟨(List.nodup_append.1 inv.nodup).1, hn, fun a ha b hb hab => ?_⟩
          subst hab
          exact hd a hb (List.mem_append_left _ ha)
        · simp only [Option.some.injEq] at hv; exact hv ▸ hu
        · simp only [prim_get, Option.map_eq_some_iff] at hp
          obtain ⟨a, h5, rfl⟩ := hp
          have := loop_in e.h ps 0 [(e.h u, -1)] hps i a h5
          simpa [mkPrim] using this
        · simp only [Option.some.injEq] at hv
          subst hv
          simp only [loop_out e.h ps 0 _ hup]
          simp
        · simp only [ht] at hv
          have hv' : e.h v ∉ ps.map e.h := by
            intro hm
            obtain ⟨t, h5, h6⟩ := List.mem_map.1 hm
            exact hv (hi h6 ▸ h5)
          simp only [loop_out e.h ps 0 _ hv']
          by_cases hvu : v = u
          · subst hvu; right; simp
          · left
            have : (e.h v == e.h u) = false := by simpa using fun h => hvu (hi h)
            simp [List.lookup_cons, this]
        · have := congrArg List.length ht
          rw [List.length_map] at this
          exact this.trans hl
        · simp only [prim_get, Option.map_eq_some_iff] at hp
          obtain ⟨a, h5, rfl⟩ := hp
          simp [mkPrim]
        · obtain ⟨a, _, rfl⟩ := List.mem_map.1 hm
          rfl
      · exact inv
  | addSec t =>
    simp only [step]
    split
    · rename_i hc
      obtain ⟨h1, h2, h3⟩ := hc
      refine ⟨?_, fun h => by simp [h1] at h, inv.user, inv.recPrim, inv.recStart, inv.recOnly, inv.size, inv.prim, fun a ha => ?_⟩
      · show (s.users ++ (s.prims.map Th.tid ++ (s.secs ++ [mkSec s.cfg t]).map Th.tid)).Nodup
        rw [List.map_append, ← List.append_assoc, ← List.append_assoc, List.append_assoc s.users]
        refine List.nodup_append.2 ⟨inv.nodup, by simp, fun a ha b hb hab => ?_⟩
        simp only [List.map_cons, List.map_nil, List.mem_singleton] at hb
        subst hab hb
        exact h3 ha
      · rcases List.mem_append.1 ha with h | h
        · exact inv.sec a h
        · simp only [List.mem_singleton] at h; subst h; rfl
    · exact inv
  | endSec j =>
    refine ⟨?_, fun h => ?_, inv.user, inv.recPrim, inv.recStart, inv.recOnly, inv.size, inv.prim, fun a ha => ?_⟩
    · refine List.Nodup.sublist ?_ inv.nodup
      exact List.Sublist.append (.refl _) (List.Sublist.append (.refl _) ((List.eraseIdx_sublist _ _).map _))
    · obtain ⟨h1, h2, h3, h4⟩ := inv.fresh h
      exact ⟨h1, h2, by simp [step, h3], h4⟩
    · exact inv.sec a ((List.eraseIdx_sublist _ _).mem ha)
  | destroy =>
    simp only [step]
    split
    · refine ⟨?_, fun _ => ⟨rfl, rfl, rfl, rfl⟩, fun u hu => by simp at hu, fun i t h => by simp at h, fun u hu => by simp at hu,
        fun t _ h => by simp at h, fun h => by simp at h, fun i t h => by simp at h, fun t h => by simp at h⟩
      have := (List.nodup_append.1 inv.nodup).1
      simpa [alive] using this
    · exact inv

theorem inv_run {e : Env} (hi : Function.Injective e.h) (l : List ThOp) : Inv e (run e l) := by
  unfold run
  have gen : ∀ (l : List ThOp) (s : ThSt), Inv e s → Inv e (l.foldl (step e) s) := by
    intro l
    induction l with
    | nil => intro s h; exact h
    | cons o l ih => intro s h; exact ih _ (inv_step hi h o)
  refine gen l start ⟨by decide, fun _ => ⟨rfl, rfl, rfl, rfl⟩, ?_, ?_, ?_, ?_, ?_, ?_, ?_⟩
  · intro u hu; simp [start] at hu
  · intro i t h; simp [start] at h
  · intro u hu; simp [start] at hu
  · intro t _ h; simp [start] at h
  · intro h; simp [start] at h
  · intro i t h; simp [start] at h
  · intro t h; simp [start] at h

/-- **C115 (primary)** A thread of the program or of the pool that asks for its index is told a number of a primary thread if and
only if it is this primary thread; however often the pool was destroyed and initialised again, whoever did it and
whichever ids came back. -/
theorem C115_primary (e : Env) (hi : Function.Injective e.h) (l : List ThOp) (tid i : Nat) :
    (run e l).getThreadIndex e tid = i ↔ Is (run e l) tid (.primary i) := by
  have inv := inv_run hi l
  generalize run e l = s at *
  constructor
  · intro h
    by_cases hm : tid ∈ s.prims.map Th.tid
    · obtain ⟨t, h1, rfl⟩ := List.mem_map.1 hm
      obtain ⟨j, hj⟩ := List.getElem?_of_mem h1
      have := inv.recPrim j t hj
      simp only [getThreadIndex, this] at h
      exact ⟨t, by rw [← Int.ofNat.inj h]; exact hj, rfl⟩
    · exfalso
      cases hI : s.isInit with
      | false => simp only [getThreadIndex, (inv.fresh hI).1, List.lookup_nil] at h; omega
      | true =>
        rcases inv.recOnly tid hm hI with h1 | ⟨h1, -⟩ <;> simp only [getThreadIndex, h1] at h <;> omega
  · rintro ⟨t, h1, rfl⟩
    simp only [getThreadIndex, inv.recPrim i t h1]

/-- **C115 (starter)** The thread that initialised the pool is told -1 as long as it lives and the pool is not destroyed. -/
theorem C115_starter (e : Env) (hi : Function.Injective e.h) (l : List ThOp) (tid : Nat) (h : Is (run e l) tid .starter) :
    Role.tells ((run e l).getThreadIndex e tid) .starter := by
  show _ = _
  simp only [getThreadIndex, (inv_run hi l).recStart tid h]

/-- **C115 (others)** The thread that initialised the pool has ended, a new secondary thread is given its id, and is told that it is
the starter; a thread that has nothing to do with the pool is told that it is a secondary thread. -/
theorem C115_index_violated :
    (∃ l : List ThOp, Is (run ⟨id, 4⟩ l) 1 .secondary ∧ ¬ Role.tells ((run ⟨id, 4⟩ l).getThreadIndex ⟨id, 4⟩ 1) .secondary) ∧
    (∃ l : List ThOp, Is (run ⟨id, 4⟩ l) 1 .stranger ∧ ¬ Role.tells ((run ⟨id, 4⟩ l).getThreadIndex ⟨id, 4⟩ 1) .stranger) := by
  refine ⟨⟨[.begin 1, .setConfig { ThCfg.default with size := 2 }, .init 1 [2, 3] [], .exit 1, .addSec 1], ?_, ?_⟩,
    ⟨[.begin 1, .setConfig { ThCfg.default with size := 2 }, .init 0 [2, 3] []], ?_, ?_⟩⟩
  · exact ⟨⟨1, some (0, 0), none⟩, by decide, rfl⟩
  · show ¬ (_ = _); decide
  · exact ⟨by decide, by decide⟩
  · rintro ⟨-, h⟩; exact h (by decide)

/-- **C115 (others, what holds)** A secondary thread is told -2 as long as the thread that initialised the pool lives; a stranger is
never told that it is a primary thread, and as long as the starter lives not that it is the starter. -/
theorem C115_index_partial (e : Env) (hi : Function.Injective e.h) (l : List ThOp) (tid : Nat) :
    (Is (run e l) tid .secondary → (run e l).starter ≠ none → Role.tells ((run e l).getThreadIndex e tid) .secondary) ∧
    (Is (run e l) tid .stranger → (run e l).getThreadIndex e tid < 0 ∧
      ((run e l).starter ≠ none → (run e l).getThreadIndex e tid ≠ -1)) := by
  have inv := inv_run hi l
  generalize run e l = s at *
  have nd := List.nodup_append.1 inv.nodup
  constructor
  · rintro ⟨t, ht, rfl⟩ hs
    have hI : s.isInit = true := by
      cases hI : s.isInit with
      | true => rfl
      | false => exact absurd (inv.fresh hI).2.2.2 hs
    have hm := List.mem_map_of_mem (f := Th.tid) ht
    have h1 : t.tid ∉ s.prims.map Th.tid := fun h => (List.nodup_append.1 nd.2.1).2.2 _ h _ hm rfl
    have h2 : s.starter ≠ some t.tid := fun h => nd.2.2 _ (inv.user _ h) _ (List.mem_append_right _ hm) rfl
    show _ = _
    rcases inv.recOnly _ h1 hI with h3 | ⟨-, h3 | h3⟩
    · simp only [getThreadIndex, h3]
    · exact absurd h3 h2
    · exact absurd h3 hs
  · rintro ⟨hu, hs⟩
    have h1 : tid ∉ s.prims.map Th.tid := fun h => nd.2.2 _ hu _ (List.mem_append_left _ h) rfl
    cases hI : s.isInit with
    | false => simp [getThreadIndex, (inv.fresh hI).1]
    | true =>
      rcases inv.recOnly _ h1 hI with h3 | ⟨h3, h4⟩
      · simp [getThreadIndex, h3]
      · refine ⟨by simp [getThreadIndex, h3], fun hn => ?_⟩
        rcases h4 with h4 | h4
        · exact absurd h4 hs
        · exact absurd h4 hn

/-- The pool is destroyed and initialised again by another thread; the ids of the primary threads come back in another order. -/
def exAgain : List ThOp :=
  [.begin 1, .setConfig { ThCfg.default with size := 3, max := 5, bind := true, primPolicy := 2, primPriority := 7 }, .init 0 [2, 3, 4] [], .destroy,
    .begin 3, .init 1 [4, 2, 5] [], .addSec 6]

example : (run ⟨id, 2⟩ exAgain).getThreadIndex ⟨id, 2⟩ 4 = 0 ∧ (run ⟨id, 2⟩ exAgain).getThreadIndex ⟨id, 2⟩ 1 = -1 ∧
    (run ⟨id, 2⟩ exAgain).getThreadIndex ⟨id, 2⟩ 6 = -2 ∧ (run ⟨id, 2⟩ exAgain).getThreadIndex ⟨id, 2⟩ 3 = -2 ∧
    (run ⟨id, 2⟩ exAgain).starter = some 1 ∧ (run ⟨id, 2⟩ exAgain).secs.length = 1 := by decide

/-! ### CPUs -/

theorem prims_map {e : Env} {s : ThSt} (inv : Inv e s) (h : s.isInit = true) {β : Type} (f : Th → β) (g : Nat → β)
    (hg : ∀ i tid, f (mkPrim e s.cfg i tid) = g i) : s.prims.map f = (List.range s.cfg.size).map g := by
  refine List.ext_getElem? fun i => ?_
  rw [List.getElem?_map, List.getElem?_map]
  cases hp : s.prims[i]? with
  | none =>
    have : s.cfg.size ≤ i := by have := List.getElem?_eq_none_iff.1 hp; rwa [inv.size h] at this
    rw [List.getElem?_eq_none_iff.2 (by simpa using this)]
    rfl
  | some t =>
    have hlt : i < s.cfg.size := by have := (List.getElem?_eq_some_iff.1 hp).1; rwa [inv.size h] at this
    rw [List.getElem?_range hlt, Option.map_some, Option.map_some, inv.prim i t hp, hg]

/-- How many primary threads are bound to CPU `c`. -/
def onCpu (s : ThSt) (c : Nat) : Nat := (s.prims.map Th.cpu).count (some c)

theorem count_range (m c : Nat) (hc : c < m) (n : Nat) :
    ((List.range n).map fun i => some (i % m)).count (some c) = n / m + if c < n % m then 1 else 0 := by
  have h := Nat.count_modEq_card (r := m) n (by omega) c
  rw [Nat.mod_eq_of_lt hc] at h
  rw [← h]
  clear h
  induction n with
  | zero => simp
  | succ n ih =>
    rw [List.range_succ, List.map_append, List.count_append, ih, Nat.count_succ]
    simp only [List.map_cons, List.map_nil, List.count_cons, List.count_nil, Nat.ModEq, Nat.mod_eq_of_lt hc]
    by_cases hx : n % m = c <;> simp [hx]

/-- **C115 (CPU)** With binding enabled every primary thread of an initialised pool is bound to a CPU of the machine, and the numbers of
threads on any two CPUs differ by one at most; without it no thread is bound, and secondary threads never are. -/
theorem C115_cpu (e : Env) (hi : Function.Injective e.h) (hm : 0 < e.cpus) (l : List ThOp) (h : (run e l).isInit = true) :
    ((run e l).cfg.bind = true → (∀ t ∈ (run e l).prims, ∃ c < e.cpus, t.cpu = some c) ∧
      ∀ c c', c < e.cpus → c' < e.cpus → onCpu (run e l) c ≤ onCpu (run e l) c' + 1) ∧
    ((run e l).cfg.bind = false → ∀ t ∈ (run e l).prims, t.cpu = none) ∧
    ∀ t ∈ (run e l).secs, t.cpu = none := by
  have inv := inv_run hi l
  generalize run e l = s at *
  have mem : ∀ t ∈ s.prims, ∃ i, t = mkPrim e s.cfg i t.tid := fun t ht => by
    obtain ⟨i, h⟩ := List.getElem?_of_mem ht
    exact ⟨i, inv.prim i t h⟩
  have ha : ∀ i : Nat, s.cfg.bind = true → setAffinity e s.cfg i = some (i % e.cpus) := by
    intro i hb
    have h0 : e.cpus ≠ 0 := by omega
    simp [setAffinity, hb, h0]
  refine ⟨fun hb => ⟨fun t ht => ?_, fun c c' hc hc' => ?_⟩, fun hb t ht => ?_, fun t ht => ?_⟩
  · obtain ⟨i, hi⟩ := mem t ht
    exact ⟨i % e.cpus, Nat.mod_lt _ hm, by rw [hi]; exact ha i hb⟩
  · unfold onCpu
    rw [prims_map inv h Th.cpu (fun i => some (i % e.cpus)) (fun i tid => ha i hb), count_range _ _ hc, count_range _ _ hc']
    split <;> split <;> omega
  · obtain ⟨i, hi⟩ := mem t ht
    rw [hi]
    simp [mkPrim, setAffinity, hb]
  · rw [inv.sec t ht]; rfl

example : (run ⟨id, 2⟩ exAgain).isInit = true ∧ (run ⟨id, 2⟩ exAgain).cfg.bind = true ∧ (run ⟨id, 2⟩ exAgain).prims.map Th.cpu = [some 0, some 1, some 0] ∧
    onCpu (run ⟨id, 2⟩ exAgain) 0 = 2 ∧ onCpu (run ⟨id, 2⟩ exAgain) 1 = 1 := by decide

/-! ### scheduling -/

/-- **C115 (scheduling)** A policy that is allowed with a priority in the documented range from 0 to 99 which the operating system
refuses: real-time scheduling with the priority that is the default, and normal scheduling with any other. -/
theorem C115_sched_violated :
    (∃ l : List ThOp, (run ⟨id, 4⟩ l).cfg = { ThCfg.default with size := 1, primPolicy := 2 } ∧
      (run ⟨id, 4⟩ l).prims.map Th.sched = [none]) ∧
    (∃ l : List ThOp, (run ⟨id, 4⟩ l).cfg = { ThCfg.default with size := 1, primPriority := 50 } ∧
      (run ⟨id, 4⟩ l).prims.map Th.sched = [none]) :=
  ⟨⟨[.setConfig { ThCfg.default with size := 1, primPolicy := 2 }, .init 0 [1] []], by decide, by decide⟩,
    ⟨[.setConfig { ThCfg.default with size := 1, primPriority := 50 }, .init 0 [1] []], by decide, by decide⟩⟩

theorem sched_some (p q : Int) (h : schedOk p q = true) : setSched p q = some (p, q) := by
  simp only [schedOk, Bool.or_eq_true, Bool.and_eq_true, beq_iff_eq, decide_eq_true_eq] at h
  have h1 : calcPolicy p = p := by unfold calcPolicy; split <;> omega
  have h2 : calcPriority q = q := by unfold calcPriority; split <;> omega
  have h3 : schedOk p q = true := by
    simp only [schedOk, Bool.or_eq_true, Bool.and_eq_true, beq_iff_eq, decide_eq_true_eq]; exact h
  simp [setSched, h1, h2, h3]

theorem sched_ok (p q : Int) {x : Int × Int} (h : setSched p q = some x) : schedOk x.1 x.2 = true := by
  unfold setSched at h
  split at h
  · rename_i h'; cases h; exact h'
  · simp at h

theorem sched_none (p q : Int) : setSched p q = none ↔ ((p = 1 ∨ p = 2) ∧ ¬ (1 ≤ q ∧ q ≤ 99)) ∨ (p ≠ 1 ∧ p ≠ 2 ∧ 1 ≤ q ∧ q ≤ 99) := by
  unfold setSched
  constructor
  · intro h
    split at h
    · simp at h
    · rename_i h'
      simp only [schedOk, Bool.or_eq_true, Bool.and_eq_true, beq_iff_eq, decide_eq_true_eq] at h'
      unfold calcPolicy calcPriority at h'
      split at h' <;> split at h' <;> omega
  · intro h
    split
    · rename_i h'
      exfalso
      simp only [schedOk, Bool.or_eq_true, Bool.and_eq_true, beq_iff_eq, decide_eq_true_eq] at h'
      unfold calcPolicy calcPriority at h'
      split at h' <;> split at h' <;> omega
    · rfl

/-- **C115 (scheduling, what holds)** Every thread of an initialised pool has the configured policy and priority if the operating
system allows this pair; exactly the pairs of a real-time policy with a priority outside of 1 to 99, and of another policy with one
inside, are refused; whatever else is configured, what is set is allowed. -/
theorem C115_sched_partial (e : Env) (hi : Function.Injective e.h) (l : List ThOp) :
    (∀ t ∈ (run e l).prims,
      (schedOk (run e l).cfg.primPolicy (run e l).cfg.primPriority = true → t.sched = some ((run e l).cfg.primPolicy, (run e l).cfg.primPriority)) ∧
      (t.sched = none ↔ (((run e l).cfg.primPolicy = 1 ∨ (run e l).cfg.primPolicy = 2) ∧
          ¬ (1 ≤ (run e l).cfg.primPriority ∧ (run e l).cfg.primPriority ≤ 99)) ∨
        ((run e l).cfg.primPolicy ≠ 1 ∧ (run e l).cfg.primPolicy ≠ 2 ∧ 1 ≤ (run e l).cfg.primPriority ∧ (run e l).cfg.primPriority ≤ 99)) ∧
      ∀ x, t.sched = some x → schedOk x.1 x.2 = true) ∧
    (∀ t ∈ (run e l).secs,
      (schedOk (run e l).cfg.secPolicy (run e l).cfg.secPriority = true → t.sched = some ((run e l).cfg.secPolicy, (run e l).cfg.secPriority)) ∧
      (t.sched = none ↔ (((run e l).cfg.secPolicy = 1 ∨ (run e l).cfg.secPolicy = 2) ∧
          ¬ (1 ≤ (run e l).cfg.secPriority ∧ (run e l).cfg.secPriority ≤ 99)) ∨
        ((run e l).cfg.secPolicy ≠ 1 ∧ (run e l).cfg.secPolicy ≠ 2 ∧ 1 ≤ (run e l).cfg.secPriority ∧ (run e l).cfg.secPriority ≤ 99)) ∧
      ∀ x, t.sched = some x → schedOk x.1 x.2 = true) := by
  have inv := inv_run hi l
  generalize run e l = s at *
  refine ⟨fun t ht => ?_, fun t ht => ?_⟩
  · obtain ⟨i, hi⟩ := List.getElem?_of_mem ht
    have h := congrArg Th.sched (inv.prim i t hi)
    simp only [mkPrim] at h
    rw [h]
    exact ⟨sched_some _ _, sched_none _ _, fun x hx => sched_ok _ _ hx⟩
  · have h := congrArg Th.sched (inv.sec t ht)
    simp only [mkSec] at h
    rw [h]
    exact ⟨sched_some _ _, sched_none _ _, fun x hx => sched_ok _ _ hx⟩

example : (run ⟨id, 2⟩ exAgain).prims.map Th.sched = [some (2, 7), some (2, 7), some (2, 7)] ∧
    (run ⟨id, 2⟩ exAgain).secs.map Th.sched = [some (0, 0)] := by decide

end CGraph.Threads
