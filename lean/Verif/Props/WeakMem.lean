import Verif.Lemmas.WeakRing

/-! # C100: the lock-free ring and the spin lock on memory with out-of-date reads -/
namespace CGraph
open Spec Weak

/-! ### Executions to look at -/
namespace Weak

/-- The value that is written to `l`. -/
def writtenTo {L C V : Type} [DecidableEq L] (l : L) : WOp L C V → Option V
  | .store l' _ v => if l' = l then some v else none
  | .rmw l' _ _ _ _ v => if l' = l then some v else none
  | _ => none

/-- A read that returns the last value. -/
def freshRead {L C V : Type} [DecidableEq L] [DecidableEq V] (ini : L → V) (t : List (WAct L C V)) (j : Nat) (l : L)
    (src : Option Nat) (v : V) : Bool :=
  (match src with
    | none => decide (v = ini l)
    | some i => decide (i < j) && match t[i]? with
      | some b => decide (writtenTo l b.op = some v)
      | none => false) &&
  (List.range j).all fun k => match t[k]? with
    | some b => !b.op.isWrite l || (match src with | some i => decide (k ≤ i) | none => false)
    | none => true

/-- Every read returns the last value. -/
def fresh {L C V : Type} [DecidableEq L] [DecidableEq V] (ini : L → V) (t : List (WAct L C V)) : Bool :=
  (List.range t.length).all fun j => match t[j]? with
    | some ⟨_, .load l _ src v⟩ => freshRead ini t j l src v
    | some ⟨_, .rmw l _ _ src v _⟩ => freshRead ini t j l src v
    | _ => true

theorem writes_iff {L C V : Type} [DecidableEq L] {l : L} {o : WOp L C V} {v : V} : o.Writes l v ↔ writtenTo l o = some v := by
  cases o <;> simp only [WOp.Writes, writtenTo] <;> first | (split <;> simp_all) | simp

theorem isWrite_of {L C V : Type} [DecidableEq L] {l : L} {o : WOp L C V} {v : V} (h : o.Writes l v) : o.isWrite l = true := by
  cases o <;> simp_all [WOp.Writes, WOp.isWrite]

/-- Executions in which reads return the last value are allowed. -/
theorem coherent_of_fresh {L C V : Type} [DecidableEq L] [DecidableEq V] {ini : L → V} {t : List (WAct L C V)}
    (h : fresh ini t = true) : Coherent ini t := by
  have key : ∀ (j : Nat) (a : WAct L C V) (l : L) (src : Option Nat) (v : V), t[j]? = some a → a.op.Reads l src v →
      freshRead ini t j l src v = true := by
    intro j a l src v h1 h2
    have h3 := List.all_eq_true.1 h j (List.mem_range.2 (lt_of_get h1))
    simp only [h1] at h3
    obtain ⟨tid, op⟩ := a
    cases op <;> simp only [WOp.Reads] at h2
    · obtain ⟨rfl, rfl, rfl⟩ := h2; exact h3
    · obtain ⟨rfl, rfl, rfl⟩ := h2; exact h3
  have last : ∀ (j : Nat) (a : WAct L C V) (l : L) (src : Option Nat) (v : V), t[j]? = some a → a.op.Reads l src v →
      ∀ (k : Nat) (b : WAct L C V) (w : V), t[k]? = some b → b.op.Writes l w → k < j → ∃ i, src = some i ∧ k ≤ i := by
    intro j a l src v h1 h2 k b w h3 h4 h5
    have h6 := key j a l src v h1 h2
    simp only [freshRead, Bool.and_eq_true] at h6
    have h7 := List.all_eq_true.1 h6.2 k (List.mem_range.2 h5)
    simp only [h3, isWrite_of h4] at h7
    cases src with
    | none => simp at h7
    | some i => exact ⟨i, rfl, by simpa using h7⟩
  have rf : ∀ (j : Nat) (a : WAct L C V) (l : L) (src : Option Nat) (v : V), t[j]? = some a → a.op.Reads l src v →
      match src with
      | none => v = ini l
      | some i => i < j ∧ ∃ b, t[i]? = some b ∧ b.op.Writes l v := by
    intro j a l src v h1 h2
    have h3 := key j a l src v h1 h2
    simp only [freshRead, Bool.and_eq_true] at h3
    cases src with
    | none => simpa using h3.1
    | some i =>
      have h4 := h3.1
      simp only [Bool.and_eq_true, decide_eq_true_eq] at h4
      obtain ⟨h5, h6⟩ := h4
      refine ⟨h5, ?_⟩
      cases hb : t[i]? with
      | none => simp [hb] at h6
      | some b => simp only [hb, decide_eq_true_eq] at h6; exact ⟨b, rfl, writes_iff.2 h6⟩
  refine ⟨rf, ?_, ?_, ?_⟩
  · intro j k a b l src v w h1 h2 h3 h4 h5
    exact last j a l src v h1 h2 k b w h3 h4 (hb_lt h5)
  · intro j k a b l src src' v w h1 h2 h3 h4 h5 i' hi'
    subst hi'
    obtain ⟨h6, c, h7, h8⟩ := rf k b l (some i') w h3 h4
    exact last j a l src v h1 h2 i' c w h7 h8 (Nat.lt_trans h6 (hb_lt h5))
  · intro j k a b l src v w h1 h2 _ h4 h5 h6
    exact last j a l src v h1 h2 k b w h4 h5 h6

end Weak

/-! ### The ring -/

/-- One producer, one consumer and any other threads that talk to them; on every execution that the memory model allows there is no
data race on the slots, and what was popped is a beginning of what was pushed. -/
theorem C100_ring {α : Type} {cap : Nat} (hcap : 0 < cap) (acts : List (WRAct α))
    (hc : Coherent (fun _ => 0) (WRing.run cap WRing.init acts).log) :
    (∀ i j, ¬ WRace (WRing.run cap WRing.init acts).log i j) ∧
    ∃ rest, (WRing.run cap WRing.init acts).pushed.map some = (WRing.run cap WRing.init acts).popped ++ rest := by
  obtain ⟨W, T, R, H, sp, sc, h⟩ := Ring.ok_run hcap ⟨[], [], [], [], 0, 0, Ring.rinv_init hcap⟩ acts hc
  constructor
  · rintro i j ⟨a, b, h1, h2, h3, h4, h5, h6⟩
    rcases Nat.lt_trichotomy i j with hlt | rfl | hlt
    · exact h5 (h.log.race i j a b hlt h1 h2 h3 h4)
    · rw [h1] at h2; cases h2; exact h3 rfl
    · exact h6 (h.log.race j i b a hlt h2 h1 (Ne.symm h3) (conflict_symm h4))
  · refine ⟨((WRing.run cap WRing.init acts).pushed.drop (WRing.run cap WRing.init acts).popped.length).map some, ?_⟩
    have hf := h.fifo
    generalize WRing.run cap WRing.init acts = s at hf ⊢
    conv => rhs; lhs; rw [hf]
    rw [← List.map_append, List.take_append_drop]

/-- The pop with number `k` happens after the push with number `k`, and so after all that the producer did before it. -/
theorem C100_ring_handover {α : Type} {cap : Nat} (hcap : 0 < cap) (acts : List (WRAct α))
    (hc : Coherent (fun _ => 0) (WRing.run cap WRing.init acts).log) {i j : Nat} {a b : WAct RLoc Nat Nat} {v w : Nat}
    (hi : (WRing.run cap WRing.init acts).log[i]? = some a) (ha : a.op.Writes .tail v)
    (hj : (WRing.run cap WRing.init acts).log[j]? = some b) (hb : b.op.Writes .head w)
    (hn : writesBefore (WRing.run cap WRing.init acts).log .tail i = writesBefore (WRing.run cap WRing.init acts).log .head j) :
    WHb (WRing.run cap WRing.init acts).log i j := by
  obtain ⟨W, T, R, H, sp, sc, h⟩ := Ring.ok_run hcap ⟨[], [], [], [], 0, 0, Ring.rinv_init hcap⟩ acts hc
  obtain ⟨u, hu⟩ := h.log.ts.src i a v hi ha
  obtain ⟨p, hp⟩ := h.log.hs.src j b w hj hb
  have h1 := h.log.ts.cnt u i hu
  have h2 := h.log.hs.cnt p j hp
  have : u = p := by omega
  subst this
  exact h.hand u i j hu hp

/-- A `tryPop` that returns false has not missed anything that happens before it: every push that happens before it was popped. -/
theorem C100_ring_empty {α : Type} {cap : Nat} (hcap : 0 < cap) (acts : List (WRAct α))
    (hc : Coherent (fun _ => 0) (WRing.run cap WRing.init acts).log) {n i v : Nat} {a : WAct RLoc Nat Nat}
    (hn : n ∈ (WRing.run cap WRing.init acts).fails) (hi : (WRing.run cap WRing.init acts).log[i]? = some a)
    (ha : a.op.Writes .tail v) (hb : WHb (WRing.run cap WRing.init acts).log i n) :
    writesBefore (WRing.run cap WRing.init acts).log .tail i < writesBefore (WRing.run cap WRing.init acts).log .head n := by
  obtain ⟨W, T, R, H, sp, sc, h⟩ := Ring.ok_run hcap ⟨[], [], [], [], 0, 0, Ring.rinv_init hcap⟩ acts hc
  obtain ⟨u, hu⟩ := h.log.ts.src i a v hi ha
  rw [h.log.ts.cnt u i hu]
  exact (h.fails n hn).2 u i hu hb

/-- Capacity 2: two pushes and two pops, the second push after it was found full once; and one that fails before.  The fourth thread
carries a message. -/
def ringActs : List (WRAct Nat) :=
  [.startPop none, .consStep none,
   .startPush 7 none, .prodStep none, .prodStep none, .prodStep none,
   .signal 0 5, .wait 3 5 (some 6), .signal 3 6, .wait 1 6 (some 8),
   .startPush 8 (some 5), .prodStep none,
   .startPop none, .consStep (some 5), .consStep none, .consStep none,
   .prodStep (some 16), .prodStep none, .prodStep none,
   .startPop (some 16), .consStep (some 19), .consStep none, .consStep none]

example : (WRing.run 2 WRing.init ringActs).pushed = [7, 8] ∧ (WRing.run 2 WRing.init ringActs).popped = [some 7, some 8] ∧
    (WRing.run 2 WRing.init ringActs).fails = [1] := by decide +kernel

example : Coherent (fun _ => 0) (WRing.run 2 (WRing.init : WRing Nat) ringActs).log := coherent_of_fresh (by decide +kernel)

example : ∀ i j, ¬ WRace (WRing.run 2 (WRing.init : WRing Nat) ringActs).log i j :=
  (C100_ring (by decide) ringActs (coherent_of_fresh (by decide +kernel))).1

/-- A push is complete and `tryPop` returns false. -/
def staleActs : List (WRAct Nat) :=
  [.startPush 7 none, .prodStep none, .prodStep none, .prodStep none, .startPop none, .consStep none]

/-- The memory model allows it: what a `tryPop` that returns false says about other threads is only what happens before it. -/
theorem C100_ring_stale : Coherent (fun _ => 0) (WRing.run 4 (WRing.init : WRing Nat) staleActs).log ∧
    (WRing.run 4 (WRing.init : WRing Nat) staleActs).pushed = [7] ∧ (WRing.run 4 (WRing.init : WRing Nat) staleActs).popped = [] ∧
    (WRing.run 4 (WRing.init : WRing Nat) staleActs).fails = [5] := by
  refine ⟨?_, by decide +kernel, by decide +kernel, by decide +kernel⟩
  have hl : (WRing.run 4 (WRing.init : WRing Nat) staleActs).log =
      [⟨0, .load .tail false none 0⟩, ⟨0, .load .head true none 0⟩, ⟨0, .write 0⟩, ⟨0, .store .tail true 1⟩,
       ⟨1, .load .head false none 0⟩, ⟨1, .load .tail true none 0⟩] := by decide +kernel
  rw [hl]
  generalize hg : ([⟨0, .load .tail false none 0⟩, ⟨0, .load .head true none 0⟩, ⟨0, .write 0⟩, ⟨0, .store .tail true 1⟩,
       ⟨1, .load .head false none 0⟩, ⟨1, .load .tail true none 0⟩] : List RAct) = t
  -- every read is of the initial value
  have hr : ∀ (j : Nat) (a : RAct) (l : RLoc) (src : Option Nat) (v : Nat), t[j]? = some a → a.op.Reads l src v →
      src = none ∧ v = 0 ∧ (l = .tail → j = 0 ∨ a.tid = 1) := by
    subst hg
    intro j a l src v h1 h2
    rcases j with _ | _ | _ | _ | _ | _ | j <;> simp at h1
    all_goals subst h1; simp [WOp.Reads] at h2
    all_goals obtain ⟨rfl, rfl, rfl⟩ := h2; simp
  have hw : ∀ (k : Nat) (a : RAct) (l : RLoc) (v : Nat), t[k]? = some a → a.op.Writes l v → k = 3 ∧ l = .tail ∧ a.tid = 0 := by
    subst hg
    intro k a l v h1 h2
    rcases k with _ | _ | _ | _ | _ | _ | k <;> simp at h1
    all_goals subst h1; simp [WOp.Writes] at h2
    simp [h2.1]
  have hm : ∀ (j : Nat) (a : RAct) (src : Option Nat), t[j]? = some a → ¬ a.op.Modifies src := by
    subst hg
    intro j a src h1
    rcases j with _ | _ | _ | _ | _ | _ | j <;> simp at h1
    all_goals subst h1; simp [WOp.Modifies]
  have hacq : ∀ (j k : Nat) (a : RAct), t[j]? = some a → ¬ a.op.Acquires (some k) := by
    subst hg
    intro j k a h1
    rcases j with _ | _ | _ | _ | _ | _ | j <;> simp at h1
    all_goals subst h1; simp [WOp.Acquires]
  have htid : ∀ i j, WHb t i j → ∃ a b, t[i]? = some a ∧ t[j]? = some b ∧ a.tid = b.tid := by
    intro i j h
    induction h with
    | single h =>
      rcases h with ⟨_, a, b, h1, h2, h3⟩ | ⟨_, a, b, k, h1, h2, h3, h4, _⟩
      · exact ⟨a, b, h1, h2, h3⟩
      · exact absurd h4 (hacq _ k b h2)
    | tail _ h ih =>
      obtain ⟨a, b, h1, h2, h3⟩ := ih
      rcases h with ⟨_, a', b', g1, g2, g3⟩ | ⟨_, a', b', k, g1, g2, g3, g4, _⟩
      · rw [h2] at g1; cases g1
        exact ⟨a, b', h1, g2, h3.trans g3⟩
      · exact absurd g4 (hacq _ k b' g2)
  refine ⟨?_, ?_, ?_, ?_⟩
  · intro j a l src v h1 h2
    obtain ⟨rfl, rfl, _⟩ := hr j a l src v h1 h2
    rfl
  · intro j k a b l src v w h1 h2 h3 h4 h5
    obtain ⟨rfl, rfl, h6⟩ := hw k b l w h3 h4
    obtain ⟨_, _, h7⟩ := hr j a .tail src v h1 h2
    have h8 := hb_lt h5
    obtain ⟨c, d, g1, g2, g3⟩ := htid _ _ h5
    rw [h3] at g1; cases g1
    rw [h1] at g2; cases g2
    rcases h7 rfl with rfl | h7
    · omega
    · omega
  · intro j k a b l src src' v w h1 h2 h3 h4 h5 i' hi'
    have := (hr k b l src' w h3 h4).1
    rw [this] at hi'; cases hi'
  · intro j k a b l src v w h1 h2 h3
    exact absurd h3 (hm j a src h1)

/-! ### The spin lock -/

/-- All that is done in critical sections is in one order, that of happens-before; there is no data race. -/
theorem C100_spin_order (ops : List SpOp) (hc : Coherent (fun _ => false) (SpSt.run SpSt.init ops).log) :
    (∀ (i j : Nat) (a b : WAct Unit Nat Bool), i < j → (SpSt.run SpSt.init ops).log[i]? = some a →
      (SpSt.run SpSt.init ops).log[j]? = some b → Spec.InSection a.op → Spec.InSection b.op →
      WHb (SpSt.run SpSt.init ops).log i j) ∧
    ∀ i j, ¬ WRace (SpSt.run SpSt.init ops).log i j := by
  have h := Spin.inv_run Spin.inv_init ops hc
  have hsec : ∀ o : WOp Unit Nat Bool, Spec.InSection o → Spin.Sec o := fun o => by
    cases o <;> simp [Spec.InSection, Spin.Sec]
  have line : ∀ (i j : Nat) (a b : WAct Unit Nat Bool), i < j → (SpSt.run SpSt.init ops).log[i]? = some a →
      (SpSt.run SpSt.init ops).log[j]? = some b → Spec.InSection a.op → Spec.InSection b.op →
      WHb (SpSt.run SpSt.init ops).log i j := fun i j a b hij h1 h2 h3 h4 =>
    h.line i j a b hij h1 h2 (hsec _ h3) (hsec _ h4)
  refine ⟨line, ?_⟩
  have hcs : ∀ a b : WOp Unit Nat Bool, WConflict a b → Spec.InSection a ∧ Spec.InSection b := fun a b => by
    cases a <;> cases b <;> simp [WConflict, Spec.InSection]
  rintro i j ⟨a, b, h1, h2, h3, h4, h5, h6⟩
  obtain ⟨s1, s2⟩ := hcs _ _ h4
  rcases Nat.lt_trichotomy i j with hlt | rfl | hlt
  · exact h5 (line i j a b hlt h1 h2 s1 s2)
  · rw [h1] at h2; cases h2; exact h3 rfl
  · exact h6 (line j i b a hlt h2 h1 s2 s1)

/-- Between two successful `test_and_set`s the first thread clears the flag: there is one owner at a time. -/
theorem C100_spin_exclusive (ops : List SpOp) (hc : Coherent (fun _ => false) (SpSt.run SpSt.init ops).log) {i j t u : Nat}
    {a a' r r' w w' : Bool} {src src' : Option Nat} (hij : i < j)
    (hi : (SpSt.run SpSt.init ops).log[i]? = some ⟨t, .rmw () a r src false w⟩)
    (hj : (SpSt.run SpSt.init ops).log[j]? = some ⟨u, .rmw () a' r' src' false w'⟩) :
    ∃ k r'', i < k ∧ k < j ∧ (SpSt.run SpSt.init ops).log[k]? = some ⟨t, .store () r'' false⟩ :=
  (Spin.inv_run Spin.inv_init ops hc).excl i j t u a a' r r' w w' src src' hij hi hj

/-- Three threads; one fails to get the lock, one gets it with `tryLock`. -/
def spinOps : List SpOp :=
  [.lock 1 none, .write 1 7, .lock 2 (some 0), .tryLock 3 (some 2), .write 1 8, .unlock 1, .tryLock 3 (some 5), .read 3 7,
   .lock 2 (some 6), .unlock 3, .lock 2 (some 9), .write 2 7, .unlock 2]

example : (SpSt.run SpSt.init spinOps).log.length = 13 ∧ Coherent (fun _ => false) (SpSt.run SpSt.init spinOps).log :=
  ⟨by decide +kernel, coherent_of_fresh (by decide +kernel)⟩

/-- What thread 1 wrote happens before what thread 3 reads. -/
example : WHb (SpSt.run SpSt.init spinOps).log 1 7 :=
  (C100_spin_order spinOps (coherent_of_fresh (by decide +kernel))).1 1 7 ⟨1, .write 7⟩ ⟨3, .read 7⟩ (by decide)
    (by decide +kernel) (by decide +kernel) trivial trivial

end CGraph
