import Verif.Lemmas.Lazy
import Verif.Props.WeakMem

/-! # C113 — a singleton created at the first use, by many threads -/
namespace CGraph.Lazy
open Spec Weak LzSt

/-- **C113 (one object)** On every execution that the memory model allows, at most one object is made, every call of `get` by every
thread returns it, and it is never null. -/
theorem C113_once (acts : List LzAct) (hc : Coherent (fun _ => 0) (LzSt.init.run acts).log) :
    let s := LzSt.init.run acts
    (∀ t u v w, (t, v) ∈ s.results → (u, w) ∈ s.results → v = w ∧ v ≠ 0) ∧
    (∀ i j t u c d : Nat, s.log[i]? = some ⟨t, .write c⟩ → s.log[j]? = some ⟨u, .write d⟩ → i = j) ∧
    (∀ t v, (t, v) ∈ s.results → ∃ i u : Nat, s.log[i]? = some ⟨u, .write v⟩) := by
  intro s
  obtain ⟨ph, h⟩ := ok_run ok_init acts hc
  refine ⟨fun t u v w h1 h2 => ?_, fun i j t u c d h1 h2 => ?_, fun t v h1 => ?_⟩
  · obtain ⟨i, x, y, h3⟩ := h.kn t v h1
    obtain ⟨i', x', y', h4⟩ := h.kn u w h2
    have h5 := (h.log.dn _ _ _ _ h3).2.2.2
    rw [h3] at h4; cases h4
    exact ⟨rfl, h5⟩
  · rcases h.log.cw i t c h1 with h3 | ⟨_, h3⟩ <;> rcases h.log.cw j u d h2 with h4 | ⟨_, h4⟩ <;> rw [h3] at h4 <;> cases h4 <;> rfl
  · obtain ⟨i, x, y, h3⟩ := h.kn t v h1
    exact ⟨y, x, (h.log.dn _ _ _ _ h3).2.1⟩

/-- **C113 (constructed, what holds)** A thread that uses the object after some thread's passage through the mutex (its own, or one
that happens before the use) uses a constructed object: there is no data race. -/
theorem C113_use_partial (acts : List LzAct) (hc : Coherent (fun _ => 0) (LzSt.init.run acts).log) (j k t u c v : Nat) (r : Bool)
    (hj : (LzSt.init.run acts).log[j]? = some ⟨t, .read c⟩) (hk : (LzSt.init.run acts).log[k]? = some ⟨u, .store .mtx r v⟩)
    (hkj : WHb (LzSt.init.run acts).log k j) :
    (∀ i, ¬ WRace (LzSt.init.run acts).log i j ∧ ¬ WRace (LzSt.init.run acts).log j i) ∧
    ∃ i u', (LzSt.init.run acts).log[i]? = some ⟨u', .write c⟩ ∧ WHb (LzSt.init.run acts).log i j := by
  obtain ⟨ph, h⟩ := ok_run ok_init acts hc
  obtain ⟨i0, u0, p, w, hd, hik⟩ := h.log.lu k u r v hk
  obtain ⟨h1, h2, h3, h4⟩ := h.log.dn _ _ _ _ hd
  have hwj : WHb (LzSt.init.run acts).log w j := hb_trans (hb_trans (hb_seq h3 h2 h1 rfl) hik) hkj
  have key : ∀ i b, (LzSt.init.run acts).log[i]? = some b → WConflict b.op (.read c) → i = w := by
    intro i b hb hcf
    obtain ⟨tid, op⟩ := b
    cases op with
    | write d =>
      rcases h.log.cw i tid d hb with h5 | ⟨_, h5⟩ <;> rw [hd] at h5 <;> cases h5
      rfl
    | _ => exact hcf.elim
  have hread : ∃ i u', (LzSt.init.run acts).log[i]? = some ⟨u', .write c⟩ ∧ WHb (LzSt.init.run acts).log i j := by
    have := use_known acts hj
    obtain ⟨i', x, y, h5⟩ := h.kn t c this
    rw [hd] at h5; cases h5
    exact ⟨w, u0, h2, hwj⟩
  refine ⟨fun i => ⟨?_, ?_⟩, hread⟩
  · rintro ⟨a, b, g1, g2, g3, g4, g5, g6⟩
    rw [hj] at g2; cases g2
    have := key i a g1 g4
    subst this
    exact g5 hwj
  · rintro ⟨a, b, g1, g2, g3, g4, g5, g6⟩
    rw [hj] at g1; cases g1
    have := key i b g2 (conflict_symm g4)
    subst this
    exact g6 hwj

/-! ### what is not ordered -/

/-- Thread 1 makes the object; thread 2 reads the handle meanwhile and uses the object. -/
def exEarly : List LzAct :=
  [.go 1 none, .go 1 none, .go 1 none, .go 1 none, .go 1 none, .go 2 (some 4), .go 2 (some 4), .use 2]

/-- An access of the handle. -/
def _root_.CGraph.Spec.WOp.Touches {L C V : Type} (l : L) : WOp L C V → Prop
  | .load l' _ _ _ => l' = l
  | .store l' _ _ => l' = l
  | .rmw l' _ _ _ _ _ => l' = l
  | _ => False

theorem early_log : (LzSt.init.run exEarly).log =
    [⟨1, .load .handle false none 0⟩, ⟨1, .rmw .mtx true false none 0 1⟩, ⟨1, .load .handle false none 0⟩, ⟨1, .write 1⟩,
     ⟨1, .store .handle false 1⟩, ⟨2, .load .handle false (some 4) 1⟩, ⟨2, .load .handle false (some 4) 1⟩, ⟨2, .read 1⟩] := by
  decide +kernel

/-- Nothing of one thread happens before anything of the other. -/
theorem early_hb {i j : Nat} (h : WHb (LzSt.init.run exEarly).log i j) :
    ∃ a b, (LzSt.init.run exEarly).log[i]? = some a ∧ (LzSt.init.run exEarly).log[j]? = some b ∧ a.tid = b.tid := by
  have hacq : ∀ (j k : Nat) a, (LzSt.init.run exEarly).log[j]? = some a → ¬ a.op.Acquires (some k) := by
    rw [early_log]
    intro j k a h1
    rcases j with _ | _ | _ | _ | _ | _ | _ | _ | j <;> simp at h1
    all_goals subst h1; simp [WOp.Acquires]
  induction h with
  | single h =>
    rcases h with ⟨_, a, b, h1, h2, h3⟩ | ⟨_, a, b, k, h1, h2, h3, h4, _⟩
    · exact ⟨a, b, h1, h2, h3⟩
    · exact absurd h4 (hacq _ k b h2)
  | tail _ h ih =>
    obtain ⟨a, b, h1, h2, h3⟩ := ih
    rcases h with ⟨_, a', b', g1, g2, g3⟩ | ⟨_, a', b', k, g1, g2, g3, g4, _⟩
    · rw [h2] at g1; cases g1
      exact ⟨a, b', h1, g2, h3.trans g3⟩
    · exact absurd g4 (hacq _ k b' g2)

theorem early_apart {i j t u : Nat} {o o' : LzOp} (hi : (LzSt.init.run exEarly).log[i]? = some ⟨t, o⟩)
    (hj : (LzSt.init.run exEarly).log[j]? = some ⟨u, o'⟩) (h : t ≠ u) : ¬ WHb (LzSt.init.run exEarly).log i j := by
  intro hb
  obtain ⟨a, b, h1, h2, h3⟩ := early_hb hb
  rw [hi] at h1; rw [hj] at h2; cases h1; cases h2
  exact h h3

/-- **C113 (constructed)** A thread that finds the handle set does not take the mutex; nothing orders its use of the object after the
constructor: the memory model allows an execution with a data race on the object, even if the handle itself were atomic. -/
theorem C113_use_violated : ∃ acts : List LzAct, Coherent (fun _ => 0) (LzSt.init.run acts).log ∧
    ∃ i j p, (LzSt.init.run acts).log[i]? = some ⟨1, .write p⟩ ∧ (LzSt.init.run acts).log[j]? = some ⟨2, .read p⟩ ∧
      WRace (LzSt.init.run acts).log i j := by
  have h1 : (LzSt.init.run exEarly).log[3]? = some ⟨1, .write 1⟩ := by decide +kernel
  have h2 : (LzSt.init.run exEarly).log[7]? = some ⟨2, .read 1⟩ := by decide +kernel
  exact ⟨exEarly, coherent_of_fresh (by decide +kernel), 3, 7, 1, h1, h2, _, _, h1, h2, by simp, rfl,
    early_apart h1 h2 (by simp), early_apart h2 h1 (by simp)⟩

/-- **C113 (handle)** `handle_` is not atomic, yet it is assigned by one thread while another reads it without being ordered. -/
theorem C113_handle_violated : ∃ acts : List LzAct, Coherent (fun _ => 0) (LzSt.init.run acts).log ∧
    ∃ (i j t u : Nat) (o o' : LzOp) (v : Nat), t ≠ u ∧ (LzSt.init.run acts).log[i]? = some ⟨t, o⟩ ∧ (LzSt.init.run acts).log[j]? = some ⟨u, o'⟩ ∧
      o.Writes .handle v ∧ o'.Touches .handle ∧ ¬ WHb (LzSt.init.run acts).log i j ∧ ¬ WHb (LzSt.init.run acts).log j i := by
  have h1 : (LzSt.init.run exEarly).log[4]? = some ⟨1, .store .handle false 1⟩ := by decide +kernel
  have h2 : (LzSt.init.run exEarly).log[5]? = some ⟨2, .load .handle false (some 4) 1⟩ := by decide +kernel
  exact ⟨exEarly, coherent_of_fresh (by decide +kernel), 4, 5, 1, 2, _, _, 1, by simp, h1, h2, ⟨rfl, rfl⟩, rfl,
    early_apart h1 h2 (by simp), early_apart h2 h1 (by simp)⟩

/-! ### cases -/

/-- Threads 1 and 2 both find no object and take the mutex one after the other; thread 3 is told by thread 1. -/
def exBoth : List LzAct :=
  [.go 1 none, .go 2 none, .go 1 none, .go 2 none, .go 1 none, .go 1 none, .go 1 none, .go 1 none, .go 2 none, .go 2 (some 5), .go 2 none,
   .go 2 (some 5), .use 2, .go 1 (some 5), .signal 1 0, .wait 3 0 (some 13), .go 3 (some 5), .go 3 (some 5), .use 3]

example : (LzSt.init.run exBoth).log.length = 18 ∧ (LzSt.init.run exBoth).results = [(2, 1), (1, 1), (3, 1)] ∧
    (LzSt.init.run exBoth).made = 1 ∧ Coherent (fun _ => 0) (LzSt.init.run exBoth).log :=
  ⟨by decide +kernel, by decide +kernel, by decide +kernel, coherent_of_fresh (by decide +kernel)⟩

/-- Thread 3 never takes the mutex; it was told by thread 1, which did. -/
example : ∃ i u, (LzSt.init.run exBoth).log[i]? = some ⟨u, .write 1⟩ ∧ WHb (LzSt.init.run exBoth).log i 17 := by
  have h6 : (LzSt.init.run exBoth).log[6]? = some ⟨1, .store .mtx true 0⟩ := by decide +kernel
  have h13 : (LzSt.init.run exBoth).log[13]? = some ⟨1, .store (.ext 0) true 0⟩ := by decide +kernel
  have h14 : (LzSt.init.run exBoth).log[14]? = some ⟨3, .load (.ext 0) true (some 13) 0⟩ := by decide +kernel
  have h17 : (LzSt.init.run exBoth).log[17]? = some ⟨3, .read 1⟩ := by decide +kernel
  refine (C113_use_partial exBoth (coherent_of_fresh (by decide +kernel)) 17 6 3 1 1 0 true h17 h6 ?_).2
  exact hb_trans (hb_trans (hb_seq (by omega) h6 h13 rfl) (hb_sync (by omega) h13 h14 rfl ⟨rfl, rfl⟩)) (hb_seq (by omega) h14 h17 rfl)

end CGraph.Lazy
