import Verif.Lemmas.WeakPar
import Verif.Props.WeakMem

/-! # C101: runs of independent elements on memory with out-of-date reads -/
namespace CGraph
open Spec Weak

theorem Weak.Par.acc_of_plain {o : WOp PLoc Nat Nat} (h : Spec.PlainAccess o) : ∃ c w, Par.Acc c w o := by
  cases o <;> simp only [Spec.PlainAccess] at h
  · exact ⟨_, false, rfl⟩
  · exact ⟨_, true, rfl⟩

/-- On every execution that the memory model allows there is no data race, between elements of one run, of different runs, and with the
caller between runs. -/
theorem C101_racefree (total : Nat) (acts : List PwAct) (hc : Coherent (fun _ => 0) (PwSt.run total PwSt.init acts).log) (i j : Nat) :
    ¬ WRace (PwSt.run total PwSt.init acts).log i j := by
  have h := Par.inv_run (Par.inv_init total) acts hc
  rintro ⟨a, b, h1, h2, h3, h4, h5, h6⟩
  rcases Nat.lt_trichotomy i j with hlt | rfl | hlt
  · exact h5 (h.good.race i j a b hlt h1 h2 h3 h4)
  · rw [h1] at h2; cases h2; exact h3 rfl
  · exact h6 (h.good.race j i b a hlt h2 h1 (Ne.symm h3) (conflict_symm h4))

/-- What elements did is visible to the caller after the run, and what the caller did is visible to the elements of later runs: accesses of
the caller (thread 0) and of others are ordered by happens-before, in the order in which they took place. -/
theorem C101_visible (total : Nat) (acts : List PwAct) (hc : Coherent (fun _ => 0) (PwSt.run total PwSt.init acts).log) {i j : Nat}
    {a b : WAct PLoc Nat Nat} (hij : i < j) (hi : (PwSt.run total PwSt.init acts).log[i]? = some a)
    (hj : (PwSt.run total PwSt.init acts).log[j]? = some b) (ha : Spec.PlainAccess a.op) (hb : Spec.PlainAccess b.op)
    (h0 : a.tid = 0 ∧ b.tid ≠ 0 ∨ a.tid ≠ 0 ∧ b.tid = 0) : WHb (PwSt.run total PwSt.init acts).log i j := by
  have h := Par.inv_run (Par.inv_init total) acts hc
  obtain ⟨c, w, h1⟩ := Par.acc_of_plain ha
  obtain ⟨c', w', h2⟩ := Par.acc_of_plain hb
  refine h.good.side i j c c' w w' a b hij hi hj h1 h2 (fun e => ?_) ?_
  · rcases h0 with ⟨g1, g2⟩ | ⟨g1, g2⟩
    · exact g2 (e ▸ g1)
    · exact g1 (e ▸ g2)
  · rcases h0 with ⟨g1, _⟩ | ⟨_, g2⟩
    · exact .inl g1
    · exact .inr g2

/-- An old value of the counter, of this or of an earlier run, does not make the caller return early: when it is outside of `run`, no element
is being executed and no task is left. -/
theorem C101_quiet (total : Nat) (acts : List PwAct) (hc : Coherent (fun _ => 0) (PwSt.run total PwSt.init acts).log)
    (hm : (PwSt.run total PwSt.init acts).main = .idle) :
    (PwSt.run total PwSt.init acts).jobs = [] ∧ (PwSt.run total PwSt.init acts).queue = [] := by
  have h := (Par.inv_run (Par.inv_init total) acts hc).idle hm
  exact ⟨h.1, h.2.1⟩

/-- Two runs of two elements; in the first each has its thread, in the second one thread executes both.  Cell 2 is an input. -/
def parActs : List PwAct :=
  [.use 2 true, .begin, .main none, .main none, .main none, .take 1 5 (some 3), .take 0 6 (some 2),
   .body 0 1 true, .body 1 2 false, .body 1 0 true, .inc 1 (some 1), .main (some 9), .body 0 2 false, .inc 0 (some 9), .main (some 12),
   .use 0 false, .use 1 false, .use 2 true,
   .begin, .main none, .main none, .main none, .take 0 5 (some 18), .body 0 0 true, .inc 0 (some 17), .take 0 5 (some 19), .body 0 1 true,
   .inc 0 (some 22), .main (some 25), .use 0 false]

example : (PwSt.run 2 PwSt.init parActs).runs = 2 ∧ (PwSt.run 2 PwSt.init parActs).main = .idle ∧
    (PwSt.run 2 PwSt.init parActs).log.length = 28 := by decide +kernel

example : Coherent (fun _ => 0) (PwSt.run 2 PwSt.init parActs).log := coherent_of_fresh (by decide +kernel)

/-- The caller reads cell 1 after thread 5 has written it. -/
example : WHb (PwSt.run 2 PwSt.init parActs).log 6 15 :=
  C101_visible 2 parActs (coherent_of_fresh (by decide +kernel)) (a := ⟨5, .write 1⟩) (b := ⟨0, .read 1⟩) (by decide) (by decide +kernel)
    (by decide +kernel) trivial trivial (.inr ⟨by decide, rfl⟩)

end CGraph
