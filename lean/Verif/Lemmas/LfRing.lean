import Verif.Model.Queues

namespace CGraph
namespace LfRing
variable {α : Type}

theorem mod_eq_near {a b n : Nat} (h1 : a ≤ b) (h2 : b - a < n) (he : a % n = b % n) : a = b := by
  have h := Nat.sub_mod_eq_zero_of_mod_eq he.symm
  rw [Nat.mod_eq_of_lt h2] at h
  omega

theorem mod_ne_near {a b n : Nat} (h1 : a < b) (h2 : b - a < n) : a % n ≠ b % n := by
  intro he
  have := mod_eq_near (Nat.le_of_lt h1) h2 he
  omega

/-- First queue position whose slot still holds its value. -/
def firstFull (s : LfRing α) : Nat :=
  match s.cons with
  | .publish _ _ => s.popped.length + 1
  | _ => s.popped.length

/-- Inductive invariant of the two-thread system. -/
structure Inv (cap : Nat) (s : LfRing α) : Prop where
  le : s.popped.length ≤ s.pushed.length
  room : s.pushed.length - s.popped.length < cap
  tl : s.tail = s.pushed.length % cap
  hd : s.head = s.popped.length % cap
  out : s.popped = (s.pushed.take s.popped.length).map some
  slots : ∀ i, s.firstFull ≤ i → i < s.pushed.length → s.buf (i % cap) = s.pushed[i]?
  prod : match s.prod with
    | .idle => True
    | .spin t _ => t = s.pushed.length % cap
    | .write t _ => t = s.pushed.length % cap ∧ s.pushed.length + 1 - s.popped.length < cap
    | .publish t v => t = s.pushed.length % cap ∧ s.pushed.length + 1 - s.popped.length < cap ∧
        s.buf t = some v
  cons : match s.cons with
    | .idle => True
    | .loaded h => h = s.popped.length % cap
    | .take h => h = s.popped.length % cap ∧ s.popped.length < s.pushed.length
    | .publish h v => h = s.popped.length % cap ∧ s.popped.length < s.pushed.length ∧
        v = s.pushed[s.popped.length]?

theorem inv_init {cap : Nat} (h : 1 ≤ cap) : Inv cap (init : LfRing α) := by
  refine ⟨?_, ?_, ?_, ?_, ?_, ?_, ?_, ?_⟩ <;> simp [init] <;> omega

theorem firstFull_ge (s : LfRing α) : s.popped.length ≤ s.firstFull := by
  unfold firstFull; split <;> omega

theorem inv_step {cap : Nat} (hc : 1 ≤ cap) (s : LfRing α) (hi : Inv cap s) (a : LfAct α) :
    Inv cap (step cap s a) := by
  obtain ⟨hle, hroom, htl, hhd, hout, hslots, hprod, hcons⟩ := hi
  cases a with
  | startPush v =>
    simp only [step]
    split
    · refine ⟨hle, hroom, htl, hhd, hout, hslots, ?_, hcons⟩
      exact htl
    · exact ⟨hle, hroom, htl, hhd, hout, hslots, hprod, hcons⟩
  | startPop =>
    simp only [step]
    split
    · rename_i hidle
      refine ⟨hle, hroom, htl, hhd, hout, ?_, hprod, hhd⟩
      intro i h1 h2
      exact hslots i (by simpa [firstFull, hidle] using h1) h2
    · exact ⟨hle, hroom, htl, hhd, hout, hslots, hprod, hcons⟩
  | prodStep =>
    simp only [step]
    split
    · exact ⟨hle, hroom, htl, hhd, hout, hslots, hprod, hcons⟩
    · rename_i t v hp
      rw [hp] at hprod
      dsimp only at hprod
      split
      · refine ⟨hle, hroom, htl, hhd, hout, hslots, ?_, hcons⟩
        rw [hp]; exact hprod
      · rename_i hne
        refine ⟨hle, hroom, htl, hhd, hout, hslots, ⟨hprod, ?_⟩, hcons⟩
        dsimp only
        apply Decidable.byContradiction
        intro hge
        apply hne
        have he : s.pushed.length + 1 = s.popped.length + cap := by omega
        rw [hprod, Nat.mod_add_mod, hhd, he, Nat.add_mod_right]
    · rename_i t v hp
      rw [hp] at hprod
      dsimp only at hprod
      obtain ⟨ht, hr⟩ := hprod
      refine ⟨hle, hroom, htl, hhd, hout, ?_, ?_, hcons⟩
      · intro i h1 h2
        have h3 : s.popped.length ≤ i := Nat.le_trans (firstFull_ge s) h1
        dsimp only at h2 ⊢
        rw [if_neg]
        · exact hslots i h1 h2
        · rw [ht]
          exact mod_ne_near h2 (by omega)
      · dsimp only
        exact ⟨ht, hr, by simp⟩
    · rename_i t v hp
      rw [hp] at hprod
      dsimp only at hprod
      obtain ⟨ht, hr, hb⟩ := hprod
      refine ⟨?_, ?_, ?_, hhd, ?_, ?_, ?_, ?_⟩
      · simp; omega
      · simp only [List.length_append, List.length_singleton]; omega
      · simp only [List.length_append, List.length_singleton]
        rw [ht, Nat.mod_add_mod]
      · dsimp only
        rw [List.take_append_of_le_length hle]; exact hout
      · intro i h1 h2
        dsimp only at h2 ⊢
        simp only [List.length_append, List.length_singleton] at h2
        rcases Nat.lt_or_ge i s.pushed.length with hlt | hge
        · rw [List.getElem?_append_left hlt]; exact hslots i h1 hlt
        · have : i = s.pushed.length := by omega
          subst this
          rw [← ht, hb, List.getElem?_append_right (Nat.le_refl _)]
          simp
      · trivial
      · dsimp only
        split <;> rename_i hcs <;> rw [hcs] at hcons <;> dsimp only at hcons
        · trivial
        · exact hcons
        · exact ⟨hcons.1, by rw [List.length_append]; omega⟩
        · refine ⟨hcons.1, by rw [List.length_append]; omega, ?_⟩
          rw [List.getElem?_append_left hcons.2.1]; exact hcons.2.2
  | consStep =>
    simp only [step]
    split
    · exact ⟨hle, hroom, htl, hhd, hout, hslots, hprod, hcons⟩
    · rename_i h hcs
      rw [hcs] at hcons
      dsimp only at hcons
      have hff : s.firstFull = s.popped.length := by simp [firstFull, hcs]
      rw [hff] at hslots
      split
      · exact ⟨hle, hroom, htl, hhd, hout, hslots, hprod, trivial⟩
      · rename_i hne
        refine ⟨hle, hroom, htl, hhd, hout, hslots, hprod, ⟨hcons, ?_⟩⟩
        rcases Nat.lt_or_ge s.popped.length s.pushed.length with h1 | h1
        · exact h1
        · exfalso
          apply hne
          rw [hcons, htl]
          congr 1
          omega
    · rename_i h hcs
      rw [hcs] at hcons
      dsimp only at hcons
      obtain ⟨hh, hlt⟩ := hcons
      have hff : s.firstFull = s.popped.length := by simp [firstFull, hcs]
      rw [hff] at hslots
      refine ⟨hle, hroom, htl, hhd, hout, ?_, ?_, ⟨hh, hlt, ?_⟩⟩
      · intro i h1 h2
        simp only [firstFull] at h1
        dsimp only
        rw [if_neg]
        · exact hslots i (by omega) h2
        · rw [hh]
          intro he
          exact mod_ne_near (a := s.popped.length) (b := i) (n := cap) (by omega)
            (by dsimp only at h2; omega) he.symm
      · dsimp only
        split <;> rename_i hps <;> rw [hps] at hprod <;> dsimp only at hprod
        · trivial
        · exact hprod
        · exact hprod
        · refine ⟨hprod.1, hprod.2.1, ?_⟩
          rw [if_neg]
          · exact hprod.2.2
          · rw [hh, hprod.1]
            intro he
            exact mod_ne_near hlt (by omega) he.symm
      · dsimp only
        rw [hh]
        exact hslots _ (Nat.le_refl _) hlt
    · rename_i h v hcs
      rw [hcs] at hcons
      dsimp only at hcons
      obtain ⟨hh, hlt, hv⟩ := hcons
      have hff : s.firstFull = s.popped.length + 1 := by simp [firstFull, hcs]
      rw [hff] at hslots
      refine ⟨?_, ?_, htl, ?_, ?_, ?_, ?_, trivial⟩
      · simp; omega
      · simp only [List.length_append, List.length_singleton]; omega
      · simp only [List.length_append, List.length_singleton]
        rw [hh, Nat.mod_add_mod]
      · simp only [List.length_append, List.length_singleton]
        rw [List.take_add_one, List.map_append, ← hout]
        rw [hv, List.getElem?_eq_getElem hlt]
        rfl
      · intro i h1 h2
        simp only [firstFull, List.length_append, List.length_singleton] at h1
        exact hslots i h1 h2
      · dsimp only
        split <;> rename_i hps <;> rw [hps] at hprod <;> dsimp only at hprod
        · trivial
        · exact hprod
        · exact ⟨hprod.1, by rw [List.length_append, List.length_singleton]; omega⟩
        · exact ⟨hprod.1, by rw [List.length_append, List.length_singleton]; omega, hprod.2.2⟩

theorem inv_run {cap : Nat} (hc : 1 ≤ cap) (l : List (LfAct α)) :
    Inv cap (run cap (init : LfRing α) l) := by
  unfold run
  have gen : ∀ s : LfRing α, Inv cap s → Inv cap (l.foldl (step cap) s) := by
    induction l with
    | nil => intro s h; exact h
    | cons a l ih => intro s h; exact ih _ (inv_step hc s h a)
  exact gen _ (inv_init hc)

end LfRing
end CGraph
