import Verif.Spec.Frozen
import Mathlib.Tactic.SplitIfs

/-! # Configuration while initialised: C84 -/
namespace CGraph
open Spec

mutual
/-- The elements whose flag `fat` assigns. -/
def FTree.fatIds : FTree → List Eid
  | .node _ => []
  | .region e cs => FTree.mgrIds cs ++ [e]
  | .plain e cs => FTree.allIds cs ++ [e]

/-- The elements whose flag `mgr` assigns. -/
def FTree.mgrIds : List FTree → List Eid
  | [] => []
  | t :: l => FTree.fatIds t ++ t.id :: FTree.mgrIds l

/-- The elements whose flag `all` assigns. -/
def FTree.allIds : List FTree → List Eid
  | [] => []
  | t :: l => FTree.fatIds t ++ FTree.allIds l
end

namespace FTree

theorem put_eq (f : Flags) (e : Eid) (b : Bool) (x : Eid) : f.put e b x = if x = e then b else f x := rfl

mutual
theorem fat_ok (ok : Eid → Bool) (b : Bool) : ∀ (t : FTree) (f : Flags), (fat ok b t f).2 = true →
    ∀ x, (fat ok b t f).1 x = if x ∈ fatIds t then b else f x
  | .node e, f, _, x => by simp [fat, fatIds]
  | .region e cs, f, h, x => by
    simp only [fat] at h ⊢
    by_cases hm : (mgr ok b cs f).2 = true
    · rw [if_pos hm]
      simp only [put_eq, fatIds, List.mem_append, List.mem_singleton, mgr_ok ok b cs f hm x]
      split_ifs <;> simp_all
    · rw [if_neg hm] at h; simp at h
  | .plain e cs, f, h, x => by
    simp only [fat] at h ⊢
    by_cases hm : (all ok b cs f).2 = true
    · rw [if_pos hm]
      simp only [put_eq, fatIds, List.mem_append, List.mem_singleton, all_ok ok b cs f hm x]
      split_ifs <;> simp_all
    · rw [if_neg hm] at h; simp at h

theorem mgr_ok (ok : Eid → Bool) (b : Bool) : ∀ (l : List FTree) (f : Flags), (mgr ok b l f).2 = true →
    ∀ x, (mgr ok b l f).1 x = if x ∈ mgrIds l then b else f x
  | [], f, _, x => by simp [mgr, mgrIds]
  | t :: l, f, h, x => by
    simp only [mgr] at h ⊢
    by_cases hm : (fat ok b t f).2 = true
    · rw [if_pos hm] at h ⊢
      rw [mgr_ok ok b l _ h x, put_eq, fat_ok ok b t f hm x]
      simp only [mgrIds, List.mem_append, List.mem_cons]
      split_ifs <;> simp_all
    · rw [if_neg hm] at h; simp at h

theorem all_ok (ok : Eid → Bool) (b : Bool) : ∀ (l : List FTree) (f : Flags), (all ok b l f).2 = true →
    ∀ x, (all ok b l f).1 x = if x ∈ allIds l then b else f x
  | [], f, _, x => by simp [all, allIds]
  | t :: l, f, h, x => by
    simp only [all, Bool.and_eq_true] at h ⊢
    rw [all_ok ok b l _ h.2 x, fat_ok ok b t f h.1 x]
    simp only [allIds, List.mem_append]
    split_ifs <;> simp_all
end

mutual
/-- Also when something fails, flags are only assigned `b`, and only those of these elements. -/
theorem fat_any (ok : Eid → Bool) (b : Bool) : ∀ (t : FTree) (f : Flags) (x : Eid),
    (fat ok b t f).1 x = f x ∨ ((fat ok b t f).1 x = b ∧ x ∈ fatIds t)
  | .node e, f, x => .inl rfl
  | .region e cs, f, x => by
    have h := mgr_any ok b cs f x
    simp only [fat, fatIds]
    split_ifs
    · simp only [put_eq, List.mem_append, List.mem_singleton]
      by_cases hx : x = e
      · rw [if_pos hx]; exact .inr ⟨rfl, .inr hx⟩
      · rw [if_neg hx]; exact h.elim .inl (fun h => .inr ⟨h.1, .inl h.2⟩)
    · exact h.elim .inl (fun h => .inr ⟨h.1, List.mem_append_left _ h.2⟩)
  | .plain e cs, f, x => by
    have h := all_any ok b cs f x
    simp only [fat, fatIds]
    split_ifs
    · simp only [put_eq, List.mem_append, List.mem_singleton]
      by_cases hx : x = e
      · rw [if_pos hx]; exact .inr ⟨rfl, .inr hx⟩
      · rw [if_neg hx]; exact h.elim .inl (fun h => .inr ⟨h.1, .inl h.2⟩)
    · exact h.elim .inl (fun h => .inr ⟨h.1, List.mem_append_left _ h.2⟩)

theorem mgr_any (ok : Eid → Bool) (b : Bool) : ∀ (l : List FTree) (f : Flags) (x : Eid),
    (mgr ok b l f).1 x = f x ∨ ((mgr ok b l f).1 x = b ∧ x ∈ mgrIds l)
  | [], f, x => .inl rfl
  | t :: l, f, x => by
    have h1 := fat_any ok b t f x
    simp only [mgr, mgrIds, List.mem_append, List.mem_cons]
    split_ifs
    · rcases mgr_any ok b l ((fat ok b t f).1.put t.id b) x with h | h
      · rw [h, put_eq]
        by_cases hx : x = t.id
        · rw [if_pos hx]; exact .inr ⟨rfl, .inr (.inl hx)⟩
        · rw [if_neg hx]; exact h1.elim .inl (fun h => .inr ⟨h.1, .inl h.2⟩)
      · exact .inr ⟨h.1, .inr (.inr h.2)⟩
    · exact h1.elim .inl (fun h => .inr ⟨h.1, .inl h.2⟩)

theorem all_any (ok : Eid → Bool) (b : Bool) : ∀ (l : List FTree) (f : Flags) (x : Eid),
    (all ok b l f).1 x = f x ∨ ((all ok b l f).1 x = b ∧ x ∈ allIds l)
  | [], f, x => .inl rfl
  | t :: l, f, x => by
    have h1 := fat_any ok b t f x
    simp only [all, allIds, List.mem_append]
    rcases all_any ok b l (fat ok b t f).1 x with h | h
    · rw [h]; exact h1.elim .inl (fun h => .inr ⟨h.1, .inl h.2⟩)
    · exact .inr ⟨h.1, .inr h.2⟩
end

/-! ## These are the elements that count -/

mutual
theorem fat_guarded {ts : List FTree} : ∀ (t : FTree) {p : Place}, Placed ts p t → ∀ x ∈ fatIds t, Guarded ts x
  | .node e, _, _, x, hx => by simp [fatIds] at hx
  | .region e cs, p, h, x, hx => by
    simp only [fatIds, List.mem_append, List.mem_singleton] at hx
    rcases hx with hx | rfl
    · exact mgr_guarded cs (p := .inRegion) (by simp) (fun c hc => .inRegion h hc) x hx
    · exact ⟨p, _, h, rfl, .inr (fun e => by simp)⟩
  | .plain e cs, p, h, x, hx => by
    simp only [fatIds, List.mem_append, List.mem_singleton] at hx
    rcases hx with hx | rfl
    · exact all_guarded cs (fun c hc => .inPlain h hc) x hx
    · exact ⟨p, _, h, rfl, .inr (fun e => by simp)⟩

theorem mgr_guarded {ts : List FTree} : ∀ (l : List FTree) {p : Place}, p ≠ .inPlain → (∀ c ∈ l, Placed ts p c) →
    ∀ x ∈ mgrIds l, Guarded ts x
  | [], _, _, _, x, hx => by simp [mgrIds] at hx
  | t :: l, p, hp, h, x, hx => by
    simp only [mgrIds, List.mem_append, List.mem_cons] at hx
    rcases hx with hx | rfl | hx
    · exact fat_guarded t (h t (by simp)) x hx
    · exact ⟨p, t, h t (by simp), rfl, .inl hp⟩
    · exact mgr_guarded l hp (fun c hc => h c (List.mem_cons_of_mem _ hc)) x hx

theorem all_guarded {ts : List FTree} : ∀ (l : List FTree), (∀ c ∈ l, Placed ts .inPlain c) →
    ∀ x ∈ allIds l, Guarded ts x
  | [], _, x, hx => by simp [allIds] at hx
  | t :: l, h, x, hx => by
    simp only [allIds, List.mem_append] at hx
    rcases hx with hx | hx
    · exact fat_guarded t (h t (by simp)) x hx
    · exact all_guarded l (fun c hc => h c (List.mem_cons_of_mem _ hc)) x hx
end

theorem mgrIds_of_mem {l : List FTree} {t : FTree} (h : t ∈ l) : t.id ∈ mgrIds l ∧ ∀ x ∈ fatIds t, x ∈ mgrIds l := by
  induction l with
  | nil => cases h
  | cons u l ih =>
    simp only [mgrIds, List.mem_append, List.mem_cons]
    rcases List.mem_cons.mp h with rfl | h
    · exact ⟨.inr (.inl rfl), fun x hx => .inl hx⟩
    · exact ⟨.inr (.inr (ih h).1), fun x hx => .inr (.inr ((ih h).2 x hx))⟩

theorem allIds_of_mem {l : List FTree} {t : FTree} (h : t ∈ l) : ∀ x ∈ fatIds t, x ∈ allIds l := by
  induction l with
  | nil => cases h
  | cons u l ih =>
    simp only [allIds, List.mem_append]
    rcases List.mem_cons.mp h with rfl | h
    · exact fun x hx => .inl hx
    · exact fun x hx => .inr (ih h x hx)

theorem placed_ids {ts : List FTree} {p : Place} {t : FTree} (h : Placed ts p t) :
    (p ≠ .inPlain → t.id ∈ mgrIds ts) ∧ ∀ x ∈ fatIds t, x ∈ mgrIds ts := by
  induction h with
  | top h => exact ⟨fun _ => (mgrIds_of_mem h).1, (mgrIds_of_mem h).2⟩
  | inRegion _ h2 ih =>
    have sub : ∀ x ∈ mgrIds _, x ∈ mgrIds ts := fun x hx => ih.2 x (by simp only [fatIds]; exact List.mem_append_left _ hx)
    exact ⟨fun _ => sub _ (mgrIds_of_mem h2).1, fun x hx => sub _ ((mgrIds_of_mem h2).2 x hx)⟩
  | inPlain _ h2 ih =>
    have sub : ∀ x ∈ allIds _, x ∈ mgrIds ts := fun x hx => ih.2 x (by simp only [fatIds]; exact List.mem_append_left _ hx)
    exact ⟨fun h => absurd rfl h, fun x hx => sub _ (allIds_of_mem h2 x hx)⟩

theorem mem_mgrIds {ts : List FTree} {x : Eid} : x ∈ mgrIds ts ↔ Guarded ts x := by
  constructor
  · exact mgr_guarded ts (p := .top) (by simp) (fun c hc => .top hc) x
  · rintro ⟨p, t, h, rfl, hp | hg⟩
    · exact (placed_ids h).1 hp
    · refine (placed_ids h).2 _ ?_
      cases t with
      | node e => exact absurd rfl (hg e)
      | region e cs => simp [fatIds, id]
      | plain e cs => simp [fatIds, id]

end FTree

namespace FzSt
open FTree

theorem exec_append (ts : List FTree) (s : FzSt) (a b : List FzOp) : s.exec ts (a ++ b) = (s.exec ts a).exec ts b := by
  induction a generalizing s with
  | nil => rfl
  | cons x a ih => exact ih _

/-- While no call fails: an initialised pipeline has exactly the guarded elements marked, any other none. -/
theorem flags_history {ts : List FTree} : ∀ (l : List FzOp) (s : FzSt), NoFailure ts s l →
    (∀ x, s.flags x = true ↔ s.up = true ∧ Guarded ts x) →
    ∀ x, (s.exec ts l).flags x = true ↔ (s.exec ts l).up = true ∧ Guarded ts x := by
  intro l
  induction l with
  | nil => intro s _ h; exact h
  | cons o l ih =>
    intro s hn h
    refine ih _ hn.2 ?_
    intro x
    have h1 := hn.1
    cases o with
    | init ok rest =>
      simp only [step]
      split_ifs with hu
      · exact h x
      · have hu' : s.up = false := by simpa using hu
        have h3 : ((mgr ok true ts s.flags).2 && rest) = true := by simpa only [step, if_neg hu] using h1
        obtain ⟨h2, rfl⟩ := Bool.and_eq_true_iff.mp h3
        simp only
        rw [mgr_ok ok true ts _ h2 x, h2]
        have hx : s.flags x = false := by
          cases hf : s.flags x with
          | false => rfl
          | true => exact absurd ((h x).mp hf).1 hu
        rw [hx]
        simp only [Bool.and_true]
        split_ifs with hg
        · simpa using mem_mgrIds.mp hg
        · simpa using fun h => hg (mem_mgrIds.mpr h)
    | destroy ok rest =>
      simp only [step]
      split_ifs with hu
      · have h3 : ((mgr ok false ts s.flags).2 && rest) = true := by
          have : (!((mgr ok false ts s.flags).2 && rest)) = false := by simpa only [step, if_pos hu] using h1
          simpa using this
        obtain ⟨h2, rfl⟩ := Bool.and_eq_true_iff.mp h3
        simp only
        rw [mgr_ok ok false ts _ h2 x, h2]
        simp only [Bool.and_true, Bool.not_true]
        split_ifs with hg
        · simp
        · have : ¬ s.flags x = true := fun hf => hg (mem_mgrIds.mpr ((h x).mp hf).2)
          simp [this]
      · exact h x
    | set e v =>
      simp only [step]
      split_ifs <;> exact h x

/-- **C84** (initialised elements, partial).  As long as no `init` or `destroy` fails, a guarded element counts as
initialised exactly while the pipeline is initialised, and no other element ever does.  The full statement has all elements
of the pipeline in place of the guarded ones and no condition on failures; it is false (`C84_plain_violated`,
`C84_failed_violated`). -/
theorem C84_flags_partial (ts : List FTree) (cfg : Eid → Nat) (l : List FzOp) (hn : NoFailure ts (new cfg) l) (x : Eid) :
    ((new cfg).exec ts l).flags x = true ↔ ((new cfg).exec ts l).up = true ∧ Guarded ts x :=
  flags_history l (new cfg) hn (fun x => by simp [new]) x

/-- **C84** (frozen).  Whatever happened before: once an element counts as initialised, no number of setter calls on any
elements changes its configuration. -/
theorem C84_frozen (ts : List FTree) (s : FzSt) (x : Eid) (hx : s.flags x = true) (l : List (Eid × Nat)) :
    (s.exec ts (l.map (fun p => .set p.1 p.2))).cfg x = s.cfg x ∧
    (s.exec ts (l.map (fun p => .set p.1 p.2))).flags = s.flags := by
  induction l generalizing s with
  | nil => exact ⟨rfl, rfl⟩
  | cons p l ih =>
    have h1 : (s.step ts (.set p.1 p.2)).flags = s.flags := by simp only [step]; split_ifs <;> rfl
    have h2 : (s.step ts (.set p.1 p.2)).cfg x = s.cfg x := by
      simp only [step]
      split_ifs with ha
      · simp only
        have : x ≠ p.1 := by
          rintro rfl
          simp [accepts, hx] at ha
        rw [if_neg this]
      · rfl
    obtain ⟨h3, h4⟩ := ih (s.step ts (.set p.1 p.2)) (by rw [h1]; exact hx)
    exact ⟨h3.trans h2, h4.trans h1⟩

/-- **C84** (whole life, partial).  From the end of a successful `init` to the next `destroy`, the configuration of a guarded
element stays as it was when `init` was called, whatever setters are called; a node among them may spawn. -/
theorem C84_life_partial (ts : List FTree) (s : FzSt) (hu : s.up = false) (ok : Eid → Bool) (rest : Bool)
    (hi : (s.step ts (.init ok rest)).up = true) (x : Eid) (hx : Guarded ts x) (l : List (Eid × Nat)) :
    ((s.step ts (.init ok rest)).exec ts (l.map (fun p => .set p.1 p.2))).cfg x = s.cfg x ∧
    ((s.step ts (.init ok rest)).exec ts (l.map (fun p => .set p.1 p.2))).spawns x = true := by
  have hs : s.step ts (.init ok rest) =
      { s with flags := (mgr ok true ts s.flags).1, up := (mgr ok true ts s.flags).2 && rest } := by
    simp [step, hu]
  have hok : (mgr ok true ts s.flags).2 = true := by
    rw [hs] at hi
    simp only [Bool.and_eq_true] at hi
    exact hi.1
  have hf : (s.step ts (.init ok rest)).flags x = true := by
    rw [hs]
    simp only
    rw [mgr_ok ok true ts _ hok x, if_pos (mem_mgrIds.mpr hx)]
  obtain ⟨h1, h2⟩ := C84_frozen ts _ x hf l
  refine ⟨?_, ?_⟩
  · rw [h1, hs]
  · unfold spawns; rw [h2]; exact hf

/-- **C84** (thawed, partial).  After a successful `destroy` every setter is accepted on every element. -/
theorem C84_thaw_partial (ts : List FTree) (cfg : Eid → Nat) (l : List FzOp) (hn : NoFailure ts (new cfg) l)
    (hd : ((new cfg).exec ts l).up = false) (x : Eid) (v : Nat) :
    (((new cfg).exec ts l).step ts (.set x v)).cfg x = v := by
  have h := C84_flags_partial ts cfg l hn x
  have hf : ((new cfg).exec ts l).flags x = false := by
    cases hf : ((new cfg).exec ts l).flags x with
    | false => rfl
    | true => rw [(h.mp hf).1] at hd; cases hd
  simp [step, accepts, hf]

/-! ## Where the code deviates -/

/-- **C84 is false of the code**: in every pipeline, a node directly in a group other than a region never counts as
initialised (unless it is also elsewhere): in an initialised pipeline its configuration can be changed, and it cannot
spawn. -/
theorem C84_plain_violated (ts : List FTree) (cfg : Eid → Nat) (l : List FzOp) (x : Eid) (v : Nat)
    (hx : Placed ts .inPlain (.node x)) (hng : ¬ Guarded ts x) :
    (((new cfg).exec ts l).step ts (.set x v)).cfg x = v ∧ ((new cfg).exec ts l).spawns x = false := by
  have _ := hx
  have gen : ∀ (l : List FzOp) (s : FzSt), s.flags x = false → (s.exec ts l).flags x = false := by
    intro l
    induction l with
    | nil => intro s h; exact h
    | cons o l ih =>
      intro s h
      refine ih _ ?_
      cases o with
      | init ok rest =>
        simp only [step]; split_ifs
        · exact h
        · rcases mgr_any ok true ts s.flags x with h1 | h1
          · exact h1.trans h
          · exact absurd (mem_mgrIds.mp h1.2) hng
      | destroy ok rest =>
        simp only [step]; split_ifs
        · rcases mgr_any ok false ts s.flags x with h1 | h1
          · exact h1.trans h
          · exact h1.1
        · exact h
      | set e v => simp only [step]; split_ifs <;> exact h
  have hf : ((new cfg).exec ts l).flags x = false := gen l (new cfg) rfl
  exact ⟨by simp [step, accepts, hf], hf⟩

/-- **C84 is false of the code**: an `init` that fails at a node leaves the elements before it marked: the pipeline is not
initialised, but their setters are refused. -/
theorem C84_failed_violated (t : FTree) (bad : Eid) (rest : List FTree) (cfg : Eid → Nat) (v : Nat) :
    let s := (new cfg).step (t :: .node bad :: rest) (.init (fun e => decide (e ≠ bad)) true)
    (fat (fun e => decide (e ≠ bad)) true t (fun _ => false)).2 = true →
    s.up = false ∧ (s.step (t :: .node bad :: rest) (.set t.id v)).cfg t.id = cfg t.id := by
  intro s hok
  have hs : s = (⟨false, Flags.put (fat (fun e => decide (e ≠ bad)) true t (fun _ => false)).1 t.id true, cfg⟩ : FzSt) := by
    have hm : mgr (fun e => decide (e ≠ bad)) true (t :: .node bad :: rest) (fun _ => false) =
        (Flags.put (fat (fun e => decide (e ≠ bad)) true t (fun _ => false)).1 t.id true, false) := by
      simp only [mgr]
      rw [if_pos hok]
      simp [fat]
    show (new cfg).step _ _ = _
    have : (new cfg).step (t :: .node bad :: rest) (.init (fun e => decide (e ≠ bad)) true) =
        (⟨(mgr (fun e => decide (e ≠ bad)) true (t :: .node bad :: rest) (fun _ => false)).2 && true,
          (mgr (fun e => decide (e ≠ bad)) true (t :: .node bad :: rest) (fun _ => false)).1, cfg⟩ : FzSt) := rfl
    rw [this, hm]; rfl
  refine ⟨by rw [hs], ?_⟩
  have hf : s.flags t.id = true := by rw [hs]; simp [Flags.put]
  simp only [step, accepts, hf, Bool.not_true, Bool.false_eq_true, if_false]
  rw [hs]

/-! ## Cases -/

/-- A node, a region with a node and a cluster in it, and a cluster with a node and a region in it. -/
def fzDemo : List FTree :=
  [.node 1, .region 2 [.node 3, .plain 4 [.node 5]], .plain 6 [.node 7, .region 8 [.node 9]]]

example : NoFailure fzDemo (new fun _ => 0)
    [.set 1 10, .init (fun _ => true) true, .set 1 11, .set 5 12, .set 9 13, .destroy (fun _ => true) true, .set 9 14] := by
  refine ⟨trivial, ?_, trivial, trivial, trivial, ?_, trivial, trivial⟩ <;> decide +kernel

example : let s := (new fun _ => 0).exec fzDemo [.set 1 10, .init (fun _ => true) true, .set 1 11, .set 5 12, .set 9 13]
    [1, 2, 3, 4, 5, 6, 7, 8, 9].filter s.flags = [1, 2, 3, 4, 6, 8, 9] ∧ s.cfg 1 = 10 ∧ s.cfg 5 = 12 ∧ s.cfg 9 = 0 := by
  decide +kernel

example : Guarded fzDemo 9 := by
  refine ⟨.inRegion, .node 9, ?_, rfl, .inl (by simp)⟩
  refine .inRegion (p := .inPlain) (e := 8) (cs := [.node 9]) ?_ (by simp)
  refine .inPlain (p := .top) (e := 6) (cs := [.node 7, .region 8 [.node 9]]) ?_ (by simp)
  exact .top (by simp [fzDemo])

/-- The hypotheses of `C84_plain_violated`. -/
example : Placed fzDemo .inPlain (.node 7) ∧ ¬ Guarded fzDemo 7 := by
  refine ⟨?_, ?_⟩
  · refine .inPlain (p := .top) (e := 6) (cs := [.node 7, .region 8 [.node 9]]) ?_ (by simp)
    exact .top (by simp [fzDemo])
  · rw [← mem_mgrIds]; decide +kernel

/-- The hypotheses of `C84_failed_violated`: the region before the failing node. -/
example : (fat (fun e => decide (e ≠ 20)) true (.region 2 [.node 3, .plain 4 [.node 5]]) (fun _ => false)).2 = true := by
  decide +kernel

end FzSt
end CGraph
