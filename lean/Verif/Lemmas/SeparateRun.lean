import Verif.Lemmas.SeparatePath
import Mathlib.Tactic.SplitIfs
import Mathlib.Algebra.Order.Group.Nat
import Mathlib.Algebra.Order.BigOperators.Group.List

/-! # `checkSeparate` with groups: there is an execution in which two elements overlap -/
namespace CGraph
namespace SepCfg
open Spec

/-- `e` can be executed in every sufficiently long time. -/
def Can0 (c : SepCfg) (e : Eid) : Prop := ∃ L, ∀ s t, s + L ≤ t → ∃ I, Runs c true e s t I ∧ ⟨e, s, t⟩ ∈ I

/-- `e` can be executed such that `Q` happens between `m` and `n`, if there is enough time before and after. -/
def Can (c : SepCfg) (e : Eid) (Q : Nat → Nat → List Occ → Prop) : Prop :=
  ∃ A B, ∀ s m n t, s + A ≤ m → m ≤ n → n + B ≤ t → ∃ I, Runs c true e s t I ∧ Q m n I

/-- `Q` does not become false when more is executed. -/
def Mono (Q : Nat → Nat → List Occ → Prop) : Prop := ∀ m n I J, (∀ o ∈ I, o ∈ J) → Q m n I → Q m n J

theorem le_sum {l : List Eid} {f : Eid → Nat} {i : Eid} (h : i ∈ l) : f i ≤ (l.map f).sum :=
  List.single_le_sum (fun _ _ => Nat.zero_le _) _ (List.mem_map_of_mem h)

/-- Members of a level can be executed in three phases: those with phase 1 at the same time, in the middle. -/
theorem level_run {c : SepCfg} {elems : List Eid} (hfill : ∀ i ∈ elems, Can0 c i) {E : Eid → Eid → Prop}
    {rank ph : Eid → Nat} (hE : ∀ d ∈ elems, ∀ i ∈ elems, E d i → rank d < rank i ∧ ph d ≤ ph i ∧ ¬ (ph d = 1 ∧ ph i = 1))
    {Q : Eid → Nat → Nat → List Occ → Prop} (hQ : ∀ i ∈ elems, ph i = 1 → Can c i (Q i)) :
    ∃ A B, ∀ s m n t, s + A ≤ m → m ≤ n → n + B ≤ t → ∃ (S T : Eid → Nat) (I : Eid → List Occ),
      (∀ i ∈ elems, Runs c true i (S i) (T i) (I i)) ∧ (∀ i ∈ elems, s ≤ S i ∧ T i ≤ t) ∧
      (∀ d ∈ elems, ∀ i ∈ elems, E d i → T d ≤ S i) ∧ ∀ i ∈ elems, ph i = 1 → Q i m n (I i) := by
  classical
  have h0 : ∀ i, ∃ L, i ∈ elems → ∀ s t, s + L ≤ t → ∃ I, Runs c true i s t I := by
    intro i
    by_cases hi : i ∈ elems
    · obtain ⟨L, hL⟩ := hfill i hi
      exact ⟨L, fun _ s t h => (hL s t h).imp fun _ h => h.1⟩
    · exact ⟨0, fun h => absurd h hi⟩
  have h1 : ∀ i, ∃ A B, i ∈ elems → ph i = 1 → ∀ s m n t, s + A ≤ m → m ≤ n → n + B ≤ t →
      ∃ I, Runs c true i s t I ∧ Q i m n I := by
    intro i
    by_cases hi : i ∈ elems ∧ ph i = 1
    · obtain ⟨A, B, h⟩ := hQ i hi.1 hi.2
      exact ⟨A, B, fun _ _ => h⟩
    · exact ⟨0, 0, fun a b => absurd ⟨a, b⟩ hi⟩
  choose L hL using h0
  choose A B hAB using h1
  -- length of one slot, largest rank
  obtain ⟨M, hM⟩ : ∃ M, ∀ i ∈ elems, L i ≤ M := ⟨_, fun i hi => le_sum hi⟩
  obtain ⟨R, hR⟩ : ∃ R, ∀ i ∈ elems, rank i ≤ R := ⟨_, fun i hi => le_sum hi⟩
  obtain ⟨A', hA'⟩ : ∃ A', ∀ i ∈ elems, A i ≤ A' := ⟨_, fun i hi => le_sum hi⟩
  obtain ⟨B', hB'⟩ : ∃ B', ∀ i ∈ elems, B i ≤ B' := ⟨_, fun i hi => le_sum hi⟩
  refine ⟨(R + 1) * M + A', (R + 1) * M + B', ?_⟩
  intro s m n t hs hmn ht
  have hmul : ∀ i ∈ elems, rank i * M + M ≤ (R + 1) * M := by
    intro i hi
    have := Nat.mul_le_mul_right M (Nat.succ_le_succ (hR i hi))
    rw [Nat.succ_mul] at this
    exact this
  have hmul2 : ∀ d ∈ elems, ∀ i ∈ elems, rank d < rank i → rank d * M + M ≤ rank i * M := by
    intro d _ i _ h
    have := Nat.mul_le_mul_right M (Nat.succ_le_of_lt h)
    rw [Nat.succ_mul] at this
    exact this
  generalize hK : (R + 1) * M = K at hs ht hmul
  let S : Eid → Nat := fun i => if ph i = 0 then s + rank i * M else if ph i = 1 then s + K else t - K + rank i * M
  let T : Eid → Nat := fun i => if ph i = 0 then s + rank i * M + M else if ph i = 1 then t - K else t - K + rank i * M + M
  have hex : ∀ i, ∃ I, i ∈ elems → Runs c true i (S i) (T i) I ∧ (ph i = 1 → Q i m n I) := by
    intro i
    by_cases hi : i ∈ elems
    · have hLi := hM i hi
      have hAi := hA' i hi
      have hBi := hB' i hi
      by_cases p0 : ph i = 0
      · obtain ⟨I, hI⟩ := hL i hi (S i) (T i) (by simp only [S, T, if_pos p0]; omega)
        exact ⟨I, fun _ => ⟨hI, fun h => by omega⟩⟩
      · by_cases p1 : ph i = 1
        · obtain ⟨I, hI, hq⟩ := hAB i hi p1 (S i) m n (T i) (by simp only [S, if_neg p0, if_pos p1]; omega) hmn
            (by simp only [T, if_neg p0, if_pos p1]; omega)
          exact ⟨I, fun _ => ⟨hI, fun _ => hq⟩⟩
        · obtain ⟨I, hI⟩ := hL i hi (S i) (T i) (by simp only [S, T, if_neg p0, if_neg p1]; omega)
          exact ⟨I, fun _ => ⟨hI, fun h => absurd h p1⟩⟩
    · exact ⟨[], fun h => absurd h hi⟩
  choose I hI using hex
  refine ⟨S, T, I, fun i hi => (hI i hi).1, ?_, ?_, fun i hi => (hI i hi).2⟩
  · intro i hi
    have := hmul i hi
    simp only [S, T]
    split_ifs <;> omega
  · intro d hd i hi he
    obtain ⟨e1, e2, e3⟩ := hE d hd i hi he
    have m1 := hmul d hd
    have m2 := hmul2 d hd i hi e1
    have m3 := hmul i hi
    simp only [S, T]
    split_ifs <;> first | omega | (exfalso; omega)

/-- The order in which the members of a group have to be executed. -/
def Before (c : SepCfg) (k : SepKind) (kids : List Eid) (d i : Eid) : Prop :=
  match k with
  | .region => d ∈ c.deps i
  | .cluster => kids.idxOf d < kids.idxOf i
  | _ => False

/-- If all members are executed, in this order, they are executed as the group demands. -/
theorem fits_all {c : SepCfg} {fuel : Nat} (hw : SepWF c fuel) {k : SepKind} (hk : k = .region ∨ k = .cluster ∨
    k = .some ∨ k = .multiParallel ∨ k = .mutab) {kids : List Eid} {b : Option Eid}
    (hb : ∀ i, i ∈ kids ↔ c.known i = true ∧ c.belong i = b) (hn : kids.Nodup) {S T : Eid → Nat}
    (hST : ∀ d ∈ kids, ∀ i ∈ kids, Before c k kids d i → T d ≤ S i) :
    Fits c true k kids (fun i => (fun _ => true : Eid → Bool) i = true) S T := by
  rcases hk with rfl | rfl | rfl | rfl | rfl
  · refine ⟨?_, fun _ _ _ => rfl⟩
    intro i hi _ d hd
    have h1 := hw.deps_of i d hd
    refine ⟨rfl, hST d ((hb d).mpr ⟨h1.1, ?_⟩) i hi hd⟩
    rw [h1.2.2]; exact ((hb i).mp hi).2
  · refine ⟨?_, fun _ _ _ => rfl⟩
    rw [List.pairwise_iff_getElem]
    intro i j hi hj hij _ _
    refine hST _ (List.getElem_mem hi) _ (List.getElem_mem hj) ?_
    show kids.idxOf kids[i] < kids.idxOf kids[j]
    rw [hn.idxOf_getElem i hi, hn.idxOf_getElem j hj]; exact hij
  · exact fun _ _ _ => rfl
  · trivial
  · trivial

/-- If one member only is executed, it is executed as the group demands. -/
theorem fits_one {c : SepCfg} {k : SepKind} (hk : k = .condition ∨ k = .multiSerial ∨ k = .multiParallel ∨ k = .mutab)
    {kids : List Eid} (hn : kids.Nodup) (x : Eid) (S T : Eid → Nat) :
    Fits c true k kids (fun i => (fun j => decide (j = x) : Eid → Bool) i = true) S T := by
  rcases hk with rfl | rfl | rfl | rfl
  · intro i _ j _ hi hj
    simp only [decide_eq_true_eq] at hi hj
    rw [hi, hj]
  · show List.Pairwise _ kids
    refine List.Pairwise.imp ?_ hn
    intro a b hab h1 h2
    simp only [decide_eq_true_eq] at h1 h2
    exact absurd (h1.trans h2.symm) hab
  · trivial
  · trivial

/-- If no member is executed, as after a choice of none. -/
theorem fits_none {c : SepCfg} {k : SepKind} (hk : k = .condition ∨ k = .multiSerial ∨ k = .multiParallel ∨ k = .mutab)
    {kids : List Eid} (S T : Eid → Nat) : Fits c true k kids (fun i => (fun _ => false : Eid → Bool) i = true) S T := by
  rcases hk with rfl | rfl | rfl | rfl
  · intro i _ j _ hi; cases hi
  · show List.Pairwise _ kids
    exact List.pairwise_iff_getElem.mpr (fun i j _ _ _ h => by cases h)
  · trivial
  · trivial

theorem kids_belong {c : SepCfg} {fuel : Nat} (hw : SepWF c fuel) (g i : Eid) :
    i ∈ c.kids g ↔ c.known i = true ∧ c.belong i = some g := hw.kid_iff g i

theorem node_kids {c : SepCfg} {fuel : Nat} (hw : SepWF c fuel) {e : Eid} (hk : c.kind e = .node) : c.kids e = [] := by
  cases hl : c.kids e with
  | nil => rfl
  | cons i l =>
    have h := (hw.kid_iff e i).mp (by rw [hl]; simp)
    exact absurd hk (hw.parent i e h.1 h.2).2

/-- Ranks that the order of a group respects. -/
theorem exists_rank {c : SepCfg} {fuel : Nat} (hw : SepWF c fuel) (k : SepKind) (kids : List Eid) :
    ∃ rank : Eid → Nat, ∀ d i, Before c k kids d i → rank d < rank i := by
  obtain ⟨rank, hr⟩ := hw.acyclic
  cases k with
  | region => exact ⟨rank, fun d i h => hr i d h⟩
  | cluster => exact ⟨fun i => kids.idxOf i, fun d i h => h⟩
  | node | condition | multiSerial | multiParallel | some | mutab => exact ⟨fun _ => 0, fun d i h => h.elim⟩

/-- Every element can be executed. -/
theorem can0 {c : SepCfg} {fuel : Nat} (hw : SepWF c fuel) (e : Eid) (he : c.known e = true) : Can0 c e := by
  obtain ⟨depth, hd, hdf⟩ := hw.tree
  have key : ∀ k e, c.known e = true → fuel - depth e = k → Can0 c e := by
    intro k
    induction k using Nat.strongRecOn with
    | _ k ih =>
      intro e he hk
      have hkids : ∀ i ∈ c.kids e, Can0 c i := by
        intro i hi
        have h1 := (hw.kid_iff e i).mp hi
        have h2 := hd i e h1.2
        have h3 := hdf i h1.1
        exact ih _ (by omega) i h1.1 rfl
      have nouse : ∀ s t : Nat, s ≤ t → Fits c true (c.kind e) (c.kids e) (fun i => (fun _ => false : Eid → Bool) i = true)
          (fun _ => 0) (fun _ => 0) → ∃ I, Runs c true e s t I ∧ ⟨e, s, t⟩ ∈ I := by
        intro s t hst hf
        exact ⟨_, .once (fun _ => false) (fun _ => 0) (fun _ => 0) (fun _ => []) hst (fun i _ h => by cases h)
          (fun i _ h => by cases h) hf, List.mem_cons_self⟩
      have alluse : c.kind e = .region ∨ c.kind e = .cluster ∨ c.kind e = .some ∨ c.kind e = .multiParallel ∨
          c.kind e = .mutab → Can0 c e := by
        intro hkind
        obtain ⟨rank, hr⟩ := exists_rank hw (c.kind e) (c.kids e)
        obtain ⟨A, B, hAB⟩ := level_run (c := c) (elems := c.kids e) hkids (E := Before c (c.kind e) (c.kids e)) (rank := rank)
          (ph := fun _ => 0) (fun d _ i _ h => ⟨hr d i h, Nat.le_refl _, by simp⟩)
          (Q := fun _ _ _ _ => True) (fun i _ h => by cases h)
        refine ⟨A + B, fun s t hst => ?_⟩
        obtain ⟨S, T, I, h1, h2, h3, -⟩ := hAB s (s + A) (s + A) t (Nat.le_refl _) (Nat.le_refl _) (by omega)
        refine ⟨_, .once (fun _ => true) S T I (by omega) (fun i hi _ => h1 i hi) (fun i hi _ => ⟨(h2 i hi).1, fun _ => (h2 i hi).2⟩)
          (fits_all hw hkind (kids_belong hw e) (hw.kids_nodup e) h3), List.mem_cons_self⟩
      cases hkind : c.kind e with
      | node =>
        refine ⟨0, fun s t h => nouse s t (by omega) ?_⟩
        rw [hkind]; intro i hi; rw [node_kids hw hkind] at hi; cases hi
      | condition => exact ⟨0, fun s t h => nouse s t (by omega) (fits_none (by simp [hkind]) _ _)⟩
      | multiSerial => exact ⟨0, fun s t h => nouse s t (by omega) (fits_none (by simp [hkind]) _ _)⟩
      | multiParallel => exact alluse (by simp [hkind])
      | region => exact alluse (by simp [hkind])
      | cluster => exact alluse (by simp [hkind])
      | some => exact alluse (by simp [hkind])
      | mutab => exact alluse (by simp [hkind])
  exact key _ e he rfl

/-- The element itself is executed during the given time. -/
theorem can_self {c : SepCfg} {fuel : Nat} (hw : SepWF c fuel) (e : Eid) (he : c.known e = true) :
    Can c e (fun m n I => ∃ o ∈ I, o.e = e ∧ o.a ≤ m ∧ n ≤ o.b) := by
  obtain ⟨L, hL⟩ := can0 hw e he
  refine ⟨L, 0, fun s m n t h1 h2 h3 => ?_⟩
  obtain ⟨I, hI, ho⟩ := hL s t (by omega)
  exact ⟨I, hI, _, ho, rfl, by show s ≤ m; omega, by show n ≤ t; omega⟩

/-- Element `x` is executed during the given time. -/
def During (x : Eid) (m n : Nat) (I : List Occ) : Prop := ∃ o ∈ I, o.e = x ∧ o.a ≤ m ∧ n ≤ o.b

/-- What members of a group can do at the same time, those of phase 1, the group can do, while it is executed itself. -/
theorem can_group {c : SepCfg} {fuel : Nat} (hw : SepWF c fuel) {g : Eid}
    (hkind : c.kind g = .region ∨ c.kind g = .cluster ∨ c.kind g = .some ∨ c.kind g = .multiParallel ∨ c.kind g = .mutab)
    {ph : Eid → Nat} (hph : ∀ d ∈ c.kids g, ∀ i ∈ c.kids g, Before c (c.kind g) (c.kids g) d i →
      ph d ≤ ph i ∧ ¬ (ph d = 1 ∧ ph i = 1))
    {Q : Eid → Nat → Nat → List Occ → Prop} (hm : ∀ i, Mono (Q i)) (hQ : ∀ i ∈ c.kids g, ph i = 1 → Can c i (Q i)) :
    Can c g (fun m n I => (∀ i ∈ c.kids g, ph i = 1 → Q i m n I) ∧ During g m n I) := by
  obtain ⟨rank, hr⟩ := exists_rank hw (c.kind g) (c.kids g)
  obtain ⟨A, B, hAB⟩ := level_run (c := c) (elems := c.kids g) (fun i hi => can0 hw i (mem_kids_known hw hi))
    (E := Before c (c.kind g) (c.kids g)) (rank := rank) (ph := ph)
    (fun d hd i hi h => ⟨hr d i h, hph d hd i hi h⟩) (Q := Q) hQ
  refine ⟨A, B, fun s m n t h1 h2 h3 => ?_⟩
  obtain ⟨S, T, I, r1, r2, r3, r4⟩ := hAB s m n t h1 h2 h3
  refine ⟨_, .once (fun _ => true) S T I (by omega) (fun i hi _ => r1 i hi) (fun i hi _ => ⟨(r2 i hi).1, fun _ => (r2 i hi).2⟩)
    (fits_all hw hkind (kids_belong hw g) (hw.kids_nodup g) r3), ?_,
    ⟨g, s, t⟩, List.mem_cons_self, rfl, (by show s ≤ m; omega), (by show n ≤ t; omega)⟩
  intro i hi hp
  refine hm i m n (I i) _ ?_ (r4 i hi hp)
  intro o ho
  exact List.mem_cons_of_mem _ (List.mem_flatMap.mpr ⟨i, by simp [hi], ho⟩)

/-- What a member can do, the group can do, while it is executed itself. -/
theorem can_lift {c : SepCfg} {fuel : Nat} (hw : SepWF c fuel) {g k : Eid} (hk : k ∈ c.kids g)
    {Q : Nat → Nat → List Occ → Prop} (hm : Mono Q) (hQ : Can c k Q) :
    Can c g (fun m n I => Q m n I ∧ During g m n I) := by
  classical
  have single : c.kind g = .condition ∨ c.kind g = .multiSerial ∨ c.kind g = .multiParallel ∨ c.kind g = .mutab →
      Can c g (fun m n I => Q m n I ∧ During g m n I) := by
    intro hkind
    obtain ⟨A, B, h⟩ := hQ
    refine ⟨A, B, fun s m n t h1 h2 h3 => ?_⟩
    obtain ⟨I, hI, hq⟩ := h s m n t h1 h2 h3
    refine ⟨_, .once (fun j => decide (j = k)) (fun _ => s) (fun _ => t) (fun _ => I) (by omega) ?_ ?_
      (fits_one hkind (hw.kids_nodup g) k _ _), ?_,
      ⟨g, s, t⟩, List.mem_cons_self, rfl, (by show s ≤ m; omega), (by show n ≤ t; omega)⟩
    · intro i _ hi
      simp only [decide_eq_true_eq] at hi
      subst hi; exact hI
    · intro i _ _; exact ⟨Nat.le_refl _, fun _ => Nat.le_refl _⟩
    · refine hm m n I _ ?_ hq
      intro o ho
      exact List.mem_cons_of_mem _ (List.mem_flatMap.mpr ⟨k, by simp [hk], ho⟩)
  have group : ∀ ph : Eid → Nat, ph k = 1 → (∀ i ∈ c.kids g, ph i = 1 → i = k) →
      (c.kind g = .region ∨ c.kind g = .cluster ∨ c.kind g = .some ∨ c.kind g = .multiParallel ∨ c.kind g = .mutab) →
      (∀ d ∈ c.kids g, ∀ i ∈ c.kids g, Before c (c.kind g) (c.kids g) d i → ph d ≤ ph i ∧ ¬ (ph d = 1 ∧ ph i = 1)) →
      Can c g (fun m n I => Q m n I ∧ During g m n I) := by
    intro ph p1 p2 hkind hph
    obtain ⟨A, B, h⟩ := can_group hw hkind hph (Q := fun _ => Q) (fun _ => hm) (fun i hi hp => by
      rw [p2 i hi hp]; exact hQ)
    refine ⟨A, B, fun s m n t h1 h2 h3 => ?_⟩
    obtain ⟨I, hI, hq⟩ := h s m n t h1 h2 h3
    exact ⟨I, hI, hq.1 k hk p1, hq.2⟩
  cases hkind : c.kind g with
  | node => rw [node_kids hw hkind] at hk; cases hk
  | condition => exact single (by simp [hkind])
  | multiSerial => exact single (by simp [hkind])
  | multiParallel => exact single (by simp [hkind])
  | mutab => exact single (by simp [hkind])
  | some =>
    refine group (fun i => if i = k then 1 else 0) (by simp) ?_ (by simp [hkind]) ?_
    · intro i _ h
      by_contra hne
      simp [hne] at h
    · intro d _ i _ h
      rw [hkind] at h
      exact h.elim
  | cluster =>
    refine group (fun i => if i = k then 1 else if (c.kids g).idxOf i < (c.kids g).idxOf k then 0 else 2) (by simp) ?_
      (by simp [hkind]) ?_
    · intro i _ h
      by_contra hne
      simp only [if_neg hne] at h
      split_ifs at h <;> omega
    · intro d hd i hi h
      rw [hkind] at h
      have h' : (c.kids g).idxOf d < (c.kids g).idxOf i := h
      have hne : d ≠ i := by rintro rfl; omega
      by_cases d1 : d = k
      · have i1 : i ≠ k := fun h => hne (d1.trans h.symm)
        subst d1
        simp only [if_true, if_neg i1]
        rw [if_neg (by omega)]
        omega
      · by_cases i1 : i = k
        · subst i1
          simp only [if_true, if_neg d1]
          rw [if_pos (by omega)]
          omega
        · simp only [if_neg d1, if_neg i1]
          split_ifs <;> first | omega | simp
  | region =>
    refine group (fun i => if i = k then 1 else if Relation.TransGen (fun a b => a ∈ c.deps b) i k then 0 else 2) (by simp) ?_
      (by simp [hkind]) ?_
    · intro i _ h
      by_contra hne
      simp only [if_neg hne] at h
      split_ifs at h <;> omega
    · intro d hd i hi h
      rw [hkind] at h
      have h' : d ∈ c.deps i := h
      obtain ⟨rank, hr⟩ := hw.acyclic
      have hlt := hr i d h'
      have htr : ∀ a b, Relation.TransGen (fun a b => a ∈ c.deps b) a b → rank a < rank b := by
        intro a b hab
        induction hab with
        | single h => exact hr _ _ h
        | tail _ h ih => have := hr _ _ h; omega
      by_cases d1 : d = k
      · have i1 : i ≠ k := by rintro rfl; rw [d1] at hlt; omega
        subst d1
        simp only [if_true, if_neg i1]
        rw [if_neg (fun h => by have := htr _ _ h; omega)]
        omega
      · by_cases i1 : i = k
        · subst i1
          simp only [if_true, if_neg d1]
          rw [if_pos (.single h')]
          omega
        · simp only [if_neg d1, if_neg i1]
          by_cases hi2 : Relation.TransGen (fun a b => a ∈ c.deps b) i k
          · rw [if_pos hi2, if_pos (Relation.TransGen.head h' hi2)]; omega
          · rw [if_neg hi2]; split_ifs <;> omega

/-- What an element can do, everything around it can do. -/
theorem can_up {c : SepCfg} {fuel : Nat} (hw : SepWF c fuel) {g x : Eid} (h : Around c g x) (hx : c.known x = true)
    {Q : Nat → Nat → List Occ → Prop} (hm : Mono Q) (hQ : Can c x Q) : Can c g Q := by
  induction h with
  | self => exact hQ
  | @member x p hb hp ih =>
    obtain ⟨A, B, h⟩ := can_lift hw ((hw.kid_iff p x).mpr ⟨hx, hb⟩) hm hQ
    exact ih ((hw.parent x p hx hb).1) ⟨A, B, fun s m n t h1 h2 h3 => (h s m n t h1 h2 h3).imp
      fun I hI => ⟨hI.1, hI.2.1⟩⟩

theorem during_mono (x : Eid) : Mono (During x) := by
  rintro m n I J h ⟨o, ho, h1⟩
  exact ⟨o, h o ho, h1⟩

theorem can_during {c : SepCfg} {fuel : Nat} (hw : SepWF c fuel) {g x : Eid} (h : Around c g x) (hx : c.known x = true) :
    Can c g (During x) := can_up hw h hx (during_mono x) (can_self hw x hx)

/-- Phases around two members of a region that do not depend on each other. -/
theorem phases_two {c : SepCfg} {fuel : Nat} (hw : SepWF c fuel) {p q : Eid}
    (h1 : ¬ Relation.TransGen (fun a b => a ∈ c.deps b) p q) (h2 : ¬ Relation.TransGen (fun a b => a ∈ c.deps b) q p) :
    ∃ ph : Eid → Nat, ph p = 1 ∧ ph q = 1 ∧ (∀ i, ph i = 1 → i = p ∨ i = q) ∧
      ∀ d i, d ∈ c.deps i → ph d ≤ ph i ∧ ¬ (ph d = 1 ∧ ph i = 1) := by
  classical
  obtain ⟨rank, hr⟩ := hw.acyclic
  have htr : ∀ a b, Relation.TransGen (fun a b => a ∈ c.deps b) a b → rank a < rank b := by
    intro a b hab
    induction hab with
    | single h => exact hr _ _ h
    | tail _ h ih => have := hr _ _ h; omega
  refine ⟨fun i => if i = p ∨ i = q then 1 else if Relation.TransGen (fun a b => a ∈ c.deps b) i p ∨
    Relation.TransGen (fun a b => a ∈ c.deps b) i q then 0 else 2, by simp, by simp, ?_, ?_⟩
  · intro i h
    by_contra hne
    simp only [if_neg hne] at h
    split_ifs at h <;> omega
  · intro d i h
    have irr : ∀ a, ¬ Relation.TransGen (fun a b => a ∈ c.deps b) a a := fun a ha => Nat.lt_irrefl _ (htr _ _ ha)
    by_cases d1 : d = p ∨ d = q
    · have hnoti : ¬ (i = p ∨ i = q) := by
        rintro (rfl | rfl) <;> rcases d1 with rfl | rfl
        · exact irr _ (.single h)
        · exact h2 (.single h)
        · exact h1 (.single h)
        · exact irr _ (.single h)
      have hnot : ¬ (Relation.TransGen (fun a b => a ∈ c.deps b) i p ∨ Relation.TransGen (fun a b => a ∈ c.deps b) i q) := by
        rintro (hi | hi) <;> rcases d1 with rfl | rfl
        · exact irr _ (.head h hi)
        · exact h2 (.head h hi)
        · exact h1 (.head h hi)
        · exact irr _ (.head h hi)
      simp only [if_pos d1, if_neg hnoti, if_neg hnot]
      omega
    · by_cases i1 : i = p ∨ i = q
      · have hd : Relation.TransGen (fun a b => a ∈ c.deps b) d p ∨ Relation.TransGen (fun a b => a ∈ c.deps b) d q := by
          rcases i1 with rfl | rfl
          · exact .inl (.single h)
          · exact .inr (.single h)
        simp only [if_neg d1, if_pos i1, if_pos hd]
        omega
      · simp only [if_neg d1, if_neg i1]
        by_cases hi2 : Relation.TransGen (fun a b => a ∈ c.deps b) i p ∨ Relation.TransGen (fun a b => a ∈ c.deps b) i q
        · have hd : Relation.TransGen (fun a b => a ∈ c.deps b) d p ∨ Relation.TransGen (fun a b => a ∈ c.deps b) d q := by
            rcases hi2 with hi | hi
            · exact .inl (.head h hi)
            · exact .inr (.head h hi)
          rw [if_pos hi2, if_pos hd]; omega
        · rw [if_neg hi2]; split_ifs <;> omega

/-- The pipeline can do what elements of it can do at the same time. -/
theorem can_top {c : SepCfg} {fuel : Nat} (hw : SepWF c fuel) {ph : Eid → Nat}
    (hph : ∀ d i, d ∈ c.deps i → ph d ≤ ph i ∧ ¬ (ph d = 1 ∧ ph i = 1)) {Q : Eid → Nat → Nat → List Occ → Prop}
    (hm : ∀ i, Mono (Q i)) (hQ : ∀ i ∈ c.top, ph i = 1 → Can c i (Q i)) :
    ∃ J m, RunAll c true J ∧ ∀ i ∈ c.top, ph i = 1 → Q i m (m + 1) J := by
  obtain ⟨rank, hr⟩ := hw.acyclic
  obtain ⟨A, B, hAB⟩ := level_run (c := c) (elems := c.top) (fun i hi => can0 hw i ((hw.top_iff i).mp hi).1)
    (E := Before c .region c.top) (rank := rank) (ph := ph)
    (fun d _ i _ h => ⟨hr i d h, hph d i h⟩) (Q := Q) hQ
  obtain ⟨S, T, I, r1, r2, r3, r4⟩ := hAB 0 A (A + 1) (A + 1 + B) (by omega) (by omega) (by omega)
  refine ⟨_, A, ⟨fun _ => true, S, T, I, fun i hi _ => r1 i hi,
    fits_all hw (.inl rfl) hw.top_iff hw.top_nodup r3, rfl⟩, ?_⟩
  intro i hi hp
  refine hm i _ _ (I i) _ ?_ (r4 i hi hp)
  intro o ho
  exact List.mem_flatMap.mpr ⟨i, by simp [hi], ho⟩

/-- The way from the pipeline: the registered element around `g`. -/
theorem root_of {c : SepCfg} {fuel : Nat} (hw : SepWF c fuel) {g : Eid} (hg : c.known g = true) :
    ∃ r ∈ c.top, Around c r g := by
  obtain ⟨depth, hd, -⟩ := hw.tree
  have key : ∀ k g, c.known g = true → depth g = k → ∃ r ∈ c.top, Around c r g := by
    intro k
    induction k using Nat.strongRecOn with
    | _ k ih =>
      intro g hg hk
      cases hb : c.belong g with
      | none => exact ⟨g, (hw.top_iff g).mpr ⟨hg, hb⟩, .self⟩
      | some p =>
        have := hd g p hb
        obtain ⟨r, h1, h2⟩ := ih (depth p) (by omega) p (hw.parent g p hg hb).1 rfl
        exact ⟨r, h1, .member hb h2⟩
  exact key _ g hg rfl

/-- What an element can do, the pipeline can do. -/
theorem can_all {c : SepCfg} {fuel : Nat} (hw : SepWF c fuel) {g : Eid} (hg : c.known g = true)
    {Q : Nat → Nat → List Occ → Prop} (hm : Mono Q) (hQ : Can c g Q) : ∃ J m, RunAll c true J ∧ Q m (m + 1) J := by
  obtain ⟨r, hr, hrg⟩ := root_of hw hg
  obtain ⟨rank, hrk⟩ := hw.acyclic
  have htr : ∀ a b, Relation.TransGen (fun a b => a ∈ c.deps b) a b → rank a < rank b := by
    intro a b hab
    induction hab with
    | single h => exact hrk _ _ h
    | tail _ h ih => have := hrk _ _ h; omega
  have irr : ¬ Relation.TransGen (fun a b => a ∈ c.deps b) r r := fun ha => Nat.lt_irrefl _ (htr _ _ ha)
  obtain ⟨ph, p1, -, p2, p3⟩ := phases_two hw irr irr
  obtain ⟨J, m, h1, h2⟩ := can_top hw p3 (Q := fun _ => Q) (fun _ => hm) (fun i hi hp => by
    have : i = r := by rcases p2 i hp with h | h <;> exact h
    rw [this]; exact can_up hw hrg hg hm hQ)
  exact ⟨J, m, h1, h2 r hr p1⟩

end SepCfg
end CGraph
