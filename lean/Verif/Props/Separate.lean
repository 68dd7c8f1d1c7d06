import Verif.Lemmas.SeparateRun
import Verif.Props.Optimizer

/-! # `checkSeparate` with groups: C88 -/
namespace CGraph
namespace SepCfg
open Spec

/-! ## One level -/

theorem level_wf {c : SepCfg} {fuel : Nat} (hw : SepWF c fuel) {elems : List Eid} {b : Option Eid}
    (hb : ∀ i, i ∈ elems ↔ c.known i = true ∧ c.belong i = b) (hn : elems.Nodup) : (c.level elems).WF where
  nodup := hn
  dnodup := fun e _ => hw.deps_nodup e
  snodup := fun e _ => hw.succs_nodup e
  sym := fun a b => hw.sym a b
  closedS := by
    intro e he s hs
    have h := hw.deps_of s e ((hw.sym e s).mp hs)
    exact (hb s).mpr ⟨h.2.1, h.2.2.symm.trans ((hb e).mp he).2⟩
  closedD := by
    intro e he d hd
    have h := hw.deps_of e d hd
    exact (hb d).mpr ⟨h.1, h.2.2.trans ((hb e).mp he).2⟩

theorem level_acyclic {c : SepCfg} {fuel : Nat} (hw : SepWF c fuel) (elems : List Eid) :
    AcyclicOn (c.level elems).Edge elems := by
  obtain ⟨rank, hr⟩ := hw.acyclic
  intro v _ hv
  have htr : ∀ a b, Relation.TransGen (c.level elems).Edge a b → rank a < rank b := by
    intro a b hab
    induction hab with
    | single h => exact hr _ _ h
    | tail _ h ih => have := hr _ _ h; omega
  exact Nat.lt_irrefl _ (htr v v hv)

/-- The answer on one level. -/
theorem onPath_exact {c : SepCfg} {fuel : Nat} (hw : SepWF c fuel) {elems : List Eid} {b : Option Eid}
    (hb : ∀ i, i ∈ elems ↔ c.known i = true ∧ c.belong i = b) (hn : elems.Nodup) (hf : elems.length ≤ fuel) {p q : Eid}
    (hp : p ∈ elems) (hq : q ∈ elems) (hpq : p ≠ q) : ∃ r, c.onPath fuel elems (some p) (some q) = some r ∧
      (r = true ↔ Relation.TransGen (fun a b => a ∈ c.deps b) p q ∨ Relation.TransGen (fun a b => a ∈ c.deps b) q p) :=
  C35_separate_exact (c.level elems) (level_wf hw hb hn) (level_acyclic hw elems) fuel hf p q hp hq hpq

/-- Members of a region (or of the pipeline) that depend on each other are executed one after the other. -/
theorem apart_region {c : SepCfg} {fuel : Nat} (hw : SepWF c fuel) {strict : Bool} {elems : List Eid} {b : Option Eid}
    (hb : ∀ i, i ∈ elems ↔ c.known i = true ∧ c.belong i = b) {p q : Eid} (hp : p ∈ elems) (hq : q ∈ elems)
    (h : Relation.TransGen (fun a b => a ∈ c.deps b) p q ∨ Relation.TransGen (fun a b => a ∈ c.deps b) q p) :
    Apart c strict .region elems p q := by
  intro used S T hST hf up uq
  have key : ∀ p q, Relation.TransGen (fun a b => a ∈ c.deps b) p q → q ∈ elems → used q → T p ≤ S q := by
    intro p q h
    induction h with
    | single h => intro hq uq; exact (hf.1 _ hq uq _ h).2
    | @tail m q _ h ih =>
      intro hq uq
      have h1 := hf.1 _ hq uq _ h
      have h2 := hw.deps_of _ _ h
      have hm : m ∈ elems := (hb m).mpr ⟨h2.1, h2.2.2.trans ((hb q).mp hq).2⟩
      have h3 := hST m hm h1.1
      have h4 := ih hm h1.1
      omega
  rcases h with h | h
  · exact .inl (key p q h hq uq)
  · exact .inr (key q p h hp up)

theorem apart_pairwise {l : List Eid} {used : Eid → Prop} {S T : Eid → Nat}
    (h : l.Pairwise (fun i j => used i → used j → T i ≤ S j)) {p q : Eid} (hp : p ∈ l) (hq : q ∈ l) (hpq : p ≠ q)
    (up : used p) (uq : used q) : T p ≤ S q ∨ T q ≤ S p := by
  induction h with
  | nil => cases hp
  | @cons a l ha _ ih =>
    rcases List.mem_cons.mp hp with hp' | hp' <;> rcases List.mem_cons.mp hq with hq' | hq'
    · exact absurd (hp'.trans hq'.symm) hpq
    · subst hp'; exact .inl (ha q hq' up uq)
    · subst hq'; exact .inr (ha p hp' uq up)
    · exact ih hp' hq'

/-- If a group answers that two members are separate, they are executed one after the other. -/
theorem isSeparate_apart {c : SepCfg} {fuel : Nat} (hw : SepWF c fuel) {strict : Bool} {g p q : Eid}
    (hp : p ∈ c.kids g) (hq : q ∈ c.kids g) (hpq : p ≠ q) (h : c.isSeparate fuel g (some p) (some q) = some true) :
    Apart c strict (c.kind g) (c.kids g) p q := by
  unfold isSeparate at h
  cases hk : c.kind g with
  | node => rw [hk] at h; cases h
  | region =>
    rw [hk] at h
    obtain ⟨r, h1, h2⟩ := onPath_exact hw (hw.kid_iff g) (hw.kids_nodup g) (hw.fuel_kids g) hp hq hpq
    simp only at h
    rw [h] at h1
    cases h1
    exact apart_region hw (hw.kid_iff g) hp hq (h2.mp rfl)
  | cluster =>
    intro used S T _ hf up uq
    exact apart_pairwise hf.1 hp hq hpq up uq
  | multiSerial =>
    intro used S T _ hf up uq
    exact apart_pairwise hf hp hq hpq up uq
  | condition =>
    intro used S T _ hf up uq
    exact absurd (hf p hp q hq up uq) hpq
  | multiParallel => rw [hk] at h; cases h
  | some => rw [hk] at h; cases h
  | mutab => rw [hk] at h; cases h

/-- If a group answers that two members are not separate, it can execute what is inside of them at the same time. -/
theorem isSeparate_together {c : SepCfg} {fuel : Nat} (hw : SepWF c fuel) {g p q x y : Eid}
    (hp : p ∈ c.kids g) (hq : q ∈ c.kids g) (hpq : p ≠ q) (hpx : Around c p x) (hqy : Around c q y)
    (hx : c.known x = true) (hy : c.known y = true) (h : c.isSeparate fuel g (some p) (some q) = some false) :
    Can c g (fun m n I => During x m n I ∧ During y m n I) := by
  have group : ∀ ph : Eid → Nat, ph p = 1 → ph q = 1 → (∀ i, ph i = 1 → i = p ∨ i = q) →
      (c.kind g = .region ∨ c.kind g = .cluster ∨ c.kind g = .some ∨ c.kind g = .multiParallel ∨ c.kind g = .mutab) →
      (∀ d ∈ c.kids g, ∀ i ∈ c.kids g, Before c (c.kind g) (c.kids g) d i → ph d ≤ ph i ∧ ¬ (ph d = 1 ∧ ph i = 1)) →
      Can c g (fun m n I => During x m n I ∧ During y m n I) := by
    intro ph p1 p2 p3 hkind hph
    obtain ⟨A, B, hc⟩ := can_group hw hkind hph (Q := fun i m n I => (i = p → During x m n I) ∧ (i = q → During y m n I))
      (fun i m n I J hIJ hI => ⟨fun e => during_mono x m n I J hIJ (hI.1 e), fun e => during_mono y m n I J hIJ (hI.2 e)⟩)
      (fun i hi hp1 => by
        rcases p3 i hp1 with rfl | rfl
        · obtain ⟨A, B, h⟩ := can_during hw hpx hx
          exact ⟨A, B, fun s m n t h1 h2 h3 => (h s m n t h1 h2 h3).imp
            fun I hI => ⟨hI.1, fun _ => hI.2, fun e => absurd e hpq⟩⟩
        · obtain ⟨A, B, h⟩ := can_during hw hqy hy
          exact ⟨A, B, fun s m n t h1 h2 h3 => (h s m n t h1 h2 h3).imp
            fun I hI => ⟨hI.1, fun e => absurd e.symm hpq, fun _ => hI.2⟩⟩)
    exact ⟨A, B, fun s m n t h1 h2 h3 => (hc s m n t h1 h2 h3).imp
      fun I hI => ⟨hI.1, (hI.2.1 p hp p1).1 rfl, (hI.2.1 q hq p2).2 rfl⟩⟩
  have free : c.kind g = .some ∨ c.kind g = .multiParallel ∨ c.kind g = .mutab →
      Can c g (fun m n I => During x m n I ∧ During y m n I) := by
    intro hk
    refine group (fun i => if i = p ∨ i = q then 1 else 0) (by simp) (by simp) ?_ (by tauto) ?_
    · intro i hi
      by_contra hne
      simp [hne] at hi
    · intro d _ i _ hb
      rcases hk with hk | hk | hk <;> rw [hk] at hb <;> exact hb.elim
  unfold isSeparate at h
  cases hk : c.kind g with
  | node => rw [hk] at h; cases h
  | region =>
    rw [hk] at h
    obtain ⟨r, h1, h2⟩ := onPath_exact hw (hw.kid_iff g) (hw.kids_nodup g) (hw.fuel_kids g) hp hq hpq
    simp only at h
    rw [h] at h1
    cases h1
    have hno : ¬ (Relation.TransGen (fun a b => a ∈ c.deps b) p q ∨ Relation.TransGen (fun a b => a ∈ c.deps b) q p) :=
      fun hh => Bool.false_ne_true (h2.mpr hh)
    obtain ⟨ph, p1, p2, p3, p4⟩ := phases_two hw (fun h => hno (.inl h)) (fun h => hno (.inr h))
    refine group ph p1 p2 p3 (by simp [hk]) ?_
    intro d _ i _ hb
    rw [hk] at hb
    exact p4 d i hb
  | cluster => rw [hk] at h; cases h
  | multiSerial => rw [hk] at h; cases h
  | condition => rw [hk] at h; cases h
  | multiParallel => exact free (by simp [hk])
  | some => exact free (by simp [hk])
  | mutab => exact free (by simp [hk])

theorem overlap_of_during {J : List Occ} {x y : Eid} {m : Nat} (h1 : During x m (m + 1) J) (h2 : During y m (m + 1) J) :
    ∃ o1 ∈ J, ∃ o2 ∈ J, o1.e = x ∧ o2.e = y ∧ o1.overlap o2 := by
  obtain ⟨o1, m1, e1, a1, b1⟩ := h1
  obtain ⟨o2, m2, e2, a2, b2⟩ := h2
  exact ⟨o1, m1, o2, m2, e1, e2, by unfold Occ.overlap; omega⟩

/-! ## C88 -/

/-- **C88** (an answer).  For every pipeline without cycles the check ends with an answer. -/
theorem C88_answers (c : SepCfg) (fuel : Nat) (hw : SepWF c fuel) (x y : Eid) : ∃ r, c.checkSeparate fuel x y = some r := by
  by_cases h : x = y ∨ c.known x = false ∨ c.known y = false
  · refine ⟨false, ?_⟩
    unfold checkSeparate
    rw [if_pos]
    rcases h with h | h | h <;> simp [h]
  · simp only [not_or, Bool.not_eq_false] at h
    obtain ⟨hxy, hx, hy⟩ := h
    rcases check_cases hw hxy hx hy with ⟨-, h⟩ | ⟨-, -, ⟨g, p, q, hp, hq, hpq, -, -, hg, h⟩ | ⟨p, q, hp, hq, hpq, -, -, h⟩⟩
    · exact ⟨true, h⟩
    · rw [h]
      unfold isSeparate
      cases hk : c.kind g with
      | node => exact absurd hp (by rw [node_kids hw hk]; simp)
      | region =>
        obtain ⟨r, h1, -⟩ := onPath_exact hw (hw.kid_iff g) (hw.kids_nodup g) (hw.fuel_kids g) hp hq hpq
        exact ⟨r, h1⟩
      | cluster | condition | multiSerial => exact ⟨true, rfl⟩
      | multiParallel | some | mutab => exact ⟨false, rfl⟩
    · obtain ⟨r, h1, -⟩ := onPath_exact hw hw.top_iff hw.top_nodup hw.fuel_top hp hq hpq
      exact ⟨r, h.trans h1⟩

/-- **C88** (an element and itself, foreign elements).  An element is not separate from itself, and the check does not
answer true about elements that are not of this pipeline. -/
theorem C88_same (c : SepCfg) (fuel : Nat) (x y : Eid) (h : x = y ∨ c.known x = false ∨ c.known y = false) :
    c.checkSeparate fuel x y = some false := by
  unfold checkSeparate
  rw [if_pos]
  rcases h with h | h | h <;> simp [h]

/-- **C88** (sound).  If the check answers that two elements are separate, neither lies inside of the other, and no group
returns before its members have ended, then they are never executed at the same time: in every execution of the pipeline,
whether or not elements fail, whatever conditions choose, however often groups are repeated. -/
theorem C88_sound_partial (c : SepCfg) (fuel : Nat) (hw : SepWF c fuel) (hns : NoSome c) (x y : Eid)
    (hans : c.checkSeparate fuel x y = some true) (h1 : ¬ Around c x y) (h2 : ¬ Around c y x) (strict : Bool) (J : List Occ)
    (hJ : RunAll c strict J) : ∀ o1 ∈ J, ∀ o2 ∈ J, o1.e = x → o2.e = y → ¬ o1.overlap o2 := by
  intro o1 m1 o2 m2 e1 e2
  have hcond : ¬ ((x = y || !c.known x || !c.known y) = true) := by
    intro h
    unfold checkSeparate at hans
    rw [if_pos h] at hans
    cases hans
  simp only [Bool.or_eq_true, decide_eq_true_eq, Bool.not_eq_true', not_or, Bool.not_eq_false] at hcond
  obtain ⟨⟨hxy, hx⟩, hy⟩ := hcond
  obtain ⟨used, S, T, I, hr, hf, rfl⟩ := hJ.ex
  rcases check_cases hw hxy hx hy with ⟨h, -⟩ | ⟨-, -, ⟨g, p, q, hp, hq, hpq, hpx, hqy, hg, h⟩ | ⟨p, q, hp, hq, hpq, hpx, hqy, h⟩⟩
  · rcases h with h | h
    · exact absurd h h1
    · exact absurd h h2
  · have ha := isSeparate_apart hw (strict := strict) hp hq hpq (h.symm.trans hans)
    obtain ⟨i, hi, hoi⟩ := List.mem_flatMap.mp m1
    obtain ⟨j, hj, hoj⟩ := List.mem_flatMap.mp m2
    obtain ⟨hik, hiu⟩ := List.mem_filter.mp hi
    obtain ⟨hjk, hju⟩ := List.mem_filter.mp hj
    have ki := (hw.top_iff i).mp hik
    have kj := (hw.top_iff j).mp hjk
    obtain ⟨r, hr1, hrg⟩ := root_of hw hg
    have kr := (hw.top_iff r).mp hr1
    have hix := (runs_inside hw (hr i hik hiu) ki.1 o1 hoi).1
    have hjy := (runs_inside hw (hr j hjk hju) kj.1 o2 hoj).1
    rw [e1] at hix
    rw [e2] at hjy
    have hgx : Around c g x := Around.trans (.member ((hw.kid_iff g p).mp hp).2 .self) hpx
    have hgy : Around c g y := Around.trans (.member ((hw.kid_iff g q).mp hq).2 .self) hqy
    have hir : i = r := holds_unique hw (ki.2.trans kr.2.symm) hix (Around.trans hrg hgx)
    have hjr : j = r := holds_unique hw (kj.2.trans kr.2.symm) hjy (Around.trans hrg hgy)
    subst hir
    subst hjr
    exact runs_apart hw hns hp hq hpx hqy ha (hr j hik hiu) ki.1 hrg hoi hoj e1 e2
  · obtain ⟨r, hr1, hr2⟩ := onPath_exact hw hw.top_iff hw.top_nodup hw.fuel_top hp hq hpq
    rw [← h, hans] at hr1
    cases hr1
    exact level_apart hw hns (fun i hi => (hw.top_iff i).mp hi) hr hf hp hq hpx hqy
      (apart_region hw hw.top_iff hp hq (hr2.mp rfl)) m1 m2 e1 e2

/-- **C88** (complete).  If the check answers that two different elements of the pipeline are not separate, there is an
execution, without a failure, in which they are executed at the same time. -/
theorem C88_complete (c : SepCfg) (fuel : Nat) (hw : SepWF c fuel) (x y : Eid) (hxy : x ≠ y) (hx : c.known x = true)
    (hy : c.known y = true) (hans : c.checkSeparate fuel x y = some false) :
    ∃ J, RunAll c true J ∧ ∃ o1 ∈ J, ∃ o2 ∈ J, o1.e = x ∧ o2.e = y ∧ o1.overlap o2 := by
  rcases check_cases hw hxy hx hy with ⟨-, h⟩ | ⟨-, -, ⟨g, p, q, hp, hq, hpq, hpx, hqy, hg, h⟩ | ⟨p, q, hp, hq, hpq, hpx, hqy, h⟩⟩
  · rw [h] at hans; cases hans
  · obtain ⟨J, m, hJ, h1, h2⟩ := can_all hw hg
      (fun m n I J hIJ hI => ⟨during_mono x m n I J hIJ hI.1, during_mono y m n I J hIJ hI.2⟩)
      (isSeparate_together hw hp hq hpq hpx hqy hx hy (h.symm.trans hans))
    exact ⟨J, hJ, overlap_of_during h1 h2⟩
  · obtain ⟨r, hr1, hr2⟩ := onPath_exact hw hw.top_iff hw.top_nodup hw.fuel_top hp hq hpq
    rw [← h, hans] at hr1
    cases hr1
    have hno : ¬ (Relation.TransGen (fun a b => a ∈ c.deps b) p q ∨ Relation.TransGen (fun a b => a ∈ c.deps b) q p) :=
      fun hh => Bool.false_ne_true (hr2.mpr hh)
    obtain ⟨ph, p1, p2, p3, p4⟩ := phases_two hw (fun h => hno (.inl h)) (fun h => hno (.inr h))
    obtain ⟨J, m, hJ, hq2⟩ := can_top hw p4
      (Q := fun i m n I => (i = p → During x m n I) ∧ (i = q → During y m n I))
      (fun i m n I J hIJ hI => ⟨fun e => during_mono x m n I J hIJ (hI.1 e), fun e => during_mono y m n I J hIJ (hI.2 e)⟩)
      (fun i hi hp1 => by
        rcases p3 i hp1 with rfl | rfl
        · obtain ⟨A, B, h⟩ := can_during hw hpx hx
          exact ⟨A, B, fun s m n t h1 h2 h3 => (h s m n t h1 h2 h3).imp
            fun I hI => ⟨hI.1, fun _ => hI.2, fun e => absurd e hpq⟩⟩
        · obtain ⟨A, B, h⟩ := can_during hw hqy hy
          exact ⟨A, B, fun s m n t h1 h2 h3 => (h s m n t h1 h2 h3).imp
            fun I hI => ⟨hI.1, fun e => absurd e.symm hpq, fun _ => hI.2⟩⟩)
    exact ⟨J, hJ, overlap_of_during ((hq2 p hp p1).1 rfl) ((hq2 q hq p2).2 rfl)⟩

/-- **C88** violated for an element and a group around it: the check answers that they are separate, although there is an
execution in which they are executed at the same time. -/
theorem C88_ancestor_violated (c : SepCfg) (fuel : Nat) (hw : SepWF c fuel) (g x : Eid) (hne : g ≠ x) (h : Around c g x)
    (hx : c.known x = true) : c.checkSeparate fuel g x = some true ∧ c.checkSeparate fuel x g = some true ∧
      ∃ J, RunAll c true J ∧ ∃ o1 ∈ J, ∃ o2 ∈ J, o1.e = g ∧ o2.e = x ∧ o1.overlap o2 := by
  have hg := holds_known hw h hx
  refine ⟨?_, ?_, ?_⟩
  · rcases check_cases hw hne hg hx with ⟨-, h'⟩ | ⟨h', -⟩
    · exact h'
    · exact absurd h h'
  · rcases check_cases hw hne.symm hx hg with ⟨-, h'⟩ | ⟨-, h', -⟩
    · exact h'
    · exact absurd h h'
  · obtain ⟨k, hk1, hk2⟩ := holds_via h hne.symm
    have hk : k ∈ c.kids g := (hw.kid_iff g k).mpr ⟨holds_known hw hk2 hx, hk1⟩
    obtain ⟨J, m, hJ, h1, h2⟩ := can_all hw hg
      (fun m n I J hIJ hI => ⟨during_mono x m n I J hIJ hI.1, during_mono g m n I J hIJ hI.2⟩)
      (can_lift hw hk (during_mono x) (can_during hw hk2 hx))
    exact ⟨J, hJ, overlap_of_during h2 h1⟩

/-- The exact answer, for pipelines in which no group returns before its members have ended: two elements of which neither
lies inside of the other are separate if and only if no execution executes them at the same time. -/
theorem C88_exact_partial (c : SepCfg) (fuel : Nat) (hw : SepWF c fuel) (hns : NoSome c) (x y : Eid)
    (hx : c.known x = true) (hy : c.known y = true) (h1 : ¬ Around c x y) (h2 : ¬ Around c y x) :
    c.checkSeparate fuel x y = some true ↔
      ∀ J, RunAll c true J → ∀ o1 ∈ J, ∀ o2 ∈ J, o1.e = x → o2.e = y → ¬ o1.overlap o2 := by
  constructor
  · intro h J hJ
    exact C88_sound_partial c fuel hw hns x y h h1 h2 true J hJ
  · intro h
    obtain ⟨r, hr⟩ := C88_answers c fuel hw x y
    cases r with
    | true => exact hr
    | false =>
      have hxy : x ≠ y := by rintro rfl; exact h1 .self
      obtain ⟨J, hJ, o1, m1, o2, m2, e1, e2, ho⟩ := C88_complete c fuel hw x y hxy hx hy hr
      exact absurd ho (h J hJ o1 m1 o2 m2 e1 e2)

/-- Something inside of a group is executed only while the group is (unless a group returns before its members have
ended): the pairs of `C88_ancestor_violated` overlap in every execution that takes time. -/
theorem C88_within (c : SepCfg) (fuel : Nat) (hw : SepWF c fuel) (hns : NoSome c) (g x : Eid) (h : Around c g x)
    (strict : Bool) (J : List Occ) (hJ : RunAll c strict J) (o : Occ) (ho : o ∈ J) (hox : o.e = x) :
    ∃ o' ∈ J, o'.e = g ∧ o'.a ≤ o.a ∧ o.b ≤ o'.b := by
  obtain ⟨used, S, T, I, hr, hf, rfl⟩ := hJ.ex
  obtain ⟨i, hi, hoi⟩ := List.mem_flatMap.mp ho
  obtain ⟨hik, hiu⟩ := List.mem_filter.mp hi
  have ki := (hw.top_iff i).mp hik
  obtain ⟨hix, hx⟩ := runs_inside hw (hr i hik hiu) ki.1 o hoi
  rw [hox] at hix hx
  have hg := holds_known hw h hx
  obtain ⟨r, hr1, hrg⟩ := root_of hw hg
  have kr := (hw.top_iff r).mp hr1
  have hir : i = r := holds_unique hw (ki.2.trans kr.2.symm) hix (Around.trans hrg h)
  subst hir
  obtain ⟨o', m', h'⟩ := runs_within hw hns (hr i hik hiu) ki.1 hrg h hoi hox
  exact ⟨o', List.mem_flatMap.mpr ⟨i, hi, m'⟩, h'⟩

/-! ## A group that returns before its members have ended

`0` is a `GSome` group of the nodes `1` and `2`, the node `3` depends on `0`. -/

/-- The pipeline of the example. -/
def someCfg : SepCfg where
  belong := fun e => if e = 1 ∨ e = 2 then some 0 else none
  kind := fun e => if e = 0 then .some else .node
  kids := fun e => if e = 0 then [1, 2] else []
  top := [0, 3]
  deps := fun e => if e = 3 then [0] else []
  succs := fun e => if e = 0 then [3] else []
  known := fun e => decide (e < 4)

theorem someCfg_wf : SepWF someCfg 5 where
  kid_iff := by
    intro g e
    by_cases hg : g = 0
    · subst hg
      match e with
      | 0 | 1 | 2 | 3 => simp [someCfg]
      | e + 4 => simp [someCfg]
    · match e with
      | 0 | 1 | 2 | 3 => simp [someCfg, hg, Ne.symm hg]
      | e + 4 => simp [someCfg, hg]
  top_iff := by
    intro e
    match e with
    | 0 | 1 | 2 | 3 => simp [someCfg]
    | e + 4 => simp [someCfg]
  kids_nodup := by intro g; simp only [someCfg]; split <;> simp
  top_nodup := by simp [someCfg]
  parent := by
    intro e g _ h
    simp only [someCfg] at h ⊢
    split at h
    · cases h; simp
    · cases h
  tree := by
    refine ⟨fun e => if e = 1 ∨ e = 2 then 1 else 0, ?_, ?_⟩
    · intro e g h
      simp only [someCfg] at h
      split at h
      · rename_i he; cases h; simp [he]
      · cases h
    · intro e _; show (if e = 1 ∨ e = 2 then 1 else 0) < 5; split <;> omega
  deps_of := by
    intro e d h
    simp only [someCfg] at h ⊢
    split at h
    · rename_i he; simp at h; subst h; subst he; simp
    · cases h
  sym := by
    intro d e
    simp only [someCfg]
    by_cases hd : d = 0 <;> by_cases he : e = 3 <;> simp [hd, he]
  deps_nodup := by intro e; simp only [someCfg]; split <;> simp
  succs_nodup := by intro e; simp only [someCfg]; split <;> simp
  acyclic := by
    refine ⟨id, ?_⟩
    intro e d h
    simp only [someCfg] at h
    split at h
    · rename_i he; simp at h; subst h; subst he; decide
    · cases h
  fuel_kids := by intro g; simp only [someCfg]; split <;> simp
  fuel_top := by simp [someCfg]

/-- **C88** violated for members of a `GSome` group: the check answers that a member and an element that depends on the
group are separate, but the member may still be executed when the element is (GSome.inl:40-66 does not wait for all). -/
theorem C88_some_violated : someCfg.checkSeparate 5 1 3 = some true ∧ ¬ Around someCfg 1 3 ∧ ¬ Around someCfg 3 1 ∧
    ∃ J, RunAll someCfg true J ∧ ∃ o1 ∈ J, ∃ o2 ∈ J, o1.e = 1 ∧ o2.e = 3 ∧ o1.overlap o2 := by
  refine ⟨by decide +kernel, ?_, ?_, ?_⟩
  · intro h
    cases h with
    | member hb _ => simp [someCfg] at hb
  · intro h
    cases h with
    | member hb hp =>
      simp [someCfg] at hb
      subst hb
      cases hp with
      | member hb _ => simp [someCfg] at hb
  · have node : ∀ e s t, e ≠ 0 → s ≤ t → Runs someCfg true e s t [⟨e, s, t⟩] := by
      intro e s t he hst
      have h := Runs.once (c := someCfg) (strict := true) (e := e) (s := s) (t := t) (fun _ => false) (fun _ => 0)
        (fun _ => 0) (fun _ => []) hst (fun i _ h => by cases h) (fun i _ h => by cases h)
        (by simp [someCfg, he, Fits])
      simpa [someCfg, he] using h
    have grp : Runs someCfg true 0 0 2 [⟨0, 0, 2⟩, ⟨1, 0, 9⟩, ⟨2, 0, 1⟩] := by
      have h := Runs.once (c := someCfg) (strict := true) (e := 0) (s := 0) (t := 2) (fun _ => true) (fun _ => 0)
        (fun i => if i = 1 then 9 else 1) (fun i => if i = 1 then [⟨1, 0, 9⟩] else [⟨2, 0, 1⟩]) (by omega)
        (by
          intro i hi _
          simp [someCfg] at hi
          rcases hi with rfl | rfl
          · exact node 1 0 9 (by decide) (by omega)
          · exact node 2 0 1 (by decide) (by omega))
        (by intro i _ _; simp [someCfg])
        (by simp [someCfg, Fits])
      simpa [someCfg] using h
    refine ⟨[⟨0, 0, 2⟩, ⟨1, 0, 9⟩, ⟨2, 0, 1⟩, ⟨3, 3, 5⟩], ⟨fun _ => true, fun i => if i = 0 then 0 else 3,
      fun i => if i = 0 then 2 else 5, fun i => if i = 0 then [⟨0, 0, 2⟩, ⟨1, 0, 9⟩, ⟨2, 0, 1⟩] else [⟨3, 3, 5⟩],
      ?_, ?_, by simp [someCfg]⟩, ⟨1, 0, 9⟩, by simp, ⟨3, 3, 5⟩, by simp, rfl, rfl, by unfold Occ.overlap; decide⟩
    · intro i hi _
      simp [someCfg] at hi
      rcases hi with rfl | rfl
      · exact grp
      · exact node 3 3 5 (by decide) (by omega)
    · refine ⟨?_, fun _ _ _ => rfl⟩
      intro i hi _ d hd
      simp only [someCfg] at hd
      split at hd
      · rename_i he; simp at hd; subst hd; subst he; simp
      · cases hd

/-! ## A pipeline that meets the hypotheses

`0` is a region of the node `1` and the cluster `2` (nodes `3`, `4`); the node `5` depends on `0`. -/

/-- The pipeline of the example. -/
def nestCfg : SepCfg where
  belong := fun e => if e = 1 ∨ e = 2 then some 0 else if e = 3 ∨ e = 4 then some 2 else none
  kind := fun e => if e = 0 then .region else if e = 2 then .cluster else .node
  kids := fun e => if e = 0 then [1, 2] else if e = 2 then [3, 4] else []
  top := [0, 5]
  deps := fun e => if e = 5 then [0] else []
  succs := fun e => if e = 0 then [5] else []
  known := fun e => decide (e < 6)

example : SepWF nestCfg 6 ∧ NoSome nestCfg := by
  refine ⟨?_, ?_⟩
  · constructor
    case kid_iff =>
      intro g e
      by_cases hg : g = 0
      · subst hg
        match e with
        | 0 | 1 | 2 | 3 | 4 | 5 => simp [nestCfg]
        | e + 6 => simp [nestCfg]
      · by_cases hg2 : g = 2
        · subst hg2
          match e with
          | 0 | 1 | 2 | 3 | 4 | 5 => simp [nestCfg]
          | e + 6 => simp [nestCfg]
        · match e with
          | 0 | 1 | 2 | 3 | 4 | 5 => simp [nestCfg, hg, hg2, Ne.symm hg, Ne.symm hg2]
          | e + 6 => simp [nestCfg, hg, hg2]
    case top_iff =>
      intro e
      match e with
      | 0 | 1 | 2 | 3 | 4 | 5 => simp [nestCfg]
      | e + 6 => simp [nestCfg]
    case kids_nodup => intro g; simp only [nestCfg]; split <;> [simp; (split <;> simp)]
    case top_nodup => simp [nestCfg]
    case parent =>
      intro e g _ h
      simp only [nestCfg] at h ⊢
      split at h
      · cases h; simp
      · split at h
        · cases h; simp
        · cases h
    case tree =>
      refine ⟨id, ?_, ?_⟩
      · intro e g h
        simp only [nestCfg] at h
        split at h
        · rename_i he; cases h; rcases he with rfl | rfl <;> decide
        · split at h
          · rename_i he; cases h; rcases he with rfl | rfl <;> decide
          · cases h
      · intro e h; simpa [nestCfg] using h
    case deps_of =>
      intro e d h
      simp only [nestCfg] at h ⊢
      split at h
      · rename_i he; simp at h; subst h; subst he; simp
      · cases h
    case sym =>
      intro d e
      simp only [nestCfg]
      by_cases hd : d = 0 <;> by_cases he : e = 5 <;> simp [hd, he]
    case deps_nodup => intro e; simp only [nestCfg]; split <;> simp
    case succs_nodup => intro e; simp only [nestCfg]; split <;> simp
    case acyclic =>
      refine ⟨id, ?_⟩
      intro e d h
      simp only [nestCfg] at h
      split at h
      · rename_i he; simp at h; subst h; subst he; decide
      · cases h
    case fuel_kids => intro g; simp only [nestCfg]; split <;> [simp; (split <;> simp)]
    case fuel_top => simp [nestCfg]
  · intro e _
    simp only [nestCfg]
    split <;> [simp; (split <;> simp)]

-- members of the cluster, the node beside it, the node after the region
example : nestCfg.checkSeparate 6 3 4 = some true ∧ nestCfg.checkSeparate 6 1 3 = some false ∧
    nestCfg.checkSeparate 6 3 5 = some true ∧ nestCfg.checkSeparate 6 2 4 = some true := by decide +kernel

end SepCfg
end CGraph
