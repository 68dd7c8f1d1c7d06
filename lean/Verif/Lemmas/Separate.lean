import Verif.Spec.Separate
import Verif.Lemmas.Kahn
import Mathlib.Tactic.ByContra
import Mathlib.Data.List.Induction

/-! # `checkSeparate` with groups: lemmas about the tree and about executions -/
namespace CGraph
namespace SepCfg
open Spec

/-! ## The tree -/

theorem Around.trans {c : SepCfg} {a b d : Eid} (h1 : Around c a b) (h2 : Around c b d) : Around c a d := by
  induction h2 with
  | self => exact h1
  | member hb _ ih => exact .member hb ih

theorem holds_depth {c : SepCfg} {depth : Eid → Nat} (hd : ∀ e g, c.belong e = some g → depth g < depth e) {g x : Eid}
    (h : Around c g x) : depth g ≤ depth x ∧ (depth g = depth x → g = x) := by
  induction h with
  | self => exact ⟨Nat.le_refl _, fun _ => rfl⟩
  | member hb _ ih =>
    have := hd _ _ hb
    exact ⟨by omega, fun h => by omega⟩

theorem holds_antisymm {c : SepCfg} {fuel : Nat} (hw : SepWF c fuel) {a b : Eid} (h1 : Around c a b) (h2 : Around c b a) :
    a = b := by
  obtain ⟨depth, hd, -⟩ := hw.tree
  have h3 := holds_depth hd h1
  have h4 := holds_depth hd h2
  exact h3.2 (by omega)

theorem holds_linear {c : SepCfg} {a b x : Eid} (h1 : Around c a x) (h2 : Around c b x) : Around c a b ∨ Around c b a := by
  induction h1 with
  | self => exact .inr h2
  | @member x p hb hp ih =>
    cases h2 with
    | self => exact .inl (.member hb hp)
    | member hb2 hp2 =>
      rw [hb] at hb2
      cases hb2
      exact ih hp2

/-- An element lies inside of one member of a group only. -/
theorem holds_unique {c : SepCfg} {fuel : Nat} (hw : SepWF c fuel) {i j x : Eid} (hij : c.belong i = c.belong j)
    (h1 : Around c i x) (h2 : Around c j x) : i = j := by
  have key : ∀ i j, c.belong i = c.belong j → Around c i j → i = j := by
    intro i j hij h
    cases h with
    | self => rfl
    | member hb hp =>
      have : Around c i i := .self
      have h3 : Around c j i := .member (by rw [hij]; exact hb) (by
        exact absurd (holds_depth hw.tree.choose_spec.1 hp).1 (by
          have := hw.tree.choose_spec.1 i _ (by rw [hij]; exact hb)
          omega))
      exact holds_antisymm hw (.member hb hp) h3
  rcases holds_linear h1 h2 with h | h
  · exact key i j hij h
  · exact (key j i hij.symm h).symm

theorem holds_known {c : SepCfg} {fuel : Nat} (hw : SepWF c fuel) {g x : Eid} (h : Around c g x)
    (hx : c.known x = true) : c.known g = true := by
  induction h with
  | self => exact hx
  | member hb _ ih => exact ih ((hw.parent _ _ hx hb).1)

/-- Inside of a group means inside of one of its members. -/
theorem holds_via {c : SepCfg} {g x : Eid} (h : Around c g x) (hne : x ≠ g) :
    ∃ k, c.belong k = some g ∧ Around c k x := by
  induction h with
  | self => exact absurd rfl hne
  | @member x p hb hp ih =>
    by_cases hpg : p = g
    · subst hpg; exact ⟨x, hb, .self⟩
    · obtain ⟨k, h1, h2⟩ := ih hpg
      exact ⟨k, h1, .member hb h2⟩

theorem mem_kids_known {c : SepCfg} {fuel : Nat} (hw : SepWF c fuel) {g k : Eid} (h : k ∈ c.kids g) : c.known k = true :=
  ((hw.kid_iff g k).mp h).1

/-! ## What lies in an execution -/

theorem runs_inside {c : SepCfg} {fuel : Nat} (hw : SepWF c fuel) {strict : Bool} {e s t : Nat} {I : List Occ}
    (h : Runs c strict e s t I) (he : c.known e = true) :
    ∀ o ∈ I, Around c e o.e ∧ c.known o.e = true := by
  induction h with
  | @once e s t used S T J hst hr hb hf ih =>
    intro o ho
    rcases List.mem_cons.mp ho with rfl | ho
    · exact ⟨.self, he⟩
    · obtain ⟨i, hi, hoi⟩ := List.mem_flatMap.mp ho
      obtain ⟨hik, hiu⟩ := List.mem_filter.mp hi
      have hk := (hw.kid_iff e i).mp hik
      obtain ⟨h1, h2⟩ := ih i hik hiu hk.1 o hoi
      exact ⟨Around.trans (.member hk.2 .self) h1, h2⟩
  | again _ _ _ ih1 ih2 =>
    intro o ho
    rcases List.mem_append.mp ho with h | h
    · exact ih1 he o h
    · exact ih2 he o h

theorem runs_le {c : SepCfg} {strict : Bool} {e s t : Nat} {I : List Occ} (h : Runs c strict e s t I) : s ≤ t := by
  induction h with
  | once used S T J hst _ _ _ _ => exact hst
  | again _ hm _ ih1 ih2 => omega

theorem runs_bounds {c : SepCfg} {fuel : Nat} (hw : SepWF c fuel) (hns : NoSome c) {strict : Bool} {e s t : Nat}
    {I : List Occ} (h : Runs c strict e s t I) (he : c.known e = true) : ∀ o ∈ I, s ≤ o.a ∧ o.b ≤ t := by
  induction h with
  | @once e s t used S T J hst hr hb hf ih =>
    intro o ho
    rcases List.mem_cons.mp ho with rfl | ho
    · exact ⟨Nat.le_refl _, Nat.le_refl _⟩
    · obtain ⟨i, hi, hoi⟩ := List.mem_flatMap.mp ho
      obtain ⟨hik, hiu⟩ := List.mem_filter.mp hi
      have h1 := ih i hik hiu (mem_kids_known hw hik) o hoi
      have h2 := hb i hik hiu
      have h3 := h2.2 (hns e he)
      omega
  | again h1 hm h2 ih1 ih2 =>
    intro o ho
    have l1 := runs_le h1
    have l2 := runs_le h2
    rcases List.mem_append.mp ho with h | h
    · have := ih1 he o h; omega
    · have := ih2 he o h; omega

/-- The members `p` and `q` of a level are never executed at the same time. -/
def Apart (c : SepCfg) (strict : Bool) (k : SepKind) (kids : List Eid) (p q : Eid) : Prop :=
  ∀ (used : Eid → Prop) (S T : Eid → Nat), (∀ i ∈ kids, used i → S i ≤ T i) → Fits c strict k kids used S T →
    used p → used q → T p ≤ S q ∨ T q ≤ S p

/-- The executions within one level do not overlap. -/
theorem level_apart {c : SepCfg} {fuel : Nat} (hw : SepWF c fuel) (hns : NoSome c) {strict : Bool} {kids : List Eid}
    {k : SepKind} {b : Option Eid} (hk : ∀ i ∈ kids, c.known i = true ∧ c.belong i = b) {used : Eid → Bool}
    {S T : Eid → Nat} {I : Eid → List Occ} (hr : ∀ i ∈ kids, used i = true → Runs c strict i (S i) (T i) (I i))
    (hf : Fits c strict k kids (fun i => used i = true) S T) {p q x y : Eid} (hp : p ∈ kids) (hq : q ∈ kids)
    (hpx : Around c p x) (hqy : Around c q y) (ha : Apart c strict k kids p q) {o1 o2 : Occ}
    (h1 : o1 ∈ (kids.filter used).flatMap I) (h2 : o2 ∈ (kids.filter used).flatMap I) (e1 : o1.e = x) (e2 : o2.e = y) :
    ¬ o1.overlap o2 := by
  obtain ⟨i, hi, hoi⟩ := List.mem_flatMap.mp h1
  obtain ⟨j, hj, hoj⟩ := List.mem_flatMap.mp h2
  obtain ⟨hik, hiu⟩ := List.mem_filter.mp hi
  obtain ⟨hjk, hju⟩ := List.mem_filter.mp hj
  have hix := (runs_inside hw (hr i hik hiu) (hk i hik).1 o1 hoi).1
  have hjy := (runs_inside hw (hr j hjk hju) (hk j hjk).1 o2 hoj).1
  rw [e1] at hix
  rw [e2] at hjy
  have hip : i = p := holds_unique hw (by rw [(hk i hik).2, (hk p hp).2]) hix hpx
  have hjq : j = q := holds_unique hw (by rw [(hk j hjk).2, (hk q hq).2]) hjy hqy
  subst hip
  subst hjq
  have b1 := runs_bounds hw hns (hr i hik hiu) (hk i hik).1 o1 hoi
  have b2 := runs_bounds hw hns (hr j hjk hju) (hk j hjk).1 o2 hoj
  have := ha _ S T (fun i hi hu => runs_le (hr i hi hu)) hf hiu hju
  unfold Occ.overlap
  omega

/-- Two elements inside of different members of `g` that are never executed at the same time do not overlap. -/
theorem runs_apart {c : SepCfg} {fuel : Nat} (hw : SepWF c fuel) (hns : NoSome c) {strict : Bool} {g p q x y : Eid}
    (hp : p ∈ c.kids g) (hq : q ∈ c.kids g) (hpx : Around c p x) (hqy : Around c q y)
    (ha : Apart c strict (c.kind g) (c.kids g) p q) {e s t : Nat} {I : List Occ} (h : Runs c strict e s t I)
    (he : c.known e = true) (heg : Around c e g) {o1 o2 : Occ} (h1 : o1 ∈ I) (h2 : o2 ∈ I) (e1 : o1.e = x) (e2 : o2.e = y) :
    ¬ o1.overlap o2 := by
  have hgp := ((hw.kid_iff g p).mp hp).2
  have hgq := ((hw.kid_iff g q).mp hq).2
  induction h with
  | @once e s t used S T J hst hr hb hf ih =>
    have hep : Around c e p := .member hgp heg
    have heq : Around c e q := .member hgq heg
    have hne : ∀ z w, c.belong z = some g → Around c z w → w ≠ e := by
      rintro z w hz hzw rfl
      have h3 : Around c w z := .member hz heg
      have h4 := holds_antisymm hw h3 hzw
      subst h4
      obtain ⟨depth, hd, -⟩ := hw.tree
      have h5 := hd _ _ hz
      have h6 := (holds_depth hd heg).1
      omega
    have m1 : o1 ∈ ((c.kids e).filter used).flatMap J := by
      rcases List.mem_cons.mp h1 with rfl | h
      · exact absurd e1 (Ne.symm (hne p x hgp hpx))
      · exact h
    have m2 : o2 ∈ ((c.kids e).filter used).flatMap J := by
      rcases List.mem_cons.mp h2 with rfl | h
      · exact absurd e2 (Ne.symm (hne q y hgq hqy))
      · exact h
    by_cases hge : g = e
    · subst hge
      exact level_apart hw hns (fun i hi => (hw.kid_iff g i).mp hi) hr hf hp hq hpx hqy ha m1 m2 e1 e2
    · obtain ⟨k, hk1, hk2⟩ := holds_via heg hge
      obtain ⟨i, hi, hoi⟩ := List.mem_flatMap.mp m1
      obtain ⟨j, hj, hoj⟩ := List.mem_flatMap.mp m2
      obtain ⟨hik, hiu⟩ := List.mem_filter.mp hi
      obtain ⟨hjk, hju⟩ := List.mem_filter.mp hj
      have hix := (runs_inside hw (hr i hik hiu) (mem_kids_known hw hik) o1 hoi).1
      have hjy := (runs_inside hw (hr j hjk hju) (mem_kids_known hw hjk) o2 hoj).1
      rw [e1] at hix
      rw [e2] at hjy
      have hii : i = k := holds_unique hw (by rw [((hw.kid_iff e i).mp hik).2, hk1]) hix
        (Around.trans hk2 (Around.trans (.member hgp .self) hpx))
      have hjj : j = k := holds_unique hw (by rw [((hw.kid_iff e j).mp hjk).2, hk1]) hjy
        (Around.trans hk2 (Around.trans (.member hgq .self) hqy))
      subst hii
      subst hjj
      exact ih j hjk hju (mem_kids_known hw hjk) hk2 hoi hoj
  | @again e s m m' t J K r1 hm r2 ih1 ih2 =>
    rcases List.mem_append.mp h1 with m1 | m1 <;> rcases List.mem_append.mp h2 with m2 | m2
    · exact ih1 he heg m1 m2
    · have b1 := runs_bounds hw hns r1 he o1 m1
      have b2 := runs_bounds hw hns r2 he o2 m2
      unfold Occ.overlap
      omega
    · have b1 := runs_bounds hw hns r2 he o1 m1
      have b2 := runs_bounds hw hns r1 he o2 m2
      unfold Occ.overlap
      omega
    · exact ih2 he heg m1 m2

/-- Something inside of a group is executed only while the group is. -/
theorem runs_within {c : SepCfg} {fuel : Nat} (hw : SepWF c fuel) (hns : NoSome c) {strict : Bool} {e s t : Nat}
    {I : List Occ} (h : Runs c strict e s t I) (he : c.known e = true) {g x : Eid} (heg : Around c e g) (hgx : Around c g x)
    {o : Occ} (ho : o ∈ I) (hox : o.e = x) : ∃ o' ∈ I, o'.e = g ∧ o'.a ≤ o.a ∧ o.b ≤ o'.b := by
  induction h with
  | @once e s t used S T J hst hr hb hf ih =>
    by_cases hge : g = e
    · subst hge
      refine ⟨⟨g, s, t⟩, by simp, rfl, ?_⟩
      exact runs_bounds hw hns (.once used S T J hst hr hb hf) he o ho
    · obtain ⟨k, hk1, hk2⟩ := holds_via heg hge
      have hxe : x ≠ e := by
        rintro rfl
        exact hge (holds_antisymm hw hgx heg)
      have m1 : o ∈ ((c.kids e).filter used).flatMap J := by
        rcases List.mem_cons.mp ho with rfl | h
        · exact absurd hox (Ne.symm hxe)
        · exact h
      obtain ⟨i, hi, hoi⟩ := List.mem_flatMap.mp m1
      obtain ⟨hik, hiu⟩ := List.mem_filter.mp hi
      have hix := (runs_inside hw (hr i hik hiu) (mem_kids_known hw hik) o hoi).1
      rw [hox] at hix
      have hii : i = k := holds_unique hw (by rw [((hw.kid_iff e i).mp hik).2, hk1]) hix (Around.trans hk2 hgx)
      subst hii
      obtain ⟨o', h1, h2⟩ := ih i hik hiu (mem_kids_known hw hik) hk2 hoi
      exact ⟨o', List.mem_cons_of_mem _ (List.mem_flatMap.mpr ⟨i, hi, h1⟩), h2⟩
  | again _ _ _ ih1 ih2 =>
    rcases List.mem_append.mp ho with h | h
    · obtain ⟨o', h1, h2⟩ := ih1 he heg h
      exact ⟨o', List.mem_append_left _ h1, h2⟩
    · obtain ⟨o', h1, h2⟩ := ih2 he heg h
      exact ⟨o', List.mem_append_right _ h1, h2⟩

end SepCfg
end CGraph
