import Verif.Props.Optimizer
import Verif.Spec.NestTrim

namespace CGraph
open Spec

namespace NestTrim

/-- The part of `TrimWF` that holds while `trim` is running. -/
structure TInv (c : TrimCfg) (h : Heap) : Prop where
  fresh : ∀ e, (h.elt e).isInit = false
  inv : h.Inv
  same : ∀ a b, DependsOn h a b → ∀ g, a ∈ c.kids g ↔ b ∈ c.kids g
  acyclic : ∀ e, ¬ WaitsFor h e e

/-- A tree of groups. -/
structure Tree (c : TrimCfg) (ht : Eid → Nat) : Prop where
  nodup : ∀ g, (c.kids g).Nodup
  apart : ∀ g g' e, e ∈ c.kids g → e ∈ c.kids g' → g = g'
  height : ∀ r e, e ∈ c.kids (some r) → ht e < ht r

/-- What remains of the dependencies. -/
noncomputable def kept (h : Heap) (e : Eid) : List Eid := by
  classical exact (h.elt e).deps.filter (fun d => decide (¬ ∃ b ∈ (h.elt e).deps, WaitsFor h d b))

theorem mem_kept {h : Heap} {e d : Eid} :
    d ∈ kept h e ↔ d ∈ (h.elt e).deps ∧ ¬ ∃ b ∈ (h.elt e).deps, WaitsFor h d b := by
  simp [kept]

theorem wf_level {c : TrimCfg} {ht : Eid → Nat} {h : Heap} (t : Tree c ht) (i : TInv c h) (g : Option Eid) :
    (h.graph (c.kids g)).WF where
  nodup := t.nodup g
  dnodup := fun e _ => i.inv.dn e
  snodup := fun e _ => i.inv.sn e
  sym := i.inv.sym
  closedS := fun e he x hx => (i.same e x ((i.inv.sym e x).1 hx) g).1 he
  closedD := fun e he x hx => (i.same x e hx g).2 he

theorem acyclic_level {c : TrimCfg} {h : Heap} (i : TInv c h) (g : Option Eid) :
    AcyclicOn (h.graph (c.kids g)).Edge (c.kids g) := fun v _ hv => i.acyclic v hv

/-- Removing dependencies keeps the invariant. -/
theorem TInv.mono {c : TrimCfg} {h h' : Heap} (i : TInv c h) (hi : ∀ e, (h'.elt e).isInit = false)
    (hsym : ∀ a b, b ∈ (h'.elt a).succs ↔ a ∈ (h'.elt b).deps) (hsn : ∀ e, (h'.elt e).succs.Nodup)
    (hsub : ∀ e, (h'.elt e).deps.Sublist (h.elt e).deps) : TInv c h' where
  fresh := hi
  inv := ⟨hsym, fun e => (hsub e).nodup (i.inv.dn e), hsn, fun e he => i.inv.irr e ((hsub e).subset he)⟩
  same := fun a b hab => i.same a b ((hsub b).subset hab)
  acyclic := fun e he => i.acyclic e (Relation.TransGen.mono (fun _ y hxy => (hsub y).subset hxy) _ _ he)

/-- On a level whose dependencies agree, the transitive relation agrees. -/
theorem waits_congr {c : TrimCfg} {h h' : Heap} (i : TInv c h) {g : Option Eid}
    (hd : ∀ x ∈ c.kids g, (h'.elt x).deps = (h.elt x).deps) {a b : Eid} (hb : b ∈ c.kids g) :
    WaitsFor h' a b ↔ WaitsFor h a b := by
  constructor
  · intro hab
    have : a ∈ c.kids g ∧ WaitsFor h a b := by
      induction hab using Relation.TransGen.head_induction_on with
      | single hx =>
        unfold DependsOn at hx
        rw [hd b hb] at hx
        exact ⟨(i.same _ b hx g).2 hb, .single hx⟩
      | head hx _ ih =>
        unfold DependsOn at hx
        rw [hd _ ih.1] at hx
        exact ⟨(i.same _ _ hx g).2 ih.1, .head hx ih.2⟩
    exact this.2
  · intro hab
    have : a ∈ c.kids g ∧ WaitsFor h' a b := by
      induction hab using Relation.TransGen.head_induction_on with
      | single hx =>
        exact ⟨(i.same _ b hx g).2 hb, .single (by unfold DependsOn; rw [hd b hb]; exact hx)⟩
      | head hx _ ih =>
        exact ⟨(i.same _ _ hx g).2 ih.1, .head (by unfold DependsOn; rw [hd _ ih.1]; exact hx) ih.2⟩
    exact this.2

theorem kept_congr {c : TrimCfg} {h h' : Heap} (i : TInv c h) {g : Option Eid}
    (hd : ∀ x ∈ c.kids g, (h'.elt x).deps = (h.elt x).deps) {e : Eid} (he : e ∈ c.kids g) :
    kept h' e = kept h e := by
  classical
  unfold kept
  rw [hd e he]
  apply List.filter_congr
  intro d hdm
  have : (∃ b ∈ (h.elt e).deps, WaitsFor h' d b) ↔ ∃ b ∈ (h.elt e).deps, WaitsFor h d b := by
    constructor <;> rintro ⟨b, hb, hw⟩ <;> refine ⟨b, hb, ?_⟩
    · exact (waits_congr i hd ((i.same b e hb g).2 he)).1 hw
    · exact (waits_congr i hd ((i.same b e hb g).2 he)).2 hw
  simp only [this]

/-! ## The tree -/

theorem through_level {c : TrimCfg} {g : Option Eid} {e : Eid} (h : ThroughRegions c g e) :
    ∃ g', e ∈ c.kids g' ∧ ∀ x ∈ c.kids g', ThroughRegions c g x := by
  cases h with
  | member h => exact ⟨g, h, fun x hx => .member hx⟩
  | inside h1 h2 h3 => exact ⟨_, h3, fun x hx => .inside h1 h2 hx⟩

theorem through_parent {c : TrimCfg} {v e : Eid} (h : ThroughRegions c (some v) e) :
    ∃ p, e ∈ c.kids (some p) ∧ (p = v ∨ ThroughRegions c (some v) p) := by
  cases h with
  | member h => exact ⟨v, h, .inl rfl⟩
  | inside h1 h2 h3 => exact ⟨_, h3, .inr h1⟩

theorem through_height {c : TrimCfg} {ht : Eid → Nat} (t : Tree c ht) {v e : Eid} (h : ThroughRegions c (some v) e) :
    ht e < ht v := by
  induction h with
  | member h => exact t.height _ _ h
  | inside _ _ h3 ih => exact Nat.lt_trans (t.height _ _ h3) ih

/-- Nothing inside of a member is a member. -/
theorem through_not_member {c : TrimCfg} {ht : Eid → Nat} (t : Tree c ht) {g : Option Eid} {v e : Eid}
    (hv : v ∈ c.kids g) (h : ThroughRegions c (some v) e) : e ∉ c.kids g := by
  intro he
  obtain ⟨p, hp, hpv⟩ := through_parent h
  have := t.apart _ _ e he hp
  subst this
  have h1 := t.height p v hv
  rcases hpv with rfl | hpv
  · exact Nat.lt_irrefl _ h1
  · exact Nat.lt_asymm h1 (through_height t hpv)

/-- The insides of different members are disjoint. -/
theorem through_disjoint {c : TrimCfg} {ht : Eid → Nat} (t : Tree c ht) {g : Option Eid} {u v e : Eid}
    (hu : u ∈ c.kids g) (hv : v ∈ c.kids g) (h1 : ThroughRegions c (some u) e) (h2 : ThroughRegions c (some v) e) :
    u = v := by
  induction h1 with
  | member h =>
    obtain ⟨p, hp, hpv⟩ := through_parent h2
    have := Option.some.inj (t.apart _ _ _ h hp)
    subst this
    rcases hpv with rfl | hpv
    · rfl
    · exact absurd hu (through_not_member t hv hpv)
  | inside hr _ he ih =>
    obtain ⟨p, hp, hpv⟩ := through_parent h2
    have := Option.some.inj (t.apart _ _ _ he hp)
    subst this
    rcases hpv with rfl | hpv
    · exact absurd hv (through_not_member t hu hr)
    · exact ih hpv

/-- One member or something inside of it. -/
def At (c : TrimCfg) (v e : Eid) : Prop := e = v ∨ c.isRegion v = true ∧ ThroughRegions c (some v) e

theorem through_iff {c : TrimCfg} {g : Option Eid} {e : Eid} :
    ThroughRegions c g e ↔ ∃ v ∈ c.kids g, At c v e := by
  constructor
  · intro h
    induction h with
    | member h => exact ⟨_, h, .inl rfl⟩
    | inside h1 h2 h3 ih =>
      obtain ⟨v, hv, rfl | ⟨hr, ha⟩⟩ := ih
      · exact ⟨_, hv, .inr ⟨h2, .member h3⟩⟩
      · exact ⟨v, hv, .inr ⟨hr, .inside ha h2 h3⟩⟩
  · rintro ⟨v, hv, rfl | ⟨hr, ha⟩⟩
    · exact .member hv
    · clear * - hv hr ha
      induction ha with
      | member h => exact .inside (.member hv) hr h
      | inside _ h2 h3 ih => exact .inside ih h2 h3

theorem at_disjoint {c : TrimCfg} {ht : Eid → Nat} (t : Tree c ht) {g : Option Eid} {u v e : Eid}
    (hu : u ∈ c.kids g) (hv : v ∈ c.kids g) (h1 : At c u e) (h2 : At c v e) : u = v := by
  rcases h1 with rfl | ⟨-, h1⟩ <;> rcases h2 with rfl | ⟨-, h2⟩
  · rfl
  · exact absurd hu (through_not_member t hv h2)
  · exact absurd hv (through_not_member t hu h1)
  · exact through_disjoint t hu hv h1 h2

/-! ## One element -/

theorem depCount_one {h h' : Heap} {v : Eid} (n n' : Nat) (all : List Eid) (hnd : all.Nodup) (hv : v ∈ all)
    (hd : ∀ e, e ≠ v → (h'.elt e).deps = (h.elt e).deps)
    (hl : n' + (h'.elt v).deps.length = n + (h.elt v).deps.length) :
    n' + h'.depCount all = n + h.depCount all := by
  induction all with
  | nil => simp at hv
  | cons a l ih =>
    rw [List.nodup_cons] at hnd
    simp only [Heap.depCount, List.map_cons, List.sum_cons] at ih ⊢
    by_cases hav : a = v
    · subst hav
      have : l.map (fun e => (h'.elt e).deps.length) = l.map (fun e => (h.elt e).deps.length) := by
        apply List.map_congr_left
        intro e he
        rw [hd e (fun h => hnd.1 (h ▸ he))]
      rw [this]; omega
    · have := ih hnd.2 (by simpa [Ne.symm hav] using hv)
      rw [hd a hav]; omega

/-- `GTrimOptimizer.h:33-49` for one element whose dependencies are still those of the beginning (`h0`). -/
theorem remove_one {c : TrimCfg} {ht : Eid → Nat} (t : Tree c ht) {h0 h : Heap} (i0 : TInv c h0) (i : TInv c h)
    {g : Option Eid} {fuel : Nat} (hf : (c.kids g).length ≤ fuel) {v : Eid} (hv : v ∈ c.kids g)
    (hdv : (h.elt v).deps = (h0.elt v).deps) (n : Nat) :
    ∃ h' n', Heap.trimRemove v (Heap.trimCandidates (h.graph (c.kids g)) ((h0.graph (c.kids g)).buildGraph
        ((h0.graph (c.kids g)).starts.flatMap ((h0.graph (c.kids g)).pathsFrom fuel)) 1 0 0) v) (h, n) = (h', n') ∧
      TInv c h' ∧ (∀ e, (h'.elt e).deps = if e = v then kept h0 v else (h.elt e).deps) ∧
      ∀ all : List Eid, all.Nodup → v ∈ all → n' + h'.depCount all = n + h.depCount all := by
  classical
  have w := wf_level t i0 g
  have ha := acyclic_level i0 g
  obtain ⟨r1, r2, r3, r4, r5⟩ := Heap.trimRemove_spec v (Heap.trimCandidates (h.graph (c.kids g))
    ((h0.graph (c.kids g)).buildGraph ((h0.graph (c.kids g)).starts.flatMap ((h0.graph (c.kids g)).pathsFrom fuel)) 1 0 0) v)
    h n i.fresh (i.inv.dn v) i.inv.sn (fun a => i.inv.sym a v)
  have hcand : ∀ d, d ∈ (h0.elt v).deps → (d ∈ Heap.trimCandidates (h.graph (c.kids g)) ((h0.graph (c.kids g)).buildGraph
        ((h0.graph (c.kids g)).starts.flatMap ((h0.graph (c.kids g)).pathsFrom fuel)) 1 0 0) v ↔
        ∃ b ∈ (h0.elt v).deps, WaitsFor h0 d b) := by
    intro d hd
    rw [Heap.mem_candidates]
    have hdl : (h.graph (c.kids g)).deps v = (h0.elt v).deps := hdv
    rw [hdl]
    have hpos : (h.graph (c.kids g)).pos = (h0.graph (c.kids g)).pos := rfl
    rw [hpos]
    constructor
    · rintro ⟨-, b, hb, hm⟩
      refine ⟨b, hb, ?_⟩
      have hmx := Graph.matrix w ha hf 1 0 0 (w.closedD v hv d hd) (w.closedD v hv b hb)
      by_contra hno
      by_cases hbd : Relation.TransGen (h0.graph (c.kids g)).Edge b d
      · rw [hmx.2.1 hbd] at hm; simp at hm
      · rw [hmx.2.2 ⟨hno, hbd⟩] at hm; simp at hm
    · rintro ⟨b, hb, hdb⟩
      exact ⟨hd, b, hb, (Graph.matrix w ha hf 1 0 0 (w.closedD v hv d hd) (w.closedD v hv b hb)).1 hdb⟩
  generalize hr : Heap.trimRemove v (Heap.trimCandidates (h.graph (c.kids g)) ((h0.graph (c.kids g)).buildGraph
        ((h0.graph (c.kids g)).starts.flatMap ((h0.graph (c.kids g)).pathsFrom fuel)) 1 0 0) v) (h, n) = r at *
  obtain ⟨h', n'⟩ := r
  dsimp only at r1 r2 r3 r4 r5
  have hd' : ∀ e, (h'.elt e).deps = if e = v then kept h0 v else (h.elt e).deps := by
    intro e
    rw [r2]
    split
    · rw [hdv]
      unfold kept
      apply List.filter_congr
      intro d hd
      simp only [hcand d hd]
    · rfl
  refine ⟨h', n', rfl, i.mono r1 ?_ r4 ?_, hd', ?_⟩
  · intro a b
    rw [r3, r2]
    split
    · rename_i hb; subst hb
      rw [i.inv.sym, List.mem_filter, decide_eq_true_eq]
      simp
    · rename_i hb
      rw [i.inv.sym]; simp [hb]
  · intro e
    rw [r2]
    split
    · rename_i he; subst he; exact List.filter_sublist
    · exact List.Sublist.refl _
  · intro all hnd hva
    exact depCount_one n n' all hnd hva (fun e he => by rw [r2, if_neg he]) r5

/-! ## The recursion -/

/-- What `trim` of the level `g` does to `h`. -/
def Post (c : TrimCfg) (g : Option Eid) (h h' : Heap) (n : Nat) : Prop :=
  TInv c h' ∧ (∀ e, ThroughRegions c g e → (h'.elt e).deps = kept h e) ∧
    (∀ e, ¬ ThroughRegions c g e → (h'.elt e).deps = (h.elt e).deps) ∧
    ∀ all : List Eid, all.Nodup → (∀ e, ThroughRegions c g e → e ∈ all) → n + h'.depCount all = h.depCount all

theorem loop_spec {c : TrimCfg} {ht : Eid → Nat} (t : Tree c ht) {h0 : Heap} (i0 : TInv c h0) {g : Option Eid}
    {fuel : Nat} (hf : (c.kids g).length ≤ fuel) (sub : List Eid → Heap → Option (Heap × Nat))
    (hsub : ∀ v ∈ c.kids g, ∀ h, TInv c h → ∃ h' n, sub (c.kids (some v)) h = some (h', n) ∧ Post c (some v) h h' n) :
    ∀ (rest : List Eid) (h : Heap) (n : Nat), rest.Nodup → (∀ v ∈ rest, v ∈ c.kids g) → TInv c h →
      (∀ v ∈ rest, ∀ e, At c v e → (h.elt e).deps = (h0.elt e).deps) →
      ∃ h' n', Heap.nestTrimLoop c sub (c.kids g) ((h0.graph (c.kids g)).buildGraph
          ((h0.graph (c.kids g)).starts.flatMap ((h0.graph (c.kids g)).pathsFrom fuel)) 1 0 0) rest (h, n) =
          some (h', n') ∧ TInv c h' ∧
        (∀ v ∈ rest, ∀ e, At c v e → (h'.elt e).deps = kept h0 e) ∧
        (∀ e, (∀ v ∈ rest, ¬ At c v e) → (h'.elt e).deps = (h.elt e).deps) ∧
        ∀ all : List Eid, all.Nodup → (∀ v ∈ rest, ∀ e, At c v e → e ∈ all) →
          n' + h'.depCount all = n + h.depCount all := by
  intro rest
  induction rest with
  | nil =>
    intro h n _ _ i _
    exact ⟨h, n, rfl, i, by simp, fun _ _ => rfl, fun _ _ _ => rfl⟩
  | cons v rest ih =>
    intro h n hnd hk i hd
    rw [List.nodup_cons] at hnd
    have hvk := hk v (by simp)
    obtain ⟨h1, n1, q1, q2, q3, q4⟩ := remove_one t i0 i hf hvk (hd v (by simp) v (.inl rfl)) n
    simp only [Heap.nestTrimLoop, q1]
    -- the recursion for this element
    have hmid : ∃ h2 n2, (∀ k : Heap × Nat → Option (Heap × Nat),
        (if c.isRegion v = true then
          if (h1.elt v).isInit = true then none
          else (sub (c.kids (some v)) h1).bind fun q => k (q.1, n1 + q.2)
        else k (h1, n1)) = k (h2, n2)) ∧ TInv c h2 ∧ (∀ e, At c v e → (h2.elt e).deps = kept h0 e) ∧
        (∀ e, ¬ At c v e → (h2.elt e).deps = (h.elt e).deps) ∧
        ∀ all : List Eid, all.Nodup → (∀ e, At c v e → e ∈ all) → n2 + h2.depCount all = n + h.depCount all := by
      by_cases hr : c.isRegion v = true
      · obtain ⟨h2, n2, s1, s2, s3, s4, s5⟩ := hsub v hvk h1 q2
        refine ⟨h2, n1 + n2, ?_, s2, ?_, ?_, ?_⟩
        · intro k
          rw [if_pos hr, if_neg (by rw [q2.fresh v]; decide), s1]
          rfl
        · rintro e (rfl | ⟨-, he⟩)
          · rw [s4 e (fun h => absurd (through_height t h) (Nat.lt_irrefl _)), q3, if_pos rfl]
          · rw [s3 e he]
            obtain ⟨g', hg, hall⟩ := through_level he
            refine kept_congr i0 (g := g') ?_ hg
            intro x hx
            have hxt := hall x hx
            rw [q3, if_neg (fun h => by subst h; exact absurd (through_height t hxt) (Nat.lt_irrefl _))]
            exact hd v (by simp) x (.inr ⟨hr, hxt⟩)
        · intro e he
          rw [s4 e (fun h => he (.inr ⟨hr, h⟩)), q3, if_neg (fun h => he (.inl h))]
        · intro all ha hal
          have := q4 all ha (hal v (.inl rfl))
          have := s5 all ha (fun e he => hal e (.inr ⟨hr, he⟩))
          omega
      · refine ⟨h1, n1, ?_, q2, ?_, ?_, ?_⟩
        · intro k; rw [if_neg hr]
        · rintro e (rfl | ⟨he, -⟩)
          · rw [q3, if_pos rfl]
          · exact absurd he hr
        · intro e he
          rw [q3, if_neg (fun h => he (.inl h))]
        · intro all ha hal
          exact q4 all ha (hal v (.inl rfl))
    obtain ⟨h2, n2, m1, m2, m3, m4, m5⟩ := hmid
    rw [m1 (fun q => Heap.nestTrimLoop c sub (c.kids g) _ rest q)]
    have hne : ∀ u ∈ rest, ∀ e, At c u e → ¬ At c v e := by
      intro u hu e h1 h2
      have := at_disjoint t (hk u (by simp [hu])) hvk h1 h2
      subst this
      exact hnd.1 hu
    obtain ⟨h3, n3, p1, p2, p3, p4, p5⟩ := ih h2 n2 hnd.2 (fun u hu => hk u (by simp [hu])) m2
      (fun u hu e he => by rw [m4 e (hne u hu e he)]; exact hd u (by simp [hu]) e he)
    refine ⟨h3, n3, p1, p2, ?_, ?_, ?_⟩
    · intro u hu e he
      rcases List.mem_cons.1 hu with rfl | hu
      · rw [p4 e (fun x hx hxe => hne x hx e hxe he), m3 e he]
      · exact p3 u hu e he
    · intro e he
      rw [p4 e (fun x hx => he x (by simp [hx])), m4 e (he v (by simp))]
    · intro all ha hal
      have := p5 all ha (fun u hu => hal u (by simp [hu]))
      have := m5 all ha (hal v (by simp))
      omega

theorem nest_spec {c : TrimCfg} {ht : Eid → Nat} (t : Tree c ht) {fuel : Nat} (hf : ∀ g, (c.kids g).length ≤ fuel) :
    ∀ (f : Nat) (g : Option Eid) (h : Heap), TInv c h → (∀ e ∈ c.kids g, ht e < f) →
      ∃ h' n, Heap.nestTrim c fuel (f + 1) (c.kids g) h = some (h', n) ∧ Post c g h h' n := by
  intro f
  induction f with
  | zero =>
    intro g h i hh
    have hnil : c.kids g = [] := List.eq_nil_iff_forall_not_mem.2 fun e he => absurd (hh e he) (Nat.not_lt_zero _)
    have hno : ∀ e, ¬ ThroughRegions c g e := by
      intro e he
      obtain ⟨v, hv, -⟩ := through_iff.1 he
      rw [hnil] at hv; simp at hv
    refine ⟨h, 0, ?_, i, fun e he => absurd he (hno e), fun _ _ => rfl, fun _ _ _ => Nat.zero_add _⟩
    rw [Heap.nestTrim, Graph.collectPaths_some (wf_level t i g) (acyclic_level i g) (hf g), Option.bind_some]
    rw [hnil]
    rfl
  | succ f ih =>
    intro g h i hh
    obtain ⟨h', n, l1, l2, l3, l4, l5⟩ := loop_spec t i (hf g) (Heap.nestTrim c fuel (f + 1))
      (fun v hv h2 i2 => ih (some v) h2 i2 (fun e he => by have := t.height v e he; have := hh v hv; omega))
      (c.kids g) h 0 (t.nodup g) (fun _ h => h) i (fun _ _ _ _ => rfl)
    refine ⟨h', n, ?_, l2, ?_, ?_, ?_⟩
    · rw [Heap.nestTrim, Graph.collectPaths_some (wf_level t i g) (acyclic_level i g) (hf g), Option.bind_some]
      exact l1
    · intro e he
      obtain ⟨v, hv, ha⟩ := through_iff.1 he
      exact l3 v hv e ha
    · intro e he
      exact l4 e (fun v hv ha => he (through_iff.2 ⟨v, hv, ha⟩))
    · intro all ha hal
      have := l5 all ha (fun v hv e he => hal e (through_iff.2 ⟨v, hv, he⟩))
      omega

end NestTrim
end CGraph
