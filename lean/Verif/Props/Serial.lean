import Verif.Lemmas.Serial

/-! # `makeSerial` with groups: C89 -/
namespace CGraph
namespace SerCfg
open Spec SepCfg

theorem dyn_wf {c : SerCfg} {fuel : Nat} (hw : SepWF c.toSepCfg fuel) {elems : List Eid} {b : Option Eid}
    (hb : ∀ i, i ∈ elems ↔ c.known i = true ∧ c.belong i = b) (hn : elems.Nodup) : (c.dyn elems).g.WF :=
  level_wf hw hb hn

theorem dyn_acyclic {c : SerCfg} {fuel : Nat} (hw : SepWF c.toSepCfg fuel) (elems : List Eid) :
    AcyclicOn (c.dyn elems).g.Edge (c.dyn elems).g.elems := level_acyclic hw elems

theorem check_ok {g : Graph} {ok : Eid → Bool} (h : g.checkSerializable ok = true) : ∀ e ∈ g.elems, ok e = true := by
  simp only [Graph.checkSerializable, Bool.and_eq_true, List.all_eq_true] at h
  exact fun e he => (h.1.1 e he).1.1

theorem check_region {c : SerCfg} {f : Nat} {elems : List Eid}
    (h : (c.dyn elems).g.checkSerializable (fun i => c.serializable f i && !c.async i) = true) :
    ∀ i ∈ elems, c.serializable f i = true := by
  intro i hi
  have := check_ok h i hi
  simp only [Bool.and_eq_true] at this
  exact this.1

/-- What is accepted inside of an accepted element. -/
theorem kid_ok {c : SerCfg} {f : Nat} {e k : Eid} (h : c.serializable (f + 1) e = true) (hk : k ∈ c.kids e)
    (hn : c.kind e ≠ .node) : c.serializable f k = true := by
  unfold serializable at h
  cases hkind : c.kind e with
  | node => exact absurd hkind hn
  | cluster | condition | multiSerial => rw [hkind] at h; exact List.all_eq_true.mp h k hk
  | multiParallel =>
    rw [hkind] at h
    simp only at h
    split at h
    · cases h
    · exact List.all_eq_true.mp h k hk
  | region =>
    rw [hkind] at h
    simp only [Bool.and_eq_true] at h
    exact check_region h.2 k hk
  | some | mutab => rw [hkind] at h; cases h

/-- An accepted element without anything that needs the pool is executed by the caller, in order. -/
theorem exec_order {c : SerCfg} {fuel : Nat} (hw : SepWF c.toSepCfg fuel) (hsb : SameBinding c) (hnp : NothingParallel c)
    {depth : Eid → Nat} (hd : ∀ e g, c.belong e = some g → depth g < depth e) (hdf : ∀ e, c.known e = true → depth e < fuel) :
    ∀ (f : Nat) (e : Eid), c.known e = true → fuel ≤ f + depth e → c.serializable f e = true →
      ∃ l, InOrder c e l ∧ c.exec f e = outOf c.ok l := by
  intro f
  induction f with
  | zero =>
    intro e he hf
    have := hdf e he
    omega
  | succ f ih =>
    intro e he hf hs
    have hkid : ∀ k ∈ c.kids e, c.kind e ≠ .node → ∃ l, InOrder c k l ∧ c.exec f k = outOf c.ok l := by
      intro k hk hn
      have h1 := (hw.kid_iff e k).mp hk
      have h2 := hd k e h1.2
      exact ih k h1.1 (by omega) (kid_ok hs hk hn)
    have hkids : c.kind e ≠ .node → ∃ L : Eid → List Eid, ∀ k ∈ c.kids e, InOrder c k (L k) ∧ c.exec f k = outOf c.ok (L k) := by
      intro hn
      have : ∀ k, ∃ l, k ∈ c.kids e → InOrder c k l ∧ c.exec f k = outOf c.ok l := by
        intro k
        by_cases hk : k ∈ c.kids e
        · obtain ⟨l, h⟩ := hkid k hk hn
          exact ⟨l, fun _ => h⟩
        · exact ⟨[], fun h => absurd h hk⟩
      choose L hL using this
      exact ⟨L, fun k hk => hL k hk⟩
    unfold exec
    simp only [(hnp e he).1, Bool.false_eq_true, if_false]
    cases hk : c.kind e with
    | node =>
      refine ⟨[e], .node hk, ?_⟩
      simp only [outOf, upToFirst]
      by_cases h : c.ok e = true <;> simp [h]
    | cluster =>
      obtain ⟨L, hL⟩ := hkids (by simp [hk])
      exact ⟨_, .cluster L hk (fun i hi => (hL i hi).1), seqRun_outOf _ (fun i hi => (hL i hi).2)⟩
    | multiSerial =>
      obtain ⟨L, hL⟩ := hkids (by simp [hk])
      exact ⟨_, .multi L hk (fun i hi _ => (hL i hi).1), seqRun_outOf _ (fun i hi => (hL i (List.mem_filter.mp hi).1).2)⟩
    | multiParallel =>
      have h0 := (hnp e he).2 hk
      refine ⟨[], .par hk h0, ?_⟩
      simp [h0, outOf, upToFirst]
    | condition =>
      simp only
      by_cases h1 : c.choose e = -1
      · cases h2 : (c.kids e).getLast? with
        | none =>
          have h3 : c.chosen e = none := by simp [chosen, h1, h2]
          refine ⟨[], .default hk (.inr (.inr (by simpa using h2))), ?_⟩
          simp [h3, outOf, upToFirst]
        | some k =>
          have h3 : c.chosen e = some k := by simp [chosen, h1, h2]
          obtain ⟨l, hl1, hl2⟩ := hkid k (List.mem_of_getLast? h2) (by simp [hk])
          refine ⟨l, .last hk h1 h2 hl1, ?_⟩
          simp only [h3, hl2]
      · by_cases h2 : 0 ≤ c.choose e
        · cases h4 : (c.kids e)[(c.choose e).toNat]? with
          | none =>
            have h3 : c.chosen e = none := by simp [chosen, h1, h2, h4]
            refine ⟨[], .default hk (.inr (.inl (by simpa using h4))), ?_⟩
            simp [h3, outOf, upToFirst]
          | some k =>
            have h3 : c.chosen e = some k := by simp [chosen, h1, h2, h4]
            obtain ⟨l, hl1, hl2⟩ := hkid k (List.mem_of_getElem? h4) (by simp [hk])
            refine ⟨l, .pick (c.choose e).toNat hk (by omega) h4 hl1, ?_⟩
            simp only [h3, hl2]
        · have h3 : c.chosen e = none := by simp [chosen, h1, h2]
          refine ⟨[], .default hk (.inl (by omega)), ?_⟩
          simp [h3, outOf, upToFirst]
    | region =>
      obtain ⟨L, hL⟩ := hkids (by simp [hk])
      unfold serializable at hs
      rw [hk] at hs
      simp only [Bool.and_eq_true] at hs
      obtain ⟨o, h1, h2, h3⟩ := levelRun_same (dyn_wf hw (hw.kid_iff e) (hw.kids_nodup e)) (dyn_acyclic hw _) hs.2
        (hsb.2 e he hk) (c.exec f)
      refine ⟨o.flatMap L, .region L o hk h1 h2 (fun i hi => (hL i hi).1), ?_⟩
      rw [h3]
      exact seqRun_outOf _ (fun i hi => (hL i (h1.mem_iff.mp hi)).2)
    | some => unfold serializable at hs; rw [hk] at hs; cases hs
    | mutab => unfold serializable at hs; rw [hk] at hs; cases hs

/-- **C89** (what holds).  If `makeSerial` accepts a pipeline in which the elements of every level have the same binding,
no element has a timeout and no parallel multi-condition has a member, then a run needs no thread of the pool: the caller
executes the nodes, at every depth of nesting, one after the other in an order that respects clusters, conditions and
dependencies, each once, up to the first that fails. -/
theorem C89_order_partial (c : SerCfg) (fuel : Nat) (hw : SepWF c.toSepCfg fuel) (ha : c.accepts fuel = true)
    (hsb : SameBinding c) (hnp : NothingParallel c) :
    ∃ l, InOrderAll c l ∧ (c.execAll fuel).trace = upToFirst (fun e => !c.ok e) l ∧
      (c.execAll fuel).res = (if l.all c.ok then .ok else .err) := by
  obtain ⟨depth, hd, hdf⟩ := hw.tree
  simp only [accepts, Bool.and_eq_true] at ha
  have hk : ∀ k, ∃ l, k ∈ c.top → InOrder c k l ∧ c.exec fuel k = outOf c.ok l := by
    intro k
    by_cases hk : k ∈ c.top
    · obtain ⟨l, h⟩ := exec_order hw hsb hnp hd hdf fuel k ((hw.top_iff k).mp hk).1 (by omega) (check_region ha.2 k hk)
      exact ⟨l, fun _ => h⟩
    · exact ⟨[], fun h => absurd h hk⟩
  choose L hL using hk
  obtain ⟨o, h1, h2, h3⟩ := levelRun_same (dyn_wf hw hw.top_iff hw.top_nodup) (dyn_acyclic hw _) ha.2 hsb.1 (c.exec fuel)
  have h4 : c.execAll fuel = outOf c.ok (o.flatMap L) := by
    rw [execAll, h3]
    exact seqRun_outOf _ (fun i hi => (hL i (h1.mem_iff.mp hi)).2)
  refine ⟨o.flatMap L, ⟨L, o, h1, h2, fun i hi => (hL i hi).1, rfl⟩, ?_, ?_⟩
  · rw [h4]; rfl
  · rw [h4]; rfl

theorem around_known {c : SerCfg} {fuel : Nat} (hw : SepWF c.toSepCfg fuel) {k x : Eid} (h : Around c.toSepCfg k x)
    (hx : c.known x = true) : c.known k = true := by
  induction h with
  | self => exact hx
  | member hb _ ih => exact ih (hw.parent _ _ hx hb).1

theorem upToFirst_prefix {p : Eid → Bool} (l : List Eid) : upToFirst p l <+: l := by
  induction l with
  | nil => exact List.prefix_rfl
  | cons a l ih =>
    simp only [upToFirst]
    split
    · exact ⟨l, rfl⟩
    · exact (List.cons_prefix_cons).mpr ⟨rfl, ih⟩

theorem inOrder_all {c : SerCfg} {fuel : Nat} (hw : SepWF c.toSepCfg fuel)
    (hc : ∀ e, c.known e = true → c.kind e ≠ .condition ∧ c.kind e ≠ .multiSerial) {x : Eid} (hx : c.known x = true)
    (hxn : c.kind x = .node) {e : Eid} {l : List Eid} (h : InOrder c e l) (hex : Around c.toSepCfg e x) : x ∈ l := by
  have hkid : ∀ e, c.kind e ≠ .node → Around c.toSepCfg e x → ∃ k ∈ c.kids e, Around c.toSepCfg k x := by
    intro e hn h
    obtain ⟨k, h1, h2⟩ := holds_via h (fun he => hn (by rw [← he]; exact hxn))
    exact ⟨k, (hw.kid_iff e k).mpr ⟨around_known hw h2 hx, h1⟩, h2⟩
  induction h with
  | @node e hk =>
    cases hex with
    | self => simp
    | member hb hp => 
      exfalso
      obtain ⟨k, h1, h3⟩ := holds_via (.member hb hp) (fun h : x = e => by
        subst h
        obtain ⟨depth, hd, -⟩ := hw.tree
        have h1 := (holds_depth hd hp).1
        have h2 := hd _ _ hb
        omega)
      have h2 : c.known k = true := around_known hw h3 hx
      exact (hw.parent k e h2 h1).2 hk
  | @cluster e F hk _ ih =>
    obtain ⟨k, h1, h2⟩ := hkid e (by simp [hk]) hex
    exact List.mem_flatMap.mpr ⟨k, h1, ih k h1 h2⟩
  | @region e F o hk hp _ _ ih =>
    obtain ⟨k, h1, h2⟩ := hkid e (by simp [hk]) hex
    exact List.mem_flatMap.mpr ⟨k, hp.mem_iff.mpr h1, ih k h1 h2⟩
  | last hk => exact absurd hk (hc _ (around_known hw hex hx)).1
  | pick _ hk => exact absurd hk (hc _ (around_known hw hex hx)).1
  | default hk => exact absurd hk (hc _ (around_known hw hex hx)).1
  | multi _ hk => exact absurd hk (hc _ (around_known hw hex hx)).2
  | @par e hk h0 =>
    obtain ⟨k, h1, -⟩ := hkid e (by simp [hk]) hex
    rw [h0] at h1
    cases h1

theorem known_serializable {c : SerCfg} {fuel : Nat} (hw : SepWF c.toSepCfg fuel) (ha : c.accepts fuel = true) {x : Eid}
    (hx : c.known x = true) : ∃ r ∈ c.top, Around c.toSepCfg r x ∧ c.serializable fuel r = true := by
  obtain ⟨r, h1, h2⟩ := root_of hw hx
  simp only [accepts, Bool.and_eq_true] at ha
  exact ⟨r, h1, h2, check_region ha.2 r h1⟩

theorem inOrder_inside {c : SerCfg} {fuel : Nat} (hw : SepWF c.toSepCfg fuel) {e : Eid} {l : List Eid} (h : InOrder c e l) :
    l.Nodup ∧ ∀ x ∈ l, Around c.toSepCfg e x ∧ c.kind x = .node := by
  have hflat : ∀ (g : Eid) (o : List Eid) (F : Eid → List Eid), o.Nodup → (∀ i ∈ o, i ∈ c.kids g) →
      (∀ i ∈ o, (F i).Nodup ∧ ∀ x ∈ F i, Around c.toSepCfg i x ∧ c.kind x = .node) →
      (o.flatMap F).Nodup ∧ ∀ x ∈ o.flatMap F, Around c.toSepCfg g x ∧ c.kind x = .node := by
    intro g o F ho hk hF
    constructor
    · rw [List.nodup_flatMap]
      refine ⟨fun i hi => (hF i hi).1, ?_⟩
      refine List.Pairwise.imp_of_mem ?_ ho
      intro a b ha hb hab x hxa hxb
      exact hab (holds_unique hw (by rw [((hw.kid_iff g a).mp (hk a ha)).2, ((hw.kid_iff g b).mp (hk b hb)).2])
        ((hF a ha).2 x hxa).1 ((hF b hb).2 x hxb).1)
    · intro x hx
      obtain ⟨i, hi, hxi⟩ := List.mem_flatMap.mp hx
      have := (hF i hi).2 x hxi
      exact ⟨Around.trans (.member ((hw.kid_iff g i).mp (hk i hi)).2 .self) this.1, this.2⟩
  induction h with
  | node hk => exact ⟨by simp, fun x hx => by rw [List.mem_singleton.mp hx]; exact ⟨.self, hk⟩⟩
  | @cluster e F hk _ ih => exact hflat e _ F (hw.kids_nodup e) (fun _ h => h) ih
  | @last e k l hk _ hl _ ih =>
    have := ((hw.kid_iff e k).mp (List.mem_of_getLast? hl)).2
    exact ⟨ih.1, fun x hx => ⟨Around.trans (.member this .self) (ih.2 x hx).1, (ih.2 x hx).2⟩⟩
  | @pick e k l n hk _ hl _ ih =>
    have := ((hw.kid_iff e k).mp (List.mem_of_getElem? hl)).2
    exact ⟨ih.1, fun x hx => ⟨Around.trans (.member this .self) (ih.2 x hx).1, (ih.2 x hx).2⟩⟩
  | default => exact ⟨by simp, by simp⟩
  | par => exact ⟨by simp, by simp⟩
  | @multi e F hk _ ih =>
    exact hflat e _ F ((hw.kids_nodup e).filter _) (fun i hi => (List.mem_filter.mp hi).1)
      (fun i hi => ih i (List.mem_filter.mp hi).1 (List.mem_filter.mp hi).2)
  | @region e F o hk hp _ _ ih =>
    exact hflat e o F (hp.nodup_iff.mpr (hw.kids_nodup e)) (fun i hi => hp.mem_iff.mp hi)
      (fun i hi => ih i (hp.mem_iff.mp hi))

/-- **C89**: in such a run no node is executed twice, and an accepted pipeline whose bodies do not fail executes, unless
conditions decide otherwise, every node. -/
theorem C89_once_partial (c : SerCfg) (fuel : Nat) (hw : SepWF c.toSepCfg fuel) (ha : c.accepts fuel = true)
    (hsb : SameBinding c) (hnp : NothingParallel c) :
    (c.execAll fuel).trace.Nodup ∧
      ((∀ e, c.known e = true → c.kind e ≠ .condition ∧ c.kind e ≠ .multiSerial) → (∀ e, c.ok e = true) →
        ∀ x, c.known x = true → c.kind x = .node → x ∈ (c.execAll fuel).trace) := by
  obtain ⟨l, ⟨F, o, h1, h2, h3, rfl⟩, h4, h5⟩ := C89_order_partial c fuel hw ha hsb hnp
  rw [h4]
  constructor
  · refine List.Nodup.sublist (upToFirst_prefix _).sublist ?_
    rw [List.nodup_flatMap]
    refine ⟨fun i hi => (inOrder_inside hw (h3 i (h1.mem_iff.mp hi))).1, ?_⟩
    refine List.Pairwise.imp_of_mem ?_ (h1.nodup_iff.mpr hw.top_nodup)
    intro a b ha hb hab x hxa hxb
    have ha' := h1.mem_iff.mp ha
    have hb' := h1.mem_iff.mp hb
    exact hab (holds_unique hw (by rw [((hw.top_iff a).mp ha').2, ((hw.top_iff b).mp hb').2])
      ((inOrder_inside hw (h3 a ha')).2 x hxa).1 ((inOrder_inside hw (h3 b hb')).2 x hxb).1)
  · intro hc hok x hx hk
    rw [upToFirst_all _ (by simp [hok])]
    obtain ⟨r, hr, hrx, -⟩ := known_serializable hw ha hx
    refine List.mem_flatMap.mpr ⟨r, h1.mem_iff.mpr hr, ?_⟩
    exact inOrder_all hw hc hx hk (h3 r hr) hrx

/-! ## What is accepted -/

theorem level_iff {c : SerCfg} {fuel : Nat} (hw : SepWF c.toSepCfg fuel) {elems : List Eid} {b : Option Eid}
    (hb : ∀ i, i ∈ elems ↔ c.known i = true ∧ c.belong i = b) (hn : elems.Nodup) (p : Eid → Bool) :
    (c.dyn elems).g.checkSerializable (fun i => p i && !c.async i) = true ↔
      ChainLevel c elems ∧ ∀ e ∈ elems, p e = true := by
  rw [C36_exact_partial _ (dyn_wf hw hb hn) (dyn_acyclic hw elems)]
  simp only [Bool.and_eq_true, Bool.not_eq_true']
  constructor
  · rintro ⟨h1, h2⟩
    exact ⟨⟨fun e he => (h1 e he).2, h2⟩, fun e he => (h1 e he).1⟩
  · rintro ⟨⟨h1, h2⟩, h3⟩
    exact ⟨fun e he => ⟨h3 e he, h1 e he⟩, h2⟩

/-- What one element contributes. -/
def AccOne (c : SerCfg) (e : Eid) : Prop :=
  c.kind e ≠ .some ∧ c.kind e ≠ .mutab ∧ (c.kind e = .multiParallel → (c.kids e).length ≤ 1) ∧
    (c.kind e = .region → c.dynamic e = true ∧ ChainLevel c (c.kids e))

theorem serializable_succ {c : SerCfg} {fuel : Nat} (hw : SepWF c.toSepCfg fuel) (f : Nat) (e : Eid)
    (hnk : c.kind e = .node → c.kids e = []) :
    c.serializable (f + 1) e = true ↔ AccOne c e ∧ ∀ k ∈ c.kids e, c.serializable f k = true := by
  generalize hS : c.serializable f = S
  rw [show c.serializable (f + 1) e = true ↔ (match c.kind e with
    | .node => true
    | .cluster | .condition | .multiSerial => (c.kids e).all S
    | .multiParallel => if (c.kids e).length > 1 then false else (c.kids e).all S
    | .region => c.dynamic e && (c.dyn (c.kids e)).g.checkSerializable (fun i => S i && !c.async i)
    | .some | .mutab => false) = true by rw [← hS]; rfl]
  unfold AccOne
  cases hk : c.kind e with
  | node => simp [hnk hk]
  | cluster | condition | multiSerial => simp
  | multiParallel =>
    simp only [reduceCtorEq, ne_eq, not_false_eq_true, forall_const, false_implies, and_true, true_and]
    by_cases h : (c.kids e).length > 1
    · rw [if_pos h]
      simp only [Bool.false_eq_true, false_iff]
      rintro ⟨h1, -⟩
      omega
    · rw [if_neg h]
      simp only [List.all_eq_true]
      exact ⟨fun h2 => ⟨by omega, h2⟩, fun h2 => h2.2⟩
  | region =>
    simp only [Bool.and_eq_true, reduceCtorEq, ne_eq, not_false_eq_true, forall_const, false_implies, true_and]
    rw [level_iff hw (hw.kid_iff e) (hw.kids_nodup e)]
    constructor
    · rintro ⟨h1, h2, h3⟩; exact ⟨⟨h1, h2⟩, h3⟩
    · rintro ⟨⟨h1, h2⟩, h3⟩; exact ⟨h1, h2, h3⟩
  | some | mutab => simp

theorem serializable_iff {c : SerCfg} {fuel : Nat} (hw : SepWF c.toSepCfg fuel) {depth : Eid → Nat}
    (hd : ∀ e g, c.belong e = some g → depth g < depth e) (hdf : ∀ e, c.known e = true → depth e < fuel) :
    ∀ (f : Nat) (e : Eid), c.known e = true → fuel ≤ f + depth e →
      (c.serializable f e = true ↔ ∀ x, Around c.toSepCfg e x → c.known x = true → AccOne c x) := by
  intro f
  induction f with
  | zero =>
    intro e he hf
    have := hdf e he
    omega
  | succ f ih =>
    intro e he hf
    have hnk : c.kind e = .node → c.kids e = [] := by
      intro hn
      by_contra hne
      obtain ⟨k, l, hkl⟩ := List.exists_cons_of_ne_nil hne
      have h1 := (hw.kid_iff e k).mp (by rw [hkl]; simp)
      exact (hw.parent k e h1.1 h1.2).2 hn
    rw [serializable_succ hw f e hnk]
    have hkid : ∀ k ∈ c.kids e, (c.serializable f k = true ↔ ∀ x, Around c.toSepCfg k x → c.known x = true → AccOne c x) := by
      intro k hk
      have h1 := (hw.kid_iff e k).mp hk
      have h2 := hd k e h1.2
      exact ih k h1.1 (by omega)
    constructor
    · rintro ⟨h1, h2⟩ x hx hkx
      by_cases hxe : x = e
      · rw [hxe]; exact h1
      · obtain ⟨k, hb, hkx2⟩ := holds_via hx hxe
        have hkk : k ∈ c.kids e := (hw.kid_iff e k).mpr ⟨around_known hw hkx2 hkx, hb⟩
        exact (hkid k hkk).mp (h2 k hkk) x hkx2 hkx
    · intro h
      refine ⟨h e .self he, fun k hk => (hkid k hk).mpr (fun x hx hkx => h x ?_ hkx)⟩
      exact Around.trans (.member ((hw.kid_iff e k).mp hk).2 .self) hx

/-- **C89** (what is accepted).  `makeSerial` accepts exactly the pipelines that are chains at every level, without
some-groups, mutable groups and parallel multi-conditions with several members, at every depth. -/
theorem C89_accepts (c : SerCfg) (fuel : Nat) (hw : SepWF c.toSepCfg fuel) : c.accepts fuel = true ↔ Acceptable c := by
  obtain ⟨depth, hd, hdf⟩ := hw.tree
  unfold accepts Acceptable
  rw [Bool.and_eq_true, level_iff hw hw.top_iff hw.top_nodup]
  have h := fun e he => serializable_iff hw hd hdf fuel e he (by omega)
  constructor
  · rintro ⟨h1, h2, h3⟩
    refine ⟨h1, h2, fun e he => ?_⟩
    obtain ⟨r, hr, hre⟩ := root_of hw he
    exact (h r ((hw.top_iff r).mp hr).1).mp (h3 r hr) e hre he
  · rintro ⟨h1, h2, h3⟩
    exact ⟨h1, h2, fun e he => (h e ((hw.top_iff e).mp he).1).mpr (fun x _ hx => h3 x hx)⟩

/-! ## What needs the pool -/

/-- If no body fails, nothing accepted fails. -/
theorem exec_no_err {c : SerCfg} {fuel : Nat} (hw : SepWF c.toSepCfg fuel) (hok : ∀ e, c.ok e = true) :
    ∀ (f : Nat) (e : Eid), c.serializable f e = true → (c.exec f e).res ≠ .err := by
  intro f
  induction f with
  | zero => intro e _; simp [exec]
  | succ f ih =>
    intro e hs
    have hkid : ∀ k ∈ c.kids e, c.kind e ≠ .node → (c.exec f k).res ≠ .err := fun k hk hn => ih k (kid_ok hs hk hn)
    unfold exec
    split
    · simp
    · cases hk : c.kind e with
      | node => simp [hok]
      | cluster => exact seqRun_err (fun i hi => hkid i hi (by simp [hk]))
      | multiSerial => exact seqRun_err (fun i hi => hkid i (List.mem_filter.mp hi).1 (by simp [hk]))
      | multiParallel => simp only; split <;> simp
      | condition =>
        simp only
        cases hc : c.chosen e with
        | none => simp
        | some k =>
          refine hkid k ?_ (by simp [hk])
          unfold chosen at hc
          split at hc
          · exact List.mem_of_getLast? hc
          · split at hc
            · exact List.mem_of_getElem? hc
            · cases hc
      | region =>
        unfold serializable at hs
        rw [hk] at hs
        simp only [Bool.and_eq_true] at hs
        exact levelRun_err (dyn_wf hw (hw.kid_iff e) (hw.kids_nodup e)) (dyn_acyclic hw _) hs.2
          (fun i hi => hkid i hi (by simp [hk]))
      | some => simp
      | mutab => simp

/-- If something inside is lost, and conditions lead there, the group is lost. -/
theorem lost_up {c : SerCfg} {fuel : Nat} (hw : SepWF c.toSepCfg fuel) (hok : ∀ e, c.ok e = true)
    (hm : ∀ e, c.isMatch e = true) {x : Eid} (hch : ∀ g k, k ∈ c.kids g → Around c.toSepCfg k x → c.chosen g = some k)
    {g y : Eid} (h : Around c.toSepCfg g y) (hyx : Around c.toSepCfg y x) (hy : c.known y = true)
    (hl : ∀ f, c.serializable f y = true → (c.exec f y).res = .lost) :
    ∀ f, c.serializable f g = true → (c.exec f g).res = .lost := by
  induction h with
  | self => exact hl
  | @member y p hb hp ih =>
    have hpk := hw.parent y p hy hb
    have hky : y ∈ c.kids p := (hw.kid_iff p y).mpr ⟨hy, hb⟩
    refine ih (Around.trans (.member hb .self) hyx) hpk.1 ?_
    intro f hs
    cases f with
    | zero => rfl
    | succ f =>
      have hyl := hl f (kid_ok hs hky hpk.2)
      have hne : ∀ i ∈ c.kids p, (c.exec f i).res ≠ .err := fun i hi => exec_no_err hw hok f i (kid_ok hs hi hpk.2)
      unfold exec
      split
      · rfl
      · cases hk : c.kind p with
        | node => exact absurd hk hpk.2
        | cluster => exact seqRun_lost hne hky hyl
        | multiSerial =>
          refine seqRun_lost (fun i hi => hne i (List.mem_filter.mp hi).1) (List.mem_filter.mpr ⟨hky, hm y⟩) hyl
        | multiParallel =>
          simp only
          rw [if_pos (List.any_eq_true.mpr ⟨y, hky, hm y⟩)]
        | condition => simp only [hch p y hky hyx]; exact hyl
        | region =>
          unfold serializable at hs
          rw [hk] at hs
          simp only [Bool.and_eq_true] at hs
          exact levelRun_lost (dyn_wf hw (hw.kid_iff p) (hw.kids_nodup p)) (dyn_acyclic hw _) hs.2 hne hky hyl
        | some => rfl
        | mutab => rfl

/-- The answers of user code that lead to `x`, with no failure. -/
noncomputable def steer (c : SerCfg) (x : Eid) : SerCfg :=
  open Classical in
  { c with
    choose := fun g => if h : ∃ k, k ∈ c.kids g ∧ Around c.toSepCfg k x then ((c.kids g).idxOf h.choose : Int) else 0
    isMatch := fun _ => true
    ok := fun _ => true }

theorem steer_chosen {c : SerCfg} {fuel : Nat} (hw : SepWF c.toSepCfg fuel) (x g k : Eid) (hk : k ∈ c.kids g)
    (hkx : Around c.toSepCfg k x) : (c.steer x).chosen g = some k := by
  classical
  have hex : ∃ k, k ∈ c.kids g ∧ Around c.toSepCfg k x := ⟨k, hk, hkx⟩
  have h1 : hex.choose = k := by
    have hs := hex.choose_spec
    exact holds_unique hw (by rw [((hw.kid_iff g _).mp hs.1).2, ((hw.kid_iff g k).mp hk).2]) hs.2 hkx
  have h2 : (c.steer x).choose g = ((c.kids g).idxOf k : Int) := by
    simp only [steer]
    rw [dif_pos hex, h1]
  have hlt : (c.kids g).idxOf k < (c.kids g).length := List.idxOf_lt_length_iff.mpr hk
  have h3 : (c.steer x).kids = c.kids := rfl
  unfold chosen
  rw [h2, if_neg (by omega), if_pos (by omega), h3]
  simp [List.getElem?_eq_getElem hlt]

theorem steer_serializable {c : SerCfg} (x : Eid) : ∀ f e, (c.steer x).serializable f e = c.serializable f e := by
  intro f
  induction f with
  | zero => intro e; rfl
  | succ f ih =>
    have h1 : (c.steer x).serializable f = c.serializable f := funext ih
    intro e
    show serializable (c.steer x) (f + 1) e = _
    unfold serializable
    rw [h1]
    rfl

/-- If an element is lost whenever it is executed, there are answers of user code with which the run is lost. -/
theorem lost_run {c : SerCfg} {fuel : Nat} (hw : SepWF c.toSepCfg fuel) (ha : c.accepts fuel = true) {x : Eid}
    (hx : c.known x = true) (hl : ∀ f, c.serializable f x = true → ((c.steer x).exec f x).res = .lost) :
    ((c.steer x).execAll fuel).res = .lost := by
  have hw' : SepWF (c.steer x).toSepCfg fuel := hw
  obtain ⟨r, h1, h2, h3⟩ := known_serializable hw ha hx
  have hr := lost_up hw' (fun _ => rfl) (fun _ => rfl) (x := x) (fun g k hk hkx => steer_chosen hw x g k hk hkx) h2 .self hx
    (fun f hs => hl f (by rw [steer_serializable] at hs; exact hs)) fuel (by rw [steer_serializable]; exact h3)
  simp only [accepts, Bool.and_eq_true] at ha
  have hfun : (c.steer x).serializable fuel = c.serializable fuel := funext (steer_serializable x fuel)
  refine levelRun_lost (dyn_wf hw' hw.top_iff hw.top_nodup) (dyn_acyclic hw' _) ha.2 ?_ h1 hr
  intro i hi
  exact exec_no_err hw' (fun _ => rfl) fuel i (by rw [hfun]; exact check_region ha.2 i hi)

theorem ser_all (c : SerCfg) (ch : Eid → Int) (m ok : Eid → Bool) : ∀ f e,
    serializable { c with choose := ch, isMatch := m, ok := ok } f e = c.serializable f e := by
  intro f
  induction f with
  | zero => intro e; rfl
  | succ f ih =>
    have h1 : serializable { c with choose := ch, isMatch := m, ok := ok } f = c.serializable f := funext ih
    intro e
    unfold serializable
    rw [h1]
    rfl

theorem acc_all (c : SerCfg) (fuel : Nat) (ch : Eid → Int) (m ok : Eid → Bool) :
    accepts { c with choose := ch, isMatch := m, ok := ok } fuel = c.accepts fuel := by
  have h1 : serializable { c with choose := ch, isMatch := m, ok := ok } fuel = c.serializable fuel :=
    funext (ser_all c ch m ok fuel)
  unfold accepts
  rw [h1]
  rfl

/-- **C89** violated for different bindings: if `makeSerial` accepts a pipeline of which two elements have different
bindings (a region and a node have, by default), no run without a failure ends, whatever user code answers. -/
theorem C89_binding_violated (c : SerCfg) (fuel : Nat) (hw : SepWF c.toSepCfg fuel) (ha : c.accepts fuel = true)
    (hok : ∀ e, c.ok e = true) (a b : Eid) (hat : a ∈ c.top) (hbt : b ∈ c.top) (hab : c.bind a ≠ c.bind b) :
    (c.execAll fuel).res = .lost := by
  simp only [accepts, Bool.and_eq_true] at ha
  refine levelRun_differ (dyn_wf hw hw.top_iff hw.top_nodup) (dyn_acyclic hw _) ha.2 (fun h => hab (h a hat b hbt)) ?_
  intro i hi
  exact exec_no_err hw hok fuel i (check_region ha.2 i hi)

/-- **C89** violated for an element with a timeout inside of a cluster or condition: `makeSerial` accepts the pipeline, but
there are answers of user code with which the element is handed to the pool. -/
theorem C89_timeout_violated (c : SerCfg) (fuel : Nat) (hw : SepWF c.toSepCfg fuel) (ha : c.accepts fuel = true) (x : Eid)
    (hx : c.known x = true) (hasy : c.async x = true) :
    ∃ choose, ({ c with choose := choose, isMatch := fun _ => true, ok := fun _ => true }.execAll fuel).res = .lost := by
  refine ⟨(c.steer x).choose, lost_run hw ha hx ?_⟩
  intro f _
  cases f with
  | zero => rfl
  | succ f =>
    have : (c.steer x).async x = true := hasy
    simp [exec, this]

/-- **C89** violated for a parallel multi-condition with one member: `makeSerial` accepts it, but its member is handed to
the pool. -/
theorem C89_parallel_violated (c : SerCfg) (fuel : Nat) (hw : SepWF c.toSepCfg fuel) (ha : c.accepts fuel = true) (x : Eid)
    (hx : c.known x = true) (hk : c.kind x = .multiParallel) (hne : c.kids x ≠ []) :
    ∃ choose, ({ c with choose := choose, isMatch := fun _ => true, ok := fun _ => true }.execAll fuel).res = .lost := by
  refine ⟨(c.steer x).choose, lost_run hw ha hx ?_⟩
  intro f _
  cases f with
  | zero => rfl
  | succ f =>
    unfold exec
    split
    · rfl
    · have h1 : (c.steer x).kind x = .multiParallel := hk
      rw [h1]
      simp only
      obtain ⟨k, l, hkl⟩ := List.exists_cons_of_ne_nil hne
      have h2 : (c.steer x).kids x = k :: l := hkl
      have h3 : (c.steer x).isMatch k = true := rfl
      rw [h2, if_pos (by simp [h3])]

/-- **C89** (exact).  After `makeSerial` has accepted the pipeline, its runs never need the pool, whatever user code
answers, if and only if the elements of every level have the same binding, no element has a timeout and no parallel
multi-condition has a member. -/
theorem C89_exact (c : SerCfg) (fuel : Nat) (hw : SepWF c.toSepCfg fuel) (ha : c.accepts fuel = true) :
    (∀ choose isMatch ok, ({ c with choose := choose, isMatch := isMatch, ok := ok }.execAll fuel).res ≠ .lost) ↔
      SameBinding c ∧ NothingParallel c := by
  constructor
  · intro h
    refine ⟨⟨?_, ?_⟩, ?_⟩
    · intro a hat b hbt
      by_contra hab
      exact h c.choose c.isMatch (fun _ => true)
        (C89_binding_violated { c with ok := fun _ => true } fuel hw ((acc_all c fuel c.choose c.isMatch _).trans ha) (fun _ => rfl) a b hat hbt hab)
    · intro g hg hk a hat b hbt
      by_contra hab
      refine h (c.steer g).choose (fun _ => true) (fun _ => true) (lost_run hw ha hg ?_)
      intro f hs
      cases f with
      | zero => rfl
      | succ f =>
        have hs' := hs
        unfold serializable at hs
        rw [hk] at hs
        simp only [Bool.and_eq_true] at hs
        unfold exec
        split
        · rfl
        · have h1 : (c.steer g).kind g = .region := hk
          rw [h1]
          simp only
          refine levelRun_differ (d := (c.steer g).dyn (c.kids g)) (dyn_wf (c := c.steer g) hw (hw.kid_iff g) (hw.kids_nodup g))
            (dyn_acyclic (c := c.steer g) hw _) hs.2 (fun h => hab (h a hat b hbt)) ?_
          intro i hi
          exact exec_no_err (c := c.steer g) hw (fun _ => rfl) f i (by
            rw [steer_serializable]; exact check_region hs.2 i hi)
    · intro e he
      refine ⟨?_, ?_⟩
      · by_contra hasy
        obtain ⟨ch, h1⟩ := C89_timeout_violated c fuel hw ha e he (by simpa using hasy)
        exact h ch _ _ h1
      · intro hk
        by_contra hne
        obtain ⟨ch, h1⟩ := C89_parallel_violated c fuel hw ha e he hk hne
        exact h ch _ _ h1
  · rintro ⟨hsb, hnp⟩ choose isMatch ok hl
    obtain ⟨l, -, -, h⟩ := C89_order_partial { c with choose := choose, isMatch := isMatch, ok := ok } fuel hw
      ((acc_all c fuel _ _ _).trans ha) hsb hnp
    rw [hl] at h
    split at h <;> cases h

/-! ## Cases that meet the hypotheses -/

/-- Node 0, then a group 1 of kind `k` around node 2, then node 3; `b` is the binding of the group, `t` the element with a
timeout. -/
def serEx (k : SepKind) (b : Int) (t : Option Eid) : SerCfg where
  known e := decide (e < 4)
  kind e := if e = 1 then k else .node
  kids e := if e = 1 then [2] else []
  top := [0, 1, 3]
  belong e := if e = 2 then some 1 else none
  deps e := if e = 1 then [0] else if e = 3 then [1] else []
  succs e := if e = 0 then [1] else if e = 1 then [3] else []
  bind e := if e = 1 then b else -1
  async e := decide (t = some e)
  dynamic _ := true
  topDynamic := true
  choose _ := 0
  isMatch _ := true
  ok _ := true

theorem serEx_wf (k : SepKind) (b : Int) (t : Option Eid) (hk : k ≠ .node) : SepWF (serEx k b t).toSepCfg 4 where
  kid_iff g e := by
    by_cases hg : g = 1
    · subst hg
      match e with
      | 0 | 1 | 2 | 3 => simp [serEx]
      | e + 4 => simp [serEx]
    · match e with
      | 0 | 1 | 2 | 3 => simp [serEx, hg, Ne.symm hg]
      | e + 4 => simp [serEx, hg]
  top_iff e := by
    match e with
    | 0 | 1 | 2 | 3 => simp [serEx]
    | e + 4 => simp [serEx]
  kids_nodup g := by simp only [serEx]; split <;> simp
  top_nodup := by simp [serEx]
  parent e g _ h := by
    simp only [serEx] at h ⊢
    split at h
    · cases h; simp [hk]
    · cases h
  tree := by
    refine ⟨fun e => if e = 2 then 1 else 0, ?_, ?_⟩
    · intro e g h
      simp only [serEx] at h
      split at h
      · rename_i he; cases h; subst he; decide
      · cases h
    · intro e _; simp only; split <;> omega
  deps_of e d h := by
    simp only [serEx] at h ⊢
    split at h
    · rename_i he; simp at h; subst h; subst he; simp
    · split at h
      · rename_i he; simp at h; subst h; subst he; simp
      · cases h
  sym d e := by
    match d, e with
    | 0, 0 | 0, 1 | 0, 2 | 0, 3 | 1, 0 | 1, 1 | 1, 2 | 1, 3 | 2, 0 | 2, 1 | 2, 2 | 2, 3 | 3, 0 | 3, 1 | 3, 2 | 3, 3 => simp [serEx]
    | d + 4, 0 | d + 4, 1 | d + 4, 2 | d + 4, 3 => simp [serEx]
    | 0, e + 4 | 1, e + 4 | 2, e + 4 | 3, e + 4 => simp [serEx]
    | d + 4, e + 4 => simp [serEx]
  deps_nodup e := by simp only [serEx]; split <;> [simp; (split <;> simp)]
  succs_nodup e := by simp only [serEx]; split <;> [simp; (split <;> simp)]
  acyclic := by
    refine ⟨id, ?_⟩
    intro e d h
    simp only [serEx] at h
    split at h
    · rename_i he; simp at h; subst h; subst he; decide
    · split at h
      · rename_i he; simp at h; subst h; subst he; decide
      · cases h
  fuel_kids g := by simp only [serEx]; split <;> simp
  fuel_top := by simp [serEx]

-- a cluster, and a region with the binding of the nodes, are executed by the caller in order
example : (serEx .cluster (-1) none).accepts 4 = true ∧ SameBinding (serEx .cluster (-1) none) ∧
    NothingParallel (serEx .cluster (-1) none) ∧ (serEx .cluster (-1) none).execAll 4 = ⟨[0, 2, 3], .ok⟩ := by
  refine ⟨by decide +kernel, ⟨?_, ?_⟩, ?_, by decide +kernel⟩
  · intro a _ b _; simp [serEx]
  · intro g _ _ a _ b _; simp [serEx]
  · intro e _
    refine ⟨by simp [serEx], ?_⟩
    intro h
    simp only [serEx] at h
    split at h <;> cases h

example : (serEx .region (-1) none).accepts 4 = true ∧ (serEx .region (-1) none).execAll 4 = ⟨[0, 2, 3], .ok⟩ := by
  decide +kernel

-- a region with its own binding (the default for groups): the run is lost after the first node
example : (serEx .region (-102) none).accepts 4 = true ∧ (serEx .region (-102) none).execAll 4 = ⟨[0], .lost⟩ := by
  decide +kernel

example : ((serEx .region (-102) none).execAll 4).res = .lost :=
  C89_binding_violated _ 4 (serEx_wf _ _ _ (by decide)) (by decide +kernel) (fun _ => rfl) 0 1 (by simp [serEx])
    (by simp [serEx]) (by simp [serEx])

-- a timeout inside of the cluster
example : (serEx .cluster (-1) (some 2)).accepts 4 = true ∧ (serEx .cluster (-1) (some 2)).async 2 = true ∧
    (serEx .cluster (-1) (some 2)).execAll 4 = ⟨[0], .lost⟩ := by decide +kernel

-- a parallel multi-condition with one member
example : (serEx .multiParallel (-1) none).accepts 4 = true ∧ (serEx .multiParallel (-1) none).execAll 4 = ⟨[0], .lost⟩ := by
  decide +kernel

end SerCfg
end CGraph
