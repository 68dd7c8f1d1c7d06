import Verif.Spec.Serial
import Verif.Props.Separate

/-! # `makeSerial` with groups: lemmas -/
namespace CGraph
namespace SerCfg
open Spec SepCfg

/-! ## Lists -/

/-- What is executed of the order `l`, and how it ends. -/
def outOf (ok : Eid → Bool) (l : List Eid) : SerOut := ⟨upToFirst (fun e => !ok e) l, if l.all ok then .ok else .err⟩

theorem upToFirst_append {p : Eid → Bool} (a b : List Eid) :
    upToFirst p (a ++ b) = if a.any p then upToFirst p a else a ++ upToFirst p b := by
  induction a with
  | nil => simp
  | cons x a ih =>
    simp only [List.cons_append, upToFirst, List.any_cons]
    by_cases hx : p x = true
    · simp [hx]
    · simp only [hx, if_false, ih, Bool.not_eq_true] at *
      simp only [Bool.false_or, Bool.false_eq_true, if_false]
      split <;> simp

theorem upToFirst_all {p : Eid → Bool} (a : List Eid) (h : a.any p = false) : upToFirst p a = a := by
  have := upToFirst_append (p := p) a []
  simpa [h, upToFirst] using this

theorem any_not_all {ok : Eid → Bool} (l : List Eid) : l.any (fun e => !ok e) = !l.all ok := by
  induction l with
  | nil => rfl
  | cons x l ih => simp only [List.any_cons, List.all_cons, ih, Bool.not_and]

theorem outOf_append {ok : Eid → Bool} (a b : List Eid) : outOf ok (a ++ b) =
    match (outOf ok a).res with
    | .ok => ⟨(outOf ok a).trace ++ (outOf ok b).trace, (outOf ok b).res⟩
    | _ => outOf ok a := by
  simp only [outOf, upToFirst_append, any_not_all]
  cases h : a.all ok with
  | true =>
    have h2 : upToFirst (fun e => !ok e) a = a := upToFirst_all a (by rw [any_not_all, h]; rfl)
    simp [h, h2]
  | false => simp [h]

theorem seqRun_outOf {ok : Eid → Bool} {f : Eid → SerOut} {L : Eid → List Eid} (ks : List Eid)
    (h : ∀ i ∈ ks, f i = outOf ok (L i)) : seqRun f ks = outOf ok (ks.flatMap L) := by
  induction ks with
  | nil => rfl
  | cons k ks ih =>
    rw [List.flatMap_cons, outOf_append, ← h k (by simp), ← ih (fun i hi => h i (List.mem_cons_of_mem _ hi))]
    rfl

/-- If nothing fails and something is lost, the sequence is lost. -/
theorem seqRun_lost {f : Eid → SerOut} {ks : List Eid} (hne : ∀ i ∈ ks, (f i).res ≠ .err) {k : Eid} (hk : k ∈ ks)
    (hl : (f k).res = .lost) : (seqRun f ks).res = .lost := by
  induction ks with
  | nil => cases hk
  | cons x ks ih =>
    cases hx : (f x).res with
    | err => exact absurd hx (hne x (by simp))
    | lost => simp [seqRun, hx]
    | ok =>
      have : k ∈ ks := by
        rcases List.mem_cons.mp hk with rfl | h
        · rw [hl] at hx; cases hx
        · exact h
      simp only [seqRun, hx]
      exact ih (fun i hi => hne i (List.mem_cons_of_mem _ hi)) this

theorem seqRun_err {f : Eid → SerOut} {ks : List Eid} (hne : ∀ i ∈ ks, (f i).res ≠ .err) : (seqRun f ks).res ≠ .err := by
  induction ks with
  | nil => simp [seqRun]
  | cons x ks ih =>
    cases hx : (f x).res with
    | err => exact absurd hx (hne x (by simp))
    | lost => simp [seqRun, hx]
    | ok =>
      simp only [seqRun, hx]
      exact ih (fun i hi => hne i (List.mem_cons_of_mem _ hi))

/-! ## One level -/

/-- The serial loop on a chain executes the chain. -/
theorem walk_chain {g : Graph} {f : Eid → SerOut} (l : List Eid) (e : Eid)
    (hc : (e :: l).IsChain (fun a b => g.succs a = [b] ∧ g.deps b = [a]))
    (hlast : ∀ z, (e :: l).getLast? = some z → g.succs z = []) (n : Nat) (hn : l.length < n) :
    walk g f n e = seqRun f (e :: l) := by
  induction l generalizing e n with
  | nil =>
    obtain ⟨n, rfl⟩ : ∃ m, n = m + 1 := ⟨n - 1, by simp at hn; omega⟩
    have hs := hlast e rfl
    simp only [walk, seqRun, hs]
    cases h : (f e).res with
    | ok =>
      rcases hr : f e with ⟨tr, r⟩
      rw [hr] at h
      cases h
      simp
    | err => rfl
    | lost => rfl
  | cons b l ih =>
    obtain ⟨n, rfl⟩ : ∃ m, n = m + 1 := ⟨n - 1, by simp at hn; omega⟩
    rw [List.isChain_cons_cons] at hc
    have hs := hc.1.1
    have := ih b hc.2 (fun z hz => hlast z (by rw [List.getLast?_cons_cons]; exact hz)) n (by simp at hn ⊢; omega)
    rw [seqRun]
    simp only [walk, hs]
    cases h : (f e).res with
    | ok => simp only [this]
    | err => rfl
    | lost => rfl

/-- The general path on a chain with an element that has a binding. -/
theorem proc_chain_lost {d : DynCfg} {f : Eid → SerOut} (l : List Eid) (e : Eid)
    (hc : (e :: l).IsChain (fun a b => d.g.succs a = [b] ∧ d.g.deps b = [a])) (hne : ∀ i ∈ e :: l, (f i).res ≠ .err)
    (hb : ∃ i ∈ e :: l, d.isDefault i = false) (n : Nat) : (proc d f n e).res = .lost := by
  induction n generalizing e l with
  | zero => rfl
  | succ n ih =>
    simp only [proc]
    cases hd : d.isDefault e with
    | false => rfl
    | true =>
      simp only [if_true]
      cases l with
      | nil =>
        obtain ⟨i, hi, h⟩ := hb
        simp only [List.mem_singleton] at hi
        subst hi
        rw [hd] at h; cases h
      | cons b l =>
        rw [List.isChain_cons_cons] at hc
        have := ih l b hc.2 (fun i hi => hne i (List.mem_cons_of_mem _ hi)) (by
          obtain ⟨i, hi, h⟩ := hb
          rcases List.mem_cons.mp hi with rfl | hi
          · rw [hd] at h; cases h
          · exact ⟨i, hi, h⟩)
        simp only [hc.1.1]
        cases h : (f e).res with
        | ok => simpa using this
        | err => exact absurd h (hne e (by simp))
        | lost => simp [h]

/-- An accepted level is one chain. -/
theorem level_chain {d : DynCfg} (w : d.g.WF) (ha : AcyclicOn d.g.Edge d.g.elems) {ok : Eid → Bool}
    (h : d.g.checkSerializable ok = true) :
    ∃ e t, (e :: t).Perm d.g.elems ∧ IsOneChain d.g.deps d.g.succs (e :: t) ∧ d.fronts = [e] := by
  obtain ⟨l, hp, hc⟩ := C36_serialisable_is_chain_partial d.g w ha ok h
  simp only [Graph.checkSerializable, Bool.and_eq_true, decide_eq_true_eq] at h
  obtain ⟨x, hx⟩ := List.length_eq_one_iff.mp h.1.2
  have hxm : x ∈ d.g.elems ∧ d.g.deps x = [] := by
    have : x ∈ d.g.elems.filter (fun e => (d.g.deps e).isEmpty) := by rw [hx]; simp
    simpa using List.mem_filter.mp this
  cases l with
  | nil =>
    rw [List.nil_perm] at hp
    rw [hp] at hxm
    cases hxm.1
  | cons e t =>
    refine ⟨e, t, hp, hc, ?_⟩
    have : e ∈ d.g.elems.filter (fun e => (d.g.deps e).isEmpty) :=
      List.mem_filter.mpr ⟨hp.mem_iff.mp (by simp), by simp [hc.2.1 e rfl]⟩
    rw [hx] at this
    simp only [List.mem_singleton] at this
    rw [DynCfg.fronts, hx, this]

theorem chain_topo {g : Graph} (l : List Eid) (hc : IsOneChain g.deps g.succs l) :
    TopoOrdered (fun d i => d ∈ g.deps i) l := by
  intro pre x post hl d hd
  subst hl
  rcases List.eq_nil_or_concat pre with rfl | ⟨p, y, rfl⟩
  · rw [hc.2.1 x rfl] at hd; cases hd
  · have h := hc.1
    simp only [List.concat_eq_append, List.append_assoc] at h
    have h2 := (List.isChain_append.mp h).2.1
    have h2 : (y :: x :: post).IsChain (fun a b => g.succs a = [b] ∧ g.deps b = [a]) := by simpa using h2
    have h3 := (List.isChain_cons_cons.mp h2).1.2
    rw [h3] at hd
    simp only [List.mem_singleton] at hd
    subst hd
    simp

/-- An accepted level whose elements have the same binding is executed by the caller, in order. -/
theorem levelRun_same {d : DynCfg} (w : d.g.WF) (ha : AcyclicOn d.g.Edge d.g.elems) {ok : Eid → Bool}
    (h : d.g.checkSerializable ok = true) (hb : ∀ a ∈ d.g.elems, ∀ b ∈ d.g.elems, d.bind a = d.bind b) (f : Eid → SerOut) :
    ∃ o, o.Perm d.g.elems ∧ TopoOrdered (fun a i => a ∈ d.g.deps i) o ∧ levelRun d f = seqRun f o := by
  obtain ⟨e, t, hp, hc, hf⟩ := level_chain w ha h
  refine ⟨e :: t, hp, chain_topo _ hc, ?_⟩
  have hd := (C66_serial_run_partial d w ha ok h hb).1
  simp only [levelRun, hd, hf]
  exact walk_chain t e hc.1 hc.2.2 _ (by have := hp.length_eq; simp at this; omega)

theorem adjacent_differ {R : Eid → Eid → Prop} {b : Eid → Int} (l : List Eid) (hc : l.IsChain R)
    (h : ¬ ∀ x ∈ l, ∀ y ∈ l, b x = b y) : ∃ p x y q, l = p ++ x :: y :: q ∧ R x y ∧ b x ≠ b y := by
  induction l with
  | nil => exact absurd (by simp) h
  | cons x l ih =>
    cases l with
    | nil => exact absurd (by simp) h
    | cons y l =>
      rw [List.isChain_cons_cons] at hc
      by_cases hxy : b x = b y
      · have : ¬ ∀ u ∈ y :: l, ∀ v ∈ y :: l, b u = b v := by
          intro hall
          apply h
          intro u hu v hv
          have key : ∀ u ∈ x :: y :: l, b u = b y := by
            intro u hu
            rcases List.mem_cons.mp hu with rfl | hu
            · exact hxy
            · exact hall u hu y (by simp)
          rw [key u hu, key v hv]
        obtain ⟨p, u, v, q, e1, e2, e3⟩ := ih hc.2 this
        exact ⟨x :: p, u, v, q, by rw [e1]; rfl, e2, e3⟩
      · exact ⟨[], x, y, l, rfl, hc.1, hxy⟩

/-- An accepted level with different bindings does not have the serial type. -/
theorem dagType_differ {d : DynCfg} (w : d.g.WF) (ha : AcyclicOn d.g.Edge d.g.elems) {ok : Eid → Bool}
    (h : d.g.checkSerializable ok = true) (hb : ¬ ∀ a ∈ d.g.elems, ∀ b ∈ d.g.elems, d.bind a = d.bind b) :
    d.dagType ≠ .serial := by
  obtain ⟨e, t, hp, hc, hf⟩ := level_chain w ha h
  intro hd
  have hb' : ¬ ∀ a ∈ e :: t, ∀ b ∈ e :: t, d.bind a = d.bind b := by
    intro hall
    exact hb fun a ha b hb => hall a (hp.mem_iff.mpr ha) b (hp.mem_iff.mpr hb)
  obtain ⟨p, x, y, q, e1, e2, e3⟩ := adjacent_differ _ hc.1 hb'
  have hlen : d.g.elems.length - 1 = d.linkedSize := by
    unfold DynCfg.dagType at hd
    split at hd
    · rename_i hh
      have hne : d.g.elems ≠ [] := by
        intro h0; rw [h0] at hp; simp at hp
      simpa [hne, hf] using hh
    · split at hd <;> cases hd
  obtain ⟨z, hz⟩ : ∃ z, (y :: q).getLast? = some z := by
    cases hq : (y :: q).getLast? with
    | none => simp at hq
    | some z => exact ⟨z, rfl⟩
  have hz2 : (e :: t).getLast? = some z := by
    rw [e1, List.getLast?_append, List.getLast?_cons_cons, hz]; rfl
  have hzs := hc.2.2 z hz2
  have hxl : d.isLink x = false := by simp [DynCfg.isLink, e2.1, e3]
  have hzl : d.isLink z = false := by simp [DynCfg.isLink, hzs]
  have hxz : x ≠ z := by
    rintro rfl
    rw [hzs] at e2; cases e2.1
  have hcount : d.linkedSize + (d.g.elems.filter (fun i => !d.isLink i)).length = d.g.elems.length := by
    rw [DynCfg.linkedSize]
    have := List.length_eq_length_filter_add (l := d.g.elems) d.isLink
    omega
  have hx : x ∈ d.g.elems := hp.mem_iff.mp (by rw [e1]; simp)
  have hz3 : z ∈ d.g.elems := hp.mem_iff.mp (List.mem_of_getLast? hz2)
  have h2 : 2 ≤ (d.g.elems.filter (fun i => !d.isLink i)).length := by
    have hsub : [x, z] ⊆ d.g.elems.filter (fun i => !d.isLink i) := by
      intro i hi
      simp only [List.mem_cons, List.not_mem_nil, or_false] at hi
      rcases hi with rfl | rfl
      · exact List.mem_filter.mpr ⟨hx, by simp [hxl]⟩
      · exact List.mem_filter.mpr ⟨hz3, by simp [hzl]⟩
    have := (List.subperm_of_subset (by simp [hxz]) hsub).length_le
    simpa using this
  have h1 : 1 ≤ d.g.elems.length := List.length_pos_of_mem hx
  omega

/-- An accepted level with different bindings: something is handed to the pool. -/
theorem levelRun_differ {d : DynCfg} (w : d.g.WF) (ha : AcyclicOn d.g.Edge d.g.elems) {ok : Eid → Bool}
    (h : d.g.checkSerializable ok = true) (hb : ¬ ∀ a ∈ d.g.elems, ∀ b ∈ d.g.elems, d.bind a = d.bind b) {f : Eid → SerOut}
    (hne : ∀ i ∈ d.g.elems, (f i).res ≠ .err) : (levelRun d f).res = .lost := by
  obtain ⟨e, t, hp, hc, hf⟩ := level_chain w ha h
  have hd := dagType_differ w ha h hb
  unfold levelRun
  cases hdt : d.dagType with
  | serial => exact absurd hdt hd
  | parallel => rfl
  | common =>
    simp only [hf]
    refine proc_chain_lost t e hc.1 (fun i hi => hne i (hp.mem_iff.mp hi)) ?_ _
    by_contra hall
    apply hb
    have key : ∀ i ∈ d.g.elems, d.bind i = -1 := by
      intro i hi
      by_contra hi2
      exact hall ⟨i, hp.mem_iff.mpr hi, by simp [DynCfg.isDefault, hi2]⟩
    intro a ha b hb
    rw [key a ha, key b hb]

/-- An accepted level in which something is lost. -/
theorem levelRun_lost {d : DynCfg} (w : d.g.WF) (ha : AcyclicOn d.g.Edge d.g.elems) {ok : Eid → Bool}
    (h : d.g.checkSerializable ok = true) {f : Eid → SerOut} (hne : ∀ i ∈ d.g.elems, (f i).res ≠ .err) {k : Eid}
    (hk : k ∈ d.g.elems) (hl : (f k).res = .lost) : (levelRun d f).res = .lost := by
  by_cases hb : ∀ a ∈ d.g.elems, ∀ b ∈ d.g.elems, d.bind a = d.bind b
  · obtain ⟨o, hp, -, ho⟩ := levelRun_same w ha h hb f
    rw [ho]
    exact seqRun_lost (fun i hi => hne i (hp.mem_iff.mp hi)) (hp.mem_iff.mpr hk) hl
  · exact levelRun_differ w ha h hb hne

theorem levelRun_err {d : DynCfg} (w : d.g.WF) (ha : AcyclicOn d.g.Edge d.g.elems) {ok : Eid → Bool}
    (h : d.g.checkSerializable ok = true) {f : Eid → SerOut} (hne : ∀ i ∈ d.g.elems, (f i).res ≠ .err) :
    (levelRun d f).res ≠ .err := by
  by_cases hb : ∀ a ∈ d.g.elems, ∀ b ∈ d.g.elems, d.bind a = d.bind b
  · obtain ⟨o, hp, -, ho⟩ := levelRun_same w ha h hb f
    rw [ho]
    exact seqRun_err (fun i hi => hne i (hp.mem_iff.mp hi))
  · rw [levelRun_differ w ha h hb hne]; simp

end SerCfg
end CGraph
