import Verif.Model.Engines
import Verif.Spec.Graph
import Mathlib.Order.WellFounded
import Mathlib.Data.Fintype.EquivFin
import Mathlib.Data.Fintype.Sets

/-! Kahn style counting: shared by `getTopo` and the static layers. -/
namespace CGraph
open Spec

/-- Direct dependency as a relation: `g.Edge a b` iff `a` is recorded as a dependency of `b`. -/
def Graph.Edge (g : Graph) (a b : Eid) : Prop := a ∈ g.deps b

/-- A graph as built by registrations; successors of registered elements are registered. -/
structure Graph.WF0 (g : Graph) : Prop where
  nodup : g.elems.Nodup
  dnodup : ∀ e ∈ g.elems, (g.deps e).Nodup
  snodup : ∀ e ∈ g.elems, (g.succs e).Nodup
  sym : ∀ a b, b ∈ g.succs a ↔ a ∈ g.deps b
  closedS : ∀ e ∈ g.elems, ∀ s ∈ g.succs e, s ∈ g.elems

/-- A graph as built by registrations among the registered elements. -/
structure Graph.WF (g : Graph) : Prop extends Graph.WF0 g where
  closedD : ∀ e ∈ g.elems, ∀ d ∈ g.deps e, d ∈ g.elems

namespace Graph

theorem decAll_eq (left : Eid → Int) (out es : List Eid) (hn : es.Nodup) :
    (∀ v, (decAll left out es).1 v = left v - (if v ∈ es then 1 else 0)) ∧
    (decAll left out es).2 = out ++ es.filter (fun e => left e = 1) := by
  induction es generalizing left out with
  | nil => simp [decAll]
  | cons e es ih =>
    rw [List.nodup_cons] at hn
    have h := ih (setLeft left e (left e - 1)) (if setLeft left e (left e - 1) e = 0 then out ++ [e] else out)
      hn.2
    constructor
    · intro v
      rw [decAll, h.1 v]
      by_cases hv : v = e
      · subst hv
        simp [setLeft, hn.1]
      · simp [setLeft, hv]
    · rw [decAll, h.2]
      have hf : es.filter (fun a => decide (setLeft left e (left e - 1) a = 1))
          = es.filter (fun a => decide (left a = 1)) := by
        apply List.filter_congr
        intro x hx
        have : x ≠ e := by intro h; subst h; exact hn.1 hx
        simp [setLeft, this]
      rw [hf]
      by_cases h1 : left e = 1
      · simp [setLeft, h1]
      · have : ¬ (left e - 1 = 0) := by omega
        simp [setLeft, h1, this]

/-- Number of dependencies outside a processed list. -/
def openDeps (g : Graph) (D : List Eid) (v : Eid) : List Eid := (g.deps v).filter (fun d => d ∉ D)

/-- Invariant: `D` processed, `P` everything ever pushed. -/
structure KInv (g : Graph) (D : List Eid) (left : Eid → Int) (P : List Eid) : Prop where
  cnt : ∀ v ∈ g.elems, left v = ((g.openDeps D v).length : Int)
  pnodup : P.Nodup
  psub : ∀ v ∈ P, v ∈ g.elems
  piff : ∀ v ∈ g.elems, (v ∈ P ↔ ∀ d ∈ g.deps v, d ∈ D)

theorem openDeps_nil (g : Graph) (D : List Eid) (v : Eid) :
    g.openDeps D v = [] ↔ ∀ d ∈ g.deps v, d ∈ D := by
  simp [openDeps, List.filter_eq_nil_iff]

theorem openDeps_append (g : Graph) (D : List Eid) (c v : Eid) (hv : (g.deps v).Nodup) (hc : c ∉ D) :
    ((g.openDeps (D ++ [c]) v).length : Int)
      = (g.openDeps D v).length - (if c ∈ g.deps v then 1 else 0) := by
  have hsplit : g.openDeps (D ++ [c]) v = (g.openDeps D v).erase c := by
    rw [openDeps, openDeps, List.Nodup.erase_eq_filter (hv.filter _), List.filter_filter]
    apply List.filter_congr
    intro x _
    by_cases h1 : x ∈ D <;> by_cases h2 : x = c <;> simp [h1, h2]
  rw [hsplit]
  by_cases h : c ∈ g.deps v
  · have hm : c ∈ g.openDeps D v := by simp [openDeps, h, hc]
    have := List.length_erase_of_mem hm
    have := List.length_pos_of_mem hm
    simp only [h, if_true]; omega
  · have hm : c ∉ g.openDeps D v := by simp [openDeps, h]
    rw [List.erase_of_not_mem hm]; simp [h]

theorem KInv.init {g : Graph} (w : g.WF0) (left0 : Eid → Int) :
    g.KInv [] (g.initLeft left0) (g.elems.filter (fun e => g.initLeft left0 e = 0)) := by
  refine ⟨?_, ?_, ?_, ?_⟩
  · intro v hv; simp [initLeft, hv, openDeps]
  · exact w.nodup.filter _
  · intro v hv; exact (List.mem_filter.1 hv).1
  · intro v hv
    simp only [List.mem_filter, hv, true_and, initLeft, if_true, decide_eq_true_eq]
    constructor
    · intro h d hd
      have h0 : (g.deps v).length = 0 := by omega
      rw [List.length_eq_zero_iff] at h0
      rw [h0] at hd; cases hd
    · intro h
      cases hd : g.deps v with
      | nil => rfl
      | cons a l => exact absurd (h a (by rw [hd]; exact List.mem_cons_self)) (by simp)

theorem KInv.step {g : Graph} (w : g.WF0) {D left P} (h : g.KInv D left P) {c : Eid} (hc : c ∈ P)
    (hcD : c ∉ D) :
    g.KInv (D ++ [c]) (decAll left P (g.succs c)).1 (decAll left P (g.succs c)).2 ∧
    ∃ new, (∀ out, (decAll left out (g.succs c)).2 = out ++ new) ∧ (∀ v ∈ new, v ∈ g.succs c) := by
  have hce := h.psub c hc
  have hsn := w.snodup c hce
  have hd := fun out => decAll_eq left out (g.succs c) hsn
  have hcnt : ∀ v ∈ g.elems, (decAll left P (g.succs c)).1 v
      = ((g.openDeps (D ++ [c]) v).length : Int) := by
    intro v hv
    rw [(hd P).1 v, h.cnt v hv, openDeps_append g D c v (w.dnodup v hv) hcD]
    have := w.sym c v
    by_cases hm : v ∈ g.succs c
    · simp [hm, this.1 hm]
    · have hm' : c ∉ g.deps v := fun x => hm (this.2 x)
      simp [hm, hm']
  have hnewnotP : ∀ v ∈ (g.succs c).filter (fun e => left e = 1), v ∉ P := by
    intro v hv hvP
    rw [List.mem_filter, decide_eq_true_eq] at hv
    have hve := h.psub v hvP
    have h0 := (openDeps_nil g D v).2 ((h.piff v hve).1 hvP)
    have := h.cnt v hve
    rw [h0] at this
    simp at this; omega
  refine ⟨⟨hcnt, ?_, ?_, ?_⟩, (g.succs c).filter (fun e => left e = 1), fun out => (hd out).2,
    fun v hv => (List.mem_filter.1 hv).1⟩
  · rw [(hd P).2, List.nodup_append]
    refine ⟨h.pnodup, hsn.filter _, ?_⟩
    intro a ha b hb e
    subst e
    exact hnewnotP a hb ha
  · intro v hv
    rw [(hd P).2, List.mem_append] at hv
    rcases hv with hv | hv
    · exact h.psub v hv
    · exact w.closedS c hce v (List.mem_filter.1 hv).1
  · intro v hv
    rw [(hd P).2, List.mem_append]
    constructor
    · rintro (hp | hp)
      · intro d hd'; exact List.mem_append_left _ ((h.piff v hv).1 hp d hd')
      · rw [List.mem_filter, decide_eq_true_eq] at hp
        rw [← openDeps_nil, ← List.length_eq_zero_iff]
        have h1 := hcnt v hv
        rw [(hd P).1 v] at h1
        simp only [hp.1, if_true, hp.2] at h1
        omega
    · intro hall
      by_cases hvP : v ∈ P
      · exact Or.inl hvP
      · right
        rw [List.mem_filter, decide_eq_true_eq]
        have h0 := (openDeps_nil g (D ++ [c]) v).2 hall
        have h1 := hcnt v hv
        rw [(hd P).1 v, h0] at h1
        by_cases hm : v ∈ g.succs c
        · refine ⟨hm, ?_⟩
          simp only [hm, if_true, List.length_nil] at h1; omega
        · exfalso
          simp only [hm, if_false, List.length_nil] at h1
          have h2 := h.cnt v hv
          have h3 : (g.openDeps D v).length = 0 := by omega
          rw [List.length_eq_zero_iff, openDeps_nil] at h3
          exact hvP ((h.piff v hv).2 h3)

/-! ### finite graphs -/

theorem length_le_of_nodup_subset {l m : List Eid} (hl : l.Nodup) (h : ∀ x ∈ l, x ∈ m) :
    l.length ≤ m.length :=
  (List.subperm_of_subset hl h).length_le

theorem subset_of_length_eq {l m : List Eid} (hl : l.Nodup) (h : ∀ x ∈ l, x ∈ m)
    (he : m.length ≤ l.length) : ∀ x ∈ m, x ∈ l := by
  have hp := (List.subperm_of_subset hl h).perm_of_length_le he
  intro x hx
  exact hp.mem_iff.2 hx

/-- Main finite fact: a set of elements that always contains a dependency of each of its members is empty
in an acyclic graph. -/
theorem no_deadlock {g : Graph} (R : List Eid) (ha : AcyclicOn g.Edge R)
    (hR : ∀ v ∈ R, ∃ d ∈ R, d ∈ g.deps v) : R = [] := by
  by_contra hne
  let T := {v : Eid // v ∈ R}
  let r : T → T → Prop := fun a b => Relation.TransGen g.Edge a.1 b.1
  have : Finite T := @Finite.of_fintype _ (List.Subtype.fintype R)
  have : IsTrans T r := ⟨fun a b c h1 h2 => h1.trans h2⟩
  have : Std.Irrefl r := ⟨fun a => ha a.1 a.2⟩
  have wf : WellFounded r := Finite.wellFounded_of_trans_of_irrefl r
  obtain ⟨x, hx⟩ := List.exists_mem_of_ne_nil R hne
  have : ∀ v : T, False := by
    intro v
    induction v using wf.induction with
    | _ v ih =>
      obtain ⟨d, hd, hde⟩ := hR v.1 v.2
      exact ih ⟨d, hd⟩ (Relation.TransGen.single hde)
  exact this ⟨x, hx⟩

/-- A list in which dependencies come first contains no cycle. -/
theorem acyclic_of_ordered {g : Graph} {l : List Eid} (hord : TopoOrdered g.Edge l) :
    AcyclicOn g.Edge l := by
  have hstep : ∀ a b, g.Edge a b → b ∈ l → a ∈ l ∧ l.idxOf a < l.idxOf b := by
    intro a b hab hb
    obtain ⟨pre, post, hl, hpre⟩ := List.eq_append_cons_of_mem hb
    have ha : a ∈ pre := hord pre b post hl a hab
    rw [hl, List.idxOf_append_of_mem ha, List.idxOf_append_of_notMem hpre]
    have := List.idxOf_lt_length_of_mem ha
    exact ⟨List.mem_append_left _ ha, by omega⟩
  have htr : ∀ a b, Relation.TransGen g.Edge a b → b ∈ l → a ∈ l ∧ l.idxOf a < l.idxOf b := by
    intro a b hab
    induction hab with
    | single h => exact hstep _ _ h
    | tail _ h ih =>
      intro hb
      have h1 := hstep _ _ h hb
      have h2 := ih h1.1
      exact ⟨h2.1, Nat.lt_trans h2.2 h1.2⟩
  intro v hv h
  exact Nat.lt_irrefl _ (htr v v h hv).2

/-! ### the worklist loop -/

/-- State of the loop: processed `res`, waiting `q`. -/
structure TInv (g : Graph) (left : Eid → Int) (q res : List Eid) : Prop where
  k : g.KInv res left (res ++ q)
  ord : TopoOrdered g.Edge res

theorem TInv.init {g : Graph} (w : g.WF0) (left0 : Eid → Int) :
    g.TInv (g.initLeft left0) (g.elems.filter (fun e => g.initLeft left0 e = 0)) [] :=
  ⟨KInv.init w left0, by intro pre x post h; simp at h⟩

theorem topoOrdered_append {r : Eid → Eid → Prop} {l : List Eid} (h : TopoOrdered r l) {c : Eid}
    (hc : ∀ d, r d c → d ∈ l) : TopoOrdered r (l ++ [c]) := by
  intro pre x post he d hd
  rcases List.eq_nil_or_concat post with hp | ⟨post', y, hp⟩
  · subst hp
    have := List.append_inj' he rfl
    rw [← this.1]
    have h2 : c = x := by simpa using this.2
    subst h2; exact hc d hd
  · subst hp
    have he' : l ++ [c] = (pre ++ x :: post') ++ [y] := by rw [he]; simp
    have := (List.append_inj' he' rfl).1
    exact h pre x post' this d hd

theorem TInv.step {g : Graph} (w : g.WF0) {left c q res} (h : g.TInv left (c :: q) res) :
    g.TInv (decAll left q (g.succs c)).1 (decAll left q (g.succs c)).2 (res ++ [c]) := by
  have hcP : c ∈ res ++ c :: q := by simp
  have hnd := h.k.pnodup
  have hcD : c ∉ res := by
    intro hc
    rw [List.nodup_append] at hnd
    exact hnd.2.2 c hc c List.mem_cons_self rfl
  obtain ⟨hk, new, hnew, _⟩ := h.k.step w hcP hcD
  refine ⟨?_, ?_⟩
  · have hfst : ∀ out, (decAll left out (g.succs c)).1 = (decAll left (res ++ c :: q) (g.succs c)).1 := by
      intro out
      funext v
      rw [(decAll_eq left out _ (w.snodup c (h.k.psub c hcP))).1,
        (decAll_eq left _ _ (w.snodup c (h.k.psub c hcP))).1]
    rw [hfst q, hnew q]
    rw [hnew] at hk
    simpa using hk
  · exact topoOrdered_append h.ord ((h.k.piff c (h.k.psub c hcP)).1 hcP)

theorem TInv.len {g : Graph} {left q res} (h : g.TInv left q res) :
    res.length + q.length ≤ g.elems.length := by
  have := length_le_of_nodup_subset h.k.pnodup h.k.psub
  simpa using this

/-- With enough fuel the loop ends with an empty worklist. -/
theorem topoLoop_final {g : Graph} (w : g.WF0) (n : Nat) (left q res) (h : g.TInv left q res)
    (hn : g.elems.length < n + res.length) :
    ∃ left', g.TInv left' [] (g.topoLoop n left q res) := by
  induction n generalizing left q res with
  | zero => have := h.len; omega
  | succ n ih =>
    cases q with
    | nil => exact ⟨left, h⟩
    | cons c q =>
      apply ih _ _ _ (h.step w)
      simp only [List.length_append, List.length_singleton]; omega

/-- More fuel than the number of elements does not change the result. -/
theorem topoLoop_fuel {g : Graph} (w : g.WF0) (n m : Nat) (left q res) (h : g.TInv left q res)
    (hn : g.elems.length < n + res.length) (hm : g.elems.length < m + res.length) :
    g.topoLoop n left q res = g.topoLoop m left q res := by
  induction n generalizing m left q res with
  | zero => have := h.len; omega
  | succ n ih =>
    cases m with
    | zero => have := h.len; omega
    | succ m =>
      cases q with
      | nil => rfl
      | cons c q =>
        apply ih _ _ _ _ (h.step w)
        · simp only [List.length_append, List.length_singleton]; omega
        · simp only [List.length_append, List.length_singleton]; omega

theorem getTopo_final {g : Graph} (w : g.WF0) (left0 : Eid → Int) :
    ∃ left', g.TInv left' [] (g.getTopo left0) :=
  topoLoop_final w _ _ _ _ (TInv.init w left0) (by simp)

theorem getTopo_spec {g : Graph} (w : g.WF0) (left0 : Eid → Int) :
    TopoOrdered g.Edge (g.getTopo left0) ∧ (g.getTopo left0).Nodup ∧
    (∀ v ∈ g.getTopo left0, v ∈ g.elems) ∧
    (∀ v ∈ g.elems, (∀ d ∈ g.deps v, d ∈ g.getTopo left0) → v ∈ g.getTopo left0) := by
  obtain ⟨left', h⟩ := getTopo_final w left0
  have hk := h.k
  rw [List.append_nil] at hk
  exact ⟨h.ord, hk.pnodup, hk.psub, fun v hv hd => (hk.piff v hv).2 hd⟩

/-- In an acyclic graph everything is reached by a closed-under-dependencies set. -/
theorem all_reached {g : Graph} (w : g.WF) (ha : AcyclicOn g.Edge g.elems) (l : List Eid)
    (h : ∀ v ∈ g.elems, (∀ d ∈ g.deps v, d ∈ l) → v ∈ l) : ∀ v ∈ g.elems, v ∈ l := by
  have hR := no_deadlock (g.elems.filter (fun v => v ∉ l)) (fun v hv => ha v (List.mem_filter.1 hv).1) (by
    intro v hv
    rw [List.mem_filter, decide_eq_true_eq] at hv
    by_contra hno
    apply hv.2
    apply h v hv.1
    intro d hd
    by_contra hdl
    exact hno ⟨d, by rw [List.mem_filter, decide_eq_true_eq]; exact ⟨w.closedD v hv.1 d hd, hdl⟩, hd⟩)
  intro v hv
  by_contra hvl
  have : v ∈ g.elems.filter (fun v => v ∉ l) := by rw [List.mem_filter, decide_eq_true_eq]; exact ⟨hv, hvl⟩
  rw [hR] at this; cases this

/-! ### layers -/

/-- State of the layer loop: `mat` finished layers, `cur` the current one. -/
structure LInv (g : Graph) (left : Eid → Int) (cur : List Eid) (mat : List (List Eid)) : Prop where
  k : g.KInv mat.flatten left (mat.flatten ++ cur)
  ord : LayerOrdered g.Edge mat
  ne : ∀ l ∈ mat, l ≠ []

theorem nextLayer_inv {g : Graph} (w : g.WF0) (todo : List Eid) (D nxt : List Eid) (left : Eid → Int)
    (h : g.KInv D left (D ++ todo ++ nxt)) :
    g.KInv (D ++ todo) (todo.foldl (fun s e => decAll s.1 s.2 (g.succs e)) (left, nxt)).1
      (D ++ todo ++ (todo.foldl (fun s e => decAll s.1 s.2 (g.succs e)) (left, nxt)).2) := by
  induction todo generalizing D left nxt with
  | nil => simpa using h
  | cons c todo ih =>
    have hcP : c ∈ D ++ (c :: todo) ++ nxt := by simp
    have hcD : c ∉ D := by
      intro hc
      have hnd := h.pnodup
      rw [List.append_assoc, List.nodup_append] at hnd
      exact hnd.2.2 c hc c (by simp) rfl
    obtain ⟨hk, new, hnew, _⟩ := h.step w hcP hcD
    have hsn := w.snodup c (h.psub c hcP)
    have hfst : (decAll left nxt (g.succs c)).1 = (decAll left (D ++ (c :: todo) ++ nxt) (g.succs c)).1 := by
      funext v
      rw [(decAll_eq left nxt _ hsn).1, (decAll_eq left _ _ hsn).1]
    simp only [List.foldl_cons]
    have := ih (D ++ [c]) (decAll left nxt (g.succs c)).2 (decAll left nxt (g.succs c)).1 (by
      rw [hfst, hnew nxt]
      rw [hnew] at hk
      simpa using hk)
    simpa using this

theorem layerOrdered_append {r : Eid → Eid → Prop} {m : List (List Eid)} (h : LayerOrdered r m)
    {c : List Eid} (hc : ∀ v ∈ c, ∀ d, r d v → d ∈ m.flatten) : LayerOrdered r (m ++ [c]) := by
  intro pre x post he v hv d hd
  rcases List.eq_nil_or_concat post with hp | ⟨post', y, hp⟩
  · subst hp
    have := List.append_inj' he rfl
    have h2 : c = x := by simpa using this.2
    subst h2
    have := List.mem_flatten.1 (hc v hv d hd)
    rw [‹m = pre ∧ _›.1] at this
    exact this
  · subst hp
    have he' : m ++ [c] = (pre ++ x :: post') ++ [y] := by rw [he]; simp
    exact h pre x post' (List.append_inj' he' rfl).1 v hv d hd

theorem LInv.step {g : Graph} (w : g.WF0) {left c cs mat} (h : g.LInv left (c :: cs) mat) :
    g.LInv (g.nextLayer left (c :: cs)).1 (g.nextLayer left (c :: cs)).2 (mat ++ [c :: cs]) := by
  refine ⟨?_, ?_, ?_⟩
  · have := nextLayer_inv w (c :: cs) mat.flatten [] left (by simpa using h.k)
    simpa [nextLayer] using this
  · apply layerOrdered_append h.ord
    intro v hv d hd
    have hvP : v ∈ mat.flatten ++ c :: cs := List.mem_append_right _ hv
    exact (h.k.piff v (h.k.psub v hvP)).1 hvP d hd
  · intro l hl
    rw [List.mem_append, List.mem_singleton] at hl
    rcases hl with hl | hl
    · exact h.ne l hl
    · rw [hl]; simp

theorem length_le_flatten {m : List (List Eid)} (h : ∀ l ∈ m, l ≠ []) : m.length ≤ m.flatten.length := by
  induction m with
  | nil => simp
  | cons a m ih =>
    have h1 := ih (fun l hl => h l (List.mem_cons_of_mem _ hl))
    have h2 : 0 < a.length := List.length_pos_of_ne_nil (h a List.mem_cons_self)
    simp only [List.length_cons, List.flatten_cons, List.length_append]; omega

theorem LInv.len {g : Graph} {left cur mat} (h : g.LInv left cur mat) :
    mat.length + cur.length ≤ g.elems.length := by
  have h1 := length_le_of_nodup_subset h.k.pnodup h.k.psub
  have h2 := length_le_flatten h.ne
  rw [List.length_append] at h1; omega

theorem layerLoop_final {g : Graph} (w : g.WF0) (n : Nat) (left cur mat) (h : g.LInv left cur mat)
    (hn : g.elems.length < n + mat.length) :
    ∃ left', g.LInv left' [] (g.layerLoop n left cur mat) := by
  induction n generalizing left cur mat with
  | zero => have := h.len; omega
  | succ n ih =>
    cases cur with
    | nil => exact ⟨left, h⟩
    | cons c q =>
      apply ih _ _ _ (h.step w)
      simp only [List.length_append, List.length_singleton]; omega

theorem layerLoop_fuel {g : Graph} (w : g.WF0) (n m : Nat) (left cur mat) (h : g.LInv left cur mat)
    (hn : g.elems.length < n + mat.length) (hm : g.elems.length < m + mat.length) :
    g.layerLoop n left cur mat = g.layerLoop m left cur mat := by
  induction n generalizing m left cur mat with
  | zero => have := h.len; omega
  | succ n ih =>
    cases m with
    | zero => have := h.len; omega
    | succ m =>
      cases cur with
      | nil => rfl
      | cons c q =>
        apply ih _ _ _ _ (h.step w)
        · simp only [List.length_append, List.length_singleton]; omega
        · simp only [List.length_append, List.length_singleton]; omega

theorem LInv.init {g : Graph} (w : g.WF0) (left0 : Eid → Int) :
    g.LInv (g.initLeft left0) (g.elems.filter (fun e => (g.deps e).isEmpty)) [] := by
  refine ⟨?_, by intro pre x post h; simp at h, by simp⟩
  have := KInv.init w left0
  have he : g.elems.filter (fun e => decide (g.initLeft left0 e = 0))
      = g.elems.filter (fun e => (g.deps e).isEmpty) := by
    apply List.filter_congr
    intro v hv
    simp only [initLeft, hv, if_true]
    cases g.deps v with
    | nil => rfl
    | cons a l => simp; omega
  rw [he] at this
  simpa using this

theorem staticSetup_final {g : Graph} (w : g.WF0) (left0 : Eid → Int) :
    ∃ left', g.LInv left' [] (g.staticSetup left0).1 :=
  layerLoop_final w _ _ _ _ (LInv.init w left0) (by simp)

theorem staticSetup_spec {g : Graph} (w : g.WF0) (left0 : Eid → Int) :
    LayerOrdered g.Edge (g.staticSetup left0).1 ∧ (g.staticSetup left0).1.flatten.Nodup ∧
    (∀ v ∈ (g.staticSetup left0).1.flatten, v ∈ g.elems) ∧
    (∀ v ∈ g.elems, (∀ d ∈ g.deps v, d ∈ (g.staticSetup left0).1.flatten) →
      v ∈ (g.staticSetup left0).1.flatten) := by
  obtain ⟨left', h⟩ := staticSetup_final w left0
  have hk := h.k
  rw [List.append_nil] at hk
  exact ⟨h.ord, hk.pnodup, hk.psub, fun v hv hd => (hk.piff v hv).2 hd⟩

theorem topoOrdered_flatten {r : Eid → Eid → Prop} {m : List (List Eid)} (h : LayerOrdered r m) :
    TopoOrdered r m.flatten := by
  induction m using List.reverseRecOn with
  | nil => intro pre x post he; simp at he
  | append_singleton m c ih =>
    have hm : LayerOrdered r m := by
      intro pre x post he v hv d hd
      exact h pre x (post ++ [c]) (by rw [he]; simp) v hv d hd
    have hc : ∀ v ∈ c, ∀ d, r d v → d ∈ m.flatten := by
      intro v hv d hd
      obtain ⟨l, hl, hdl⟩ := h m c [] rfl v hv d hd
      exact List.mem_flatten.2 ⟨l, hl, hdl⟩
    have gen : ∀ (c l : List Eid), TopoOrdered r l → (∀ v ∈ c, ∀ d, r d v → d ∈ l) →
        TopoOrdered r (l ++ c) := by
      intro c
      induction c with
      | nil => intro l hl _; simpa using hl
      | cons a c ihc =>
        intro l hl hh
        have := ihc (l ++ [a]) (topoOrdered_append hl (hh a List.mem_cons_self))
          (fun v hv d hd => List.mem_append_left _ (hh v (List.mem_cons_of_mem _ hv) d hd))
        simpa using this
    rw [List.flatten_append, List.flatten_cons, List.flatten_nil, List.append_nil]
    exact gen c _ (ih hm) hc

end Graph
end CGraph
