import Verif.Model.Graph

/-! Invariants of the dependency bookkeeping. -/
namespace CGraph
namespace Heap

/-- Relation facts that hold after every history. -/
structure Inv (h : Heap) : Prop where
  sym : ∀ a b, b ∈ (h.elt a).succs ↔ a ∈ (h.elt b).deps
  dn : ∀ e, (h.elt e).deps.Nodup
  sn : ∀ e, (h.elt e).succs.Nodup
  irr : ∀ e, e ∉ (h.elt e).deps

theorem mem_insertU (l : List Eid) (x y : Eid) : y ∈ insertU l x ↔ y ∈ l ∨ y = x := by
  unfold insertU; split <;> grind

theorem nodup_insertU {l : List Eid} (h : l.Nodup) (x : Eid) : (insertU l x).Nodup := by
  unfold insertU
  split
  · exact h
  · rw [List.nodup_append]; refine ⟨h, by simp, ?_⟩; grind

theorem inv_empty : Inv empty := by constructor <;> simp [empty]

/-- Updates that keep both vectors keep the invariant. -/
theorem inv_upd {h : Heap} (i : Inv h) (e : Eid) (x : Elt) (h1 : x.deps = (h.elt e).deps)
    (h2 : x.succs = (h.elt e).succs) : Inv (h.upd e x) := by
  obtain ⟨sym, dn, sn, irr⟩ := i
  constructor <;> simp only [upd] <;> grind

@[simp] theorem elt_link_deps (h : Heap) (t e : Eid) (hne : t ≠ e) (a : Eid) :
    ((h.link t e).elt a).deps = if a = t then insertU (h.elt t).deps e else (h.elt a).deps := by
  simp only [link, upd]; grind

@[simp] theorem elt_link_succs (h : Heap) (t e : Eid) (hne : t ≠ e) (a : Eid) :
    ((h.link t e).elt a).succs = if a = e then insertU (h.elt e).succs t else (h.elt a).succs := by
  simp only [link, upd]; grind

theorem elt_link_rest (h : Heap) (t e : Eid) (a : Eid) :
    ((h.link t e).elt a).belong = (h.elt a).belong ∧ ((h.link t e).elt a).left = (h.elt a).left ∧
    ((h.link t e).elt a).isInit = (h.elt a).isInit := by
  simp only [link, upd]; grind

theorem inv_link {h : Heap} (i : Inv h) {t e : Eid} (hne : t ≠ e) : Inv (h.link t e) := by
  obtain ⟨sym, dn, sn, irr⟩ := i
  have m := mem_insertU
  constructor
  · intro a b
    rw [elt_link_deps h t e hne, elt_link_succs h t e hne]
    have := sym a b
    by_cases h1 : a = e <;> by_cases h2 : b = t <;> grind
  · intro a; rw [elt_link_deps h t e hne]; split
    · exact nodup_insertU (dn t) e
    · exact dn a
  · intro a; rw [elt_link_succs h t e hne]; split
    · exact nodup_insertU (sn e) t
    · exact sn a
  · intro a; rw [elt_link_deps h t e hne]; grind

theorem inv_storeLeft {h : Heap} (i : Inv h) (t : Eid) : Inv (h.storeLeft t) := inv_upd i t _ rfl rfl

theorem inv_addLoop {h : Heap} (i : Inv h) (t : Eid) (es : List (Option Eid)) : Inv (h.addLoop t es).1 := by
  induction es generalizing h with
  | nil => exact inv_storeLeft i t
  | cons x es ih =>
    cases x with
    | none => exact i
    | some e =>
      simp only [addLoop]
      split
      · exact i
      · split
        · exact ih i
        · rename_i hne; exact ih (inv_link i hne)

theorem inv_removeDepend {h : Heap} (i : Inv h) (t : Eid) (e : Option Eid) :
    Inv (h.removeDepend t e).1 := by
  cases e with
  | none => exact i
  | some e =>
    simp only [removeDepend]
    split
    · exact i
    · split
      · exact i
      · rename_i hm
        apply inv_storeLeft
        obtain ⟨sym, dn, sn, irr⟩ := i
        have hne : t ≠ e := by intro h; subst h; simp at hm; exact irr _ hm
        have md : ∀ x, x ∈ (h.elt t).deps.erase e ↔ x ≠ e ∧ x ∈ (h.elt t).deps := fun x => (dn t).mem_erase_iff
        have ms : ∀ x, x ∈ (h.elt e).succs.erase t ↔ x ≠ t ∧ x ∈ (h.elt e).succs := fun x => (sn e).mem_erase_iff
        have nd := (dn t).erase e
        have ns := (sn e).erase t
        constructor
        · intro a b
          have := sym a b
          simp only [upd]
          by_cases h1 : a = e <;> by_cases h2 : b = t <;> by_cases h3 : a = t <;> by_cases h4 : b = e <;> grind
        · intro a; simp only [upd]; grind
        · intro a; simp only [upd]; grind
        · intro a; simp only [upd]; grind

theorem inv_step {h : Heap} (i : Inv h) (o : GraphOp) : Inv (h.step o) := by
  cases o with
  | addDepend t es =>
    simp only [step, addDepend]
    split
    · exact i
    · exact inv_addLoop i t es
  | removeDepend t e => exact inv_removeDepend i t e
  | adopt g e => exact inv_upd i e _ rfl rfl
  | setInit e b => exact inv_upd i e _ rfl rfl
  | markMutable e => exact inv_upd i e _ rfl rfl

theorem inv_run (ops : List GraphOp) : Inv (ops.foldl step empty) := by
  have gen : ∀ (ops : List GraphOp) (h : Heap), Inv h → Inv (ops.foldl step h) := by
    intro ops
    induction ops with
    | nil => intro h i; exact i
    | cons o ops ih => intro h i; exact ih _ (inv_step i o)
  exact gen ops empty inv_empty

/-! counters -/

theorem addLoop_left {h : Heap} (t : Eid) (es : List (Option Eid)) (hok : (h.addLoop t es).2 = true)
    (hi : ∀ e, e ≠ t → (h.elt e).left = (h.elt e).deps.length) :
    ∀ e, ((h.addLoop t es).1.elt e).left = ((h.addLoop t es).1.elt e).deps.length := by
  induction es generalizing h with
  | nil =>
    intro e
    simp only [addLoop, storeLeft, upd]
    grind
  | cons x es ih =>
    cases x with
    | none => simp [addLoop] at hok
    | some e =>
      simp only [addLoop] at hok ⊢
      split at hok
      · cases hok
      · rename_i hb
        split at hok
        · rename_i hte
          rw [if_neg hb, if_pos hte]; exact ih hok hi
        · rename_i hte
          rw [if_neg hb, if_neg hte]
          apply ih hok
          intro a ha
          rw [(elt_link_rest h t e a).2.1, elt_link_deps h t e hte, if_neg ha]
          exact hi a ha

theorem removeDepend_left {h : Heap} (t : Eid) (e : Option Eid)
    (hi : ∀ e, (h.elt e).left = (h.elt e).deps.length) :
    ∀ a, ((h.removeDepend t e).1.elt a).left = ((h.removeDepend t e).1.elt a).deps.length := by
  cases e with
  | none => exact hi
  | some e =>
    simp only [removeDepend]
    split
    · exact hi
    · split
      · exact hi
      · intro a
        simp only [storeLeft, upd]
        grind

end Heap
end CGraph
