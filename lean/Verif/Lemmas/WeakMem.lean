import Verif.Model.WeakMem
import Mathlib.Tactic.ByContra

/-! Growing executions, and the invariant of the spin lock. -/
namespace CGraph.Weak
open Spec

section
variable {L C V : Type} {t u : List (WAct L C V)}

theorem lt_of_get {α : Type} {l : List α} {i : Nat} {a : α} (h : l[i]? = some a) : i < l.length :=
  (List.getElem?_eq_some_iff.1 h).1

theorem get_app {i : Nat} {a : WAct L C V} (h : t[i]? = some a) : (t ++ u)[i]? = some a := by
  rw [List.getElem?_append_left (lt_of_get h)]; exact h

theorem get_back {i : Nat} {a : WAct L C V} (h : (t ++ u)[i]? = some a) (hi : i < t.length) : t[i]? = some a := by
  rwa [List.getElem?_append_left hi] at h

theorem get_last (a : WAct L C V) : (t ++ [a])[t.length]? = some a := by simp

/-- What is at a position of a list with one more element. -/
theorem get_snoc {α : Type} {l : List α} {a b : α} {i : Nat} (h : (l ++ [a])[i]? = some b) :
    l[i]? = some b ∨ (i = l.length ∧ b = a) := by
  by_cases hi : i < l.length
  · rw [List.getElem?_append_left hi] at h; exact .inl h
  · have h2 := lt_of_get h
    simp at h2
    have h3 : i = l.length := by omega
    subst h3
    simp at h
    exact .inr ⟨rfl, h.symm⟩

theorem relSeq_app {i k : Nat} (h : RelSeq t i k) : RelSeq (t ++ u) i k := by
  induction h with
  | head => exact .head
  | next _ h1 h2 ih => exact .next ih (get_app h1) h2

theorem edge_app {i j : Nat} (h : WSeq t i j ∨ WSync t i j) : WSeq (t ++ u) i j ∨ WSync (t ++ u) i j := by
  rcases h with ⟨h1, a, b, h2, h3, h4⟩ | ⟨h1, a, b, k, h2, h3, h4, h5, h6⟩
  · exact .inl ⟨h1, a, b, get_app h2, get_app h3, h4⟩
  · exact .inr ⟨h1, a, b, k, get_app h2, get_app h3, h4, h5, relSeq_app h6⟩

theorem hb_app {i j : Nat} (h : WHb t i j) : WHb (t ++ u) i j := by
  induction h with
  | single h => exact .single (edge_app h)
  | tail _ h ih => exact .tail ih (edge_app h)

theorem hb_lt {i j : Nat} (h : WHb t i j) : i < j := by
  induction h with
  | single h => rcases h with h | h <;> exact h.1
  | tail _ h ih => rcases h with h | h <;> exact Nat.lt_trans ih h.1

theorem hb_trans {i j k : Nat} (h1 : WHb t i j) (h2 : WHb t j k) : WHb t i k := Relation.TransGen.trans h1 h2

theorem hb_seq {i j : Nat} {a b : WAct L C V} (hij : i < j) (h1 : t[i]? = some a) (h2 : t[j]? = some b)
    (h : a.tid = b.tid) : WHb t i j := .single (.inl ⟨hij, a, b, h1, h2, h⟩)

theorem hb_sync {i j : Nat} {a b : WAct L C V} (hij : i < j) (h1 : t[i]? = some a) (h2 : t[j]? = some b)
    (hr : a.op.Releases) (ha : b.op.Acquires (some i)) : WHb t i j :=
  .single (.inr ⟨hij, a, b, i, h1, h2, hr, ha, .head⟩)

/-- The beginning of an allowed execution is allowed. -/
theorem coherent_left {ini : L → V} (h : Coherent ini (t ++ u)) : Coherent ini t where
  rf j a l src v h1 h2 := by
    have := h.rf j a l src v (get_app h1) h2
    cases src with
    | none => exact this
    | some i =>
      obtain ⟨h3, b, h4, h5⟩ := this
      exact ⟨h3, b, get_back h4 (Nat.lt_trans h3 (lt_of_get h1)), h5⟩
  wr j k a b l src v w h1 h2 h3 h4 h5 := h.wr j k a b l src v w (get_app h1) h2 (get_app h3) h4 (hb_app h5)
  rr j k a b l src src' v w h1 h2 h3 h4 h5 := h.rr j k a b l src src' v w (get_app h1) h2 (get_app h3) h4 (hb_app h5)
  at' j k a b l src v w h1 h2 h3 h4 h5 h6 := h.at' j k a b l src v w (get_app h1) h2 h3 (get_app h4) h5 h6

theorem relSeq_back {ini : L → V} (hc : Coherent ini (t ++ u)) {i k : Nat} (h : RelSeq (t ++ u) i k) (hk : k < t.length) :
    RelSeq t i k := by
  induction h with
  | head => exact .head
  | @next k m a _ h1 h2 ih =>
    have h3 : k < m := by
      obtain ⟨tid, op⟩ := a
      cases op with
      | rmw l acq rel src old new =>
        have e : src = some k := h2
        subst e
        exact (hc.rf m _ l (some k) old h1 ⟨rfl, rfl, rfl⟩).1
      | _ => exact h2.elim
    exact .next (ih (by omega)) (get_back h1 hk) h2

/-- What happens before a position does not depend on what comes later. -/
theorem hb_back {ini : L → V} (hc : Coherent ini (t ++ u)) {i j : Nat} (h : WHb (t ++ u) i j) (hj : j < t.length) :
    WHb t i j := by
  have edge : ∀ {i j : Nat}, j < t.length → (WSeq (t ++ u) i j ∨ WSync (t ++ u) i j) → WSeq t i j ∨ WSync t i j := by
    intro i j hj h
    rcases h with ⟨h1, a, b, h2, h3, h4⟩ | ⟨h1, a, b, k, h2, h3, h4, h5, h6⟩
    · exact .inl ⟨h1, a, b, get_back h2 (by omega), get_back h3 hj, h4⟩
    · have hk : k < j := by
        obtain ⟨tid, op⟩ := b
        cases op with
        | rmw l acq rel src old new =>
          have e : src = some k := h5.2
          subst e
          exact (hc.rf j _ l (some k) old h3 ⟨rfl, rfl, rfl⟩).1
        | load l acq src v =>
          have e : src = some k := h5.2
          subst e
          exact (hc.rf j _ l (some k) v h3 ⟨rfl, rfl, rfl⟩).1
        | _ => exact h5.elim
      exact .inr ⟨h1, a, b, k, get_back h2 (by omega), get_back h3 hj, h4, h5, relSeq_back hc h6 (by omega)⟩
  induction h with
  | single h => exact .single (edge hj h)
  | @tail b c _ h ih =>
    have : b < c := by rcases h with h | h <;> exact h.1
    exact .tail (ih (by omega)) (edge hj h)

theorem conflict_symm {a b : WOp L C V} (h : WConflict a b) : WConflict b a := by
  cases a <;> cases b <;> simp_all [WConflict]

end

/-! ### The spin lock -/
namespace Spin

/-- What happens in a critical section: memory is touched, the lock is taken or given back. -/
def Sec : WOp Unit Nat Bool → Prop
  | .read _ => True
  | .write _ => True
  | .rmw _ _ _ _ old _ => old = false
  | .store _ _ _ => True
  | _ => False

/-- The last write to the flag. -/
def LastW (log : List SpAct) (i : Nat) : Prop :=
  (∃ a w, log[i]? = some a ∧ a.op.Writes () w) ∧ ∀ (k : Nat) (b : SpAct) (w : Bool), log[k]? = some b → b.op.Writes () w → k ≤ i

/-- Between two successful attempts the flag is cleared by the first thread. -/
def Excl (log : List SpAct) : Prop :=
  ∀ (i j t u : Nat) (a a' r r' w w' : Bool) (src src' : Option Nat), i < j → log[i]? = some ⟨t, .rmw () a r src false w⟩ →
    log[j]? = some ⟨u, .rmw () a' r' src' false w'⟩ → ∃ (k : Nat) (r'' : Bool), i < k ∧ k < j ∧ log[k]? = some ⟨t, .store () r'' false⟩

theorem Excl.app {log : List SpAct} (h : Excl log) (x : SpAct)
    (hx : (∀ acq rel src w, x.op ≠ .rmw () acq rel src false w) ∨
      ∀ (i t : Nat) (acq rel : Bool) (src : Option Nat) (w : Bool), log[i]? = some ⟨t, .rmw () acq rel src false w⟩ →
        ∃ (k : Nat) (r : Bool), i < k ∧ log[k]? = some ⟨t, .store () r false⟩) : Excl (log ++ [x]) := by
  intro i j t u a a' r r' w w' src src' hij hi hj
  rcases get_snoc hj with hj' | ⟨hj', he⟩
  · have hi' := get_back hi (Nat.lt_trans hij (lt_of_get hj'))
    obtain ⟨k, r'', h1, h2, h3⟩ := h i j t u a a' r r' w w' src src' hij hi' hj'
    exact ⟨k, r'', h1, h2, get_app h3⟩
  · subst hj'
    have hi' := get_back hi hij
    rcases hx with hx | hx
    · exact absurd (congrArg WAct.op he).symm (hx a' r' src' w')
    · obtain ⟨k, r'', h1, h2⟩ := hx i t a r src w hi'
      exact ⟨k, r'', h1, lt_of_get h2, get_app h2⟩

structure Inv (s : SpSt) : Prop where
  one : ∀ t u, s.holds t = true → s.holds u = true → t = u
  /-- nobody: the last write is a `clear`, or there is none -/
  free : (∀ t, s.holds t = false) →
    (∀ (k : Nat) (b : SpAct), s.log[k]? = some b → ¬ Sec b.op ∧ ∀ w, ¬ b.op.Writes () w) ∨
    ∃ i t, LastW s.log i ∧ s.log[i]? = some ⟨t, .store () true false⟩ ∧
      ∀ (k : Nat) (b : SpAct), s.log[k]? = some b → Sec b.op → k = i ∨ WHb s.log k i
  /-- somebody: the last write sets the flag -/
  held : ∀ t, s.holds t = true →
    (∃ i a, LastW s.log i ∧ s.log[i]? = some a ∧ a.op.Writes () true) ∧
    ∀ (k : Nat) (b : SpAct), s.log[k]? = some b → Sec b.op → ∃ j c, s.log[j]? = some c ∧ c.tid = t ∧ (k = j ∨ WHb s.log k j)
  /-- the events of critical sections are in one order -/
  line : ∀ (i j : Nat) (a b : SpAct), i < j → s.log[i]? = some a → s.log[j]? = some b → Sec a.op → Sec b.op → WHb s.log i j
  /-- who took the lock has it or gave it back -/
  back : ∀ (i t : Nat) (acq rel : Bool) (src : Option Nat) (w : Bool), s.log[i]? = some ⟨t, .rmw () acq rel src false w⟩ →
    s.holds t = true ∨ ∃ (k : Nat) (rel' : Bool), i < k ∧ s.log[k]? = some ⟨t, .store () rel' false⟩
  /-- it is given back before it is taken again -/
  excl : Excl s.log

theorem inv_init : Inv SpSt.init where
  one t u h := by simp [SpSt.init] at h
  free _ := by left; intro k b h; simp [SpSt.init] at h
  held t h := by simp [SpSt.init] at h
  line i j a b _ h := by simp [SpSt.init] at h
  back i t acq rel src w h := by simp [SpSt.init] at h
  excl i j t u a a' r r' w w' src src' _ h := by simp [SpSt.init] at h

/-- A `test_and_set` reads the last write. -/
theorem src_last {log : List SpAct} {t : Nat} {acq rel old new : Bool} {src : Option Nat} {i : Nat}
    (hc : Coherent (fun _ => false) (log ++ [⟨t, .rmw () acq rel src old new⟩])) (hl : LastW log i) :
    src = some i ∧ ∀ a w, log[i]? = some a → a.op.Writes () w → old = w := by
  obtain ⟨⟨a, w, h1, h2⟩, h3⟩ := hl
  obtain ⟨i', h4, h5⟩ := hc.at' log.length i _ a () src old w (get_last _) ⟨rfl, rfl, rfl⟩ rfl (get_app h1) h2 (lt_of_get h1)
  subst h4
  have h6 := hc.rf log.length _ () (some i') old (get_last _) ⟨rfl, rfl, rfl⟩
  simp only at h6
  obtain ⟨h7, b, h8, h9⟩ := h6
  have h10 := get_back h8 h7
  have h11 := h3 i' b old h10 h9
  have h12 : i' = i := by omega
  subst h12
  refine ⟨rfl, fun a' w' h13 h14 => ?_⟩
  rw [h10] at h13; cases h13
  revert h9 h14
  cases b.op <;> simp [WOp.Writes] <;> intros <;> simp_all

theorem src_first {log : List SpAct} {t : Nat} {acq rel old new : Bool} {src : Option Nat}
    (hc : Coherent (fun _ => false) (log ++ [⟨t, .rmw () acq rel src old new⟩]))
    (hl : ∀ (k : Nat) (b : SpAct), log[k]? = some b → ∀ w, ¬ b.op.Writes () w) : src = none ∧ old = false := by
  have h6 := hc.rf log.length _ () src old (get_last _) ⟨rfl, rfl, rfl⟩
  cases src with
  | none => exact ⟨rfl, h6⟩
  | some i' =>
    simp only at h6
    obtain ⟨h7, b, h8, h9⟩ := h6
    exact absurd h9 (hl i' b (get_back h8 h7) _)

theorem lastW_new {log : List SpAct} {a : SpAct} {w : Bool} (h : a.op.Writes () w) : LastW (log ++ [a]) log.length := by
  refine ⟨⟨a, w, get_last _, h⟩, fun k b w' hk _ => ?_⟩
  have := lt_of_get hk; simp at this; omega

theorem lastW_old {log : List SpAct} {a : SpAct} (h : ∀ w, ¬ a.op.Writes () w) {i : Nat} (hl : LastW log i) :
    LastW (log ++ [a]) i := by
  obtain ⟨⟨b, w, h1, h2⟩, h3⟩ := hl
  refine ⟨⟨b, w, get_app h1, h2⟩, fun k c w' hk hw => ?_⟩
  rcases get_snoc hk with hk | ⟨_, rfl⟩
  · exact h3 k c w' hk hw
  · exact absurd hw (h w')

/-- The lock is asked for. -/
theorem inv_tas {s : SpSt} (h : Inv s) {t : Nat} {rel : Bool} {src : Option Nat} {old : Bool} (ht : s.holds t = false)
    (hc : Coherent (fun _ => false) (s.log ++ [⟨t, .rmw () true rel src old true⟩])) :
    Inv { holds := fun u => if u = t then !old else s.holds u, log := s.log ++ [⟨t, .rmw () true rel src old true⟩] } := by
  have hw : (⟨t, .rmw () true rel src old true⟩ : SpAct).op.Writes () true := ⟨rfl, rfl⟩
  by_cases hf : ∀ u, s.holds u = false
  · -- free: it succeeds
    have key : old = false ∧ ∀ (k : Nat) (b : SpAct), s.log[k]? = some b → Sec b.op →
        WHb (s.log ++ [⟨t, .rmw () true rel src old true⟩]) k s.log.length := by
      rcases h.free hf with h1 | ⟨i, u, h1, h2, h3⟩
      · exact ⟨(src_first hc fun k b hk => (h1 k b hk).2).2, fun k b hk hs => absurd hs (h1 k b hk).1⟩
      · obtain ⟨h4, h5⟩ := src_last hc h1
        have h6 := h5 _ false h2 ⟨rfl, rfl⟩
        refine ⟨h6, fun k b hk hs => ?_⟩
        have h7 : WHb (s.log ++ [⟨t, .rmw () true rel src old true⟩]) i s.log.length :=
          hb_sync (lt_of_get h2) (get_app h2) (get_last _) rfl ⟨rfl, h4⟩
        rcases h3 k b hk hs with rfl | h8
        · exact h7
        · exact hb_trans (hb_app h8) h7
    obtain ⟨ho, hk⟩ := key
    subst ho
    constructor
    · intro a b; simp only [hf]; intro h1 h2
      split at h1 <;> split at h2 <;> simp_all
    · intro h1; have := h1 t; simp at this
    · intro u hu
      have hut : u = t := by
        by_contra hne; simp [hne, hf] at hu
      subst hut
      refine ⟨⟨_, _, lastW_new hw, get_last _, hw⟩, fun k b hkb hs => ?_⟩
      refine ⟨_, _, get_last _, rfl, ?_⟩
      rcases get_snoc hkb with hkb | ⟨hkb, _⟩
      · exact .inr (hk k b hkb hs)
      · exact .inl hkb
    · intro i j a b hij hi hj hsa hsb
      rcases get_snoc hi with hi | ⟨hi, _⟩
      · rcases get_snoc hj with hj | ⟨hj, _⟩
        · exact hb_app (h.line i j a b hij hi hj hsa hsb)
        · subst hj; exact hk i a hi hsa
      · have := lt_of_get hj; simp at this; omega
    · intro i u acq rel' src' w hi
      rcases get_snoc hi with hi | ⟨hi, he⟩
      · rcases h.back i u acq rel' src' w hi with h1 | ⟨k, r, h1, h2⟩
        · rw [hf] at h1; cases h1
        · exact .inr ⟨k, r, h1, get_app h2⟩
      · cases he; left; simp
    · refine h.excl.app _ (.inr fun i u acq rel' src' w hi => ?_)
      rcases h.back i u acq rel' src' w hi with h1 | h1
      · rw [hf] at h1; cases h1
      · exact h1
  · -- held by another thread: it fails
    have hf' : ∃ u, s.holds u = true := by
      by_contra hne; exact hf fun u => by
        cases hu : s.holds u with
        | false => rfl
        | true => exact absurd ⟨u, hu⟩ hne
    obtain ⟨u, hu⟩ := hf'
    obtain ⟨⟨i, a, h1, h2, h3⟩, h4⟩ := h.held u hu
    obtain ⟨_, h5⟩ := src_last hc h1
    have ho := h5 a true h2 h3
    subst ho
    have hh : (fun v => if v = t then !true else s.holds v) = s.holds := by
      funext v; by_cases hv : v = t
      · simp [hv, ht]
      · simp [hv]
    rw [hh]
    have hns : ¬ Sec (⟨t, .rmw () true rel src true true⟩ : SpAct).op := by simp [Sec]
    constructor
    · exact h.one
    · intro hx; have := hx u; simp [hu] at this
    · intro v hv
      have hvu := h.one v u hv hu
      subst hvu
      refine ⟨⟨_, _, lastW_new hw, get_last _, hw⟩, fun k b hkb hs => ?_⟩
      rcases get_snoc hkb with hkb | ⟨_, he⟩
      · obtain ⟨j, c, h6, h7, h8⟩ := h4 k b hkb hs
        exact ⟨j, c, get_app h6, h7, h8.imp id hb_app⟩
      · subst he; exact absurd hs hns
    · intro i j a b hij hi hj hsa hsb
      rcases get_snoc hi with hi | ⟨_, he⟩
      · rcases get_snoc hj with hj | ⟨_, he⟩
        · exact hb_app (h.line i j a b hij hi hj hsa hsb)
        · subst he; exact absurd hsb hns
      · subst he; exact absurd hsa hns
    · intro i v acq rel' src' w hi
      rcases get_snoc hi with hi | ⟨hi, he⟩
      · rcases h.back i v acq rel' src' w hi with h1 | ⟨k, r, h1, h2⟩
        · exact .inl h1
        · exact .inr ⟨k, r, h1, get_app h2⟩
      · cases he
    · exact h.excl.app _ (.inl (by simp))

/-- New events of the thread that has the lock come after all others of critical sections. -/
theorem sec_new {s : SpSt} (h : Inv s) {t : Nat} (ht : s.holds t = true) (o : WOp Unit Nat Bool) {k : Nat} {b : SpAct}
    (hk : s.log[k]? = some b) (hs : Sec b.op) : WHb (s.log ++ [⟨t, o⟩]) k s.log.length := by
  obtain ⟨j, c, h1, h2, h3⟩ := (h.held t ht).2 k b hk hs
  have h4 : WHb (s.log ++ [⟨t, o⟩]) j s.log.length := hb_seq (lt_of_get h1) (get_app h1) (get_last _) h2
  rcases h3 with rfl | h3
  · exact h4
  · exact hb_trans (hb_app h3) h4

theorem inv_unlock {s : SpSt} (h : Inv s) {t : Nat} (ht : s.holds t = true) :
    Inv { holds := fun u => if u = t then false else s.holds u, log := s.log ++ [⟨t, .store () true false⟩] } := by
  have hw : (⟨t, .store () true false⟩ : SpAct).op.Writes () false := ⟨rfl, rfl⟩
  have hnone : ∀ u, (if u = t then false else s.holds u) = false := by
    intro u; by_cases hu : u = t
    · simp [hu]
    · simp only [hu, if_false]
      cases hx : s.holds u with
      | false => rfl
      | true => exact absurd (h.one u t hx ht) hu
  constructor
  · intro a b ha; simp only [hnone] at ha; cases ha
  · intro _; right
    refine ⟨s.log.length, t, lastW_new hw, get_last _, fun k b hk hs => ?_⟩
    rcases get_snoc hk with hk | ⟨hk, _⟩
    · exact .inr (sec_new h ht _ hk hs)
    · exact .inl hk
  · intro a ha; simp only [hnone] at ha; cases ha
  · intro i j a b hij hi hj hsa hsb
    rcases get_snoc hi with hi | ⟨hi, _⟩
    · rcases get_snoc hj with hj | ⟨hj, _⟩
      · exact hb_app (h.line i j a b hij hi hj hsa hsb)
      · subst hj; exact sec_new h ht _ hi hsa
    · have := lt_of_get hj; simp at this; omega
  · intro i u acq rel src w hi
    rcases get_snoc hi with hi' | ⟨_, he⟩
    · right
      rcases h.back i u acq rel src w hi' with h1 | ⟨k, r, h1, h2⟩
      · have := h.one u t h1 ht
        subst this
        exact ⟨s.log.length, true, lt_of_get hi', get_last _⟩
      · exact ⟨k, r, h1, get_app h2⟩
    · cases he
  · exact h.excl.app _ (.inl (by simp))

theorem inv_touch {s : SpSt} (h : Inv s) {t : Nat} (ht : s.holds t = true) {o : WOp Unit Nat Bool}
    (hw : ∀ w, ¬ o.Writes () w) (hb : ∀ acq rel src w, o ≠ .rmw () acq rel src false w) :
    Inv { s with log := s.log ++ [⟨t, o⟩] } := by
  constructor
  · exact h.one
  · intro hx; have := hx t; simp [ht] at this
  · intro u hu
    have := h.one u t hu ht
    subst this
    obtain ⟨⟨i, a, h1, h2, h3⟩, h4⟩ := h.held u hu
    refine ⟨⟨i, a, lastW_old hw h1, get_app h2, h3⟩, fun k b hk hs => ⟨s.log.length, _, get_last _, rfl, ?_⟩⟩
    rcases get_snoc hk with hk | ⟨hk, _⟩
    · exact .inr (sec_new h ht _ hk hs)
    · exact .inl hk
  · intro i j a b hij hi hj hsa hsb
    rcases get_snoc hi with hi | ⟨hi, _⟩
    · rcases get_snoc hj with hj | ⟨hj, _⟩
      · exact hb_app (h.line i j a b hij hi hj hsa hsb)
      · subst hj; exact sec_new h ht _ hi hsa
    · have := lt_of_get hj; simp at this; omega
  · intro i u acq rel src w hi
    rcases get_snoc hi with hi | ⟨_, he⟩
    · rcases h.back i u acq rel src w hi with h1 | ⟨k, r, h1, h2⟩
      · exact .inl h1
      · exact .inr ⟨k, r, h1, get_app h2⟩
    · have := congrArg WAct.op he
      exact absurd this.symm (hb acq rel src w)
  · exact h.excl.app _ (.inl hb)

theorem inv_step {s : SpSt} (h : Inv s) (o : SpOp) (hc : Coherent (fun _ => false) (s.step o).log) : Inv (s.step o) := by
  cases o with
  | lock t src =>
    simp only [SpSt.step] at hc ⊢
    by_cases ht : s.holds t = true
    · simpa [ht] using h
    · simp only [ht, Bool.false_eq_true, if_false] at hc ⊢
      exact inv_tas h (by simpa using ht) hc
  | tryLock t src =>
    simp only [SpSt.step] at hc ⊢
    by_cases ht : s.holds t = true
    · simpa [ht] using h
    · simp only [ht, Bool.false_eq_true, if_false] at hc ⊢
      exact inv_tas h (by simpa using ht) hc
  | unlock t =>
    simp only [SpSt.step]
    by_cases ht : s.holds t = true
    · simpa [ht] using inv_unlock h ht
    · simpa [ht] using h
  | read t c =>
    simp only [SpSt.step]
    by_cases ht : s.holds t = true
    · simpa [ht] using inv_touch h ht (o := .read c) (by simp [WOp.Writes]) (by simp)
    · simpa [ht] using h
  | write t c =>
    simp only [SpSt.step]
    by_cases ht : s.holds t = true
    · simpa [ht] using inv_touch h ht (o := .write c) (by simp [WOp.Writes]) (by simp)
    · simpa [ht] using h

theorem step_log (s : SpSt) (o : SpOp) : ∃ u, (s.step o).log = s.log ++ u := by
  cases o <;> simp only [SpSt.step] <;> split <;>
    first | exact ⟨_, rfl⟩ | exact ⟨[], by simp⟩

theorem run_log (s : SpSt) (l : List SpOp) : ∃ u, (s.run l).log = s.log ++ u := by
  induction l generalizing s with
  | nil => exact ⟨[], by simp [SpSt.run]⟩
  | cons o l ih =>
    obtain ⟨u, hu⟩ := step_log s o
    obtain ⟨w, hw⟩ := ih (s.step o)
    exact ⟨u ++ w, by simp only [SpSt.run, List.foldl_cons] at hw ⊢; rw [hw, hu, List.append_assoc]⟩

theorem inv_run {s : SpSt} (h : Inv s) (l : List SpOp) (hc : Coherent (fun _ => false) (s.run l).log) : Inv (s.run l) := by
  induction l generalizing s with
  | nil => exact h
  | cons o l ih =>
    refine ih (inv_step h o ?_) hc
    obtain ⟨u, hu⟩ := run_log (s.step o) l
    have : (s.run (o :: l)).log = (s.step o).log ++ u := hu
    rw [this] at hc
    exact coherent_left hc

end Spin
end CGraph.Weak
