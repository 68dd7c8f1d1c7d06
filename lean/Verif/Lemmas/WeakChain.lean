import Verif.Lemmas.WeakMem
import Mathlib.Data.List.Induction

/-! Last writes, chains of read-modify-writes, and growing an execution by a read of the last write. -/
namespace CGraph.Weak
open Spec

section
variable {L C V : Type} [DecidableEq L] {ini : L → V} {t u : List (WAct L C V)}

/-- The last write to `l`. -/
def LastAt (t : List (WAct L C V)) (l : L) (m : Nat) : Prop :=
  (∃ a v, t[m]? = some a ∧ a.op.Writes l v) ∧ ∀ (k : Nat) (b : WAct L C V) (v : V), t[k]? = some b → b.op.Writes l v → k ≤ m

/-- The value after one more operation. -/
def upd (l : L) (v : V) (a : WAct L C V) : V :=
  match a.op with
  | .store l' _ v' => if l' = l then v' else v
  | .rmw l' _ _ _ _ v' => if l' = l then v' else v
  | _ => v

/-- The value written last. -/
def lastv (ini : L → V) (t : List (WAct L C V)) (l : L) : V := t.foldl (upd l) (ini l)

theorem lastv_snoc (a : WAct L C V) (l : L) : lastv ini (t ++ [a]) l = upd l (lastv ini t l) a := by simp [lastv]

theorem upd_of_not {a : WAct L C V} {l : L} (h : ∀ v, ¬ a.op.Writes l v) (v : V) : upd l v a = v := by
  obtain ⟨tid, o⟩ := a
  cases o with
  | store l' r v' =>
    have := h v'
    simp only [WOp.Writes, and_true] at this
    simp [upd, this]
  | rmw l' r r' s o v' =>
    have := h v'
    simp only [WOp.Writes, and_true] at this
    simp [upd, this]
  | _ => rfl

theorem upd_of {a : WAct L C V} {l : L} {v' : V} (h : a.op.Writes l v') (v : V) : upd l v a = v' := by
  obtain ⟨tid, o⟩ := a
  cases o with
  | store l' r v' => obtain ⟨rfl, rfl⟩ := h; simp [upd]
  | rmw l' r r' s o v' => obtain ⟨rfl, rfl⟩ := h; simp [upd]
  | _ => exact h.elim

omit [DecidableEq L] in
theorem last_unique {l : L} {m k : Nat} (h : LastAt t l m) (h' : LastAt t l k) : m = k := by
  obtain ⟨⟨a, v, h1, h2⟩, h3⟩ := h
  obtain ⟨⟨b, w, h4, h5⟩, h6⟩ := h'
  exact Nat.le_antisymm (h6 m a v h1 h2) (h3 k b w h4 h5)

omit [DecidableEq L] in
theorem last_snoc {l : L} {a : WAct L C V} {v : V} (h : a.op.Writes l v) : LastAt (t ++ [a]) l t.length := by
  refine ⟨⟨a, v, get_last a, h⟩, fun k b w h1 _ => ?_⟩
  have := lt_of_get h1
  simp at this
  omega

omit [DecidableEq L] in
theorem last_keep {l : L} {a : WAct L C V} (h : ∀ v, ¬ a.op.Writes l v) {m : Nat} : LastAt (t ++ [a]) l m ↔ LastAt t l m := by
  constructor
  · rintro ⟨⟨b, v, h1, h2⟩, h3⟩
    rcases get_snoc h1 with h1' | ⟨rfl, rfl⟩
    · exact ⟨⟨b, v, h1', h2⟩, fun k b' w h4 h5 => h3 k b' w (get_app h4) h5⟩
    · exact absurd h2 (h v)
  · rintro ⟨⟨b, v, h1, h2⟩, h3⟩
    refine ⟨⟨b, v, get_app h1, h2⟩, fun k b' w h4 h5 => ?_⟩
    rcases get_snoc h4 with h4' | ⟨rfl, rfl⟩
    · exact h3 k b' w h4' h5
    · exact absurd h5 (h w)

theorem lastv_spec (ini : L → V) (t : List (WAct L C V)) (l : L) :
    ((∀ (k : Nat) (b : WAct L C V) (v : V), t[k]? = some b → ¬ b.op.Writes l v) ∧ lastv ini t l = ini l) ∨
    ∃ (m : Nat) (a : WAct L C V), t[m]? = some a ∧ a.op.Writes l (lastv ini t l) ∧ LastAt t l m := by
  induction t using List.reverseRecOn with
  | nil => exact .inl ⟨by simp, rfl⟩
  | append_singleton t a ih =>
    by_cases h : ∃ v, a.op.Writes l v
    · obtain ⟨v, hv⟩ := h
      exact .inr ⟨t.length, a, get_last a, by rw [lastv_snoc, upd_of hv]; exact hv, last_snoc hv⟩
    · have h' : ∀ v, ¬ a.op.Writes l v := fun v hv => h ⟨v, hv⟩
      rw [lastv_snoc, upd_of_not h']
      rcases ih with ⟨h1, h2⟩ | ⟨m, b, h1, h2, h3⟩
      · refine .inl ⟨fun k b v hk => ?_, h2⟩
        rcases get_snoc hk with hk' | ⟨-, rfl⟩
        · exact h1 k b v hk'
        · exact h' v
      · exact .inr ⟨m, b, get_app h1, h2, (last_keep h').2 h3⟩

omit [DecidableEq L] in
theorem writes_fun {o : WOp L C V} {l : L} {v w : V} (h : o.Writes l v) (h' : o.Writes l w) : v = w := by
  cases o <;> simp_all [WOp.Writes]

omit [DecidableEq L] in
theorem writes_loc {o : WOp L C V} {l l' : L} {v w : V} (h : o.Writes l v) (h' : o.Writes l' w) : l = l' := by
  cases o <;> simp_all [WOp.Writes]

theorem lastv_at {l : L} {m : Nat} {a : WAct L C V} {v : V} (h : LastAt t l m) (h1 : t[m]? = some a) (h2 : a.op.Writes l v) :
    lastv ini t l = v := by
  rcases lastv_spec ini t l with ⟨h3, -⟩ | ⟨k, b, h3, h4, h5⟩
  · exact absurd h2 (h3 m a v h1)
  · have := last_unique h h5
    subst this
    rw [h1] at h3
    cases h3
    exact writes_fun h4 h2

/-- A read-modify-write finds the last value. -/
theorem rmw_last {a : WAct L C V} {l : L} {acq rel : Bool} {src : Option Nat} {old new : V} (hc : Coherent ini (t ++ [a]))
    (ha : a.op = .rmw l acq rel src old new) : old = lastv ini t l ∧ ∀ m, LastAt t l m → src = some m := by
  have hr : a.op.Reads l src old := by rw [ha]; exact ⟨rfl, rfl, rfl⟩
  have hm : a.op.Modifies src := by rw [ha]; rfl
  have key : ∀ m, LastAt t l m → src = some m := by
    intro m hm'
    obtain ⟨⟨b, v, h1, h2⟩, h3⟩ := hm'
    obtain ⟨i, rfl, hi⟩ := hc.at' t.length m a b l src old v (get_last a) hr hm (get_app h1) h2 (lt_of_get h1)
    obtain ⟨h4, b', h5, h6⟩ := hc.rf t.length a l _ old (get_last a) hr
    have := h3 i b' old (get_back h5 h4) h6
    rw [Nat.le_antisymm this hi]
  refine ⟨?_, key⟩
  have hrf := hc.rf t.length a l src old (get_last a) hr
  rcases lastv_spec ini t l with ⟨h1, h2⟩ | ⟨m, b, h1, h2, h3⟩
  · cases src with
    | none => rw [h2]; exact hrf
    | some i =>
      obtain ⟨h4, b', h5, h6⟩ := hrf
      exact absurd h6 (h1 i b' old (get_back h5 h4))
  · have := key m h3
    subst this
    obtain ⟨h4, b', h5, h6⟩ := hrf
    have h7 := get_back h5 h4
    rw [h1] at h7
    cases h7
    exact writes_fun h6 h2

/-- A store that ends release sequences. -/
def StoreTo (l : L) : WOp L C V → Prop
  | .store l' _ _ => l' = l
  | _ => False

omit [DecidableEq L] in
theorem rmw_of {o : WOp L C V} {l : L} {v : V} (h : o.Writes l v) (hs : ¬ StoreTo l o) : ∃ acq rel src old, o = .rmw l acq rel src old v := by
  cases o with
  | store l' r v' => exact absurd h.1 hs
  | rmw l' a r s o v' => obtain ⟨rfl, rfl⟩ := h; exact ⟨_, _, _, _, rfl⟩
  | _ => exact h.elim

omit [DecidableEq L] in
/-- Read-modify-writes continue the release sequences of all writes before them, back to the last store. -/
theorem chain (hc : Coherent ini t) {l : L} {i : Nat} {a : WAct L C V} {v : V} (hi : t[i]? = some a) (hw : a.op.Writes l v) :
    ∀ (m : Nat) (b : WAct L C V) (w : V), t[m]? = some b → b.op.Writes l w → i ≤ m →
      (∀ (k : Nat) (d : WAct L C V), i < k → k ≤ m → t[k]? = some d → ¬ StoreTo l d.op) → RelSeq t i m := by
  intro m
  induction m using Nat.strongRecOn with
  | ind m ih =>
    intro b w hb hbw him hno
    by_cases e : i = m
    · subst e; exact .head
    · obtain ⟨acq, rel, src, old, ho⟩ := rmw_of hbw (hno m b (by omega) (Nat.le_refl _) hb)
      have hr : b.op.Reads l src old := by rw [ho]; exact ⟨rfl, rfl, rfl⟩
      have hm : b.op.Modifies src := by rw [ho]; rfl
      obtain ⟨k, rfl, hk⟩ := hc.at' m i b a l src old v hb hr hm hi hw (by omega)
      obtain ⟨h4, b', h5, h6⟩ := hc.rf m b l _ old hb hr
      exact .next (ih k h4 b' old h5 h6 hk (fun k' d h1 h2 => hno k' d h1 (by omega))) hb hm

/-! ### Growing -/

omit [DecidableEq L] in
theorem relSeq_back' (hrf : ∀ (j : Nat) (a : WAct L C V) (l : L) (src : Option Nat) (v : V), (t ++ u)[j]? = some a → a.op.Reads l src v →
    ∀ i, src = some i → i < j) {i k : Nat} (h : RelSeq (t ++ u) i k) (hk : k < t.length) : RelSeq t i k := by
  induction h with
  | head => exact .head
  | @next k m a _ h1 h2 ih =>
    have h3 : k < m := by
      obtain ⟨tid, op⟩ := a
      cases op with
      | rmw l acq rel src old new => exact hrf m _ l src old h1 ⟨rfl, rfl, rfl⟩ k h2
      | _ => exact h2.elim
    exact .next (ih (by omega)) (get_back h1 hk) h2

omit [DecidableEq L] in
theorem hb_back' (hrf : ∀ (j : Nat) (a : WAct L C V) (l : L) (src : Option Nat) (v : V), (t ++ u)[j]? = some a → a.op.Reads l src v →
    ∀ i, src = some i → i < j) {i j : Nat} (h : WHb (t ++ u) i j) (hj : j < t.length) : WHb t i j := by
  have edge : ∀ {i j : Nat}, j < t.length → (WSeq (t ++ u) i j ∨ WSync (t ++ u) i j) → WSeq t i j ∨ WSync t i j := by
    intro i j hj h
    rcases h with ⟨h1, a, b, h2, h3, h4⟩ | ⟨h1, a, b, k, h2, h3, h4, h5, h6⟩
    · exact .inl ⟨h1, a, b, get_back h2 (by omega), get_back h3 hj, h4⟩
    · have hk : k < j := by
        obtain ⟨tid, op⟩ := b
        cases op with
        | rmw l acq rel src old new => exact hrf j _ l src old h3 ⟨rfl, rfl, rfl⟩ k h5.2
        | load l acq src v => exact hrf j _ l src v h3 ⟨rfl, rfl, rfl⟩ k h5.2
        | _ => exact h5.elim
      exact .inr ⟨h1, a, b, k, get_back h2 (by omega), get_back h3 hj, h4, h5, relSeq_back' hrf h6 (by omega)⟩
  induction h with
  | single h => exact .single (edge hj h)
  | @tail b c _ h ih =>
    have : b < c := by rcases h with h | h <;> exact h.1
    exact .tail (ih (by omega)) (edge hj h)

/-- To read the last write is always possible. -/
theorem coherent_snoc (hc : Coherent ini t) (a : WAct L C V)
    (h : ∀ l src v, a.op.Reads l src v → v = lastv ini t l ∧
      ((∃ m, src = some m ∧ LastAt t l m) ∨ (src = none ∧ ∀ (k : Nat) (b : WAct L C V) (w : V), t[k]? = some b → ¬ b.op.Writes l w))) :
    Coherent ini (t ++ [a]) := by
  have hrf : ∀ (j : Nat) (b : WAct L C V) (l : L) (src : Option Nat) (v : V), (t ++ [a])[j]? = some b → b.op.Reads l src v →
      ∀ i, src = some i → i < j := by
    intro j b l src v h1 h2 i hi
    subst hi
    rcases get_snoc h1 with h1' | ⟨rfl, rfl⟩
    · exact (hc.rf j b l _ v h1' h2).1
    · rcases (h l _ v h2).2 with ⟨m, h3, h4⟩ | ⟨h3, -⟩
      · cases h3
        obtain ⟨⟨b', v', h5, -⟩, -⟩ := h4
        exact lt_of_get h5
      · exact absurd h3 (by simp)
  constructor
  · intro j b l src v h1 h2
    rcases get_snoc h1 with h1' | ⟨rfl, rfl⟩
    · have := hc.rf j b l src v h1' h2
      cases src with
      | none => exact this
      | some i => obtain ⟨h3, d, h4, h5⟩ := this; exact ⟨h3, d, get_app h4, h5⟩
    · obtain ⟨hv, h3⟩ := h l src v h2
      rcases h3 with ⟨m, rfl, h3⟩ | ⟨rfl, h3⟩
      · obtain ⟨⟨d, v', h5, h6⟩, -⟩ := id h3
        refine ⟨lt_of_get h5, d, get_app h5, ?_⟩
        rw [hv, lastv_at h3 h5 h6]; exact h6
      · rcases lastv_spec ini t l with ⟨-, h4⟩ | ⟨m, d, h4, h5, -⟩
        · exact hv.trans h4
        · exact absurd h5 (h3 m d _ h4)
  · intro j k b d l src v w h1 h2 h3 h4 h5
    have hkj := hb_lt h5
    have h3' : t[k]? = some d := get_back h3 (by have := lt_of_get h1; simp at this; omega)
    rcases get_snoc h1 with h1' | ⟨rfl, rfl⟩
    · exact hc.wr j k b d l src v w h1' h2 h3' h4 (hb_back' hrf h5 (lt_of_get h1'))
    · rcases (h l src v h2).2 with ⟨m, rfl, h6⟩ | ⟨rfl, h6⟩
      · exact ⟨m, rfl, h6.2 k d w h3' h4⟩
      · exact absurd h4 (h6 k d w h3')
  · intro j k b d l src src' v w h1 h2 h3 h4 h5 i' hi'
    subst hi'
    have hkj := hb_lt h5
    have h3' : t[k]? = some d := get_back h3 (by have := lt_of_get h1; simp at this; omega)
    obtain ⟨h7, e, h8, h9⟩ := hc.rf k d l _ w h3' h4
    rcases get_snoc h1 with h1' | ⟨rfl, rfl⟩
    · exact hc.rr j k b d l src _ v w h1' h2 h3' h4 (hb_back' hrf h5 (lt_of_get h1')) i' rfl
    · rcases (h l src v h2).2 with ⟨m, rfl, h6⟩ | ⟨rfl, h6⟩
      · exact ⟨m, rfl, h6.2 i' e w h8 h9⟩
      · exact absurd h9 (h6 i' e w h8)
  · intro j k b d l src v w h1 h2 h3 h4 h5 h6
    have h4' : t[k]? = some d := get_back h4 (by have := lt_of_get h1; simp at this; omega)
    rcases get_snoc h1 with h1' | ⟨rfl, rfl⟩
    · exact hc.at' j k b d l src v w h1' h2 h3 h4' h5 h6
    · rcases (h l src v h2).2 with ⟨m, rfl, h7⟩ | ⟨rfl, h7⟩
      · exact ⟨m, rfl, h7.2 k d w h4' h5⟩
      · exact absurd h5 (h7 k d w h4')

end
end CGraph.Weak
