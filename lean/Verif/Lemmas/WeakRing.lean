import Verif.Lemmas.WeakMem

/-! The invariant of the lock-free ring on memory with out-of-date reads. -/
namespace CGraph.Weak
open Spec
namespace Ring

/-- Numbers that agree modulo the capacity and are less than it apart are equal. -/
theorem mod_near {cap a b : Nat} (h : a % cap = b % cap) (hab : a ≤ b) (hd : b < a + cap) : a = b := by
  have h1 : (b - a) % cap = 0 := Nat.sub_mod_eq_zero_of_mod_eq h.symm
  rw [Nat.mod_eq_of_lt (by omega)] at h1
  omega

theorem idx_of_lt {S : List Nat} {u : Nat} (h : u < S.length) : ∃ i, S[u]? = some i := ⟨S[u], by simp [h]⟩

/-- `S` are the positions of the stores to `l`; they are all by thread `t`. -/
structure Stores (cap : Nat) (log : List RAct) (l : RLoc) (t : Nat) (S : List Nat) : Prop where
  src : ∀ (i : Nat) (a : RAct) (v : Nat), log[i]? = some a → a.op.Writes l v → ∃ u : Nat, S[u]? = some i
  is : ∀ (u i : Nat), S[u]? = some i → log[i]? = some ⟨t, .store l true ((u + 1) % cap)⟩
  inc : ∀ (u u' i i' : Nat), S[u]? = some i → S[u']? = some i' → u < u' → i < i'
  cnt : ∀ (u i : Nat), S[u]? = some i → writesBefore log l i = u
  tot : writesBefore log l log.length = S.length

section
variable {cap : Nat} {log : List RAct} {l : RLoc} {t : Nat} {S : List Nat}

theorem before_app {u : List RAct} {n : Nat} (h : n ≤ log.length) : writesBefore (log ++ u) l n = writesBefore log l n := by
  simp [writesBefore, List.take_append_of_le_length h]

theorem before_snoc (a : RAct) :
    writesBefore (log ++ [a]) l (log.length + 1) = writesBefore log l log.length + if a.op.isWrite l then 1 else 0 := by
  rw [writesBefore, List.take_of_length_le (by simp), writesBefore, List.take_of_length_le (by simp)]
  simp [List.countP_append, List.countP_cons]

theorem isWrite_false {o : WOp RLoc Nat Nat} (h : ∀ v, ¬ o.Writes l v) : o.isWrite l = false := by
  cases o <;> simp_all [WOp.Writes, WOp.isWrite]

theorem Stores.nil : Stores cap [] l t [] := by
  constructor <;> simp [writesBefore]

theorem Stores.quiet (h : Stores cap log l t S) {a : RAct} (ha : ∀ v, ¬ a.op.Writes l v) : Stores cap (log ++ [a]) l t S where
  src i b v hi hv := by
    rcases get_snoc hi with hi | ⟨_, rfl⟩
    · exact h.src i b v hi hv
    · exact absurd hv (ha v)
  is u i hu := get_app (h.is u i hu)
  inc := h.inc
  cnt u i hu := by
    rw [before_app (Nat.le_of_lt (lt_of_get (h.is u i hu)))]
    exact h.cnt u i hu
  tot := by
    simp only [List.length_append, List.length_singleton]
    rw [before_snoc, isWrite_false ha]; simpa using h.tot

theorem get_snoc_nat {S : List Nat} {n u i : Nat} (h : (S ++ [n])[u]? = some i) : S[u]? = some i ∨ (u = S.length ∧ i = n) :=
  get_snoc h

theorem Stores.push (h : Stores cap log l t S) :
    Stores cap (log ++ [⟨t, .store l true ((S.length + 1) % cap)⟩]) l t (S ++ [log.length]) where
  src i b v hi hv := by
    rcases get_snoc hi with hi | ⟨hi, _⟩
    · obtain ⟨u, hu⟩ := h.src i b v hi hv
      exact ⟨u, by rw [List.getElem?_append_left (lt_of_get hu)]; exact hu⟩
    · exact ⟨S.length, by simp [hi]⟩
  is u i hu := by
    rcases get_snoc_nat hu with hu | ⟨rfl, rfl⟩
    · exact get_app (h.is u i hu)
    · exact get_last _
  inc u u' i i' hu hu' hlt := by
    rcases get_snoc_nat hu with hu | ⟨rfl, rfl⟩
    · rcases get_snoc_nat hu' with hu' | ⟨rfl, rfl⟩
      · exact h.inc u u' i i' hu hu' hlt
      · exact lt_of_get (h.is u i hu)
    · have := lt_of_get hu'; simp at this; omega
  cnt u i hu := by
    rcases get_snoc_nat hu with hu | ⟨rfl, rfl⟩
    · rw [before_app (Nat.le_of_lt (lt_of_get (h.is u i hu)))]
      exact h.cnt u i hu
    · rw [before_app (Nat.le_refl _)]; exact h.tot
  tot := by
    simp only [List.length_append, List.length_singleton]
    rw [before_snoc]
    simp [WOp.isWrite, h.tot]

/-- Stores with a smaller number are not later. -/
theorem Stores.le (h : Stores cap log l t S) {u u' i i' : Nat} (h1 : S[u]? = some i) (h2 : S[u']? = some i') (hu : u ≤ u') :
    i ≤ i' := by
  rcases Nat.lt_or_eq_of_le hu with hu | rfl
  · exact Nat.le_of_lt (h.inc u u' i i' h1 h2 hu)
  · rw [h1] at h2; cases h2; exact Nat.le_refl _

theorem Stores.le_of (h : Stores cap log l t S) {u u' i i' : Nat} (h1 : S[u]? = some i) (h2 : S[u']? = some i') (hi : i ≤ i') :
    u ≤ u' := by
  by_contra hlt
  have := h.inc u' u i' i h2 h1 (by omega)
  omega

/-- Thread `t` has read the store with number `n - 1` with acquire. -/
def Seen (log : List RAct) (l : RLoc) (t : Nat) (S : List Nat) (n : Nat) : Prop :=
  n = 0 ∨ ∃ i j v, 0 < n ∧ S[n - 1]? = some i ∧ log[j]? = some ⟨t, .load l true (some i) v⟩ ∧ i < j

theorem Seen.app {u : List RAct} {r n : Nat} (h : Seen log l r S n) : Seen (log ++ u) l r S n := by
  rcases h with h | ⟨i, j, v, h1, h2, h3, h4⟩
  · exact .inl h
  · exact .inr ⟨i, j, v, h1, h2, get_app h3, h4⟩

theorem Seen.more {r n k : Nat} (h : Seen log l r S n) : Seen log l r (S ++ [k]) n := by
  rcases h with h | ⟨i, j, v, h1, h2, h3, h4⟩
  · exact .inl h
  · refine .inr ⟨i, j, v, h1, ?_, h3, h4⟩
    rw [List.getElem?_append_left (lt_of_get h2)]; exact h2

/-- What a load can return: the number of stores that it takes into account is not less than what the thread has seen, not less
than what happens before it and not more than there are. -/
theorem load_view (h : Stores cap log l t S) {r n : Nat} {acq : Bool} {src : Option Nat} {v : Nat}
    (hc : Coherent (fun _ => 0) (log ++ [⟨r, .load l acq src v⟩])) (hs : Seen log l r S n) :
    ∃ m, n ≤ m ∧ m ≤ S.length ∧ v = m % cap ∧ (acq = true → Seen (log ++ [⟨r, .load l acq src v⟩]) l r S m) ∧
      ∀ u i : Nat, S[u]? = some i → WHb (log ++ [⟨r, .load l acq src v⟩]) i log.length → u < m := by
  have hrf := hc.rf log.length _ l src v (get_last _) ⟨rfl, rfl, rfl⟩
  cases src with
  | none =>
    simp only at hrf
    refine ⟨0, ?_, Nat.zero_le _, by simp [hrf], fun _ => .inl rfl, fun u i hu hb => ?_⟩
    · rcases hs with h0 | ⟨i, j, w, h1, h2, h3, h4⟩
      · omega
      · obtain ⟨x, hx, _⟩ := hc.rr log.length j _ _ l none (some i) v w (get_last _) ⟨rfl, rfl, rfl⟩ (get_app h3)
          ⟨rfl, rfl, rfl⟩ (hb_seq (lt_of_get h3) (get_app h3) (get_last _) rfl) i rfl
        cases hx
    · obtain ⟨x, hx, _⟩ := hc.wr log.length i _ _ l none v _ (get_last _) ⟨rfl, rfl, rfl⟩ (get_app (h.is u i hu))
        ⟨rfl, rfl⟩ hb
      cases hx
  | some i0 =>
    simp only at hrf
    obtain ⟨h5, b, h6, h7⟩ := hrf
    have h6' := get_back h6 h5
    obtain ⟨k, hk⟩ := h.src i0 b v h6' h7
    have h8 := h.is k i0 hk
    rw [h6'] at h8; cases h8
    have hv : v = (k + 1) % cap := h7.2.symm
    refine ⟨k + 1, ?_, lt_of_get hk, hv, fun ha => ?_, fun u i hu hb => ?_⟩
    · rcases hs with h0 | ⟨i, j, w, h1, h2, h3, h4⟩
      · omega
      · obtain ⟨x, hx, hle⟩ := hc.rr log.length j _ _ l (some i0) (some i) v w (get_last _) ⟨rfl, rfl, rfl⟩ (get_app h3)
          ⟨rfl, rfl, rfl⟩ (hb_seq (lt_of_get h3) (get_app h3) (get_last _) rfl) i rfl
        cases hx
        have := h.le_of h2 hk hle
        omega
    · subst ha
      exact .inr ⟨i0, log.length, v, by omega, by simpa using hk, get_last _, h5⟩
    · obtain ⟨x, hx, hle⟩ := hc.wr log.length i _ _ l (some i0) v _ (get_last _) ⟨rfl, rfl, rfl⟩ (get_app (h.is u i hu))
        ⟨rfl, rfl⟩ hb
      cases hx
      have := h.le_of hu hk hle
      omega

/-- A thread reads its own last store. -/
theorem load_own (h : Stores cap log l t S) {acq : Bool} {src : Option Nat} {v : Nat}
    (hc : Coherent (fun _ => 0) (log ++ [⟨t, .load l acq src v⟩])) : v = S.length % cap := by
  obtain ⟨m, _, h2, h3, _, h5⟩ := load_view (n := 0) h hc (.inl rfl)
  by_cases h0 : S.length = 0
  · have : m = S.length := by omega
    rw [h3, this]
  · obtain ⟨i, hi⟩ := idx_of_lt (S := S) (u := S.length - 1) (by omega)
    have := h5 _ i hi (hb_seq (lt_of_get (h.is _ i hi)) (get_app (h.is _ i hi)) (get_last _) rfl)
    have : m = S.length := by omega
    rw [h3, this]

/-- What the other thread did before a store that was seen comes before new events. -/
theorem seen_hb (h : Stores cap log l t S) {r n : Nat} (hs : Seen log l r S n) {p k i : Nat} {a b : RAct} (hp : p < n)
    (hk : S[p]? = some k) (hi : log[i]? = some a) (ha : a.tid = t) (hik : i ≤ k) (hb : b.tid = r) (u : List RAct) {m : Nat}
    (hm : log.length ≤ m) (hmb : (log ++ u)[m]? = some b) : WHb (log ++ u) i m := by
  rcases hs with h0 | ⟨k', j, v, h1, h2, h3, h4⟩
  · omega
  · have hk' := h.is _ k' h2
    have hle := h.le hk h2 (by omega)
    have e2 : WHb (log ++ u) k' j := hb_sync h4 (get_app hk') (get_app h3) rfl ⟨rfl, rfl⟩
    have e3 : WHb (log ++ u) j m := hb_seq (by have := lt_of_get h3; omega) (get_app h3) hmb hb.symm
    by_cases he : i = k'
    · subst he; exact hb_trans e2 e3
    · have e1 : WHb (log ++ u) i k' := hb_seq (by omega) (get_app hi) (get_app hk') ha
      exact hb_trans e1 (hb_trans e2 e3)

end

/-- A plain access of cell `c`. -/
def Touches (c : Nat) : WOp RLoc Nat Nat → Prop
  | .read c' => c' = c
  | .write c' => c' = c
  | _ => False

theorem conflict_touch {a b : WOp RLoc Nat Nat} (h : WConflict a b) : ∃ c, Touches c a ∧ Touches c b := by
  cases a <;> cases b <;> simp_all [WConflict, Touches]

/-- The log: stores to `tail_` and `head_`, and accesses of the slots.  `W`, `R`: positions of the slot accesses. -/
structure LInv (cap : Nat) (log : List RAct) (W T R H : List Nat) : Prop where
  ts : Stores cap log .tail 0 T
  hs : Stores cap log .head 1 H
  acc : ∀ (i c : Nat) (a : RAct), log[i]? = some a → Touches c a.op →
    (a.tid = 0 ∧ ∃ u : Nat, W[u]? = some i ∧ c = u % cap) ∨ (a.tid = 1 ∧ ∃ p r : Nat, R[p]? = some r ∧ i ≤ r ∧ c = p % cap)
  wt : ∀ (u i j : Nat), W[u]? = some i → T[u]? = some j → i < j
  rh : ∀ (u i j : Nat), R[u]? = some i → H[u]? = some j → i < j
  wlt : ∀ (u i : Nat), W[u]? = some i → i < log.length
  rlt : ∀ (u i : Nat), R[u]? = some i → i < log.length
  race : ∀ (i j : Nat) (a b : RAct), i < j → log[i]? = some a → log[j]? = some b → a.tid ≠ b.tid →
    WConflict a.op b.op → WHb log i j

theorem LInv.nil (cap : Nat) : LInv cap [] [] [] [] [] where
  ts := .nil
  hs := .nil
  acc i c a h := by simp at h
  wt u i j h := by simp at h
  rh u i j h := by simp at h
  wlt u i h := by simp at h
  rlt u i h := by simp at h
  race i j a b _ h := by simp at h

section
variable {cap : Nat} {log : List RAct} {W T R H : List Nat}

/-- An event that touches no slot. -/
theorem race_quiet (h : LInv cap log W T R H) {a : RAct} (ha : ∀ c, ¬ Touches c a.op) :
    ∀ (i j : Nat) (x y : RAct), i < j → (log ++ [a])[i]? = some x → (log ++ [a])[j]? = some y → x.tid ≠ y.tid →
    WConflict x.op y.op → WHb (log ++ [a]) i j := by
  intro i j x y hij hi hj hne hcf
  obtain ⟨c, hc1, hc2⟩ := conflict_touch hcf
  rcases get_snoc hj with hj | ⟨_, rfl⟩
  · rcases get_snoc hi with hi | ⟨_, rfl⟩
    · exact hb_app (h.race i j x y hij hi hj hne hcf)
    · exact absurd hc1 (ha c)
  · exact absurd hc2 (ha c)

theorem acc_quiet (h : LInv cap log W T R H) {a : RAct} (ha : ∀ c, ¬ Touches c a.op) :
    ∀ (i c : Nat) (x : RAct), (log ++ [a])[i]? = some x → Touches c x.op →
    (x.tid = 0 ∧ ∃ u : Nat, W[u]? = some i ∧ c = u % cap) ∨ (x.tid = 1 ∧ ∃ p r : Nat, R[p]? = some r ∧ i ≤ r ∧ c = p % cap) := by
  intro i c x hi hx
  rcases get_snoc hi with hi | ⟨_, rfl⟩
  · exact h.acc i c x hi hx
  · exact absurd hx (ha c)

theorem lt_snoc {n : Nat} {a : RAct} (h : n < log.length) : n < (log ++ [a]).length := by simp; omega

/-- A load, or a store to another location. -/
theorem LInv.quiet (h : LInv cap log W T R H) {a : RAct} (ha : ∀ c, ¬ Touches c a.op) (ht : ∀ v, ¬ a.op.Writes .tail v)
    (hh : ∀ v, ¬ a.op.Writes .head v) : LInv cap (log ++ [a]) W T R H where
  ts := h.ts.quiet ht
  hs := h.hs.quiet hh
  acc := acc_quiet h ha
  wt := h.wt
  rh := h.rh
  wlt u i hu := lt_snoc (h.wlt u i hu)
  rlt u i hu := lt_snoc (h.rlt u i hu)
  race := race_quiet h ha

theorem LInv.tail (h : LInv cap log W T R H) : LInv cap (log ++ [⟨0, .store .tail true ((T.length + 1) % cap)⟩]) W (T ++ [log.length]) R H where
  ts := h.ts.push
  hs := h.hs.quiet (by simp [WOp.Writes])
  acc := acc_quiet h (by simp [Touches])
  wt u i j hu hj := by
    rcases get_snoc_nat hj with hj | ⟨_, rfl⟩
    · exact h.wt u i j hu hj
    · exact h.wlt u i hu
  rh := h.rh
  wlt u i hu := lt_snoc (h.wlt u i hu)
  rlt u i hu := lt_snoc (h.rlt u i hu)
  race := race_quiet h (by simp [Touches])

theorem LInv.head (h : LInv cap log W T R H) : LInv cap (log ++ [⟨1, .store .head true ((H.length + 1) % cap)⟩]) W T R (H ++ [log.length]) where
  ts := h.ts.quiet (by simp [WOp.Writes])
  hs := h.hs.push
  acc := acc_quiet h (by simp [Touches])
  wt := h.wt
  rh u i j hu hj := by
    rcases get_snoc_nat hj with hj | ⟨_, rfl⟩
    · exact h.rh u i j hu hj
    · exact h.rlt u i hu
  wlt u i hu := lt_snoc (h.wlt u i hu)
  rlt u i hu := lt_snoc (h.rlt u i hu)
  race := race_quiet h (by simp [Touches])

/-- The producer writes slot number `W.length`. -/
theorem LInv.write (h : LInv cap log W T R H) (hT : T.length = W.length) {sp : Nat} (hs : Seen log .head 0 H sp)
    (hR : R.length ≤ W.length) (hsp : sp ≤ H.length) (hcap : W.length + 1 < sp + cap) :
    LInv cap (log ++ [⟨0, .write (W.length % cap)⟩]) (W ++ [log.length]) T R H where
  ts := h.ts.quiet (by simp [WOp.Writes])
  hs := h.hs.quiet (by simp [WOp.Writes])
  acc i c x hi hx := by
    rcases get_snoc hi with hi | ⟨hi', rfl⟩
    · rcases h.acc i c x hi hx with ⟨h1, u, h2, h3⟩ | h1
      · left; refine ⟨h1, u, ?_, h3⟩
        rw [List.getElem?_append_left (lt_of_get h2)]; exact h2
      · exact .inr h1
    · left; exact ⟨rfl, W.length, by simp [hi'], hx.symm⟩
  wt u i j hu hj := by
    rcases get_snoc_nat hu with hu | ⟨rfl, _⟩
    · exact h.wt u i j hu hj
    · have := lt_of_get hj; omega
  rh := h.rh
  wlt u i hu := by
    rcases get_snoc_nat hu with hu | ⟨_, rfl⟩
    · exact lt_snoc (h.wlt u i hu)
    · simp
  rlt u i hu := lt_snoc (h.rlt u i hu)
  race i j x y hij hi hj hne hcf := by
    rcases get_snoc hj with hj | ⟨hj', rfl⟩
    · rcases get_snoc hi with hi | ⟨hi', rfl⟩
      · exact hb_app (h.race i j x y hij hi hj hne hcf)
      · have := lt_of_get hj; omega
    · subst hj'
      rcases get_snoc hi with hi | ⟨hi, _⟩
      · obtain ⟨c, hc1, hc2⟩ := conflict_touch hcf
        have hc2 : W.length % cap = c := hc2
        rcases h.acc i c x hi hc1 with ⟨h1, _⟩ | ⟨h1, p, r, h2, h3, h4⟩
        · exact absurd h1 hne
        · have hp := lt_of_get h2
          have hlt : p + cap ≤ W.length := by
            by_contra hlt
            have := mod_near (a := p) (b := W.length) (h4.symm.trans hc2.symm) (by omega) (by omega)
            omega
          obtain ⟨k, hk⟩ := idx_of_lt (S := H) (u := p) (by omega)
          have := h.rh p r k h2 hk
          exact seen_hb h.hs hs (by omega) hk hi h1 (by omega) rfl _ (Nat.le_refl _) (get_last _)
      · omega

/-- The consumer touches slot number `R.length` twice. -/
theorem LInv.take (h : LInv cap log W T R H) (hH : H.length = R.length) {sc : Nat} (hs : Seen log .tail 1 T sc)
    (hsc : R.length < sc) (hW : W.length < R.length + cap) :
    LInv cap (log ++ [⟨1, .read (R.length % cap)⟩, ⟨1, .write (R.length % cap)⟩]) W T (R ++ [log.length + 1]) H := by
  have hlog : log ++ [⟨1, .read (R.length % cap)⟩, ⟨1, .write (R.length % cap)⟩] =
      (log ++ [⟨1, .read (R.length % cap)⟩]) ++ [⟨1, .write (R.length % cap)⟩] := by simp
  have hscT : sc ≤ T.length := by
    rcases hs with h0 | ⟨i, j, v, h1, h2, _⟩
    · omega
    · have := lt_of_get h2; omega
  -- where new positions are
  have hnew : ∀ (i : Nat) (x : RAct), (log ++ [⟨1, .read (R.length % cap)⟩, ⟨1, .write (R.length % cap)⟩])[i]? = some x →
      log[i]? = some x ∨ (log.length ≤ i ∧ i ≤ log.length + 1 ∧ x.tid = 1 ∧ ∀ c, Touches c x.op → c = R.length % cap) := by
    intro i x hi
    rw [hlog] at hi
    rcases get_snoc hi with hi | ⟨hi', rfl⟩
    · rcases get_snoc hi with hi | ⟨hi', rfl⟩
      · exact .inl hi
      · exact .inr ⟨by omega, by omega, rfl, fun c hc => hc.symm⟩
    · simp at hi'
      exact .inr ⟨by omega, by omega, rfl, fun c hc => hc.symm⟩
  constructor
  · rw [hlog]; exact (h.ts.quiet (by simp [WOp.Writes])).quiet (by simp [WOp.Writes])
  · rw [hlog]; exact (h.hs.quiet (by simp [WOp.Writes])).quiet (by simp [WOp.Writes])
  · intro i c x hi hx
    rcases hnew i x hi with hi | ⟨h1, h2, h3, h4⟩
    · rcases h.acc i c x hi hx with h1 | ⟨h1, p, r, h2, h3⟩
      · exact .inl h1
      · right; refine ⟨h1, p, r, ?_, h3⟩
        rw [List.getElem?_append_left (lt_of_get h2)]; exact h2
    · right; exact ⟨h3, R.length, log.length + 1, by simp, h2, h4 c hx⟩
  · exact h.wt
  · intro u i j hu hj
    rcases get_snoc_nat hu with hu | ⟨rfl, _⟩
    · exact h.rh u i j hu hj
    · have := lt_of_get hj; omega
  · intro u i hu; have := h.wlt u i hu; simp; omega
  · intro u i hu
    rcases get_snoc_nat hu with hu | ⟨_, rfl⟩
    · have := h.rlt u i hu; simp; omega
    · simp
  · intro i j x y hij hi hj hne hcf
    obtain ⟨c, hc1, hc2⟩ := conflict_touch hcf
    rcases hnew j y hj with hj' | ⟨h1, h2, h3, h4⟩
    · rcases hnew i x hi with hi' | ⟨g1, g2, g3, g4⟩
      · exact hb_app (h.race i j x y hij hi' hj' hne hcf)
      · have := lt_of_get hj'; omega
    · rcases hnew i x hi with hi' | ⟨g1, g2, g3, g4⟩
      · rcases h.acc i c x hi' hc1 with ⟨g1, u, g2, g3⟩ | ⟨g1, _⟩
        · have hcR := h4 c hc2
          have hu := lt_of_get g2
          have hle : u ≤ R.length := by
            by_contra hlt
            have := mod_near (a := R.length) (b := u) (hcR.symm.trans g3) (by omega) (by omega)
            omega
          obtain ⟨k, hk⟩ := idx_of_lt (S := T) (u := u) (by omega)
          exact seen_hb h.ts hs (by omega) hk hi' g1 (Nat.le_of_lt (h.wt u i k g2 hk)) h3 _ h1 hj
        · rw [g1, h3] at hne; exact absurd rfl hne
      · rw [g3, h3] at hne; exact absurd rfl hne

end

/-! ### The whole state -/
variable {α : Type}

/-- The producer. -/
def PInv (cap sp : Nat) (W : List Nat) (s : WRing α) : Prop :=
  match s.prod with
  | .idle => W.length = s.pushed.length
  | .spin t _ => t = s.pushed.length % cap ∧ W.length = s.pushed.length
  | .write t _ => t = s.pushed.length % cap ∧ W.length = s.pushed.length ∧ s.pushed.length + 1 < sp + cap
  | .publish t v => t = s.pushed.length % cap ∧ W.length = s.pushed.length + 1 ∧ s.pushed.length + 1 < sp + cap ∧
      s.buf t = some v

/-- The consumer. -/
def CInv (cap sc : Nat) (R : List Nat) (s : WRing α) : Prop :=
  match s.cons with
  | .idle => R.length = s.popped.length
  | .loaded h => h = s.popped.length % cap ∧ R.length = s.popped.length
  | .take h => h = s.popped.length % cap ∧ R.length = s.popped.length ∧ s.popped.length < sc
  | .publish h v => h = s.popped.length % cap ∧ R.length = s.popped.length + 1 ∧ s.popped.length < sc ∧
      v = s.pushed[s.popped.length]?

/-- What was not seen by a `tryPop` that failed. -/
def FInv (log : List RAct) (T F : List Nat) : Prop :=
  ∀ n ∈ F, n < log.length ∧ ∀ (u i : Nat), T[u]? = some i → WHb log i n → u < writesBefore log .head n

theorem FInv.app {log u : List RAct} {T F : List Nat} (h : FInv log T F) (hc : Coherent (fun _ => 0) (log ++ u)) :
    FInv (log ++ u) T F := by
  intro n hn
  obtain ⟨h1, h2⟩ := h n hn
  refine ⟨by simp; omega, fun v i hv hb => ?_⟩
  rw [before_app (by omega)]
  exact h2 v i hv (hb_back hc hb h1)

theorem FInv.push {log : List RAct} {T F : List Nat} {a : RAct} (h : FInv log T F) (hc : Coherent (fun _ => 0) (log ++ [a])) :
    FInv (log ++ [a]) (T ++ [log.length]) F := by
  intro n hn
  obtain ⟨h1, h2⟩ := h.app hc n hn
  refine ⟨h1, fun v i hv hb => ?_⟩
  rcases get_snoc_nat hv with hv | ⟨_, rfl⟩
  · exact h2 v i hv hb
  · have := (h n hn).1
    have := hb_lt hb
    omega

structure RInv (cap : Nat) (s : WRing α) (W T R H : List Nat) (sp sc : Nat) : Prop where
  log : LInv cap s.log W T R H
  lenT : T.length = s.pushed.length
  lenH : H.length = s.popped.length
  seenP : Seen s.log .head 0 H sp
  seenC : Seen s.log .tail 1 T sc
  spP : sp ≤ s.popped.length
  Psc : s.popped.length ≤ sc
  scU : sc ≤ s.pushed.length
  room : s.pushed.length < sp + cap
  prod : PInv cap sp W s
  cons : CInv cap sc R s
  cells : ∀ k, R.length ≤ k → k < s.pushed.length → s.buf (k % cap) = s.pushed[k]?
  fifo : s.popped = (s.pushed.take s.popped.length).map some
  fails : FInv s.log T s.fails
  /-- a pop comes after its push -/
  hand : ∀ (k i j : Nat), T[k]? = some i → H[k]? = some j → WHb s.log i j

theorem rinv_init {cap : Nat} (hc : 0 < cap) : RInv cap (WRing.init : WRing α) [] [] [] [] 0 0 where
  log := .nil cap
  lenT := rfl
  lenH := rfl
  seenP := .inl rfl
  seenC := .inl rfl
  spP := Nat.le_refl _
  Psc := Nat.le_refl _
  scU := Nat.le_refl _
  room := by simp [WRing.init, hc]
  prod := by simp [PInv, WRing.init]
  cons := by simp [CInv, WRing.init]
  cells k _ h := by simp [WRing.init] at h
  fifo := rfl
  fails n h := by simp [WRing.init] at h
  hand k i j h := by simp at h

/-- There are positions and views that explain the state. -/
def Ok (cap : Nat) (s : WRing α) : Prop := ∃ W T R H sp sc, RInv cap s W T R H sp sc

/-- A load or another store; only the threads and the list of failures change. -/
theorem RInv.quiet {cap : Nat} {s s' : WRing α} {W T R H : List Nat} {sp sc sp' sc' : Nat} (h : RInv cap s W T R H sp sc)
    {a : RAct} (ha : ∀ c, ¬ Touches c a.op) (ht : ∀ v, ¬ a.op.Writes .tail v) (hh : ∀ v, ¬ a.op.Writes .head v)
    (hlog : s'.log = s.log ++ [a]) (hbuf : s'.buf = s.buf) (hpu : s'.pushed = s.pushed) (hpo : s'.popped = s.popped)
    (hsp : sp ≤ sp') (hsc : sc ≤ sc') (hsp2 : sp' ≤ s.popped.length) (hsc2 : sc' ≤ s.pushed.length)
    (hseenP : Seen s'.log .head 0 H sp') (hseenC : Seen s'.log .tail 1 T sc') (hp : PInv cap sp' W s') (hcs : CInv cap sc' R s')
    (hf : FInv s'.log T s'.fails) : RInv cap s' W T R H sp' sc' where
  log := by rw [hlog]; exact h.log.quiet ha ht hh
  lenT := by rw [hpu]; exact h.lenT
  lenH := by rw [hpo]; exact h.lenH
  seenP := hseenP
  seenC := hseenC
  spP := by rw [hpo]; exact hsp2
  Psc := by rw [hpo]; exact Nat.le_trans h.Psc hsc
  scU := by rw [hpu]; exact hsc2
  room := by rw [hpu]; have := h.room; omega
  prod := hp
  cons := hcs
  cells := by rw [hbuf, hpu]; exact h.cells
  fifo := by rw [hpo, hpu]; exact h.fifo
  fails := hf
  hand k i j h1 h2 := by rw [hlog]; exact hb_app (h.hand k i j h1 h2)

/-- The producer is not moved by the consumer. -/
theorem PInv.same {cap sp sp' : Nat} {W : List Nat} {s s' : WRing α} (h : PInv cap sp W s) (hp : s'.prod = s.prod)
    (hpu : s'.pushed = s.pushed) (hbuf : ∀ t v, s.prod = .publish t v → s'.buf t = s.buf t) (hsp : sp ≤ sp') : PInv cap sp' W s' := by
  unfold PInv at h ⊢
  rw [hp, hpu]
  split
  · simpa [*] using h
  · simpa [*] using h
  · rename_i t v he
    rw [he] at h
    obtain ⟨h1, h2, h3⟩ := h
    exact ⟨h1, h2, by omega⟩
  · rename_i t v he
    rw [he] at h
    obtain ⟨h1, h2, h3, h4⟩ := h
    exact ⟨h1, h2, by omega, by rw [hbuf t v he]; exact h4⟩

/-- The consumer is not moved by the producer. -/
theorem CInv.same {cap sc sc' : Nat} {R : List Nat} {s s' : WRing α} (h : CInv cap sc R s) (hp : s'.cons = s.cons)
    (hpo : s'.popped = s.popped) (hpu : s.popped.length < sc → s'.pushed[s.popped.length]? = s.pushed[s.popped.length]?) (hsc : sc ≤ sc') :
    CInv cap sc' R s' := by
  unfold CInv at h ⊢
  rw [hp, hpo]
  split
  · simpa [*] using h
  · simpa [*] using h
  · rename_i t he
    rw [he] at h
    obtain ⟨h1, h2, h3⟩ := h
    exact ⟨h1, h2, by omega⟩
  · rename_i t v he
    rw [he] at h
    obtain ⟨h1, h2, h3, h4⟩ := h
    exact ⟨h1, h2, by omega, by rw [hpu h3]; exact h4⟩

/-- The number of slots written. -/
theorem PInv.len {cap sp : Nat} {W : List Nat} {s : WRing α} (h : PInv cap sp W s) (hr : s.pushed.length < sp + cap) :
    s.pushed.length ≤ W.length ∧ W.length < sp + cap := by
  unfold PInv at h
  split at h <;> omega

theorem CInv.len {cap sc : Nat} {R : List Nat} {s : WRing α} (h : CInv cap sc R s) (hr : s.popped.length ≤ sc) :
    s.popped.length ≤ R.length ∧ R.length ≤ sc := by
  unfold CInv at h
  split at h <;> omega

theorem ok_step {cap : Nat} (hcap : 0 < cap) {s : WRing α} (h : Ok cap s) (o : WRAct α)
    (hc : Coherent (fun _ => 0) (WRing.step cap s o).log) : Ok cap (WRing.step cap s o) := by
  obtain ⟨W, T, R, H, sp, sc, h⟩ := h
  cases o with
  | startPush v src =>
    cases hp : s.prod with
    | idle =>
      simp only [WRing.step, hp, WRing.put, List.map_cons, List.map_nil] at hc ⊢
      have hv := load_own h.log.ts hc
      rw [h.lenT] at hv
      refine ⟨W, T, R, H, sp, sc, h.quiet (a := ⟨0, .load .tail false src (WRing.val s.log src)⟩) (by simp [Touches])
        (by simp [WOp.Writes]) (by simp [WOp.Writes]) rfl rfl rfl rfl (Nat.le_refl _) (Nat.le_refl _) h.spP h.scU h.seenP.app h.seenC.app ?_ ?_ (h.fails.app hc)⟩
      · have := h.prod
        simp only [PInv, hp] at this
        exact ⟨hv, this⟩
      · exact h.cons.same rfl rfl (fun _ => rfl) (Nat.le_refl _)
    | _ => simp only [WRing.step, hp]; exact ⟨W, T, R, H, sp, sc, h⟩
  | prodStep src =>
    cases hp : s.prod with
    | idle => simp only [WRing.step, hp]; exact ⟨W, T, R, H, sp, sc, h⟩
    | spin t v =>
      have hpi := h.prod
      simp only [PInv, hp] at hpi
      have hlog : (WRing.step cap s (.prodStep src)).log = s.log ++ [⟨0, .load .head true src (WRing.val s.log src)⟩] := by
        simp only [WRing.step, hp]; split <;> rfl
      rw [hlog] at hc
      obtain ⟨m, h1, h2, h3, h4, _⟩ := load_view h.log.hs hc h.seenP
      have hspP := h.spP
      have hPsc := h.Psc
      have hscU := h.scU
      have hroom := h.room
      rw [h.lenH] at h2
      refine ⟨W, T, R, H, m, sc, h.quiet (a := ⟨0, .load .head true src (WRing.val s.log src)⟩) (by simp [Touches])
        (by simp [WOp.Writes]) (by simp [WOp.Writes]) hlog ?_ ?_ ?_ h1 (Nat.le_refl _) h2 h.scU ?_ ?_ ?_ ?_ ?_⟩
      · simp only [WRing.step, hp]; split <;> rfl
      · simp only [WRing.step, hp]; split <;> rfl
      · simp only [WRing.step, hp]; split <;> rfl
      · rw [hlog]; exact h4 rfl
      · rw [hlog]; exact h.seenC.app
      · simp only [WRing.step, hp]
        split
        · simp only [PInv, WRing.put, hp]; exact hpi
        · rename_i hne
          simp only [PInv, WRing.put]
          refine ⟨hpi.1, hpi.2, ?_⟩
          by_contra hge
          have he : s.pushed.length + 1 = m + cap := by omega
          apply hne
          rw [h3, hpi.1, Nat.mod_add_mod, he, Nat.add_mod_right]
      · refine h.cons.same ?_ ?_ (fun _ => ?_) (Nat.le_refl _) <;> simp only [WRing.step, hp] <;> split <;> rfl
      · rw [hlog]
        have : (WRing.step cap s (.prodStep src)).fails = s.fails := by simp only [WRing.step, hp]; split <;> rfl
        rw [this]
        exact h.fails.app hc
    | write t v =>
      have hpi := h.prod
      simp only [PInv, hp] at hpi
      obtain ⟨ht, hW, hr⟩ := hpi
      subst ht
      simp only [WRing.step, hp, WRing.put, List.map_cons, List.map_nil] at hc ⊢
      have hRl := h.cons.len h.Psc
      have hspP := h.spP
      have hPsc := h.Psc
      have hscU := h.scU
      refine ⟨W ++ [s.log.length], T, R, H, sp, sc, ?_⟩
      have hl := h.log.write (by rw [h.lenT, hW]) h.seenP (by omega) (by rw [h.lenH]; exact hspP) (by omega)
      rw [hW] at hl
      exact {
        log := hl
        lenT := h.lenT
        lenH := h.lenH
        seenP := h.seenP.app
        seenC := h.seenC.app
        spP := h.spP
        Psc := h.Psc
        scU := h.scU
        room := h.room
        prod := by simp [PInv, hW, hr]
        cons := h.cons.same rfl rfl (fun _ => rfl) (Nat.le_refl _)
        cells := by
          intro k hk1 hk2
          simp only
          have hne : k % cap ≠ s.pushed.length % cap := fun he => by
            have hk2' : k < s.pushed.length := hk2
            have := mod_near he (by omega) (by omega)
            omega
          rw [if_neg hne]
          exact h.cells k hk1 hk2
        fifo := h.fifo
        fails := h.fails.app hc
        hand := fun k i j h1 h2 => hb_app (h.hand k i j h1 h2) }
    | publish t v =>
      have hpi := h.prod
      simp only [PInv, hp] at hpi
      obtain ⟨ht, hW, hr, hb⟩ := hpi
      subst ht
      simp only [WRing.step, hp, WRing.put, List.map_cons, List.map_nil] at hc ⊢
      rw [Nat.mod_add_mod] at hc ⊢
      have hl := h.log.tail
      rw [h.lenT] at hl
      have hspP := h.spP
      have hPsc := h.Psc
      have hscU := h.scU
      refine ⟨W, T ++ [s.log.length], R, H, sp, sc, ?_⟩
      exact {
        log := hl
        lenT := by simp [h.lenT]
        lenH := h.lenH
        seenP := h.seenP.app
        seenC := h.seenC.app.more
        spP := h.spP
        Psc := h.Psc
        scU := by simp; omega
        room := by simp; omega
        prod := by simp [PInv, hW]
        cons := h.cons.same rfl rfl (fun _ => by
          simp only; rw [List.getElem?_append_left (by omega)]) (Nat.le_refl _)
        cells := by
          intro k hk1 hk2
          simp only at hk2 ⊢
          simp only [List.length_append, List.length_singleton] at hk2
          by_cases hk : k < s.pushed.length
          · rw [List.getElem?_append_left hk]; exact h.cells k hk1 hk
          · have : k = s.pushed.length := by omega
            subst this
            rw [hb]; simp
        fifo := by
          simp only
          rw [List.take_append_of_le_length (by omega)]
          exact h.fifo
        fails := h.fails.push hc
        hand := fun k i j h1 h2 => by
          rcases get_snoc_nat h1 with h1 | ⟨rfl, _⟩
          · exact hb_app (h.hand k i j h1 h2)
          · have := lt_of_get h2
            rw [h.lenH, h.lenT] at this
            omega }
  | startPop src =>
    cases hp : s.cons with
    | idle =>
      simp only [WRing.step, hp, WRing.put, List.map_cons, List.map_nil] at hc ⊢
      have hv := load_own h.log.hs hc
      rw [h.lenH] at hv
      refine ⟨W, T, R, H, sp, sc, h.quiet (a := ⟨1, .load .head false src (WRing.val s.log src)⟩) (by simp [Touches])
        (by simp [WOp.Writes]) (by simp [WOp.Writes]) rfl rfl rfl rfl (Nat.le_refl _) (Nat.le_refl _) h.spP h.scU h.seenP.app h.seenC.app ?_ ?_ (h.fails.app hc)⟩
      · exact h.prod.same rfl rfl (fun _ _ _ => rfl) (Nat.le_refl _)
      · have := h.cons
        simp only [CInv, hp] at this
        exact ⟨hv, this⟩
    | _ => simp only [WRing.step, hp]; exact ⟨W, T, R, H, sp, sc, h⟩
  | consStep src =>
    cases hp : s.cons with
    | idle => simp only [WRing.step, hp]; exact ⟨W, T, R, H, sp, sc, h⟩
    | loaded t =>
      have hpi := h.cons
      simp only [CInv, hp] at hpi
      have hlog : (WRing.step cap s (.consStep src)).log = s.log ++ [⟨1, .load .tail true src (WRing.val s.log src)⟩] := by
        simp only [WRing.step, hp]; split <;> rfl
      rw [hlog] at hc
      obtain ⟨m, h1, h2, h3, h4, h5⟩ := load_view h.log.ts hc h.seenC
      have hspP := h.spP
      have hPsc := h.Psc
      have hscU := h.scU
      have hroom := h.room
      rw [h.lenT] at h2
      refine ⟨W, T, R, H, sp, m, h.quiet (a := ⟨1, .load .tail true src (WRing.val s.log src)⟩) (by simp [Touches])
        (by simp [WOp.Writes]) (by simp [WOp.Writes]) hlog ?_ ?_ ?_ (Nat.le_refl _) h1 h.spP h2 ?_ ?_ ?_ ?_ ?_⟩
      · simp only [WRing.step, hp]; split <;> rfl
      · simp only [WRing.step, hp]; split <;> rfl
      · simp only [WRing.step, hp]; split <;> rfl
      · rw [hlog]; exact h.seenP.app
      · rw [hlog]; exact h4 rfl
      · refine h.prod.same ?_ ?_ (fun _ _ _ => ?_) (Nat.le_refl _) <;> simp only [WRing.step, hp] <;> split <;> rfl
      · simp only [WRing.step, hp]
        split
        · simp only [CInv, WRing.put]; exact hpi.2
        · rename_i hne
          simp only [CInv, WRing.put]
          refine ⟨hpi.1, hpi.2, ?_⟩
          by_contra hge
          have he : s.popped.length = m := by omega
          apply hne
          rw [h3, hpi.1, he]
      · rw [hlog]
        simp only [WRing.step, hp]
        split
        · rename_i he
          simp only [WRing.put]
          intro n hn
          rcases List.mem_append.1 hn with hn | hn
          · exact h.fails.app hc n hn
          · simp only [List.mem_singleton] at hn
            subst hn
            refine ⟨by simp, fun u i hu hb => ?_⟩
            have h6 := h5 u i hu hb
            rw [before_app (Nat.le_refl _), h.log.hs.tot, h.lenH]
            rw [h3, hpi.1] at he
            have := mod_near he (by omega) (by omega)
            omega
        · exact h.fails.app hc
    | take t =>
      have hpi := h.cons
      simp only [CInv, hp] at hpi
      obtain ⟨ht, hR, hr⟩ := hpi
      subst ht
      simp only [WRing.step, hp, WRing.put, List.map_cons, List.map_nil] at hc ⊢
      have hWl := h.prod.len h.room
      have hspP := h.spP
      have hPsc := h.Psc
      have hscU := h.scU
      have hroom := h.room
      refine ⟨W, T, R ++ [s.log.length + 1], H, sp, sc, ?_⟩
      have hl := h.log.take (by rw [h.lenH, hR]) h.seenC (by omega) (by omega)
      rw [hR] at hl
      exact {
        log := hl
        lenT := h.lenT
        lenH := h.lenH
        seenP := h.seenP.app
        seenC := h.seenC.app
        spP := h.spP
        Psc := h.Psc
        scU := h.scU
        room := h.room
        prod := h.prod.same rfl rfl (fun t v he => by
          have hpi := h.prod
          simp only [PInv, he] at hpi
          obtain ⟨g1, g2, g3, g4⟩ := hpi
          simp only
          have hne : t ≠ s.popped.length % cap := fun he => by
            rw [g1] at he
            have := mod_near he.symm (by omega) (by omega)
            omega
          rw [if_neg hne]) (Nat.le_refl _)
        cons := by
          simp only [CInv]
          refine ⟨trivial, by simp [hR], hr, ?_⟩
          exact h.cells _ (by omega) (by omega)
        cells := by
          intro k hk1 hk2
          simp only [List.length_append, List.length_singleton] at hk1 hk2 ⊢
          have hne : k % cap ≠ s.popped.length % cap := fun he => by
            have := mod_near he.symm (by omega) (by omega)
            omega
          rw [if_neg hne]
          exact h.cells k (by omega) hk2
        fifo := h.fifo
        fails := h.fails.app hc
        hand := fun k i j h1 h2 => hb_app (h.hand k i j h1 h2) }
    | publish t v =>
      have hpi := h.cons
      simp only [CInv, hp] at hpi
      obtain ⟨ht, hR, hr, hb⟩ := hpi
      subst ht
      simp only [WRing.step, hp, WRing.put, List.map_cons, List.map_nil] at hc ⊢
      rw [Nat.mod_add_mod] at hc ⊢
      have hl := h.log.head
      rw [h.lenH] at hl
      have hspP := h.spP
      have hPsc := h.Psc
      have hscU := h.scU
      refine ⟨W, T, R, H ++ [s.log.length], sp, sc, ?_⟩
      exact {
        log := hl
        lenT := h.lenT
        lenH := by simp [h.lenH]
        seenP := h.seenP.app.more
        seenC := h.seenC.app
        spP := by simp; omega
        Psc := by simp; omega
        scU := h.scU
        room := h.room
        prod := h.prod.same rfl rfl (fun _ _ _ => rfl) (Nat.le_refl _)
        cons := by simp [CInv, hR]
        cells := h.cells
        fifo := by
          simp only [List.length_append, List.length_singleton]
          rw [List.take_add_one, ← hb] 
          have h1 : s.popped.length < s.pushed.length := by omega
          have h2 : v = some s.pushed[s.popped.length] := by rw [hb]; simp [h1]
          rw [h2]
          simp only [Option.toList_some, List.map_append, List.map_cons, List.map_nil]
          rw [← h.fifo]
        fails := h.fails.app hc
        hand := fun k i j h1 h2 => by
          rcases get_snoc_nat h2 with h2 | ⟨rfl, rfl⟩
          · exact hb_app (h.hand k i j h1 h2)
          · rw [h.lenH] at h1
            exact seen_hb h.log.ts h.seenC hr h1 (h.log.ts.is _ i h1) rfl (Nat.le_refl _) rfl _ (Nat.le_refl _) (get_last _) }
  | signal t n =>
    simp only [WRing.step] at hc ⊢
    split
    · rename_i ho
      simp only [ho, if_true, WRing.put, List.map_cons, List.map_nil] at hc ⊢
      exact ⟨W, T, R, H, sp, sc, h.quiet (a := ⟨t, .store (.ext n) true 0⟩) (by simp [Touches])
        (by simp [WOp.Writes]) (by simp [WOp.Writes]) rfl rfl rfl rfl (Nat.le_refl _) (Nat.le_refl _) h.spP h.scU h.seenP.app h.seenC.app
        (h.prod.same rfl rfl (fun _ _ _ => rfl) (Nat.le_refl _)) (h.cons.same rfl rfl (fun _ => rfl) (Nat.le_refl _)) (h.fails.app hc)⟩
    · exact ⟨W, T, R, H, sp, sc, h⟩
  | wait t n src =>
    simp only [WRing.step] at hc ⊢
    split
    · rename_i ho
      simp only [ho, if_true, WRing.put, List.map_cons, List.map_nil] at hc ⊢
      exact ⟨W, T, R, H, sp, sc, h.quiet (a := ⟨t, .load (.ext n) true src (WRing.val s.log src)⟩) (by simp [Touches])
        (by simp [WOp.Writes]) (by simp [WOp.Writes]) rfl rfl rfl rfl (Nat.le_refl _) (Nat.le_refl _) h.spP h.scU h.seenP.app h.seenC.app
        (h.prod.same rfl rfl (fun _ _ _ => rfl) (Nat.le_refl _)) (h.cons.same rfl rfl (fun _ => rfl) (Nat.le_refl _)) (h.fails.app hc)⟩
    · exact ⟨W, T, R, H, sp, sc, h⟩

theorem step_log (cap : Nat) (s : WRing α) (o : WRAct α) : ∃ u, (WRing.step cap s o).log = s.log ++ u := by
  cases o with
  | startPush v src => cases hp : s.prod <;> simp only [WRing.step, hp] <;> first | exact ⟨_, rfl⟩ | exact ⟨[], by simp⟩
  | prodStep src =>
    cases hp : s.prod <;> simp only [WRing.step, hp] <;> try split
    all_goals first | exact ⟨_, rfl⟩ | exact ⟨[], by simp⟩
  | startPop src => cases hp : s.cons <;> simp only [WRing.step, hp] <;> first | exact ⟨_, rfl⟩ | exact ⟨[], by simp⟩
  | consStep src =>
    cases hp : s.cons <;> simp only [WRing.step, hp] <;> try split
    all_goals first | exact ⟨_, rfl⟩ | exact ⟨[], by simp⟩
  | signal t n => simp only [WRing.step]; split <;> first | exact ⟨_, rfl⟩ | exact ⟨[], by simp⟩
  | wait t n src => simp only [WRing.step]; split <;> first | exact ⟨_, rfl⟩ | exact ⟨[], by simp⟩

theorem run_log (cap : Nat) (s : WRing α) (l : List (WRAct α)) : ∃ u, (WRing.run cap s l).log = s.log ++ u := by
  induction l generalizing s with
  | nil => exact ⟨[], by simp [WRing.run]⟩
  | cons o l ih =>
    obtain ⟨u, hu⟩ := step_log cap s o
    obtain ⟨w, hw⟩ := ih (WRing.step cap s o)
    exact ⟨u ++ w, by simp only [WRing.run, List.foldl_cons] at hw ⊢; rw [hw, hu, List.append_assoc]⟩

theorem ok_run {cap : Nat} (hcap : 0 < cap) {s : WRing α} (h : Ok cap s) (l : List (WRAct α))
    (hc : Coherent (fun _ => 0) (WRing.run cap s l).log) : Ok cap (WRing.run cap s l) := by
  induction l generalizing s with
  | nil => exact h
  | cons o l ih =>
    refine ih (ok_step hcap h o ?_) hc
    obtain ⟨u, hu⟩ := run_log cap (WRing.step cap s o) l
    have : (WRing.run cap s (o :: l)).log = (WRing.step cap s o).log ++ u := hu
    rw [this] at hc
    exact coherent_left hc

end Ring
end CGraph.Weak
