import Verif.Lemmas.WeakStatic

/-! Lemmas for C103: what happens before what in runs of the static engine. -/
namespace CGraph
namespace WeakStatic
open Spec Weak SwSt

/-- A mark. -/
def mk' (t r : Nat) (m : SMk) : SLogged := ⟨t, ev r m⟩

/-- The caller has done something that `p` happens before, or `p` itself. -/
def Known (log : List SLogged) (p : Nat) : Prop := ∃ (q : Nat) (o : SOp), log[q]? = some ⟨0, o⟩ ∧ (p = q ∨ WHb log p q)

/-- `d` has ended in run `r` and the caller knows it. -/
def Ended (log : List SLogged) (r : Nat) (d : Eid) : Prop := ∃ m t : Nat, log[m]? = some (mk' t r (.fin d)) ∧ Known log m

/-- `d` is in an earlier row than `e`. -/
def Before (c : SwCfg) (d e : Eid) : Prop :=
  ∃ (i j : Nat) (l l' : List Eid), i < j ∧ c.mat[i]? = some l ∧ d ∈ l ∧ c.mat[j]? = some l' ∧ e ∈ l'

/-- Begin of the run and ends of the earlier rows happen before `i`; `e` is in some row. -/
def Pre (c : SwCfg) (log : List SLogged) (r : Nat) (e : Eid) (i : Nat) : Prop :=
  (∃ b : Nat, log[b]? = some (mk' 0 r .begin) ∧ WHb log b i) ∧
  (∀ d, Before c d e → ∃ m t : Nat, log[m]? = some (mk' t r (.fin d)) ∧ WHb log m i) ∧ ∃ l ∈ c.mat, e ∈ l

theorem known_app {log u : List SLogged} {p : Nat} (h : Known log p) : Known (log ++ u) p := by
  obtain ⟨q, o, h1, h2⟩ := h
  exact ⟨q, o, get_app h1, h2.imp id hb_app⟩

theorem ended_app {log u : List SLogged} {r : Nat} {d : Eid} (h : Ended log r d) : Ended (log ++ u) r d := by
  obtain ⟨m, t, h1, h2⟩ := h
  exact ⟨m, t, get_app h1, known_app h2⟩

theorem pre_app {c : SwCfg} {log u : List SLogged} {r i : Nat} {e : Eid} (h : Pre c log r e i) : Pre c (log ++ u) r e i := by
  obtain ⟨⟨b, h1, h2⟩, h3, hm⟩ := h
  refine ⟨⟨b, get_app h1, hb_app h2⟩, fun d hd => ?_, hm⟩
  obtain ⟨m, t, h4, h5⟩ := h3 d hd
  exact ⟨m, t, get_app h4, hb_app h5⟩

/-- What is known happens before what the caller does next. -/
theorem known_to {log u : List SLogged} {p k : Nat} {o : SOp} (h : Known log p) (hk : (log ++ u)[k]? = some ⟨0, o⟩) (hl : log.length ≤ k) :
    WHb (log ++ u) p k := by
  obtain ⟨q, o', h1, h2⟩ := h
  have hq := lt_of_get h1
  have h3 : WHb (log ++ u) q k := hb_seq (by omega) (get_app h1) hk rfl
  rcases h2 with rfl | h2
  · exact h3
  · exact hb_trans (hb_app h2) h3

theorem known_zero {log : List SLogged} {p : Nat} {o : SOp} (h : log[p]? = some ⟨0, o⟩) : Known log p := ⟨p, o, h, .inl rfl⟩

theorem pre_of {c : SwCfg} {log : List SLogged} {r i k : Nat} {e : Eid} (h : Pre c log r e i) (hk : WHb log i k) : Pre c log r e k := by
  obtain ⟨⟨b, h1, h2⟩, h3, hm⟩ := h
  refine ⟨⟨b, h1, hb_trans h2 hk⟩, fun d hd => ?_, hm⟩
  obtain ⟨m, t, h4, h5⟩ := h3 d hd
  exact ⟨m, t, h4, hb_trans h5 hk⟩

theorem get_two {α : Type} {l : List α} {a b x : α} {i : Nat} (h : (l ++ [a, b])[i]? = some x) :
    l[i]? = some x ∨ (i = l.length ∧ x = a) ∨ (i = l.length + 1 ∧ x = b) := by
  have e : l ++ [a, b] = (l ++ [a]) ++ [b] := by simp
  rw [e] at h
  rcases get_snoc h with h | ⟨h1, h2⟩
  · rcases get_snoc h with h | ⟨h1, h2⟩
    · exact .inl h
    · exact .inr (.inl ⟨h1, h2⟩)
  · exact .inr (.inr ⟨by simpa using h1, h2⟩)

theorem row_unique {c : SwCfg} (hnd : c.mat.flatten.Nodup) {i j : Nat} {l l' : List Eid} {e : Eid} (hi : c.mat[i]? = some l) (h : e ∈ l)
    (hj : c.mat[j]? = some l') (h' : e ∈ l') : i = j := by
  have hp := (List.nodup_flatten.1 hnd).2
  have hi' := lt_of_get hi
  have hj' := lt_of_get hj
  rw [List.getElem?_eq_getElem hi'] at hi
  rw [List.getElem?_eq_getElem hj'] at hj
  simp only [Option.some.injEq] at hi hj
  rw [List.pairwise_iff_getElem] at hp
  rcases Nat.lt_trichotomy i j with hl | hl | hl
  · have := hp i j hi' hj' hl
    rw [hi, hj] at this
    exact absurd h' (this h)
  · exact hl
  · have := hp j i hj' hi' hl
    rw [hi, hj] at this
    exact absurd h (this h')

/-- What happens before what. -/
structure HB (c : SwCfg) (w : SwSt) : Prop where
  kb : w.busy = true → ∃ b : Nat, w.log[b]? = some (mk' 0 w.nrun .begin)
  qs : ∀ t ∈ w.queued, ∃ s : Nat, w.log[s]? = some ⟨0, .store (.task t.n) true 1⟩ ∧ Pre c w.log t.r t.e s
  st : ∀ (i t r : Nat) (e : Eid), w.log[i]? = some (mk' t r (.start e)) → Pre c w.log r e i
  rn : ∀ t ∈ w.running, ∃ k : Nat, w.log[k]? = some (mk' t.n t.r (.start t.e))
  mr : ∀ e, w.mrun = some e → ∃ k : Nat, w.log[k]? = some (mk' 0 w.nrun (.start e))
  rw' : w.busy = true → ∀ (i : Nat) (l : List Eid), i + 1 < w.row → c.mat[i]? = some l → ∀ d ∈ l, Ended w.log w.nrun d
  cu : w.busy = true → ∀ (i : Nat) (l : List Eid), i + 1 = w.row → c.mat[i]? = some l → ∀ d ∈ l,
    d ∈ w.toCommit ∨ d ∈ w.macros ∨ w.mrun = some d ∨ (∃ n, (d, n) ∈ w.futures) ∨ Ended w.log w.nrun d
  cr : ∀ e, e ∈ w.toCommit ∨ e ∈ w.macros → ∃ (i : Nat) (l : List Eid), i + 1 = w.row ∧ c.mat[i]? = some l ∧ e ∈ l
  sk : w.busy = true → ∀ (i t : Nat) (e : Eid), w.log[i]? = some (mk' t w.nrun (.start e)) →
    w.mrun = some e ∨ (∃ n, (e, n) ∈ w.futures) ∨ Ended w.log w.nrun e

theorem hb_init {c : SwCfg} : HB c SwSt.init := by
  constructor <;> simp [SwSt.init]

/-- Before an element of the row that was entered last is started or committed, everything that it needs is known. -/
theorem pre_next {c : SwCfg} (hnd : c.mat.flatten.Nodup) {w : SwSt} (h : HB c w) (hb : w.busy = true) {e : Eid} (he : e ∈ w.toCommit ∨ e ∈ w.macros)
    {u : List SLogged} {o : SOp} {k : Nat} (hk : (w.log ++ u)[k]? = some ⟨0, o⟩) (hl : w.log.length ≤ k) : Pre c (w.log ++ u) w.nrun e k := by
  obtain ⟨b, h1⟩ := h.kb hb
  refine ⟨⟨b, get_app h1, known_to (known_zero h1) hk hl⟩, fun d hd => ?_, ?_⟩
  swap
  · obtain ⟨i, l, -, h2, h3⟩ := h.cr e he
    exact ⟨l, List.mem_of_getElem? h2, h3⟩
  obtain ⟨i, j, l, l', hij, hi, hdl, hj, hel⟩ := hd
  obtain ⟨j', l'', hj', hl'', he'⟩ := h.cr e he
  have := row_unique hnd hj hel hl'' he'
  subst this
  obtain ⟨m, t, h2, h3⟩ := h.rw' hb i l (by omega) hi d hdl
  exact ⟨m, t, get_app h2, known_to h3 hk hl⟩

theorem begin_le {c : SwCfg} {w : SwSt} (h : Cnt c w) {i t r : Nat} {m : SMk} (hi : w.log[i]? = some (mk' t r m)) : r ≤ w.nrun := by
  by_contra hr
  have := h.fresh r m (by omega)
  have h1 : 0 < mc w.log r m := List.countP_pos_iff.2 ⟨_, List.mem_of_getElem? hi, by simp [mk']⟩
  omega

theorem hb_eff {c : SwCfg} (hnd : c.mat.flatten.Nodup) {may : Eid → Nat → Bool → Bool} {w w' : SwSt} (hN : Nums w) (hC : Cnt c w) (h : HB c w)
    (hk : Eff c may w w') : HB c w' := by
  have kb : ∀ u : List SLogged, w.busy = true → ∃ b : Nat, (w.log ++ u)[b]? = some (mk' 0 w.nrun .begin) := fun u hb => by
    obtain ⟨b, h1⟩ := h.kb hb; exact ⟨b, get_app h1⟩
  have qs : ∀ u : List SLogged, ∀ t ∈ w.queued, ∃ s : Nat, (w.log ++ u)[s]? = some ⟨0, .store (.task t.n) true 1⟩ ∧ Pre c (w.log ++ u) t.r t.e s := by
    intro u t ht
    obtain ⟨s, h1, h2⟩ := h.qs t ht
    exact ⟨s, get_app h1, pre_app h2⟩
  have rn : ∀ u : List SLogged, ∀ t ∈ w.running, ∃ k : Nat, (w.log ++ u)[k]? = some (mk' t.n t.r (.start t.e)) := by
    intro u t ht
    obtain ⟨s, h1⟩ := h.rn t ht
    exact ⟨s, get_app h1⟩
  have mr : ∀ u : List SLogged, ∀ e, w.mrun = some e → ∃ k : Nat, (w.log ++ u)[k]? = some (mk' 0 w.nrun (.start e)) := by
    intro u t ht
    obtain ⟨s, h1⟩ := h.mr t ht
    exact ⟨s, get_app h1⟩
  have rw' : ∀ u : List SLogged, w.busy = true → ∀ (i : Nat) (l : List Eid), i + 1 < w.row → c.mat[i]? = some l → ∀ d ∈ l, Ended (w.log ++ u) w.nrun d :=
    fun u hb i l hi hl d hd => ended_app (h.rw' hb i l hi hl d hd)
  -- a start that is not new
  have st1 : ∀ (a : SLogged), (∀ r e, a.op ≠ ev r (.start e)) → ∀ (i t r : Nat) (e : Eid), (w.log ++ [a])[i]? = some (mk' t r (.start e)) →
      w.log[i]? = some (mk' t r (.start e)) := by
    intro a ha i t r e hi
    rcases get_snoc hi with h1 | ⟨-, h1⟩
    · exact h1
    · exact absurd (by rw [← h1]; rfl) (ha r e)
  have st2 : ∀ (a b : SLogged), (∀ r e, a.op ≠ ev r (.start e)) → (∀ r e, b.op ≠ ev r (.start e)) → ∀ (i t r : Nat) (e : Eid),
      (w.log ++ [a, b])[i]? = some (mk' t r (.start e)) → w.log[i]? = some (mk' t r (.start e)) := by
    intro a b ha hb i t r e hi
    rcases get_two hi with h1 | ⟨-, h1⟩ | ⟨-, h1⟩
    · exact h1
    · exact absurd (by rw [← h1]; rfl) (ha r e)
    · exact absurd (by rw [← h1]; rfl) (hb r e)
  cases hk with
  | begin hb =>
    have hid := hN.id hb
    have s1 := st1 ⟨0, ev (w.nrun + 1) .begin⟩ (by simp [ev])
    refine ⟨fun _ => ⟨w.log.length, get_last _⟩, qs _, fun i t r e hi => pre_app (h.st i t r e (s1 i t r e hi)), rn _, by simp,
      by simp, by simp, by simp, fun _ i t e hi => ?_⟩
    have := begin_le hC (s1 i t _ e hi)
    simp only at this
    omega
  | mret e st hb hm =>
    have s1 := st1 ⟨0, ev w.nrun (.fin e)⟩ (by simp [ev])
    have he : Ended (w.log ++ [⟨0, ev w.nrun (.fin e)⟩]) w.nrun e := ⟨w.log.length, 0, get_last _, known_zero (get_last _)⟩
    refine ⟨kb _, qs _, fun i t r e hi => pre_app (h.st i t r e (s1 i t r e hi)), rn _, by simp, rw' _, fun _ i l hi hl d hd => ?_, h.cr,
      fun _ i t x hi => ?_⟩
    · rcases h.cu hb i l hi hl d hd with h1 | h1 | h1 | h1 | h1
      · exact .inl h1
      · exact .inr (.inl h1)
      · rw [hm] at h1; obtain rfl := Option.some.inj h1; exact .inr (.inr (.inr (.inr he)))
      · exact .inr (.inr (.inr (.inl h1)))
      · exact .inr (.inr (.inr (.inr (ended_app h1))))
    · rcases h.sk hb i t x (s1 i t _ x hi) with h1 | h1 | h1
      · rw [hm] at h1; obtain rfl := Option.some.inj h1; exact .inr (.inr he)
      · exact .inr (.inl h1)
      · exact .inr (.inr (ended_app h1))
  | mthrow e msg hb hm =>
    have s2 := st2 ⟨0, ev w.nrun (.fin e)⟩ ⟨0, ev w.nrun .out⟩ (by simp [ev]) (by simp [ev])
    exact ⟨by simp, qs _, fun i t r e hi => pre_app (h.st i t r e (s2 i t r e hi)), rn _, by simp, by simp, by simp, by simp, by simp⟩
  | direct e es hb hm ht =>
    refine ⟨h.kb, h.qs, h.st, h.rn, h.mr, h.rw', fun hb i l hi hl d hd => ?_, fun x hx => ?_, h.sk⟩
    · have := h.cu hb i l hi hl d hd
      simp only [ht, List.mem_cons, List.mem_append, List.not_mem_nil, or_false] at this ⊢
      grind
    · refine h.cr x ?_
      simp only [ht, List.mem_cons, List.mem_append, List.not_mem_nil, or_false] at hx ⊢
      grind
  | commit e es hb hm ht =>
    have s1 := st1 ⟨0, .store (.task w.next) true 1⟩ (by simp [ev])
    refine ⟨kb _, fun t hq => ?_, fun i t r e hi => pre_app (h.st i t r e (s1 i t r e hi)), rn _, mr _, rw' _, fun hb i l hi hl d hd => ?_,
      fun x hx => ?_, fun _ i t x hi => ?_⟩
    · rcases List.mem_append.1 hq with hq | hq
      · exact qs _ t hq
      · rw [List.mem_singleton] at hq
        subst hq
        exact ⟨w.log.length, get_last _, pre_next hnd h hb (.inl (by rw [ht]; exact List.mem_cons_self ..)) (get_last _) (Nat.le_refl _)⟩
    · have := h.cu hb i l hi hl d hd
      rw [ht] at this
      rcases this with h1 | h1 | h1 | ⟨n, h1⟩ | h1
      · rcases List.mem_cons.1 h1 with rfl | h1
        · exact .inr (.inr (.inr (.inl ⟨w.next, by simp⟩)))
        · exact .inl h1
      · exact .inr (.inl h1)
      · exact .inr (.inr (.inl h1))
      · exact .inr (.inr (.inr (.inl ⟨n, List.mem_append_left _ h1⟩)))
      · exact .inr (.inr (.inr (.inr (ended_app h1))))
    · refine h.cr x ?_
      rw [ht]
      exact hx.imp (List.mem_cons_of_mem _) id
    · rcases h.sk hb i t x (s1 i t _ x hi) with h1 | ⟨n, h1⟩ | h1
      · exact .inl h1
      · exact .inr (.inl ⟨n, List.mem_append_left _ h1⟩)
      · exact .inr (.inr (ended_app h1))
  | mstart e es hb hm ht hc =>
    refine ⟨kb _, qs _, fun i t r x hi => ?_, rn _, ?_, rw' _, fun hb i l hi hl d hd => ?_, fun x hx => ?_, fun _ i t x hi => ?_⟩
    · rcases get_snoc hi with h1 | ⟨h1, h2⟩
      · exact pre_app (h.st i t r x h1)
      · simp only [mk', ev, WAct.mk.injEq, WOp.read.injEq, SCell.mark.injEq, SMk.start.injEq] at h2
        obtain ⟨rfl, rfl, rfl⟩ := h2
        subst h1
        exact pre_next hnd h hb (.inr (by rw [hc]; exact List.mem_cons_self ..)) (get_last _) (Nat.le_refl _)
    · intro x hx
      simp only [Option.some.injEq] at hx
      subst hx
      exact ⟨w.log.length, get_last _⟩
    · have := h.cu hb i l hi hl d hd
      rw [hc] at this
      rcases this with h1 | h1 | h1 | h1 | h1
      · exact .inl h1
      · rcases List.mem_cons.1 h1 with rfl | h1
        · exact .inr (.inr (.inl rfl))
        · exact .inr (.inl h1)
      · rw [hm] at h1; simp at h1
      · exact .inr (.inr (.inr (.inl h1)))
      · exact .inr (.inr (.inr (.inr (ended_app h1))))
    · refine h.cr x ?_
      rw [hc]
      exact hx.imp id (List.mem_cons_of_mem _)
    · rcases get_snoc hi with h1 | ⟨h1, h2⟩
      · rcases h.sk hb i t x h1 with h1 | h1 | h1
        · rw [hm] at h1; simp at h1
        · exact .inr (.inl h1)
        · exact .inr (.inr (ended_app h1))
      · simp only [mk', ev, WAct.mk.injEq, WOp.read.injEq, SCell.mark.injEq, SMk.start.injEq] at h2
        exact .inl (by rw [h2.2.2])
  | get e n fs i st hb hm ht hc hf hg =>
    have s1 := st1 ⟨0, .load (.fut n) true (some i) 1⟩ (by simp [ev])
    have he : Ended (w.log ++ [⟨0, .load (.fut n) true (some i) 1⟩]) w.nrun e := by
      obtain ⟨tid, rel, hs⟩ := got_get hg
      have hmem : (e, n) ∈ w.futures := by rw [hf]; exact List.mem_cons_self ..
      rcases hN.fe e n hmem with h1 | ⟨m, k, h1, h2, h3, -⟩
      · have h4 := (hN.qn _ h1).2.2.2
        have h5 := wc_get (l := .fut n) hs (by simp [WOp.isWrite])
        simp only at h4
        omega
      · have hik : i = k := count_one (hN.w1 (.fut n)) hs h3 (by simp [WOp.isWrite]) (by simp [WOp.isWrite])
        subst hik
        refine ⟨m, n, get_app h2, w.log.length, _, get_last _, .inr ?_⟩
        exact hb_trans (hb_seq h1 (get_app h2) (get_app h3) rfl)
          (hb_sync (lt_of_get h3) (get_app h3) (get_last _) rfl ⟨rfl, rfl⟩)
    refine ⟨kb _, qs _, fun i t r e hi => pre_app (h.st i t r e (s1 i t r e hi)), rn _, mr _, rw' _, fun hb j l hj hl d hd => ?_, h.cr,
      fun _ j t x hj => ?_⟩
    · have := h.cu hb j l hj hl d hd
      rw [hf] at this
      rcases this with h1 | h1 | h1 | ⟨k, h1⟩ | h1
      · exact .inl h1
      · exact .inr (.inl h1)
      · exact .inr (.inr (.inl h1))
      · rcases List.mem_cons.1 h1 with h2 | h2
        · simp only [Prod.mk.injEq] at h2
          rw [h2.1]
          exact .inr (.inr (.inr (.inr he)))
        · exact .inr (.inr (.inr (.inl ⟨k, h2⟩)))
      · exact .inr (.inr (.inr (.inr (ended_app h1))))
    · have := h.sk hb j t x (s1 j t _ x hj)
      rw [hf] at this
      rcases this with h1 | ⟨k, h1⟩ | h1
      · exact .inl h1
      · rcases List.mem_cons.1 h1 with h2 | h2
        · simp only [Prod.mk.injEq] at h2
          rw [h2.1]
          exact .inr (.inr he)
        · exact .inr (.inl ⟨k, h2⟩)
      · exact .inr (.inr (ended_app h1))
  | gthrow e n fs i msg hb hm hf hg =>
    have s2 := st2 ⟨0, .load (.fut n) true (some i) 1⟩ ⟨0, ev w.nrun .out⟩ (by simp [ev]) (by simp [ev])
    exact ⟨by simp, qs _, fun i t r e hi => pre_app (h.st i t r e (s2 i t r e hi)), rn _, by simp, by simp, by simp, by simp, by simp⟩
  | ret b r hb hm ht hc hf ho hn =>
    have s1 := st1 ⟨0, ev w.nrun (.ret b)⟩ (by simp [ev])
    exact ⟨by simp, qs _, fun i t r e hi => pre_app (h.st i t r e (s1 i t r e hi)), rn _, by simp [hm], by simp, by simp, h.cr, by simp⟩
  | row l hb hm ht hc hf hl =>
    refine ⟨h.kb, h.qs, h.st, h.rn, h.mr, fun _ i l' hi hl' d hd => ?_, fun _ i l' hi hl' d hd => ?_, fun e he => ?_, h.sk⟩
    · simp only at hi
      by_cases h1 : i + 1 < w.row
      · exact h.rw' hb i l' h1 hl' d hd
      · have := h.cu hb i l' (by omega) hl' d hd
        rw [ht, hc, hm, hf] at this
        simpa using this
    · simp only at hi
      have : i = w.row := by omega
      subst this
      rw [hl] at hl'
      obtain rfl := Option.some.inj hl'
      exact .inl hd
    · refine ⟨w.row, l, rfl, hl, ?_⟩
      simpa [hc] using he
  | take i t j hq hg hw =>
    obtain ⟨s, hs, hp⟩ := h.qs t (List.mem_of_getElem? hq)
    obtain ⟨tid, rel, hj⟩ := got_get hg
    have hsj : j = s := count_one (hN.w1 (.task t.n)) hj hs (by simp [WOp.isWrite]) (by simp [WOp.isWrite])
    subst hsj
    have hload : (w.log ++ [⟨t.n, .load (.task t.n) true (some j) 1⟩, ⟨t.n, ev t.r (.start t.e)⟩])[w.log.length]? =
      some ⟨t.n, .load (.task t.n) true (some j) 1⟩ := by simp
    have hst : (w.log ++ [⟨t.n, .load (.task t.n) true (some j) 1⟩, ⟨t.n, ev t.r (.start t.e)⟩])[w.log.length + 1]? =
      some (mk' t.n t.r (.start t.e)) := by simp [mk']
    have hhb : WHb (w.log ++ [⟨t.n, .load (.task t.n) true (some j) 1⟩, ⟨t.n, ev t.r (.start t.e)⟩]) j (w.log.length + 1) :=
      hb_trans (hb_sync (lt_of_get hs) (get_app hs) hload rfl ⟨rfl, rfl⟩) (hb_seq (Nat.lt_succ_self _) hload hst rfl)
    have new : ∀ (i' t' r' : Nat) (e' : Eid), (w.log ++ [⟨t.n, .load (.task t.n) true (some j) 1⟩, ⟨t.n, ev t.r (.start t.e)⟩])[i']? =
        some (mk' t' r' (.start e')) → w.log[i']? = some (mk' t' r' (.start e')) ∨ (i' = w.log.length + 1 ∧ t' = t.n ∧ r' = t.r ∧ e' = t.e) := by
      intro i' t' r' e' hi
      rcases get_two hi with h1 | ⟨-, h1⟩ | ⟨h0, h1⟩
      · exact .inl h1
      · simp [mk', ev] at h1
      · simp only [mk', ev, WAct.mk.injEq, WOp.read.injEq, SCell.mark.injEq, SMk.start.injEq] at h1
        exact .inr ⟨h0, h1.1, h1.2.1, h1.2.2⟩
    refine ⟨kb _, fun t' ht' => qs _ t' (List.mem_of_mem_eraseIdx ht'), fun i' t' r' e' hi => ?_, fun t' ht' => ?_, mr _, rw' _,
      fun hb i' l hi hl d hd => ?_, h.cr, fun hb i' t' e' hi => ?_⟩
    · rcases new i' t' r' e' hi with h1 | ⟨rfl, rfl, rfl, rfl⟩
      · exact pre_app (h.st _ _ _ _ h1)
      · exact pre_of (pre_app hp) hhb
    · rcases List.mem_append.1 ht' with h1 | h1
      · exact rn _ t' h1
      · rw [List.mem_singleton] at h1
        subst h1
        exact ⟨_, hst⟩
    · rcases h.cu hb i' l hi hl d hd with h1 | h1 | h1 | h1 | h1
      · exact .inl h1
      · exact .inr (.inl h1)
      · exact .inr (.inr (.inl h1))
      · exact .inr (.inr (.inr (.inl h1)))
      · exact .inr (.inr (.inr (.inr (ended_app h1))))
    · rcases new i' t' _ e' hi with h1 | ⟨rfl, rfl, hr, rfl⟩
      · rcases h.sk hb i' t' e' h1 with h1 | h1 | h1
        · exact .inl h1
        · exact .inr (.inl h1)
        · exact .inr (.inr (ended_app h1))
      · exact .inr (.inl ⟨t.n, hN.qf hb t (List.mem_append_left _ (List.mem_of_getElem? hq)) hr.symm⟩)
  | done i t o hr =>
    have s2 := st2 ⟨t.n, ev t.r (.fin t.e)⟩ ⟨t.n, .store (.fut t.n) true 1⟩ (by simp [ev]) (by simp [ev])
    refine ⟨kb _, qs _, fun i t r e hi => pre_app (h.st i t r e (s2 i t r e hi)), fun t' ht' => rn _ t' (List.mem_of_mem_eraseIdx ht'), mr _, rw' _,
      fun hb i' l hi hl d hd => ?_, h.cr, fun hb i' t' e' hi => ?_⟩
    · rcases h.cu hb i' l hi hl d hd with h1 | h1 | h1 | h1 | h1
      · exact .inl h1
      · exact .inr (.inl h1)
      · exact .inr (.inr (.inl h1))
      · exact .inr (.inr (.inr (.inl h1)))
      · exact .inr (.inr (.inr (.inr (ended_app h1))))
    · rcases h.sk hb i' t' e' (s2 _ _ _ _ hi) with h1 | h1 | h1
      · exact .inl h1
      · exact .inr (.inl h1)
      · exact .inr (.inr (ended_app h1))
  | use t r oe n wr hu =>
    have s1 := st1 ⟨t, access n wr⟩ (by cases wr <;> simp [ev, access])
    refine ⟨kb _, qs _, fun i t r e hi => pre_app (h.st i t r e (s1 i t r e hi)), rn _, mr _, rw' _,
      fun hb i' l hi hl d hd => ?_, h.cr, fun hb i' t' e' hi => ?_⟩
    · rcases h.cu hb i' l hi hl d hd with h1 | h1 | h1 | h1 | h1
      · exact .inl h1
      · exact .inr (.inl h1)
      · exact .inr (.inr (.inl h1))
      · exact .inr (.inr (.inr (.inl h1)))
      · exact .inr (.inr (.inr (.inr (ended_app h1))))
    · rcases h.sk hb i' t' e' (s1 _ _ _ _ hi) with h1 | h1 | h1
      · exact .inl h1
      · exact .inr (.inl h1)
      · exact .inr (.inr (ended_app h1))

/-- What is so when run `r` has returned at `k`. -/
def RetOk (c : SwCfg) (w : SwSt) (k r : Nat) (b : Bool) : Prop :=
  (r = w.nrun → w.busy = false) ∧
  (∀ (i t : Nat) (e : Eid), w.log[i]? = some (mk' t r (.start e)) → ∃ m t' : Nat, w.log[m]? = some (mk' t' r (.fin e)) ∧ WHb w.log m k) ∧
  (b = true → ∀ l ∈ c.mat, ∀ e ∈ l, ∃ m t' : Nat, w.log[m]? = some (mk' t' r (.fin e)) ∧ WHb w.log m k) ∧
  ∀ t ∈ w.queued ++ w.running, t.r ≠ r

/-- Begins and returns of runs. -/
structure RT (c : SwCfg) (w : SwSt) : Prop where
  rt : ∀ (k t r : Nat) (b : Bool), w.log[k]? = some (mk' t r (.ret b)) → t = 0 ∧ RetOk c w k r b
  bg : ∀ (k t r : Nat), w.log[k]? = some (mk' t r .begin) → t = 0 ∧ 0 < r
  rb : ∀ (i j t t' r r' : Nat) (b : Bool), w.log[i]? = some (mk' t r (.ret b)) → w.log[j]? = some (mk' t' r' .begin) → r < r' → i < j
  ro : ∀ r, 0 < r → (r < w.nrun ∨ (r = w.nrun ∧ w.busy = false)) →
    ∃ k : Nat, (∃ b, w.log[k]? = some (mk' 0 r (.ret b))) ∨ w.log[k]? = some (mk' 0 r .out)

theorem rt_init {c : SwCfg} : RT c SwSt.init := by
  constructor <;> simp [SwSt.init]
  intro r h1 h2; omega

/-- A step that adds `u`, where nobody begins or returns. -/
theorem old_mark {log u : List SLogged} {m : SMk} {r i t : Nat} (hu : ∀ a ∈ u, a.op ≠ ev r m) (h : (log ++ u)[i]? = some (mk' t r m)) :
    log[i]? = some (mk' t r m) := by
  by_cases hi : i < log.length
  · exact get_back h hi
  · rw [List.getElem?_append_right (by omega)] at h
    exact absurd rfl (hu _ (List.mem_of_getElem? h))

theorem retOk_keep {c : SwCfg} {w w' : SwSt} {u : List SLogged} (hl : w'.log = w.log ++ u)
    (hs : ∀ a ∈ u, ∀ r e, a.op = ev r (.start e) → (r = w.nrun ∧ w.busy = true) ∨ ∃ t ∈ w.queued, t.r = r)
    (ht : ∀ t ∈ w'.queued ++ w'.running, t ∈ w.queued ++ w.running ∨ (t.r = w.nrun ∧ w.busy = true))
    {k r : Nat} {b : Bool} (hr : r ≤ w.nrun) (hn : (w'.nrun = w.nrun ∧ (w.busy = false → w'.busy = false)) ∨ w'.nrun = w.nrun + 1)
    (h : RetOk c w k r b) : RetOk c w' k r b := by
  obtain ⟨h1, h2, h3, h4⟩ := h
  refine ⟨fun h5 => ?_, fun i t e hi => ?_, fun hb l hl' e he => ?_, fun t h5 h6 => ?_⟩
  · rcases hn with ⟨h6, h7⟩ | h6
    · exact h7 (h1 (by omega))
    · omega
  · rw [hl] at hi ⊢
    have hi' : w.log[i]? = some (mk' t r (.start e)) := by
      by_cases hi' : i < w.log.length
      · exact get_back hi hi'
      · rw [List.getElem?_append_right (by omega)] at hi
        rcases hs _ (List.mem_of_getElem? hi) r e rfl with ⟨h5, h6⟩ | ⟨t, h5, h6⟩
        · rw [h1 h5] at h6; simp at h6
        · exact absurd h6 (h4 t (List.mem_append_left _ h5))
    obtain ⟨m, t', h5, h6⟩ := h2 i t e hi'
    exact ⟨m, t', get_app h5, hb_app h6⟩
  · rw [hl]
    obtain ⟨m, t', h5, h6⟩ := h3 hb l hl' e he
    exact ⟨m, t', get_app h5, hb_app h6⟩
  · rcases ht t h5 with h7 | ⟨h7, h8⟩
    · exact h4 t h7 h6
    · rw [h1 (by omega)] at h8; simp at h8

theorem rt_keep {c : SwCfg} {w w' : SwSt} {u : List SLogged} (hC : Cnt c w) (h : RT c w) (hl : w'.log = w.log ++ u)
    (hs : ∀ a ∈ u, ∀ r m, a.op = ev r m → (∀ b, m ≠ .ret b) ∧ m ≠ .begin ∧
      ∀ e, m = .start e → (r = w.nrun ∧ w.busy = true) ∨ ∃ t ∈ w.queued, t.r = r)
    (ht : ∀ t ∈ w'.queued ++ w'.running, t ∈ w.queued ++ w.running ∨ (t.r = w.nrun ∧ w.busy = true))
    (hn : w'.nrun = w.nrun) (hb : w.busy = false → w'.busy = false)
    (ho : w.busy = true → w'.busy = false → ∃ k : Nat, w'.log[k]? = some (mk' 0 w.nrun .out)) : RT c w' := by
  have or : ∀ (k t r : Nat) (b : Bool), w'.log[k]? = some (mk' t r (.ret b)) → w.log[k]? = some (mk' t r (.ret b)) := by
    intro k t r b hk
    rw [hl] at hk
    exact old_mark (fun a ha h1 => (hs a ha _ _ h1).1 b rfl) hk
  have ob : ∀ (k t r : Nat), w'.log[k]? = some (mk' t r .begin) → w.log[k]? = some (mk' t r .begin) := by
    intro k t r hk
    rw [hl] at hk
    exact old_mark (fun a ha h1 => (hs a ha _ _ h1).2.1 rfl) hk
  refine ⟨fun k t r b hk => ?_, fun k t r hk => h.bg k t r (ob _ _ _ hk), fun i j t t' r r' b hi hj => h.rb i j t t' r r' b (or _ _ _ _ hi) (ob _ _ _ hj),
    fun r h0 hr => ?_⟩
  · have h1 := or _ _ _ _ hk
    exact ⟨(h.rt _ _ _ _ h1).1, retOk_keep hl (fun a ha r e h2 => (hs a ha _ _ h2).2.2 e rfl) ht (begin_le hC h1) (.inl ⟨hn, hb⟩) (h.rt _ _ _ _ h1).2⟩
  · by_cases hd : r = w.nrun ∧ w.busy = true
    · rcases hr with hr | ⟨-, hr⟩
      · omega
      · obtain ⟨k, hk⟩ := ho hd.2 hr
        rw [hd.1]
        exact ⟨k, .inr hk⟩
    · obtain ⟨k, hk⟩ := h.ro r h0 (by
        rw [hn] at hr
        rcases hr with hr | ⟨hr, -⟩
        · exact .inl hr
        · refine .inr ⟨hr, ?_⟩
          cases hb' : w.busy
          · rfl
          · exact absurd ⟨hr, hb'⟩ hd)
      rw [hl]
      exact ⟨k, hk.imp (fun ⟨b, h1⟩ => ⟨b, get_app h1⟩) get_app⟩

theorem rt_eff {c : SwCfg} {may : Eid → Nat → Bool → Bool} {w w' : SwSt} (hN : Nums w) (hC : Cnt c w) (hH : HB c w)
    (h : RT c w) (hk : Eff c may w w') : RT c w' := by
  cases hk with
  | begin hb =>
    have or : ∀ (k t r : Nat) (b : Bool), (w.log ++ [⟨0, ev (w.nrun + 1) .begin⟩])[k]? = some (mk' t r (.ret b)) →
        w.log[k]? = some (mk' t r (.ret b)) := fun k t r b hk => old_mark (by simp [ev]) hk
    refine ⟨fun k t r b hk => ?_, fun k t r hk => ?_, fun i j t t' r r' b hi hj hr => ?_, fun r h0 hr => ?_⟩
    · have h1 := or _ _ _ _ hk
      refine ⟨(h.rt _ _ _ _ h1).1, ?_⟩
      have h2 := (h.rt _ _ _ _ h1).2
      refine retOk_keep (w := w) (u := [⟨0, ev (w.nrun + 1) .begin⟩]) ?_ ?_ ?_ (begin_le hC h1) (.inr rfl) h2
      · rfl
      · simp [ev]
      · exact fun t ht => .inl ht
    · rcases get_snoc hk with h1 | ⟨-, h1⟩
      · exact h.bg _ _ _ h1
      · simp [mk', ev] at h1
        omega
    · have h1 := or _ _ _ _ hi
      rcases get_snoc hj with h2 | ⟨h2, -⟩
      · exact h.rb _ _ _ _ _ _ _ h1 h2 hr
      · have := lt_of_get h1; omega
    · obtain ⟨k, hk⟩ := h.ro r h0 (by simp at hr; rcases Nat.lt_or_ge r w.nrun with h1 | h1 <;> [exact .inl h1; exact .inr ⟨by omega, hb⟩])
      exact ⟨k, hk.imp (fun ⟨b, h1⟩ => ⟨b, get_app h1⟩) get_app⟩
  | ret b0 r0 hb hm ht hc hf ho hn =>
    have ob : ∀ (k t r : Nat), (w.log ++ [⟨0, ev w.nrun (.ret b0)⟩])[k]? = some (mk' t r .begin) →
        w.log[k]? = some (mk' t r .begin) := fun k t r hk => old_mark (by simp [ev]) hk
    have nt : ∀ t ∈ w.queued ++ w.running, t.r ≠ w.nrun := by
      intro t h1 h2
      have := hN.qf hb t h1 h2
      rw [hf] at this
      simp at this
    refine ⟨fun k t r b hk => ?_, fun k t r hk => h.bg _ _ _ (ob _ _ _ hk), fun i j t t' r r' b hi hj hr => ?_, fun r h0 hr => ?_⟩
    · rcases get_snoc hk with h1 | ⟨rfl, h1⟩
      · refine ⟨(h.rt _ _ _ _ h1).1, ?_⟩
        have h2 := (h.rt _ _ _ _ h1).2
        refine retOk_keep (w := w) (u := [⟨0, ev w.nrun (.ret b0)⟩]) ?_ ?_ ?_ (begin_le hC h1) (.inl ⟨rfl, fun _ => rfl⟩) h2
        · rfl
        · simp [ev]
        · exact fun t ht => .inl ht
      · simp only [mk', ev, WAct.mk.injEq, WOp.read.injEq, SCell.mark.injEq, SMk.ret.injEq] at h1
        obtain ⟨rfl, rfl, rfl⟩ := h1
        have fin : ∀ e, Ended w.log w.nrun e → ∃ m t' : Nat, (w.log ++ [⟨0, ev w.nrun (.ret b)⟩])[m]? = some (mk' t' w.nrun (.fin e)) ∧
            WHb (w.log ++ [⟨0, ev w.nrun (.ret b)⟩]) m w.log.length := by
          rintro e ⟨m, t', h2, h3⟩
          exact ⟨m, t', get_app h2, known_to h3 (get_last _) (Nat.le_refl _)⟩
        refine ⟨rfl, fun _ => rfl, fun i t e hi => ?_, fun hb' l hl e he => ?_, nt⟩
        · have h2 : w.log[i]? = some (mk' t w.nrun (.start e)) := old_mark (by simp [ev]) hi
          rcases hH.sk hb i t e h2 with h3 | ⟨n, h3⟩ | h3
          · rw [hm] at h3; simp at h3
          · rw [hf] at h3; simp at h3
          · exact fin e h3
        · obtain ⟨i, hi⟩ := List.mem_iff_getElem?.1 hl
          have h2 := (ho hb').1
          have h3 := lt_of_get hi
          have h4 : c.mat.length ≤ w.row := by simpa using h2
          rcases Nat.lt_or_ge (i + 1) w.row with h5 | h5
          · exact fin e (hH.rw' hb i l h5 hi e he)
          · have := hH.cu hb i l (by omega) hi e he
            rw [ht, hc, hm, hf] at this
            exact fin e (by simpa using this)
    · have h1 := ob _ _ _ hj
      rcases get_snoc hi with h2 | ⟨h2, h3⟩
      · exact h.rb _ _ _ _ _ _ _ h2 h1 hr
      · have h4 := begin_le hC h1
        simp [mk', ev] at h3
        omega
    · by_cases hd : r = w.nrun
      · subst hd
        exact ⟨w.log.length, .inl ⟨b0, get_last _⟩⟩
      · obtain ⟨k, hk⟩ := h.ro r h0 (.inl (by simp at hr; omega))
        exact ⟨k, hk.imp (fun ⟨b, h1⟩ => ⟨b, get_app h1⟩) get_app⟩
  | mret e st hb hm => exact rt_keep hC h rfl (by simp [ev]) (fun t ht => .inl ht) rfl id (by simp [hb])
  | mthrow e msg hb hm => exact rt_keep hC h rfl (by simp [ev]) (fun t ht => .inl ht) rfl (fun _ => rfl) (fun _ _ => ⟨w.log.length + 1, by simp [mk']⟩)
  | direct e es hb hm ht => exact rt_keep (u := []) hC h (by simp) (by simp) (fun t ht => .inl ht) rfl id (by simp [hb])
  | commit e es hb hm ht =>
    refine rt_keep hC h rfl (by simp [ev]) (fun t ht => ?_) rfl id (by simp [hb])
    simp only [List.mem_append, List.mem_singleton] at ht ⊢
    rcases ht with (h1 | h1) | h1
    · exact .inl (.inl h1)
    · exact .inr ⟨by rw [h1], hb⟩
    · exact .inl (.inr h1)
  | mstart e es hb hm ht hc => exact rt_keep hC h rfl (by simp [ev]; grind) (fun t ht => .inl ht) rfl id (by simp [hb])
  | get e n fs i st hb hm ht hc hf hg => exact rt_keep hC h rfl (by simp [ev]) (fun t ht => .inl ht) rfl id (by simp [hb])
  | gthrow e n fs i msg hb hm hf hg =>
    exact rt_keep hC h rfl (by simp [ev]) (fun t ht => .inl ht) rfl (fun _ => rfl) (fun _ _ => ⟨w.log.length + 1, by simp [mk']⟩)
  | row l hb hm ht hc hf hl => exact rt_keep (u := []) hC h (by simp) (by simp) (fun t ht => .inl ht) rfl id (by simp [hb])
  | take i t j hq hg hw =>
    have hq' := List.mem_of_getElem? hq
    refine rt_keep hC h rfl (by simp [ev]; grind) (fun t' ht => ?_) rfl id (fun h1 h2 => by simp [h1] at h2)
    simp only [List.mem_append, List.mem_singleton] at ht ⊢
    rcases ht with h1 | h1 | h1
    · exact .inl (.inl (List.mem_of_mem_eraseIdx h1))
    · exact .inl (.inr h1)
    · exact .inl (.inl (h1 ▸ hq'))
  | done i t o hr =>
    refine rt_keep hC h rfl (by simp [ev]) (fun t' ht => ?_) rfl id (fun h1 h2 => by simp [h1] at h2)
    simp only [List.mem_append] at ht ⊢
    exact .inl (ht.imp id List.mem_of_mem_eraseIdx)
  | use t r oe n wr hu =>
    exact rt_keep hC h rfl (by cases wr <;> simp [ev, access]) (fun t ht => .inl ht) rfl id (fun h1 h2 => by simp [h1] at h2)

/-- The element is executing, in thread `t`. -/
def Exec (w : SwSt) (t r : Nat) (e : Eid) : Prop :=
  (t = 0 ∧ r = w.nrun ∧ w.busy = true ∧ w.mrun = some e) ∨ ⟨e, t, r⟩ ∈ w.running

/-- Accesses of memory of the user. -/
structure Acc (may : Eid → Nat → Bool → Bool) (w : SwSt) : Prop where
  el : ∀ (p r : Nat) (e : Eid), (p, r, some e) ∈ w.accs → ∃ (t n : Nat) (wr : Bool) (s : Nat), w.log[p]? = some ⟨t, access n wr⟩ ∧ may e n wr = true ∧
    s < p ∧ w.log[s]? = some (mk' t r (.start e)) ∧ (Exec w t r e ∨ ∃ m : Nat, p < m ∧ w.log[m]? = some (mk' t r (.fin e)))
  ca : ∀ (p r : Nat), (p, r, none) ∈ w.accs → (∃ n wr, w.log[p]? = some ⟨0, access n wr⟩) ∧ r ≤ w.nrun ∧ (r = w.nrun → w.busy = false) ∧
    (∀ (b t r' : Nat), w.log[b]? = some (mk' t r' .begin) → r < r' → p < b) ∧
    ∀ (k t r' : Nat) (b : Bool), w.log[k]? = some (mk' t r' (.ret b)) → r' ≤ r → k < p
  al : ∀ (p t n : Nat) (wr : Bool), w.log[p]? = some ⟨t, access n wr⟩ → ∃ r x, (p, r, x) ∈ w.accs

theorem acc_init {may : Eid → Nat → Bool → Bool} : Acc may SwSt.init := by
  constructor <;> simp [SwSt.init]

theorem acc_keep {may : Eid → Nat → Bool → Bool} {w w' : SwSt} {u : List SLogged} (h : Acc may w) (hl : w'.log = w.log ++ u) (ha : w'.accs = w.accs)
    (hu : ∀ a ∈ u, ∀ n wr, a.op ≠ access n wr)
    (hr : ∀ a ∈ u, ∀ r b, a.op = ev r (.ret b) → r = w.nrun ∧ w.busy = true)
    (hn : (w'.nrun = w.nrun ∧ (w.busy = false → w'.busy = false)) ∨ w'.nrun = w.nrun + 1)
    (he : ∀ t r e, Exec w t r e → Exec w' t r e ∨ ∃ a ∈ u, a = mk' t r (.fin e)) : Acc may w' := by
  refine ⟨fun p r e hp => ?_, fun p r hp => ?_, fun p t n wr hp => ?_⟩
  · rw [ha] at hp
    obtain ⟨t, n, wr, s, h1, h2, h3, h4, h5⟩ := h.el p r e hp
    refine ⟨t, n, wr, s, by rw [hl]; exact get_app h1, h2, h3, by rw [hl]; exact get_app h4, ?_⟩
    rcases h5 with h5 | ⟨m, h5, h6⟩
    · rcases he t r e h5 with h6 | ⟨a, h6, h7⟩
      · exact .inl h6
      · obtain ⟨i, hi⟩ := List.mem_iff_getElem?.1 h6
        have := lt_of_get h1
        refine .inr ⟨w.log.length + i, by omega, ?_⟩
        rw [hl, List.getElem?_append_right (by omega)]
        simpa [← h7] using hi
    · exact .inr ⟨m, h5, by rw [hl]; exact get_app h6⟩
  · rw [ha] at hp
    obtain ⟨⟨n, wr, h1⟩, h2, h3, h4, h5⟩ := h.ca p r hp
    have hlt := lt_of_get h1
    refine ⟨⟨n, wr, by rw [hl]; exact get_app h1⟩, ?_, ?_, fun b t r' hb' hr' => ?_, fun k t r' b hk hr' => ?_⟩
    · rcases hn with ⟨h6, -⟩ | h6 <;> omega
    · intro h6
      rcases hn with ⟨h7, h8⟩ | h7
      · exact h8 (h3 (by omega))
      · omega
    · rw [hl] at hb'
      by_cases hi : b < w.log.length
      · exact h4 b t r' (get_back hb' hi) hr'
      · omega
    · rw [hl] at hk
      by_cases hi : k < w.log.length
      · exact h5 k t r' b (get_back hk hi) hr'
      · rw [List.getElem?_append_right (by omega)] at hk
        obtain ⟨h6, h7⟩ := hr _ (List.mem_of_getElem? hk) r' b rfl
        rw [h3 (by omega)] at h7
        simp at h7
  · rw [hl] at hp
    rw [ha]
    by_cases hi : p < w.log.length
    · exact h.al p t n wr (get_back hp hi)
    · rw [List.getElem?_append_right (by omega)] at hp
      exact absurd rfl (hu _ (List.mem_of_getElem? hp) n wr)

theorem access_ne (r : Nat) (m : SMk) (n : Nat) (wr : Bool) : ev r m ≠ access n wr := by
  cases wr <;> simp [ev, access]

theorem acc_eff {c : SwCfg} {may : Eid → Nat → Bool → Bool} {w w' : SwSt} (hC : Cnt c w) (hH : HB c w)
    (h : Acc may w) (hk : Eff c may w w') : Acc may w' := by
  have ne1 : ∀ l b s v n wr, (WOp.load l b s v : SOp) ≠ access n wr := by intro l b s v n wr; cases wr <;> simp [access]
  have ne2 : ∀ l b v n wr, (WOp.store l b v : SOp) ≠ access n wr := by intro l b v n wr; cases wr <;> simp [access]
  cases hk with
  | begin hb =>
    refine acc_keep h rfl rfl (by simp [access_ne]) (by simp [ev]) (.inr rfl) (fun t r e he => ?_)
    rcases he with ⟨-, -, h1, -⟩ | h1
    · rw [hb] at h1; simp at h1
    · exact .inl (.inr h1)
  | mret e st hb hm =>
    refine acc_keep h rfl rfl (by simp [access_ne]) (by simp [ev]) (.inl ⟨rfl, id⟩) (fun t r e he => ?_)
    rcases he with ⟨h1, h2, -, h4⟩ | h1
    · rw [hm] at h4
      obtain rfl := Option.some.inj h4
      exact .inr ⟨_, List.mem_singleton.2 rfl, by rw [h1, h2]; rfl⟩
    · exact .inl (.inr h1)
  | mthrow e msg hb hm =>
    refine acc_keep h rfl rfl (by simp [access_ne]) (by simp [ev]) (.inl ⟨rfl, fun _ => rfl⟩) (fun t r e he => ?_)
    rcases he with ⟨h1, h2, -, h4⟩ | h1
    · rw [hm] at h4
      obtain rfl := Option.some.inj h4
      exact .inr ⟨_, List.mem_cons_self .., by rw [h1, h2]; rfl⟩
    · exact .inl (.inr h1)
  | direct e es hb hm ht => exact acc_keep (u := []) h (by simp) rfl (by simp) (by simp) (.inl ⟨rfl, id⟩) (fun t r e he => .inl he)
  | commit e es hb hm ht => exact acc_keep h rfl rfl (by simp [ne2]) (by simp [ev]) (.inl ⟨rfl, id⟩) (fun t r e he => .inl he)
  | mstart e es hb hm ht hc =>
    refine acc_keep h rfl rfl (by simp [access_ne]) (by simp [ev]) (.inl ⟨rfl, id⟩) (fun t r e he => ?_)
    rcases he with ⟨h1, h2, -, h4⟩ | h1
    · rw [hm] at h4; simp at h4
    · exact .inl (.inr h1)
  | get e n fs i st hb hm ht hc hf hg => exact acc_keep h rfl rfl (by simp [ne1]) (by simp [ev]) (.inl ⟨rfl, id⟩) (fun t r e he => .inl he)
  | gthrow e n fs i msg hb hm hf hg =>
    refine acc_keep h rfl rfl (by simp [ne1, access_ne]) (by simp [ev]) (.inl ⟨rfl, fun _ => rfl⟩) (fun t r e he => ?_)
    rcases he with ⟨h1, h2, -, h4⟩ | h1
    · rw [hm] at h4; simp at h4
    · exact .inl (.inr h1)
  | ret b r hb hm ht hc hf ho hn =>
    refine acc_keep h rfl rfl (by simp [access_ne]) (by simp [ev, hb]; omega) (.inl ⟨rfl, fun _ => rfl⟩) (fun t r e he => ?_)
    rcases he with ⟨h1, h2, -, h4⟩ | h1
    · rw [hm] at h4; simp at h4
    · exact .inl (.inr h1)
  | row l hb hm ht hc hf hl => exact acc_keep (u := []) h (by simp) rfl (by simp) (by simp) (.inl ⟨rfl, id⟩) (fun t r e he => .inl he)
  | take i t j hq hg hw =>
    refine acc_keep h rfl rfl (by simp [ne1, access_ne]) (by simp [ev]) (.inl ⟨rfl, id⟩) (fun t r e he => ?_)
    rcases he with h1 | h1
    · exact .inl (.inl h1)
    · exact .inl (.inr (List.mem_append_left _ h1))
  | done i t o hr =>
    refine acc_keep h rfl rfl (by simp [ne2, access_ne]) (by simp [ev]) (.inl ⟨rfl, id⟩) (fun t' r e he => ?_)
    rcases he with h1 | h1
    · exact .inl (.inl h1)
    · rcases List.mem_cons.1 ((mem_erase hr).mem_iff.1 h1) with h2 | h2
      · exact .inr ⟨_, List.mem_cons_self .., by rw [← h2]; rfl⟩
      · exact .inl (.inr h2)
  | use t r oe n wr hu =>
    have hle : ∀ p r x, (p, r, x) ∈ w.accs → p < w.log.length := by
      intro p r x hp
      cases x with
      | some e => obtain ⟨t, n, wr, s, h1, -⟩ := h.el p r e hp; exact lt_of_get h1
      | none => obtain ⟨⟨n, wr, h1⟩, -⟩ := h.ca p r hp; exact lt_of_get h1
    have old : ∀ (i t' r' : Nat) (m : SMk), (w.log ++ [⟨t, access n wr⟩])[i]? = some (mk' t' r' m) → w.log[i]? = some (mk' t' r' m) :=
      fun i t' r' m hi => old_mark (by simp [(access_ne _ _ _ _).symm]) hi
    refine ⟨fun p r' e hp => ?_, fun p r' hp => ?_, fun p t' n' wr' hp => ?_⟩
    · rcases List.mem_append.1 hp with hp | hp
      · obtain ⟨t', n', wr', s, h1, h2, h3, h4, h5⟩ := h.el p r' e hp
        exact ⟨t', n', wr', s, get_app h1, h2, h3, get_app h4, h5.imp id (fun ⟨m, h6, h7⟩ => ⟨m, h6, get_app h7⟩)⟩
      · simp only [List.mem_singleton, Prod.mk.injEq] at hp
        obtain ⟨rfl, rfl, rfl⟩ := hp
        rcases hu with ⟨h1, -⟩ | ⟨e', h1, h2, h3⟩
        · simp at h1
        · obtain rfl := Option.some.inj h1
          obtain ⟨s, hs⟩ : ∃ s : Nat, w.log[s]? = some (mk' t r' (.start e)) := by
            rcases h3 with ⟨rfl, rfl, h4, h5⟩ | h4
            · exact hH.mr e h5
            · exact hH.rn _ h4
          exact ⟨t, n, wr, s, get_last _, h2, lt_of_get hs, get_app hs, .inl h3⟩
    · rcases List.mem_append.1 hp with hp | hp
      · obtain ⟨⟨n', wr', h1⟩, h2, h3, h4, h5⟩ := h.ca p r' hp
        exact ⟨⟨n', wr', get_app h1⟩, h2, h3, fun b t r'' hb => h4 b t r'' (old _ _ _ _ hb), fun k t r'' b hk => h5 k t r'' b (old _ _ _ _ hk)⟩
      · simp only [List.mem_singleton, Prod.mk.injEq] at hp
        obtain ⟨rfl, rfl, rfl⟩ := hp
        rcases hu with ⟨-, rfl, rfl, hb⟩ | ⟨e', h1, -⟩
        · refine ⟨⟨n, wr, get_last _⟩, Nat.le_refl _, fun _ => hb, fun b t r'' hb hr => ?_, fun k t r'' b hk _ => lt_of_get (old _ _ _ _ hk)⟩
          have := begin_le hC (old _ _ _ _ hb)
          omega
        · simp at h1
    · rcases get_snoc hp with h1 | ⟨rfl, -⟩
      · obtain ⟨r', x, h2⟩ := h.al p t' n' wr' h1
        exact ⟨r', x, List.mem_append_left _ h2⟩
      · exact ⟨r, oe, by simp⟩

/-- A load reads the only store to its location. -/
def LoadOk (log : List SLogged) (j : Nat) (o : SOp) : Prop :=
  match o with
  | .load l _ src v => v = 1 ∧ ∃ i, src = some i ∧ i < j ∧ ∃ t rel, log[i]? = some ⟨t, .store l rel 1⟩
  | .rmw .. => False
  | .store _ _ v => v = 1
  | .write (.mark ..) => False
  | _ => True

def Loads (w : SwSt) : Prop := ∀ (j : Nat) (a : SLogged), w.log[j]? = some a → LoadOk w.log j a.op

theorem loadOk_app {log u : List SLogged} {j : Nat} {o : SOp} (h : LoadOk log j o) : LoadOk (log ++ u) j o := by
  cases o with
  | load l a src v => obtain ⟨h1, i, h2, h3, t, rel, h4⟩ := h; exact ⟨h1, i, h2, h3, t, rel, get_app h4⟩
  | write x => cases x <;> exact h
  | _ => exact h

theorem loads_keep {w : SwSt} {u : List SLogged} (h : Loads w)
    (hu : ∀ a ∈ u, ∀ j, w.log.length ≤ j → LoadOk w.log j a.op) (j : Nat) (a : SLogged) (hj : (w.log ++ u)[j]? = some a) :
    LoadOk (w.log ++ u) j a.op := by
  by_cases hi : j < w.log.length
  · exact loadOk_app (h j a (get_back hj hi))
  · rw [List.getElem?_append_right (by omega)] at hj
    exact loadOk_app (hu a (List.mem_of_getElem? hj) j (by omega))

theorem loads_eff {c : SwCfg} {may : Eid → Nat → Bool → Bool} {w w' : SwSt} (h : Loads w) (hk : Eff c may w w') : Loads w' := by
  have ld : ∀ {l : SLoc} {i : Nat}, got w.log l (some i) = true → ∀ j, w.log.length ≤ j → LoadOk w.log j (.load l true (some i) 1) := by
    intro l i hg j hj
    obtain ⟨t, rel, h1⟩ := got_get hg
    have := lt_of_get h1
    exact ⟨rfl, i, rfl, by omega, t, rel, h1⟩
  cases hk with
  | begin hb => exact loads_keep h (by simp [LoadOk, ev])
  | mret e st hb hm => exact loads_keep h (by simp [LoadOk, ev])
  | mthrow e msg hb hm => exact loads_keep h (by simp [LoadOk, ev])
  | direct e es hb hm ht => exact h
  | commit e es hb hm ht => exact loads_keep h (by simp [LoadOk])
  | mstart e es hb hm ht hc => exact loads_keep h (by simp [LoadOk, ev])
  | get e n fs i st hb hm ht hc hf hg =>
    refine loads_keep h (fun a ha => ?_)
    rw [List.mem_singleton] at ha
    subst ha
    exact ld hg
  | gthrow e n fs i msg hb hm hf hg =>
    refine loads_keep h (fun a ha => ?_)
    rcases List.mem_cons.1 ha with rfl | ha
    · exact ld hg
    · rw [List.mem_singleton] at ha
      subst ha
      simp [LoadOk, ev]
  | ret b r hb hm ht hc hf ho hn => exact loads_keep h (by simp [LoadOk, ev])
  | row l hb hm ht hc hf hl => exact h
  | take i t j hq hg hw =>
    refine loads_keep h (fun a ha => ?_)
    rcases List.mem_cons.1 ha with rfl | ha
    · exact ld hg
    · rw [List.mem_singleton] at ha
      subst ha
      simp [LoadOk, ev]
  | done i t o hr => exact loads_keep h (by simp [LoadOk, ev])
  | use t r oe n wr hu => exact loads_keep h (by cases wr <;> simp [LoadOk, access])

theorem writes_isWrite {o : SOp} {l : SLoc} {v : Nat} (h : o.Writes l v) : o.isWrite l = true := by
  cases o <;> simp_all [WOp.Writes, WOp.isWrite]

/-- Every execution of the model is one that memory allows. -/
theorem coherent_of {w : SwSt} (hN : Nums w) (h : Loads w) : Coherent (fun _ => 0) w.log := by
  have key : ∀ (j : Nat) (a : SLogged) (l : SLoc) (src : Option Nat) (v : Nat), w.log[j]? = some a → a.op.Reads l src v →
      v = 1 ∧ ∃ i, src = some i ∧ i < j ∧ ∃ t rel, w.log[i]? = some ⟨t, .store l rel 1⟩ := by
    intro j a l src v h1 h2
    have h3 := h j a h1
    obtain ⟨t, o⟩ := a
    cases o with
    | load l' b src' v' => obtain ⟨rfl, rfl, rfl⟩ := h2; exact h3
    | rmw => exact h3.elim
    | _ => exact h2.elim
  have uniq : ∀ (k i : Nat) (b : SLogged) (l : SLoc) (v t : Nat) (rel : Bool), w.log[k]? = some b → b.op.Writes l v →
      w.log[i]? = some ⟨t, .store l rel 1⟩ → k = i := by
    intro k i b l v t rel h1 h2 h3
    exact count_one (hN.w1 l) h1 h3 (writes_isWrite h2) (by simp [WOp.isWrite])
  constructor
  · intro j a l src v h1 h2
    obtain ⟨rfl, i, rfl, h3, t, rel, h4⟩ := key j a l src v h1 h2
    exact ⟨h3, _, h4, rfl, rfl⟩
  · intro j k a b l src v w' h1 h2 h3 h4 h5
    obtain ⟨rfl, i, rfl, -, t, rel, h6⟩ := key j a l src v h1 h2
    exact ⟨i, rfl, Nat.le_of_eq (uniq k i b l w' t rel h3 h4 h6)⟩
  · intro j k a b l src src' v w' h1 h2 h3 h4 h5 i' hi'
    obtain ⟨rfl, i, rfl, -, t, rel, h6⟩ := key j a l src v h1 h2
    obtain ⟨rfl, i'', h7, -, t', rel', h8⟩ := key k b l src' w' h3 h4
    rw [hi'] at h7
    obtain rfl := Option.some.inj h7
    exact ⟨i, rfl, Nat.le_of_eq (uniq i' i _ l 1 t rel h8 ⟨rfl, rfl⟩ h6)⟩
  · intro j k a b l src v w' h1 h2 h3 h4 h5 h6
    have h7 := h j a h1
    obtain ⟨t, o⟩ := a
    cases o with
    | rmw => exact h7.elim
    | _ => exact h3.elim

/-- Everything. -/
structure All (c : SwCfg) (may : Eid → Nat → Bool → Bool) (w : SwSt) : Prop where
  nums : Nums w
  cnt : Cnt c w
  hb : HB c w
  rt : RT c w
  acc : Acc may w
  loads : Loads w

theorem all_run {c : SwCfg} (hnd : c.mat.flatten.Nodup) {may : Eid → Nat → Bool → Bool} (l : List SwAct) : All c may (SwSt.run c may SwSt.init l) := by
  have key : ∀ (l : List SwAct) (w : SwSt), All c may w → All c may (SwSt.run c may w l) := by
    intro l
    induction l with
    | nil => intro w h; exact h
    | cons a l ih =>
      intro w h
      refine ih _ ?_
      cases hs : SwSt.step c may w a with
      | none => simpa [hs] using h
      | some w' =>
        have hk := eff hs
        simp only [hs, Option.getD_some]
        exact ⟨nums_eff h.nums hk, cnt_eff hnd h.nums h.cnt hk, hb_eff hnd h.nums h.cnt h.hb hk, rt_eff h.nums h.cnt h.hb h.rt hk,
          acc_eff h.cnt h.hb h.acc hk, loads_eff h.loads hk⟩
  exact key l _ ⟨nums_init, cnt_init, hb_init, rt_init, acc_init, by intro j a h; simp [SwSt.init] at h⟩

end WeakStatic
end CGraph
