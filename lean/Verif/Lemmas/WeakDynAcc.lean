import Verif.Lemmas.WeakDynCore

/-! Accesses of memory of the user in `Model/WeakDyn.lean`. -/
namespace CGraph
namespace WeakDyn
open Spec Weak DynSt

/-- A mark in the log. -/
abbrev mrk (t r : Nat) (m : Visible.Mk) : WkLogged := ⟨t, .read (.mark r m)⟩

structure Acc (may : Eid → Nat → Bool → Bool) (w : WdSt) : Prop where
  jb : ∀ t e, At w t (.body e) → ∃ k : Nat, w.log[k]? = some (mrk t w.s.nrun (.ev (.start e)))
  ac : ∀ p r e, (p, r, some e) ∈ w.accs → ∃ a n wr, w.log[p]? = some a ∧ a.op = WdSt.access n wr ∧ may e n wr = true ∧
    (∃ k : Nat, k < p ∧ w.log[k]? = some (mrk a.tid r (.ev (.start e)))) ∧
    ((r = w.s.nrun ∧ At w a.tid (.body e)) ∨ ∃ m : Nat, p < m ∧ w.log[m]? = some (mrk a.tid r (.ev (.finish e))))
  ow : ∀ p r, (p, r, none) ∈ w.accs → (∃ a n wr, w.log[p]? = some a ∧ a.op = WdSt.access n wr ∧ a.tid = 0) ∧
    (r ≠ 0 → ∃ k : Nat, k < p ∧ w.log[k]? = some (mrk 0 r (.ret false))) ∧
    ((r = w.s.nrun ∧ w.s.main = .idle) ∨ ∃ m : Nat, p < m ∧ w.log[m]? = some (mrk 0 (r + 1) .begin)) ∧
    ∀ (i : Nat) t r' m, i < p → w.log[i]? = some (mrk t r' m) → r' ≤ r
  us : ∀ (p : Nat) (a : WkLogged) n wr, w.log[p]? = some a → a.op = WdSt.access n wr → ∃ r oe, (p, r, oe) ∈ w.accs
  bt : ∀ (i : Nat) t r m, w.log[i]? = some (mrk t r m) → (m = .begin ∨ ∃ b, m = .ret b) → t = 0 ∧ m ≠ .ret true
  rt : w.s.nrun ≠ 0 → w.s.main = .idle → ∃ k : Nat, w.log[k]? = some (mrk 0 w.s.nrun (.ret false))

theorem acc_init (c : DynCfg) (may : Eid → Nat → Bool → Bool) : Acc may (WdSt.init c) := by
  constructor <;> simp [WdSt.init, At, DynSt.init]

theorem Acc.keep {may : Eid → Nat → Bool → Bool} {w w' : WdSt} (h : Acc may w) {t : Nat} {ops : List WkOp} (ha : w'.accs = w.accs)
    (hl : w'.log = w.log ++ ops.map (fun o => ⟨t, o⟩))
    (h1 : ∀ t' e, At w t' (.body e) → (w'.s.nrun = w.s.nrun ∧ At w' t' (.body e)) ∨
      ∃ m : Nat, w.log.length ≤ m ∧ w'.log[m]? = some (mrk t' w.s.nrun (.ev (.finish e))))
    (h2 : w.s.main = .idle → (w'.s.nrun = w.s.nrun ∧ w'.s.main = .idle) ∨
      ∃ m : Nat, w.log.length ≤ m ∧ w'.log[m]? = some (mrk 0 (w.s.nrun + 1) .begin))
    (h3 : ∀ t' e, At w' t' (.body e) → (w'.s.nrun = w.s.nrun ∧ At w t' (.body e)) ∨
      ∃ k : Nat, w'.log[k]? = some (mrk t' w'.s.nrun (.ev (.start e))))
    (h4 : ∀ o ∈ ops, ∀ n wr, o ≠ WdSt.access n wr)
    (h5 : ∀ o ∈ ops, ∀ r m, o = .read (.mark r m) → (m = .begin ∨ ∃ b, m = .ret b) → t = 0 ∧ m ≠ .ret true)
    (h6 : w'.s.nrun ≠ 0 → w'.s.main = .idle → (w.s.main = .idle ∧ w'.s.nrun = w.s.nrun) ∨
      ∃ k : Nat, w'.log[k]? = some (mrk 0 w'.s.nrun (.ret false))) : Acc may w' := by
  have up : ∀ {k : Nat} {a : WkLogged}, w.log[k]? = some a → w'.log[k]? = some a := fun hk => by rw [hl]; exact get_app hk
  have dn : ∀ {k : Nat} {a : WkLogged}, w'.log[k]? = some a → w.log[k]? = some a ∨ ∃ o ∈ ops, a = ⟨t, o⟩ := by
    intro k a hk
    rw [hl] at hk
    by_cases hlt : k < w.log.length
    · exact .inl (get_back hk hlt)
    · rw [List.getElem?_append_right (by omega)] at hk
      obtain ⟨o, ho, rfl⟩ := List.mem_map.1 (List.mem_of_getElem? hk)
      exact .inr ⟨o, ho, rfl⟩
  constructor
  · intro t' e hat
    rcases h3 t' e hat with ⟨e1, h7⟩ | h7
    · obtain ⟨k, hk⟩ := h.jb t' e h7
      exact ⟨k, by rw [e1]; exact up hk⟩
    · exact h7
  · intro p r e hp
    rw [ha] at hp
    obtain ⟨a, n, wr, b1, b2, b3, ⟨k, b4, b5⟩, b6⟩ := h.ac p r e hp
    refine ⟨a, n, wr, up b1, b2, b3, ⟨k, b4, up b5⟩, ?_⟩
    rcases b6 with ⟨rfl, b6⟩ | ⟨m, b6, b7⟩
    · rcases h1 _ _ b6 with ⟨e1, b7⟩ | ⟨m, b7, b8⟩
      · exact .inl ⟨e1.symm, b7⟩
      · exact .inr ⟨m, by have := lt_of_get b1; omega, b8⟩
    · exact .inr ⟨m, b6, up b7⟩
  · intro p r hp
    rw [ha] at hp
    obtain ⟨⟨a, n, wr, b1, b2, b3⟩, b4, b5, b0⟩ := h.ow p r hp
    refine ⟨⟨a, n, wr, up b1, b2, b3⟩, fun h0 => ?_, ?_, fun i t' r' m c1 c2 => ?_⟩
    · obtain ⟨k, b6, b7⟩ := b4 h0
      exact ⟨k, b6, up b7⟩
    · rcases b5 with ⟨rfl, b5⟩ | ⟨m, b5, b6⟩
      · rcases h2 b5 with ⟨e1, e2⟩ | ⟨m, b7, b8⟩
        · exact .inl ⟨e1.symm, e2⟩
        · exact .inr ⟨m, by have := lt_of_get b1; omega, b8⟩
      · exact .inr ⟨m, b5, up b6⟩
    · rw [hl] at c2
      exact b0 i t' r' m c1 (get_back c2 (by have := lt_of_get b1; omega))
  · intro p a n wr b1 b2
    rw [ha]
    rcases dn b1 with b1' | ⟨o, b3, rfl⟩
    · exact h.us p a n wr b1' b2
    · exact absurd b2 (h4 o b3 n wr)
  · intro i t' r m b1 b2
    rcases dn b1 with b1' | ⟨o, b3, b4⟩
    · exact h.bt i t' r m b1' b2
    · simp only [mrk, WAct.mk.injEq] at b4
      obtain ⟨rfl, rfl⟩ := b4
      exact h5 _ b3 r m rfl b2
  · intro h0 hi
    rcases h6 h0 hi with ⟨h7, h8⟩ | h7
    · obtain ⟨k, hk⟩ := h.rt (h8 ▸ h0) h7
      exact ⟨k, by rw [h8]; exact up hk⟩
    · exact h7

theorem access_ne {o : WkOp} (h : ∀ n, o ≠ .read (.user n) ∧ o ≠ .write (.user n)) : ∀ n wr, o ≠ WdSt.access n wr := by
  intro n wr
  cases wr
  · exact (h n).1
  · exact (h n).2

theorem acc_job {c : DynCfg} {may : Eid → Nat → Bool → Bool} {w w' : WdSt} (hA : Acc may w)
    {t : Nat} {j : Job} {s1 : DynSt} {oj : Option Job} {src : Option Nat} {v : Int}
    (hs : jobStep c w.s CStatus.ok j = some (s1, oj)) (ha : w'.accs = w.accs)
    (hl : w'.log = w.log ++ (jobOps c w.s w.next src v j).map (fun o => ⟨t, o⟩)) (h3 : w'.s.nrun = w.s.nrun)
    (f1 : ∀ t' k, At w t' k → At w' t' k ∨ (t' = t ∧ k = j)) (f2 : ∀ t' k, At w' t' k → At w t' k ∨ (t' = t ∧ oj = some k))
    (hi : w'.s.main = .idle ↔ w.s.main = .idle) : Acc may w' := by
  refine hA.keep ha hl ?_ (fun h0 => .inl ⟨h3, hi.2 h0⟩) ?_ ?_ ?_ (fun _ h0 => .inl ⟨hi.1 h0, h3⟩)
  · intro t' e hat
    rcases f1 t' _ hat with h4 | ⟨rfl, rfl⟩
    · exact .inl ⟨h3, h4⟩
    · refine .inr ⟨w.log.length, Nat.le_refl _, ?_⟩
      rw [hl]; simp [jobOps]
  · intro t' e hat
    rcases f2 t' _ hat with h4 | ⟨rfl, h4⟩
    · exact .inl ⟨h3, h4⟩
    · refine .inr ?_
      have : j = .exec e := by
        subst h4
        unfold jobStep at hs
        grind
      subst this
      refine ⟨w.log.length + 1, ?_⟩
      rw [hl, h3]; simp [jobOps]
  · intro o ho
    refine access_ne (fun n => ?_)
    unfold jobOps at ho
    split at ho <;> simp at ho <;> grind
  · intro o ho r m h4 h5
    exfalso
    subst h4
    unfold jobOps at ho
    split at ho <;> simp at ho <;> grind

theorem acc_use {may : Eid → Nat → Bool → Bool} {w w' : WdSt} (hA : Acc may w) {t n : Nat} {wr : Bool} {oe : Option Eid}
    (hs : w'.s = w.s) (hjt : w'.jt = w.jt) (hl : w'.log = w.log ++ [WdSt.access n wr].map (fun o => ⟨t, o⟩))
    (ha : (oe = none ∧ w.s.main = .idle ∧ t = 0) ∨ ∃ e, oe = some e ∧ may e n wr = true ∧ At w t (.body e))
    (hac : w'.accs = w.accs ++ [(w.log.length, w.s.nrun, oe)])
    (hrn : ∀ (i : Nat) t r m, w.log[i]? = some (mrk t r m) → r ≤ w.s.nrun) : Acc may w' := by
  have f : ∀ t' k, At w' t' k ↔ At w t' k := by
    intro t' k
    unfold At
    rw [hs, hjt]
  have up : ∀ {k : Nat} {a : WkLogged}, w.log[k]? = some a → w'.log[k]? = some a := fun hk => by rw [hl]; exact get_app hk
  have hnew : w'.log[w.log.length]? = some ⟨t, WdSt.access n wr⟩ := by rw [hl]; exact get_last _
  have dn : ∀ {k : Nat} {a : WkLogged}, w'.log[k]? = some a → w.log[k]? = some a ∨ (k = w.log.length ∧ a = ⟨t, WdSt.access n wr⟩) := by
    intro k a hk
    rw [hl] at hk
    exact get_snoc hk
  have inj : ∀ n' wr', WdSt.access n wr = WdSt.access n' wr' → n = n' ∧ wr = wr' := by
    intro n' wr' h0
    cases wr <;> cases wr' <;> simp [WdSt.access] at h0 <;> simp [h0]
  constructor
  · intro t' e hat
    obtain ⟨k, hk⟩ := hA.jb t' e ((f _ _).1 hat)
    exact ⟨k, by rw [hs]; exact up hk⟩
  · intro p r e hp
    rw [hac] at hp
    rcases List.mem_append.1 hp with hp | hp
    · obtain ⟨a, n, wr, b1, b2, b3, ⟨k, b4, b5⟩, b6⟩ := hA.ac p r e hp
      refine ⟨a, n, wr, up b1, b2, b3, ⟨k, b4, up b5⟩, ?_⟩
      rcases b6 with ⟨rfl, b6⟩ | ⟨m, b6, b7⟩
      · exact .inl ⟨by rw [hs], (f _ _).2 b6⟩
      · exact .inr ⟨m, b6, up b7⟩
    · simp only [List.mem_singleton, Prod.mk.injEq] at hp
      obtain ⟨rfl, rfl, rfl⟩ := hp
      rcases ha with ⟨h0, -⟩ | ⟨e', h0, h1, h2⟩
      · simp at h0
      · cases h0
        obtain ⟨k, hk⟩ := hA.jb t e h2
        exact ⟨_, n, wr, hnew, rfl, h1, ⟨k, lt_of_get hk, up hk⟩, .inl ⟨by rw [hs], (f _ _).2 h2⟩⟩
  · intro p r hp
    rw [hac] at hp
    rcases List.mem_append.1 hp with hp | hp
    · obtain ⟨⟨a, n, wr, b1, b2, b3⟩, b4, b5, b0⟩ := hA.ow p r hp
      refine ⟨⟨a, n, wr, up b1, b2, b3⟩, fun h0 => ?_, ?_, fun i t' r' m c1 c2 => ?_⟩
      · obtain ⟨k, b6, b7⟩ := b4 h0
        exact ⟨k, b6, up b7⟩
      · rcases b5 with ⟨rfl, b5⟩ | ⟨m, b5, b6⟩
        · exact .inl ⟨by rw [hs], by rw [hs]; exact b5⟩
        · exact .inr ⟨m, b5, up b6⟩
      · rw [hl] at c2
        exact b0 i t' r' m c1 (get_back c2 (by have := lt_of_get b1; omega))
    · simp only [List.mem_singleton, Prod.mk.injEq] at hp
      obtain ⟨rfl, rfl, rfl⟩ := hp
      rcases ha with ⟨-, h0, h1⟩ | ⟨e', h0, -⟩
      · refine ⟨⟨_, n, wr, hnew, rfl, h1⟩, fun h2 => ?_, .inl ⟨by rw [hs], by rw [hs]; exact h0⟩,
          fun i t' r' m c1 c2 => hrn i t' r' m (by rw [hl] at c2; exact get_back c2 c1)⟩
        obtain ⟨k, hk⟩ := hA.rt h2 h0
        exact ⟨k, lt_of_get hk, up hk⟩
      · simp at h0
  · intro p a n' wr' b1 b2
    rcases dn b1 with b1' | ⟨rfl, rfl⟩
    · obtain ⟨r, oe', h0⟩ := hA.us p a n' wr' b1' b2
      exact ⟨r, oe', by rw [hac]; exact List.mem_append_left _ h0⟩
    · exact ⟨_, _, by rw [hac]; exact List.mem_append_right _ (List.mem_singleton.2 rfl)⟩
  · intro i t' r m b1 b2
    rcases dn b1 with b1' | ⟨-, b4⟩
    · exact hA.bt i t' r m b1' b2
    · cases wr <;> simp [mrk, WdSt.access] at b4
  · intro h0 hi
    rw [hs] at h0 hi
    obtain ⟨k, hk⟩ := hA.rt h0 hi
    exact ⟨k, by rw [hs]; exact up hk⟩

theorem acc_kind {c : DynCfg} (wf : c.g.WF) (ac : AcyclicOn c.g.Edge c.g.elems) {may : Eid → Nat → Bool → Bool} {w w' : WdSt} (h : Core c w)
    (hA : Acc may w) (hk : Kind c may w w') : Acc may w' := by
  cases hk with
  | begin hm ha hx hjt hj hl h1 h2 h3 h4 hv =>
    obtain ⟨r, h4⟩ := h4
    have hno : ∀ t' e, ¬ At w t' (.body e) := by
      rintro t' e (⟨n, h5, -⟩ | ⟨h5, -⟩)
      · have := (Visible.clean_harmless wf ac h.s hm (.inl h.nf)).2 _ (List.mem_of_getElem? h5)
        simp [Job.harmless] at this
      · rw [hm] at h5; simp at h5
    have hno' : ∀ t' e, ¬ At w' t' (.body e) := by
      rintro t' e (⟨n, h5, h6⟩ | ⟨h5, -⟩)
      · exact hno t' e (.inl ⟨n, by rw [← hj]; exact h5, by rw [← hjt]; exact h6⟩)
      · rw [h4] at h5; simp at h5
    refine hA.keep ha hl (fun t' e h0 => absurd h0 (hno t' e)) (fun _ => .inr ⟨w.log.length + 2, by omega, by rw [hl]; simp⟩)
      (fun t' e h0 => absurd h0 (hno' t' e)) ?_ ?_ (fun _ h0 => by rw [h4] at h0; simp at h0)
    · intro o ho
      refine access_ne (fun n => ?_)
      simp at ho
      rcases ho with rfl | rfl | rfl <;> simp
    · intro o ho r m h5 h6
      subst h5
      simp at ho
      obtain ⟨-, rfl⟩ := ho
      simp
  | job t j s1 oj src v hat hs hg ha hx hl h1 h2 h3 f1 f2 f3 hh hi hv => exact acc_job hA hs ha hl h3 f1 f2 hi
  | calm t ops e ha hx hl hs n1 n2 n3 n4 ho f1 f2 hh hi hv =>
    refine hA.keep ha hl (fun t' e h0 => .inl ⟨hs.nrun, f1 _ _ h0⟩) (fun h0 => .inl ⟨hs.nrun, hi.2 h0⟩) (fun t' e h0 => .inl ⟨hs.nrun, ?_⟩)
      (fun o ho => access_ne (n4 o ho).2) (fun o ho r m h0 => absurd h0 ((n4 o ho).1 r m)) (fun _ h0 => .inl ⟨hi.1 h0, hs.nrun⟩)
    rcases f2 _ _ h0 with h1 | ⟨e', h1⟩
    · exact h1
    · simp at h1
  | low src v ops hv hops ha hl hx hqt hjt hs =>
    have e1 : w'.s.nrun = w.s.nrun ∧ w'.s.jobs = w.s.jobs ∧ (∀ k, w.s.main ≠ .inline k) ∧ (∀ k, w'.s.main ≠ .inline k) ∧ w.s.main ≠ .idle ∧
        w'.s.main ≠ .idle := by
      rcases hs with ⟨k, h1, h2⟩ | ⟨h1, h2⟩ <;> rw [h2] <;> simp [h1]
    obtain ⟨e1, e2, e3, e4, e5, e6⟩ := e1
    refine hA.keep ha hl (fun t' e h0 => .inl ⟨e1, at_same e2 hjt e3 h0⟩) (fun h0 => absurd h0 e5)
      (fun t' e h0 => .inl ⟨e1, at_same e2.symm hjt.symm e4 h0⟩) ?_ ?_ (fun _ h0 => absurd h0 e6)
    · intro o ho
      refine access_ne (fun n => ?_)
      rcases hops with rfl | rfl <;> simp at ho
      · subst ho; simp
      · rcases ho with rfl | rfl <;> simp
    · intro o ho r m h5
      subst h5
      rcases hops with rfl | rfl <;> simp at ho
  | ret src v pre hv hops ha hl hx hjt hs hvis =>
    have e1 : w'.s.nrun = w.s.nrun ∧ w'.s.jobs = w.s.jobs ∧ (∀ k, w.s.main ≠ .inline k) ∧ (∀ k, w'.s.main ≠ .inline k) ∧ w.s.main ≠ .idle := by
      rw [hs]
      rcases hops with ⟨k, h1, -⟩ | ⟨h1, -⟩ <;> simp [h1, DynSt.ret]
    obtain ⟨e1, e2, e3, e4, e5⟩ := e1
    refine hA.keep ha hl (fun t' e h0 => .inl ⟨e1, at_same e2 hjt e3 h0⟩) (fun h0 => absurd h0 e5)
      (fun t' e h0 => .inl ⟨e1, at_same e2.symm hjt.symm e4 h0⟩) ?_ ?_ (fun _ _ => .inr ?_)
    · intro o ho
      refine access_ne (fun n => ?_)
      rcases hops with ⟨k, -, rfl⟩ | ⟨-, rfl⟩ <;> simp [retOps] at ho
      · rcases ho with rfl | rfl | rfl <;> simp
      · rcases ho with rfl | rfl | rfl | rfl <;> simp
    · intro o ho r m h5 h6
      subst h5
      rcases hops with ⟨k, -, rfl⟩ | ⟨-, rfl⟩ <;> simp [retOps] at ho <;> obtain ⟨-, rfl⟩ := ho <;> simp
    · rw [hl, e1]
      rcases hops with ⟨k, -, rfl⟩ | ⟨-, rfl⟩
      · exact ⟨w.log.length + 2, by simp [retOps]⟩
      · exact ⟨w.log.length + 3, by simp [retOps]⟩
  | mutex o ha hl hx hjt hj hs ho hv =>
    have e1 : (∀ k, w.s.main ≠ .inline k) ∧ (∀ k, w'.s.main ≠ .inline k) ∧ w.s.main ≠ .idle ∧ w'.s.main ≠ .idle := by
      rcases ho with ⟨src, v, -, h1 | h1, h2⟩ | ⟨-, h1, h2⟩ <;> rw [h1, h2] <;> simp
    obtain ⟨e3, e4, e5, e6⟩ := e1
    refine hA.keep ha hl (fun t' e h0 => .inl ⟨hs.nrun, at_same hj hjt e3 h0⟩) (fun h0 => absurd h0 e5)
      (fun t' e h0 => .inl ⟨hs.nrun, at_same hj.symm hjt.symm e4 h0⟩) ?_ ?_ (fun _ h0 => absurd h0 e6)
    · intro x hx
      refine access_ne (fun n => ?_)
      simp at hx
      subst hx
      rcases ho with ⟨src, v, rfl, -⟩ | ⟨rfl, -⟩ <;> simp
    · intro x hx r m h5
      subst h5
      simp at hx
      rcases ho with ⟨src, v, rfl, -⟩ | ⟨rfl, -⟩ <;> simp at hx
  | use t n wr oe hs hqt hjt hx hl ha hac => exact acc_use hA hs hjt hl ha hac (fun i t r m h0 => h.k.base.rn i r m (noted_mir.2 ⟨t, h0⟩))

/-- Values and plain writes in operations. -/
def Tame (o : WkOp) : Prop := (∀ m x, o.Writes (.task m) x → x = 1) ∧ ∀ d, o = .write d → ∃ n, d = .user n

theorem tame_job {c : DynCfg} {s : DynSt} {n : Nat} {src : Option Nat} {v : Int} {j : Job} : ∀ o ∈ jobOps c s n src v j, Tame o := by
  intro o ho
  unfold jobOps at ho
  split at ho <;> simp at ho
  all_goals first
    | (subst ho; simp [Tame, WOp.Writes]; done)
    | (rcases ho with rfl | rfl <;> simp [Tame, WOp.Writes]; done)
    | (rcases ho with rfl | ⟨-, rfl⟩ <;> simp [Tame, WOp.Writes]; done)
    | skip

theorem tame_main {c : DynCfg} {s : DynSt} {n : Nat} {src : Option Nat} {v : Int} : ∀ o ∈ mainOps c s n src v, Tame o := by
  intro o ho
  unfold mainOps at ho
  split at ho
  case h_5 => exact tame_job o ho
  all_goals simp at ho
  all_goals first
    | (subst ho; simp [Tame, WOp.Writes]; done)
    | (rcases ho with rfl | rfl <;> simp [Tame, WOp.Writes]; done)
    | (rcases ho with rfl | ⟨-, rfl⟩ <;> simp [Tame, WOp.Writes]; done)
    | (rcases ho with rfl | ⟨-, ho⟩
       · simp [Tame, WOp.Writes]
       · simp [retOps] at ho
         rcases ho with rfl | rfl <;> simp [Tame, WOp.Writes]
       done)
    | (rcases ho with rfl | ho
       · simp [Tame, WOp.Writes]
       · split at ho <;> simp [retOps] at ho <;> grind [Tame, WOp.Writes])

theorem step_log {c : DynCfg} {may : Eid → Nat → Bool → Bool} {w w' : WdSt} {a : WkAct} (hs : WdSt.step c may w a = some w') :
    ∃ u, w'.log = w.log ++ u ∧ ∀ a ∈ u, Tame a.op := by
  have mm : ∀ {t : Nat} {ops : List WkOp}, (∀ o ∈ ops, Tame o) → ∀ a ∈ ops.map (fun o => (⟨t, o⟩ : WkLogged)), Tame a.op := by
    intro t ops h a ha
    obtain ⟨o, ho, rfl⟩ := List.mem_map.1 ha
    exact h o ho
  cases a with
  | begin =>
    simp only [WdSt.step, Option.map_eq_some_iff] at hs
    obtain ⟨s', -, rfl⟩ := hs
    exact ⟨_, rfl, mm (by simp [Tame, WOp.Writes])⟩
  | main src =>
    simp only [WdSt.step, Option.map_eq_some_iff] at hs
    obtain ⟨s', -, rfl⟩ := hs
    exact ⟨_, rfl, mm tame_main⟩
  | take i src =>
    simp only [WdSt.step] at hs
    split at hs
    · simp only [Option.map_eq_some_iff] at hs
      obtain ⟨s', -, rfl⟩ := hs
      exact ⟨_, rfl, by simp [Tame, WOp.Writes]⟩
    · simp at hs
  | work i src =>
    simp only [WdSt.step] at hs
    split at hs
    · simp at hs
    · simp only [Option.map_eq_some_iff] at hs
      obtain ⟨s', -, rfl⟩ := hs
      exact ⟨_, rfl, mm tame_job⟩
  | spurious =>
    simp only [WdSt.step, Option.map_eq_some_iff] at hs
    obtain ⟨s', -, rfl⟩ := hs
    exact ⟨[], by simp, by simp⟩
  | use who n wr =>
    have key : ∀ t e, ∃ u, (w.touch t e n wr).log = w.log ++ u ∧ ∀ a ∈ u, Tame a.op :=
      fun t e => ⟨_, rfl, mm (by cases wr <;> simp [WdSt.access, Tame, WOp.Writes])⟩
    cases who <;> simp only [WdSt.step] at hs <;> split at hs
    all_goals first
      | (simp at hs; done)
      | (simp only [Option.some.injEq] at hs; subst hs; exact key _ _)
      | (split at hs
         · simp only [Option.some.injEq] at hs; subst hs; exact key _ _
         · simp at hs)

/-- Everything that holds of a weakly ordered run. -/
theorem inv_run {c : DynCfg} (wf : c.g.WF) (ac : AcyclicOn c.g.Edge c.g.elems) (may : Eid → Nat → Bool → Bool) (l : List WkAct)
    (hc : Coherent (ini c) (WdSt.run c may (WdSt.init c) l).log) :
    Core c (WdSt.run c may (WdSt.init c) l) ∧ Acc may (WdSt.run c may (WdSt.init c) l) ∧
      ∀ a ∈ (WdSt.run c may (WdSt.init c) l).log, Tame a.op := by
  induction l using List.reverseRecOn with
  | nil => exact ⟨core_init c, acc_init c may, by simp [WdSt.run, WdSt.init]⟩
  | append_singleton l a ih =>
    have e : WdSt.run c may (WdSt.init c) (l ++ [a]) =
        (WdSt.step c may (WdSt.run c may (WdSt.init c) l) a).getD (WdSt.run c may (WdSt.init c) l) := by
      simp [WdSt.run, List.foldl_append]
    rw [e] at hc ⊢
    cases hs : WdSt.step c may (WdSt.run c may (WdSt.init c) l) a with
    | none => rw [hs] at hc; exact ih hc
    | some w' =>
      rw [hs] at hc
      simp only [Option.getD_some] at hc ⊢
      obtain ⟨u, hu, ht⟩ := step_log hs
      obtain ⟨h1, h2, h3⟩ := ih (coherent_left (hu ▸ hc))
      have hk := step_kind h1 hs hc
      exact ⟨core_kind wf ac h1 hc hk, acc_kind wf ac h1 h2 hk, by rw [hu]; exact fun a ha => (List.mem_append.1 ha).elim (h3 a) (ht a)⟩

end WeakDyn
end CGraph
