import Verif.Lemmas.WeakDynJob
import Verif.Props.Visible

/-! The invariant of `Model/WeakDyn.lean`. -/
namespace CGraph
namespace WeakDyn
open Spec Weak DynSt

/-- A thread with number `t` is at `j`. -/
def At (w : WdSt) (t : Nat) (j : Job) : Prop :=
  (∃ i : Nat, w.s.jobs[i]? = some j ∧ w.jt[i]? = some t) ∨ (w.s.main = .inline j ∧ t = 0)

/-- The caller holds the mutex. -/
def Holding (s : DynSt) : Prop := s.main = .check ∨ s.main = .preSleep

/-- The mutex: it is held as the state says. -/
structure MInv (s : DynSt) (log : List WkLogged) : Prop where
  free : ¬ Holding s → ∀ (m : Nat) (a : WkLogged), LastAt log .mtx m → log[m]? = some a → StoreTo .mtx a.op
  hold : Holding s → ∃ (m : Nat) (a : WkLogged), LastAt log .mtx m ∧ log[m]? = some a ∧ a.tid = 0

/-- The writes to the number of finished ends. -/
def FInv (s : DynSt) (log : List WkLogged) : Prop :=
  s.nrun ≠ 0 → ∃ b : Nat, log[b]? = some ⟨0, .store .fin true 0⟩ ∧
    ∀ (k : Nat) (a : WkLogged) (v : Int), log[k]? = some a → a.op.Writes .fin v → b ≤ k →
      0 ≤ v ∧ v ≤ s.fin ∧ (v = s.fin → LastAt log .fin k)

/-- The caller knows of `p`, or learns of it when it takes the mutex. -/
def Told (log : List WkLogged) (p : Nat) : Prop :=
  (∃ (q : Nat) (a : WkLogged), log[q]? = some a ∧ a.tid = 0 ∧ (p = q ∨ WHb log p q)) ∨
  (∃ (u : Nat) (b : WkLogged) (v : Int), log[u]? = some b ∧ b.op.Writes .mtx v ∧ WHb log p u)

/-- When all ends are counted somebody is still to notify, or the caller will see it. -/
def NInv (c : DynCfg) (w : WdSt) : Prop :=
  w.s.nrun ≠ 0 → c.totalEnd ≤ w.s.fin → ∀ p, LastAt w.log .fin p →
    (∃ a, w.log[p]? = some a ∧ At w a.tid .tailNotify) ∨ Told w.log p

structure Core (c : DynCfg) (w : WdSt) : Prop where
  s : SInv c w.s
  k : Visible.KInv c (mirror c w)
  nf : w.s.failed = []
  once : ∀ r x, (Visible.evs (w.log.map (mirA c.totalEnd)) r).count x ≤ 1
  l : LInv c.totalEnd w.log
  vl : ∀ x, lastv (ini c) w.log (.left x) = w.s.left x
  vf : lastv (ini c) w.log .fin = w.s.fin
  m : MInv w.s w.log
  tsk : TskLt w.log w.next
  f : FInv w.s w.log
  n : NInv c w

theorem Told.app {log u : List WkLogged} {p : Nat} (h : Told log p) : Told (log ++ u) p := by
  rcases h with ⟨q, a, h1, h2, h3⟩ | ⟨q, b, v, h1, h2, h3⟩
  · exact .inl ⟨q, a, get_app h1, h2, h3.imp id hb_app⟩
  · exact .inr ⟨q, b, v, get_app h1, h2, hb_app h3⟩

theorem core_init (c : DynCfg) : Core c (WdSt.init c) where
  s := sinv_init c
  k := Visible.kinv_init c
  nf := rfl
  once := by simp [WdSt.init, Visible.evs]
  l := linv_nil _
  vl := fun x => rfl
  vf := rfl
  m := ⟨by simp [WdSt.init], fun h => by simp [Holding, WdSt.init, DynSt.init] at h⟩
  tsk := by intro k b m v h; simp [WdSt.init] at h
  f := fun h => absurd rfl h
  n := fun h => absurd rfl h

/-! ### Parts that stay -/

theorem MInv.keep {s s' : DynSt} {log : List WkLogged} {t : Nat} {ops : List WkOp} (h : MInv s log) (hh : Holding s' ↔ Holding s)
    (hn : NoW .mtx ops) : MInv s' (log ++ ops.map (fun o => ⟨t, o⟩)) := by
  constructor
  · intro h1 m a h2 h3
    rw [last_ops hn] at h2
    obtain ⟨⟨b, v, h4, h5⟩, -⟩ := id h2
    have := get_app (u := ops.map (fun o => (⟨t, o⟩ : WkLogged))) h4
    rw [h3] at this
    cases this
    exact h.free (fun h0 => h1 (hh.2 h0)) m a h2 h4
  · intro h1
    obtain ⟨m, a, h2, h3, h4⟩ := h.hold (hh.1 h1)
    exact ⟨m, a, (last_ops hn).2 h2, get_app h3, h4⟩

/-- The last of the operations gives the mutex back. -/
theorem MInv.gone {s' : DynSt} {log : List WkLogged} {t : Nat} {pre post : List WkOp} {r : Bool} {v : Int} (hh : ¬ Holding s')
    (hn : NoW .mtx post) : MInv s' (log ++ (pre ++ .store .mtx r v :: post).map (fun o => ⟨t, o⟩)) := by
  refine ⟨fun _ m a h2 h3 => ?_, fun h0 => absurd h0 hh⟩
  have e : log ++ (pre ++ .store .mtx r v :: post).map (fun o => (⟨t, o⟩ : WkLogged)) =
      ((log ++ pre.map (fun o => ⟨t, o⟩)) ++ [⟨t, .store .mtx r v⟩]) ++ post.map (fun o => ⟨t, o⟩) := by simp
  rw [e] at h2 h3
  rw [last_ops hn] at h2
  have := last_unique h2 (last_snoc (a := (⟨t, .store .mtx r v⟩ : WkLogged)) ⟨rfl, rfl⟩)
  subst this
  have h4 := get_app (u := post.map (fun o => (⟨t, o⟩ : WkLogged))) (get_last (t := log ++ pre.map (fun o => (⟨t, o⟩ : WkLogged))) ⟨t, .store .mtx r v⟩)
  rw [h3] at h4
  cases h4
  rfl

theorem MInv.taken {s' : DynSt} {log : List WkLogged} {o : WkOp} {v : Int} (hh : Holding s') (ho : o.Writes .mtx v) :
    MInv s' (log ++ [o].map (fun o => ⟨0, o⟩)) :=
  ⟨fun h0 => absurd hh h0, fun _ => ⟨log.length, ⟨0, o⟩, last_snoc (a := (⟨0, o⟩ : WkLogged)) ho, get_last _, rfl⟩⟩

theorem FInv.keep {s s' : DynSt} {log : List WkLogged} {t : Nat} {ops : List WkOp} (h : FInv s log) (h1 : s'.nrun = s.nrun)
    (h2 : s'.fin = s.fin) (hn : NoW .fin ops) : FInv s' (log ++ ops.map (fun o => ⟨t, o⟩)) := by
  intro h0
  obtain ⟨b, hb, hk⟩ := h (by rwa [h1] at h0)
  refine ⟨b, get_app hb, fun k a v h3 h4 h5 => ?_⟩
  by_cases hl : k < log.length
  · obtain ⟨h6, h7, h8⟩ := hk k a v (get_back h3 hl) h4 h5
    rw [h2]
    exact ⟨h6, h7, fun h => (last_ops hn).2 (h8 h)⟩
  · rw [List.getElem?_append_right (by omega)] at h3
    obtain ⟨o, ho, rfl⟩ := List.mem_map.1 (List.mem_of_getElem? h3)
    exact absurd h4 (hn o ho v)

theorem NInv.keep {c : DynCfg} {w w' : WdSt} {t : Nat} {ops : List WkOp} (h : NInv c w)
    (hl : w'.log = w.log ++ ops.map (fun o => ⟨t, o⟩)) (h1 : w'.s.nrun = w.s.nrun) (h2 : w'.s.fin = w.s.fin) (hn : NoW .fin ops)
    (ha : ∀ t', At w t' .tailNotify → At w' t' .tailNotify ∨ ∀ (p : Nat) (a : WkLogged), w.log[p]? = some a → a.tid = t' → Told w'.log p) :
    NInv c w' := by
  intro h3 h4 p h5
  rw [h1] at h3
  rw [h2] at h4
  rw [hl, last_ops hn] at h5
  rcases h h3 h4 p h5 with ⟨a, h6, h7⟩ | h6
  · rcases ha _ h7 with h8 | h8
    · exact .inl ⟨a, by rw [hl]; exact get_app h6, h8⟩
    · exact .inr (h8 p a h6 rfl)
  · rw [hl]; exact .inr h6.app

/-- What a load of the caller finds, if it is complete. -/
theorem load_fresh {c : DynCfg} {s : DynSt} {log : List WkLogged} (hi : SInv c s) (hf : FInv s log) (hn : s.nrun ≠ 0)
    {src : Option Nat} {v : Int} (hc : Coherent (ini c) (log ++ [⟨0, .load .fin true src v⟩])) :
    (∃ m, src = some m ∧ m < log.length ∧ (v = s.fin → LastAt log .fin m) ∧ ∃ a : WkLogged, log[m]? = some a ∧ a.op.Writes .fin v) ∧
    0 ≤ v ∧ v ≤ s.fin ∧ (c.totalEnd ≤ v.toNat → v = s.fin) := by
  obtain ⟨b, hb, hk⟩ := hf hn
  have hwb : WHb (log ++ [(⟨0, .load .fin true src v⟩ : WkLogged)]) b log.length := hb_seq (lt_of_get hb) (get_app hb) (get_last _) rfl
  obtain ⟨m, rfl, hbm⟩ := hc.wr log.length b _ _ .fin src v 0 (get_last _) ⟨rfl, rfl, rfl⟩ (get_app hb) ⟨rfl, rfl⟩ hwb
  obtain ⟨h1, a, h2, h3⟩ := hc.rf log.length _ .fin _ v (get_last _) ⟨rfl, rfl, rfl⟩
  have h2' := get_back h2 h1
  obtain ⟨h4, h5, h6⟩ := hk m a v h2' h3 hbm
  refine ⟨⟨m, rfl, h1, h6, a, h2', h3⟩, h4, h5, fun h7 => ?_⟩
  have := fin_le (hi.inv hn)
  omega

/-- Who knows of the last increment does not find the number incomplete. -/
theorem told_fresh {c : DynCfg} {s : DynSt} {log : List WkLogged} (hl : LInv c.totalEnd log) (hm : MInv s log) (hh : Holding s)
    (vf : lastv (ini c) log .fin = s.fin) {src : Option Nat} {v : Int} (hc : Coherent (ini c) (log ++ [⟨0, .load .fin true src v⟩]))
    {p : Nat} (hp : LastAt log .fin p) (ht : Told log p) : v = s.fin := by
  obtain ⟨⟨a, x, h1, h2⟩, h3⟩ := id hp
  have hb : WHb (log ++ [(⟨0, .load .fin true src v⟩ : WkLogged)]) p log.length := by
    have toN : ∀ (q : Nat) (a : WkLogged), log[q]? = some a → a.tid = 0 →
        WHb (log ++ [(⟨0, .load .fin true src v⟩ : WkLogged)]) q log.length :=
      fun q a h4 h5 => hb_seq (lt_of_get h4) (get_app h4) (get_last _) h5
    rcases ht with ⟨q, a, h4, h5, rfl | h6⟩ | ⟨u, b, y, h4, h5, h6⟩
    · exact toN _ a h4 h5
    · exact hb_trans (hb_app h6) (toN _ a h4 h5)
    · obtain ⟨m, d, h7, h8, h9⟩ := hm.hold hh
      have h10 := h7.2 u b y h4 h5
      have h11 := toN m d h8 h9
      by_cases e : u = m
      · subst e; exact hb_trans (hb_app h6) h11
      · obtain ⟨⟨d', z, h12, h13⟩, -⟩ := h7
        exact hb_trans (hb_app h6) (hb_trans (hb_app (hl.mt u m b d' y z (by omega) h4 h5 h12 h13)) h11)
  obtain ⟨m, rfl, hpm⟩ := hc.wr log.length p _ _ .fin src v x (get_last _) ⟨rfl, rfl, rfl⟩ (get_app h1) h2 hb
  obtain ⟨h4, b, h5, h6⟩ := hc.rf log.length _ .fin _ v (get_last _) ⟨rfl, rfl, rfl⟩
  have h5' := get_back h5 h4
  have := h3 m b v h5' h6
  have e : m = p := by omega
  subst e
  rw [← vf, lastv_at hp h5' h6]

/-! ### Where the threads are -/

theorem at_work {w w' : WdSt} {i t : Nat} {j : Job} {oj : Option Job} (hlen : w.jt.length = w.s.jobs.length)
    (hj : w.s.jobs[i]? = some j) (ht : w.jt[i]? = some t)
    (hm : w'.s.main = w.s.main ∨ (w.s.main = .asleep ∧ w'.s.main = .waking))
    (h : (∃ j', oj = some j' ∧ w'.s.jobs = w.s.jobs.set i j' ∧ w'.jt = w.jt) ∨
      (oj = none ∧ w'.s.jobs = w.s.jobs.eraseIdx i ∧ w'.jt = w.jt.eraseIdx i)) :
    (∀ t' k, At w t' k → At w' t' k ∨ (t' = t ∧ k = j)) ∧ (∀ t' k, At w' t' k → At w t' k ∨ (t' = t ∧ oj = some k)) := by
  have hil := lt_of_get hj
  have m1 : ∀ k, w.s.main = .inline k ↔ w'.s.main = .inline k := by
    intro k
    rcases hm with hm | ⟨h1, h2⟩
    · rw [hm]
    · rw [h1, h2]; simp
  constructor
  · rintro t' k (⟨n, h1, h2⟩ | ⟨h1, h2⟩)
    · by_cases hn : n = i
      · subst hn
        rw [hj] at h1; rw [ht] at h2
        cases h1; cases h2
        exact .inr ⟨rfl, rfl⟩
      · left
        rcases h with ⟨j', -, h3, h4⟩ | ⟨-, h3, h4⟩
        · exact .inl ⟨n, by rw [h3, List.getElem?_set_ne (Ne.symm hn)]; exact h1, by rw [h4]; exact h2⟩
        · by_cases hlt : n < i
          · exact .inl ⟨n, by rw [h3, List.getElem?_eraseIdx, if_pos hlt]; exact h1, by rw [h4, List.getElem?_eraseIdx, if_pos hlt]; exact h2⟩
          · have e : n - 1 + 1 = n := by omega
            exact .inl ⟨n - 1, by rw [h3, List.getElem?_eraseIdx, if_neg (by omega), e]; exact h1,
              by rw [h4, List.getElem?_eraseIdx, if_neg (by omega), e]; exact h2⟩
    · exact .inl (.inr ⟨(m1 k).1 h1, h2⟩)
  · rintro t' k (⟨n, h1, h2⟩ | ⟨h1, h2⟩)
    · rcases h with ⟨j', rfl, h3, h4⟩ | ⟨-, h3, h4⟩
      · rw [h3] at h1; rw [h4] at h2
        by_cases hn : n = i
        · subst hn
          rw [List.getElem?_set_self hil] at h1
          rw [ht] at h2
          cases h1; cases h2
          exact .inr ⟨rfl, rfl⟩
        · rw [List.getElem?_set_ne (Ne.symm hn)] at h1
          exact .inl (.inl ⟨n, h1, h2⟩)
      · rw [h3, List.getElem?_eraseIdx] at h1
        rw [h4, List.getElem?_eraseIdx] at h2
        by_cases hlt : n < i
        · rw [if_pos hlt] at h1 h2; exact .inl (.inl ⟨n, h1, h2⟩)
        · rw [if_neg hlt] at h1 h2; exact .inl (.inl ⟨n + 1, h1, h2⟩)
    · exact .inl (.inr ⟨(m1 k).2 h1, h2⟩)

theorem at_main {w w' : WdSt} {j : Job} {oj : Option Job} (hj : w.s.main = .inline j) (h1 : w'.s.jobs = w.s.jobs) (h2 : w'.jt = w.jt)
    (hm : ∀ k, w'.s.main = .inline k ↔ oj = some k) :
    (∀ t' k, At w t' k → At w' t' k ∨ (t' = 0 ∧ k = j)) ∧ (∀ t' k, At w' t' k → At w t' k ∨ (t' = 0 ∧ oj = some k)) := by
  constructor
  · rintro t' k (⟨n, h3, h4⟩ | ⟨h3, h4⟩)
    · exact .inl (.inl ⟨n, by rw [h1]; exact h3, by rw [h2]; exact h4⟩)
    · rw [hj] at h3; cases h3; exact .inr ⟨h4, rfl⟩
  · rintro t' k (⟨n, h3, h4⟩ | ⟨h3, h4⟩)
    · exact .inl (.inl ⟨n, by rw [← h1]; exact h3, by rw [← h2]; exact h4⟩)
    · exact .inr ⟨h4, (hm k).1 h3⟩

/-- Steps of the caller outside of `innerExec`. -/
theorem at_caller {w w' : WdSt} {oj : Option Job} (hj : ∀ k, w.s.main ≠ .inline k) (h1 : w'.s.jobs = w.s.jobs) (h2 : w'.jt = w.jt)
    (hm : ∀ k, w'.s.main = .inline k ↔ oj = some k) :
    (∀ t' k, At w t' k → At w' t' k) ∧ (∀ t' k, At w' t' k → At w t' k ∨ (t' = 0 ∧ oj = some k)) := by
  constructor
  · rintro t' k (⟨n, h3, h4⟩ | ⟨h3, h4⟩)
    · exact .inl ⟨n, by rw [h1]; exact h3, by rw [h2]; exact h4⟩
    · exact absurd h3 (hj k)
  · rintro t' k (⟨n, h3, h4⟩ | ⟨h3, h4⟩)
    · exact .inl (.inl ⟨n, by rw [← h1]; exact h3, by rw [← h2]; exact h4⟩)
    · exact .inr ⟨h4, (hm k).1 h3⟩

/-! ### Kinds of steps -/

/-- A step of `Model/Visible.lean`. -/
def Vis (c : DynCfg) (w w' : WdSt) : Prop :=
  ∃ a, (∀ st, (a = .main st ∨ ∃ i, a = .work i st) → st.isErr = false) ∧ Visible.VSt.step c (mirror c w) a = some (mirror c w')

/-- Values stay. -/
structure Same (w w' : WdSt) : Prop where
  left : w'.s.left = w.s.left
  fin : w'.s.fin = w.s.fin
  nrun : w'.s.nrun = w.s.nrun

/-- What steps do. -/
inductive Kind (c : DynCfg) (may : Eid → Nat → Bool → Bool) (w w' : WdSt) : Prop
  | begin (hm : w.s.main = .idle) (ha : w'.accs = w.accs) (hx : w'.next = w.next) (hjt : w'.jt = w.jt) (hj : w'.s.jobs = w.s.jobs)
      (hl : w'.log = w.log ++ [.read .status, .store .fin true 0, .read (.mark (w.s.nrun + 1) .begin)].map (fun o => ⟨0, o⟩))
      (h1 : w'.s.left = w.s.left) (h2 : w'.s.fin = 0) (h3 : w'.s.nrun = w.s.nrun + 1) (h4 : ∃ r, w'.s.main = .fronts r) (hv : Vis c w w')
  | job (t : Nat) (j : Job) (s1 : DynSt) (oj : Option Job) (src : Option Nat) (v : Int) (hat : At w t j)
      (hs : jobStep c w.s CStatus.ok j = some (s1, oj)) (hg : Good w.s v j) (ha : w'.accs = w.accs)
      (hx : w'.next = if WdSt.sends (jobOps c w.s w.next src v j) then w.next + 1 else w.next)
      (hl : w'.log = w.log ++ (jobOps c w.s w.next src v j).map (fun o => ⟨t, o⟩))
      (h1 : w'.s.left = s1.left) (h2 : w'.s.fin = s1.fin) (h3 : w'.s.nrun = w.s.nrun)
      (f1 : ∀ t' k, At w t' k → At w' t' k ∨ (t' = t ∧ k = j)) (f2 : ∀ t' k, At w' t' k → At w t' k ∨ (t' = t ∧ oj = some k))
      (f3 : ∀ k, oj = some k → At w' t k) (hh : Holding w'.s ↔ Holding w.s) (hi : w'.s.main = .idle ↔ w.s.main = .idle) (hv : Vis c w w')
  | calm (t : Nat) (ops : List WkOp) (e : Option Eid) (ha : w'.accs = w.accs)
      (hx : w.next ≤ w'.next ∧ ∀ o ∈ ops, ∀ m x, o.Writes (.task m) x → m < w'.next)
      (hl : w'.log = w.log ++ ops.map (fun o => ⟨t, o⟩)) (hs : Same w w') (n1 : ∀ x, NoW (.left x) ops) (n2 : NoW .fin ops) (n3 : NoW .mtx ops)
      (n4 : ∀ o ∈ ops, (∀ r m, o ≠ .read (.mark r m)) ∧ ∀ n, o ≠ .read (.user n) ∧ o ≠ .write (.user n)) (ho : OpsOk c.totalEnd t w.log ops)
      (f1 : ∀ t' k, At w t' k → At w' t' k) (f2 : ∀ t' k, At w' t' k → At w t' k ∨ ∃ e, k = .exec e)
      (hh : Holding w'.s ↔ Holding w.s) (hi : w'.s.main = .idle ↔ w.s.main = .idle) (hv : Vis c w w')
  | low (src : Option Nat) (v : Int) (ops : List WkOp) (hv : v.toNat < c.totalEnd) (hops : ops = [] ∨ ops = [.read .status])
      (ha : w'.accs = w.accs) (hl : w'.log = w.log ++ (.load .fin true src v :: ops).map (fun o => ⟨0, o⟩)) (hx : w'.next = w.next)
      (hqt : w'.qt = w.qt) (hjt : w'.jt = w.jt)
      (hs : (∃ k, w.s.main = .poll (k + 1) ∧ w'.s = { w.s with main := .poll k }) ∨ (w.s.main = .check ∧ w'.s = { w.s with main := .preSleep }))
  | ret (src : Option Nat) (v : Int) (pre : List WkOp) (hv : c.totalEnd ≤ v.toNat)
      (hops : (∃ k, w.s.main = .poll (k + 1) ∧ pre = []) ∨ (w.s.main = .check ∧ pre = [.store .mtx true 0])) (ha : w'.accs = w.accs)
      (hl : w'.log = w.log ++ (.load .fin true src v :: (pre ++ retOps w.s)).map (fun o => ⟨0, o⟩)) (hx : w'.next = w.next)
      (hjt : w'.jt = w.jt) (hs : w'.s = w.s.ret) (hvis : c.totalEnd ≤ w.s.fin → Vis c w w')
  | mutex (o : WkOp) (ha : w'.accs = w.accs) (hl : w'.log = w.log ++ [o].map (fun o => ⟨0, o⟩)) (hx : w'.next = w.next) (hjt : w'.jt = w.jt)
      (hj : w'.s.jobs = w.s.jobs) (hs : Same w w')
      (ho : (∃ src v, o = .rmw .mtx true false src v 1 ∧ (w.s.main = .lock ∨ w.s.main = .waking) ∧ w'.s.main = .check) ∨
        (o = .store .mtx true 0 ∧ w.s.main = .preSleep ∧ w'.s.main = .asleep)) (hv : Vis c w w')
  | use (t : Nat) (n : Nat) (wr : Bool) (oe : Option Eid) (hs : w'.s = w.s) (hqt : w'.qt = w.qt) (hjt : w'.jt = w.jt) (hx : w'.next = w.next)
      (hl : w'.log = w.log ++ [WdSt.access n wr].map (fun o => ⟨t, o⟩))
      (ha : (oe = none ∧ w.s.main = .idle ∧ t = 0) ∨
        ∃ e, oe = some e ∧ may e n wr = true ∧ At w t (.body e)) (hac : w'.accs = w.accs ++ [(w.log.length, w.s.nrun, oe)])

theorem ok_isErr : ∀ st, (DynAct.main CStatus.ok = .main st ∨ ∃ i, DynAct.main CStatus.ok = .work i st) → st.isErr = false := by
  rintro st (h | ⟨i, h⟩)
  · cases h; rfl
  · cases h

theorem ok_isErr' {i : Nat} : ∀ st, (DynAct.work i CStatus.ok = .main st ∨ ∃ i', DynAct.work i CStatus.ok = .work i' st) → st.isErr = false := by
  rintro st (h | ⟨i, h⟩)
  · cases h
  · cases h; rfl

/-- Steps of the caller as steps of `Model/Visible.lean`. -/
theorem vis_main {c : DynCfg} {w : WdSt} {s' : DynSt} {ops : List WkOp} (hs : DynSt.step c w.s (.main CStatus.ok) = some s')
    (ho : ops.map (mir c.totalEnd) = Visible.mainOps c w.s CStatus.ok w.next) : Vis c w { w.put 0 ops with s := s' } := by
  refine ⟨.main CStatus.ok, ok_isErr, ?_⟩
  have e := mirror_put c w 0 ops s' w.jt w.accs
  have e' : mirror c { w.put 0 ops with s := s' } = mirror c { w.put 0 ops with s := s', jt := w.jt, accs := w.accs } := rfl
  rw [e', e, ho]
  unfold Visible.VSt.step
  have : DynSt.step c (mirror c w).s (.main CStatus.ok) = some s' := hs
  rw [this]
  rfl

theorem step_begin {c : DynCfg} {may : Eid → Nat → Bool → Bool} {w w' : WdSt} (h : Core c w) (hs : WdSt.step c may w .begin = some w') :
    Kind c may w w' := by
  simp only [WdSt.step] at hs
  cases hd : DynSt.step c w.s .begin with
  | none => rw [hd] at hs; simp at hs
  | some s' =>
    rw [hd] at hs
    simp only [Option.map_some, Option.some.injEq] at hs
    subst hs
    have hst := SInv.status h.s h.nf
    have hok : w.s.status.isOK = true := by rw [hst]; rfl
    have hd' := hd
    simp only [DynSt.step] at hd
    split at hd
    case isFalse => simp at hd
    rename_i hm
    simp only [hok, if_true, Option.some.injEq] at hd
    subst hd
    refine .begin hm rfl rfl rfl rfl rfl rfl rfl rfl ⟨_, rfl⟩ ⟨.begin, by simp, ?_⟩
    generalize hs2 : ({ w.s with fin := 0, main := MainPc.fronts c.fronts, trace := [], fired := [], failed := [], ended := [], nrun := w.s.nrun + 1, lastRet := none } : DynSt) = s2 at hd' ⊢
    have e := mirror_put c w 0 [.read .status, .store .fin true 0, .read (.mark (w.s.nrun + 1) .begin)] s2 w.jt w.accs
    refine Eq.trans ?_ (congrArg some e.symm)
    unfold Visible.VSt.step
    have hd2 : DynSt.step c (mirror c w).s .begin = some s2 := hd'
    rw [hd2]
    have : Visible.beginOps c w.s = [.read .status, .store .fin, .note (w.s.nrun + 1, .begin)] := by
      simp [Visible.beginOps, hok]
    simp only [mirror, this]
    rfl

theorem step_take {c : DynCfg} {may : Eid → Nat → Bool → Bool} {w w' : WdSt} {i : Nat} {src : Option Nat} (h : Core c w)
    (hs : WdSt.step c may w (.take i src) = some w') : Kind c may w w' := by
  simp only [WdSt.step] at hs
  split at hs
  case isFalse => simp at hs
  rename_i hrd
  cases hd : DynSt.step c w.s (.take i) with
  | none => rw [hd] at hs; simp at hs
  | some s' =>
    rw [hd] at hs
    simp only [Option.map_some, Option.some.injEq] at hs
    have hd' := hd
    simp only [DynSt.step] at hd
    split at hd
    · simp at hd
    rename_i e hq
    split at hd
    case isFalse => simp at hd
    simp only [Option.some.injEq] at hd
    have hlj : w.jt.length = w.s.jobs.length := h.k.lenJ
    refine .calm (w.qt.getD i 0) [.load (.task (w.qt.getD i 0)) true src 1] (some e) (by rw [← hs]) ⟨by rw [← hs], by simp [WOp.Writes]⟩
      (by rw [← hs]; rfl) ⟨by rw [← hs, ← hd], by rw [← hs, ← hd], by rw [← hs, ← hd]⟩ (by simp [NoW, WOp.Writes]) (by simp [NoW, WOp.Writes])
      (by simp [NoW, WOp.Writes]) (by simp) ⟨?_, trivial⟩ ?_ ?_ ?_ ?_ ⟨.take i, by simp, ?_⟩
    · constructor <;> simp [Wf]
    · rintro t' k (⟨n, h1, h2⟩ | h1)
      · exact .inl ⟨n, by rw [← hs, ← hd]; simp only; rw [List.getElem?_append_left (lt_of_get h1)]; exact h1,
          by rw [← hs]; simp only; rw [List.getElem?_append_left (lt_of_get h2)]; exact h2⟩
      · exact .inr (by rw [← hs, ← hd]; exact h1)
    · rintro t' k (⟨n, h1, h2⟩ | h1)
      · rw [← hs, ← hd] at h1
        rw [← hs] at h2
        simp only at h1 h2
        rcases get_snoc h1 with h1' | ⟨rfl, rfl⟩
        · rw [List.getElem?_append_left (by have := lt_of_get h1'; omega)] at h2
          exact .inl (.inl ⟨n, h1', h2⟩)
        · exact .inr ⟨e, rfl⟩
      · rw [← hs, ← hd] at h1; exact .inl (.inr h1)
    · rw [← hs, ← hd]; rfl
    · rw [← hs, ← hd]
    · unfold Visible.VSt.step
      have hd2 : DynSt.step c (mirror c w).s (.take i) = some s' := hd'
      rw [hd2, ← hs]
      simp [mirror, mirA, mir]

theorem step_spurious {c : DynCfg} {may : Eid → Nat → Bool → Bool} {w w' : WdSt} (hs : WdSt.step c may w .spurious = some w') :
    Kind c may w w' := by
  simp only [WdSt.step] at hs
  cases hd : DynSt.step c w.s .spurious with
  | none => rw [hd] at hs; simp at hs
  | some s' =>
    rw [hd] at hs
    simp only [Option.map_some, Option.some.injEq] at hs
    have hd' := hd
    simp only [DynSt.step] at hd
    split at hd
    case isFalse => simp at hd
    rename_i hm
    simp only [Option.some.injEq] at hd
    have hat := at_caller (w := w) (w' := w') (oj := none) (by simp [hm]) (by rw [← hs, ← hd]) (by rw [← hs]) (by rw [← hs, ← hd]; simp)
    refine .calm 0 [] none (by rw [← hs]) ⟨by rw [← hs], by simp⟩
      (by rw [← hs]; simp) ⟨by rw [← hs, ← hd], by rw [← hs, ← hd], by rw [← hs, ← hd]⟩ (by simp [NoW]) (by simp [NoW])
      (by simp [NoW]) (by simp) trivial hat.1 (fun t' k hk => .inl ((hat.2 t' k hk).resolve_right (by simp))) ?_ ?_ ⟨.spurious, by simp, ?_⟩
    · rw [← hs, ← hd]; simp [Holding, hm]
    · rw [← hs, ← hd]; simp [hm]
    · unfold Visible.VSt.step
      have hd2 : DynSt.step c (mirror c w).s .spurious = some s' := hd'
      rw [hd2, ← hs]
      rfl

theorem step_use {c : DynCfg} {may : Eid → Nat → Bool → Bool} {w w' : WdSt} {who : Option Nat} {n : Nat} {wr : Bool} (h : Core c w)
    (hs : WdSt.step c may w (.use who n wr) = some w') : Kind c may w w' := by
  have hsd : WdSt.sends [WdSt.access n wr] = false := by cases wr <;> rfl
  have hlj : w.jt.length = w.s.jobs.length := h.k.lenJ
  cases who with
  | none =>
    simp only [WdSt.step] at hs
    split at hs
    · rename_i hm
      simp only [Option.some.injEq] at hs
      subst hs
      refine .use 0 n wr none rfl ?_ rfl ?_ rfl (.inl ⟨rfl, hm, rfl⟩) rfl
      · simp [WdSt.touch, WdSt.put, hsd]
      · simp [WdSt.touch, WdSt.put, hsd]
    · rename_i e hm
      split at hs
      · rename_i hmay
        simp only [Option.some.injEq] at hs
        subst hs
        refine .use 0 n wr (some e) rfl ?_ rfl ?_ rfl (.inr ⟨e, rfl, hmay, .inr ⟨hm, rfl⟩⟩) rfl
        · simp [WdSt.touch, WdSt.put, hsd]
        · simp [WdSt.touch, WdSt.put, hsd]
      · simp at hs
    · simp at hs
  | some i =>
    simp only [WdSt.step] at hs
    split at hs
    · rename_i e hj
      split at hs
      · rename_i hmay
        simp only [Option.some.injEq] at hs
        subst hs
        refine .use (w.jt.getD i 0) n wr (some e) rfl ?_ rfl ?_ rfl (.inr ⟨e, rfl, hmay, .inl ⟨i, hj, ?_⟩⟩) rfl
        · simp [WdSt.touch, WdSt.put, hsd]
        · simp [WdSt.touch, WdSt.put, hsd]
        · have := lt_of_get hj
          rw [List.getD_eq_getElem?_getD, List.getElem?_eq_getElem (by omega)]; rfl
      · simp at hs
    · simp at hs

theorem coh_first {c : DynCfg} {log : List WkLogged} {t : Nat} {o : WkOp} {r : List WkOp}
    (hc : Coherent (ini c) (log ++ (o :: r).map (fun o => ⟨t, o⟩))) : Coherent (ini c) (log ++ [⟨t, o⟩]) := by
  have e : log ++ (o :: r).map (fun o => (⟨t, o⟩ : WkLogged)) = (log ++ [⟨t, o⟩]) ++ r.map (fun o => ⟨t, o⟩) := by simp
  rw [e] at hc
  exact coherent_left hc

theorem step_work {c : DynCfg} {may : Eid → Nat → Bool → Bool} {w w' : WdSt} {i : Nat} {src : Option Nat} (h : Core c w)
    (hs : WdSt.step c may w (.work i src) = some w') (hc : Coherent (ini c) w'.log) : Kind c may w w' := by
  simp only [WdSt.step] at hs
  split at hs
  · simp at hs
  rename_i j hj
  have hil := lt_of_get hj
  have hlj : w.jt.length = w.s.jobs.length := h.k.lenJ
  obtain ⟨v, hs⟩ : ∃ v, (DynSt.step c (jobView w.s v j) (.work i CStatus.ok)).map (fun s' =>
        { w.put (w.jt.getD i 0) (jobOps c w.s w.next src v j) with
            s := s', jt := if s'.jobs.length < w.s.jobs.length then w.jt.eraseIdx i else w.jt }) = some w' := ⟨_, hs⟩
  cases hd : DynSt.step c (jobView w.s v j) (.work i CStatus.ok) with
  | none => rw [hd] at hs; simp at hs
  | some s' =>
    rw [hd] at hs
    simp only [Option.map_some, Option.some.injEq] at hs
    have hg : Good w.s v j := by
      refine good_of (t := w.jt.getD i 0) (n := w.next) (src := src) ?_ h.vl h.vf
      rw [← hs] at hc
      exact hc
    rw [jobView_good hg] at hd
    have hd' := hd
    simp only [DynSt.step, hj] at hd
    have ht : w.jt[i]? = some (w.jt.getD i 0) := by
      rw [List.getD_eq_getElem?_getD, List.getElem?_eq_getElem (by omega)]; rfl
    cases hjs : jobStep c w.s CStatus.ok j with
    | none => rw [hjs] at hd; simp at hd
    | some p =>
      obtain ⟨s1, oj⟩ := p
      rw [hjs] at hd
      obtain ⟨f1, f2, f3, f4⟩ := jobStep_frame hjs
      have hst := SInv.status h.s h.nf
      have hne : ∀ st, j ≠ .errSet st := by
        refine SInv.noErr h.s h.nf j ?_
        have hm : j ∈ w.s.jobs := List.mem_of_getElem? hj
        unfold allJobs
        split
        · exact List.mem_cons_of_mem _ hm
        · exact hm
      have hml : w'.s.main = s1.main := by
        rw [← hs]
        cases oj <;> simp only [Option.some.injEq] at hd <;> rw [← hd]
      have hmain : w'.s.main = w.s.main ∨ (w.s.main = .asleep ∧ w'.s.main = .waking) := by rw [hml]; exact f4
      have hjobs : (∃ j', oj = some j' ∧ w'.s.jobs = w.s.jobs.set i j' ∧ w'.jt = w.jt) ∨
          (oj = none ∧ w'.s.jobs = w.s.jobs.eraseIdx i ∧ w'.jt = w.jt.eraseIdx i) := by
        cases oj with
        | none =>
          simp only [Option.some.injEq] at hd
          refine .inr ⟨rfl, by rw [← hs, ← hd], ?_⟩
          rw [← hs, ← hd]
          simp only
          rw [if_pos (by rw [List.length_eraseIdx_of_lt hil]; omega)]
        | some j' =>
          simp only [Option.some.injEq] at hd
          refine .inl ⟨j', rfl, by rw [← hs, ← hd], ?_⟩
          rw [← hs, ← hd]
          simp
      have hat := at_work hlj hj ht hmain hjobs
      have hvl : s'.left = s1.left ∧ s'.fin = s1.fin ∧ s'.nrun = s1.nrun := by
        cases oj <;> simp only [Option.some.injEq] at hd <;> rw [← hd] <;> simp
      refine .job (w.jt.getD i 0) j s1 oj src v (.inl ⟨i, hj, ht⟩) hjs hg (by rw [← hs]; rfl) (by rw [← hs]; rfl) (by rw [← hs]; rfl)
        (by rw [← hs]; exact hvl.1) (by rw [← hs]; exact hvl.2.1) (by rw [← hs]; exact hvl.2.2.trans f2) hat.1 hat.2 ?_ ?_ ?_
        ⟨.work i CStatus.ok, ok_isErr', ?_⟩
      · rintro k rfl
        rcases hjobs with ⟨j', h1, h2, h3⟩ | ⟨h1, -⟩
        · cases h1
          exact .inl ⟨i, by rw [h2, List.getElem?_set_self hil], by rw [h3]; exact ht⟩
        · simp at h1
      · unfold Holding
        rcases hmain with hm | ⟨hm1, hm2⟩
        · rw [hm]
        · rw [hm1, hm2]; simp
      · rcases hmain with hm | ⟨hm1, hm2⟩
        · rw [hm]
        · rw [hm1, hm2]; simp
      · unfold Visible.VSt.step
        have hd2 : DynSt.step c (mirror c w).s (.work i CStatus.ok) = some s' := hd'
        have hj2 : (mirror c w).s.jobs[i]? = some j := hj
        have hjs2 : jobStep c (mirror c w).s CStatus.ok j = some (s1, oj) := hjs
        simp only [hd2, hj2, hjs2]
        have e := mirror_put c w (w.jt.getD i 0) (jobOps c w.s w.next src v j) s' w'.jt w.accs
        have e2 : w' = { w.put (w.jt.getD i 0) (jobOps c w.s w.next src v j) with s := s', jt := w'.jt, accs := w.accs } := by
          rw [← hs]; rfl
        rw [mir_jobOps hst hne] at e
        cases oj with
        | none =>
          have h3 : w'.jt = w.jt.eraseIdx i := by
            rcases hjobs with ⟨j', h1, -⟩ | ⟨-, -, h3⟩
            · simp at h1
            · exact h3
          rw [e2, e, h3]; rfl
        | some j' =>
          have h3 : w'.jt = w.jt := by
            rcases hjobs with ⟨j', -, -, h3⟩ | ⟨h1, -⟩
            · exact h3
            · simp at h1
          rw [e2, e, h3]; rfl

theorem step_main {c : DynCfg} {may : Eid → Nat → Bool → Bool} {w w' : WdSt} {src : Option Nat} (h : Core c w)
    (hs : WdSt.step c may w (.main src) = some w') (hc : Coherent (ini c) w'.log) : Kind c may w w' := by
  simp only [WdSt.step] at hs
  obtain ⟨v, hs⟩ : ∃ v, (mainStep c w.s v).map (fun s' => { w.put 0 (mainOps c w.s w.next src v) with s := s' }) = some w' := ⟨_, hs⟩
  cases hd : mainStep c w.s v with
  | none => rw [hd] at hs; simp at hs
  | some s' =>
    rw [hd] at hs
    simp only [Option.map_some, Option.some.injEq] at hs
    have hst := SInv.status h.s h.nf
    have hne : w.s.status.isErr = false := by rw [hst]; rfl
    unfold mainStep at hd
    cases hm : w.s.main with
    | idle => rw [hm] at hd; simp [DynSt.step, hm] at hd
    | asleep => rw [hm] at hd; simp [DynSt.step, hm] at hd
    | fronts r =>
      rw [hm] at hd
      simp only at hd
      have hd' := hd
      simp only [DynSt.step, hm] at hd
      have hcal := fun oj => at_caller (w := w) (w' := w') (oj := oj) (by simp [hm])
      match r, hm with
      | [], hm =>
        simp only [Option.some.injEq] at hd
        have e0 : mainOps c w.s w.next src v = [] := by simp [mainOps, hm]
        rw [e0] at hs
        subst hs
        have hat := hcal none (by rw [← hd]; rfl) rfl (by rw [← hd]; simp [toWait])
        refine .calm 0 [] none rfl ⟨by simp [WdSt.put, WdSt.sends], by simp⟩ rfl ⟨by rw [← hd]; rfl, by rw [← hd]; rfl, by rw [← hd]; rfl⟩
          (by simp [NoW]) (by simp [NoW]) (by simp [NoW]) (by simp) trivial hat.1
          (fun t' k hk => .inl ((hat.2 t' k hk).resolve_right (by simp))) ?_ ?_ (vis_main hd' ?_)
        · rw [← hd]; simp [Holding, hm, toWait]
        · rw [← hd]; simp [hm, toWait]
        · simp [Visible.mainOps, hm]
      | [x], hm =>
        simp only [hne, Bool.false_eq_true, if_false] at hd
        split at hd
        · rename_i hdx
          simp only [Option.some.injEq] at hd
          have e0 : mainOps c w.s w.next src v = [.read .status] := by simp [mainOps, hm, hdx]
          rw [e0] at hs
          subst hs
          have hat := hcal (some (.exec x)) (by rw [← hd]) rfl (by rw [← hd]; simp [eq_comm])
          refine .calm 0 [.read .status] (some x) rfl ⟨by simp [WdSt.put, WdSt.sends], by simp [WOp.Writes]⟩ rfl
            ⟨by rw [← hd], by rw [← hd], by rw [← hd]⟩
            (by simp [NoW, WOp.Writes]) (by simp [NoW, WOp.Writes]) (by simp [NoW, WOp.Writes]) (by simp) (opsOk_easy (by simp [easy])) hat.1
            (fun t' k hk => (hat.2 t' k hk).imp id (fun h1 => ⟨x, by simpa [eq_comm] using h1.2⟩)) ?_ ?_ (vis_main hd' ?_)
          · rw [← hd]; simp [Holding, hm]
          · rw [← hd]; simp [hm]
          · simp [Visible.mainOps, hm, mir, hne, hdx]
        · rename_i hdx
          simp only [Option.some.injEq] at hd
          have e0 : mainOps c w.s w.next src v = [.read .status, .store (.task w.next) true 1] := by simp [mainOps, hm, hdx]
          rw [e0] at hs
          subst hs
          have hat := hcal none (by rw [← hd]; rfl) rfl (by rw [← hd]; simp [toWait])
          refine .calm 0 [.read .status, .store (.task w.next) true 1] none rfl ⟨by simp [WdSt.put, WdSt.sends], by simp [WOp.Writes, WdSt.put, WdSt.sends]⟩ rfl
            ⟨by rw [← hd]; rfl, by rw [← hd]; rfl, by rw [← hd]; rfl⟩
            (by simp [NoW, WOp.Writes]) (by simp [NoW, WOp.Writes]) (by simp [NoW, WOp.Writes]) (by simp) (opsOk_post h.tsk) hat.1
            (fun t' k hk => .inl ((hat.2 t' k hk).resolve_right (by simp))) ?_ ?_ (vis_main hd' ?_)
          · rw [← hd]; simp [Holding, hm, toWait]
          · rw [← hd]; simp [hm, toWait]
          · simp [Visible.mainOps, hm, mir, hne, hdx]
      | x :: y :: rest, hm =>
        simp only [hne, Bool.false_eq_true, if_false, Option.some.injEq] at hd
        have e0 : mainOps c w.s w.next src v = [.read .status, .store (.task w.next) true 1] := by simp [mainOps, hm]
        rw [e0] at hs
        subst hs
        have hat := hcal none (by rw [← hd]; rfl) rfl (by rw [← hd]; simp)
        refine .calm 0 [.read .status, .store (.task w.next) true 1] none rfl ⟨by simp [WdSt.put, WdSt.sends], by simp [WOp.Writes, WdSt.put, WdSt.sends]⟩ rfl
          ⟨by rw [← hd]; rfl, by rw [← hd]; rfl, by rw [← hd]; rfl⟩
          (by simp [NoW, WOp.Writes]) (by simp [NoW, WOp.Writes]) (by simp [NoW, WOp.Writes]) (by simp) (opsOk_post h.tsk) hat.1
          (fun t' k hk => .inl ((hat.2 t' k hk).resolve_right (by simp))) ?_ ?_ (vis_main hd' ?_)
        · rw [← hd]; simp [Holding, hm]
        · rw [← hd]; simp [hm]
        · simp [Visible.mainOps, hm, mir, hne, Visible.postOps]
    | inline j =>
      rw [hm] at hd
      simp only at hd
      have e0 : mainOps c w.s w.next src v = jobOps c w.s w.next src v j := by simp [mainOps, hm]
      rw [e0] at hs
      have hg : Good w.s v j := by
        refine good_of (t := 0) (n := w.next) (src := src) ?_ h.vl h.vf
        rw [← hs] at hc
        exact hc
      rw [jobView_good hg] at hd
      have hd' := hd
      simp only [DynSt.step, hm] at hd
      have hnj : ∀ st, j ≠ .errSet st := SInv.noErr h.s h.nf j (by simp [allJobs, hm])
      cases hjs : jobStep c w.s CStatus.ok j with
      | none => rw [hjs] at hd; simp at hd
      | some p =>
        obtain ⟨s1, oj⟩ := p
        rw [hjs] at hd
        obtain ⟨f1, f2, f3, f4⟩ := jobStep_frame hjs
        have hvl : s'.left = s1.left ∧ s'.fin = s1.fin ∧ s'.nrun = s1.nrun ∧ s'.jobs = s1.jobs ∧ (∀ k, s'.main = .inline k ↔ oj = some k) ∧
            ¬ Holding s' ∧ s'.main ≠ .idle := by
          cases oj <;> simp only [Option.some.injEq] at hd <;> rw [← hd] <;> simp [toWait, Holding]
        obtain ⟨v1, v2, v3, v4, v5, v6, v7⟩ := hvl
        have hat := at_main (w := w) (w' := w') (oj := oj) hm (by rw [← hs]; exact v4.trans f1) (by rw [← hs]; rfl) (by rw [← hs]; exact v5)
        refine .job 0 j s1 oj src v (.inr ⟨hm, rfl⟩) hjs hg (by rw [← hs]; rfl) (by rw [← hs]; rfl) (by rw [← hs]; rfl)
          (by rw [← hs]; exact v1) (by rw [← hs]; exact v2) (by rw [← hs]; exact v3.trans f2) hat.1 hat.2 ?_ ?_ ?_ ?_
        · rintro k hk
          exact .inr ⟨by rw [← hs]; exact (v5 k).2 hk, rfl⟩
        · rw [← hs]
          exact ⟨fun h0 => absurd h0 v6, fun h0 => by simp [Holding, hm] at h0⟩
        · rw [← hs]
          exact ⟨fun h0 => absurd h0 v7, fun h0 => by rw [hm] at h0; simp at h0⟩
        · rw [← hs]
          refine vis_main hd' ?_
          rw [mir_jobOps hst hnj]
          simp [Visible.mainOps, hm]
    | poll k =>
      cases k with
      | zero =>
        rw [hm] at hd
        simp only at hd
        have hd' := hd
        simp only [DynSt.step, hm, Option.some.injEq] at hd
        have e0 : mainOps c w.s w.next src v = [] := by simp [mainOps, hm]
        rw [e0] at hs
        subst hs
        have hat := at_caller (w := w) (w' := { w.put 0 [] with s := s' }) (oj := none) (by simp [hm]) (by rw [← hd]) rfl (by rw [← hd]; simp)
        refine .calm 0 [] none rfl ⟨by simp [WdSt.put, WdSt.sends], by simp⟩ rfl ⟨by rw [← hd], by rw [← hd], by rw [← hd]⟩
          (by simp [NoW]) (by simp [NoW]) (by simp [NoW]) (by simp) trivial hat.1
          (fun t' k hk => .inl ((hat.2 t' k hk).resolve_right (by simp))) ?_ ?_ (vis_main hd' ?_)
        · rw [← hd]; simp [Holding, hm]
        · rw [← hd]; simp [hm]
        · simp [Visible.mainOps, hm]
      | succ k =>
        rw [hm] at hd
        simp only [DynSt.step, hm] at hd
        by_cases hv : c.totalEnd ≤ v.toNat
        · rw [if_pos hv] at hd
          simp only [Option.map_some, Option.some.injEq] at hd
          have e0 : mainOps c w.s w.next src v = .load .fin true src v :: ([] ++ retOps w.s) := by simp [mainOps, hm, hv]
          rw [e0] at hs
          have hd2 : s' = w.s.ret := by rw [← hd]; rfl
          subst hs hd2
          refine .ret src v [] hv (.inl ⟨k, hm, rfl⟩) rfl rfl ?_ rfl rfl (fun hf => vis_main ?_ ?_)
          · simp [WdSt.put, WdSt.sends, retOps]
          · simp [DynSt.step, hm, hf]
          · simp [Visible.mainOps, hm, hf, mir, hv, retOps, Visible.retOps, hne]
        · rw [if_neg hv] at hd
          simp only [Option.map_some, Option.some.injEq] at hd
          have e0 : mainOps c w.s w.next src v = .load .fin true src v :: [] := by simp [mainOps, hm, hv]
          rw [e0] at hs
          subst hs
          refine .low src v [] (by omega) (.inl rfl) rfl rfl ?_ ?_ rfl (.inl ⟨k, hm, hd.symm⟩)
          · simp [WdSt.put, WdSt.sends]
          · simp [WdSt.put, WdSt.sends]
    | lock =>
      rw [hm] at hd
      simp only at hd
      have hd' := hd
      simp only [DynSt.step, hm, Option.some.injEq] at hd
      have e0 : mainOps c w.s w.next src v = [.rmw .mtx true false src v 1] := by simp [mainOps, hm]
      rw [e0] at hs
      subst hs
      refine .mutex _ rfl rfl ?_ rfl (by rw [← hd]) ⟨by rw [← hd], by rw [← hd], by rw [← hd]⟩
        (.inl ⟨src, v, rfl, .inl hm, by rw [← hd]⟩) (vis_main hd' ?_)
      · simp [WdSt.put, WdSt.sends]
      · simp [Visible.mainOps, hm, mir]
    | check =>
      rw [hm] at hd
      simp only [DynSt.step, hm, hne] at hd
      by_cases hv : c.totalEnd ≤ v.toNat
      · rw [if_pos (.inl hv)] at hd
        simp only [Option.map_some, Option.some.injEq] at hd
        have e0 : mainOps c w.s w.next src v = .load .fin true src v :: ([.store .mtx true 0] ++ retOps w.s) := by simp [mainOps, hm, hv]
        rw [e0] at hs
        have hd2 : s' = w.s.ret := by rw [← hd]; rfl
        subst hs hd2
        refine .ret src v [.store .mtx true 0] hv (.inr ⟨hm, rfl⟩) rfl rfl ?_ rfl rfl (fun hf => vis_main ?_ ?_)
        · simp [WdSt.put, WdSt.sends, retOps]
        · simp [DynSt.step, hm, hf]
        · simp [Visible.mainOps, hm, hf, mir, hv, retOps, Visible.retOps, hne]
      · rw [if_neg (by simpa using hv)] at hd
        simp only [Option.map_some, Option.some.injEq] at hd
        have e0 : mainOps c w.s w.next src v = .load .fin true src v :: [.read .status] := by simp [mainOps, hm, hv]
        rw [e0] at hs
        subst hs
        refine .low src v [.read .status] (by omega) (.inr rfl) rfl rfl ?_ ?_ rfl (.inr ⟨hm, hd.symm⟩)
        · simp [WdSt.put, WdSt.sends]
        · simp [WdSt.put, WdSt.sends]
    | preSleep =>
      rw [hm] at hd
      simp only at hd
      have hd' := hd
      simp only [DynSt.step, hm, Option.some.injEq] at hd
      have e0 : mainOps c w.s w.next src v = [.store .mtx true 0] := by simp [mainOps, hm]
      rw [e0] at hs
      subst hs
      refine .mutex _ rfl rfl ?_ rfl (by rw [← hd]) ⟨by rw [← hd], by rw [← hd], by rw [← hd]⟩
        (.inr ⟨rfl, hm, by rw [← hd]⟩) (vis_main hd' ?_)
      · simp [WdSt.put, WdSt.sends]
      · simp [Visible.mainOps, hm, mir]
    | waking =>
      rw [hm] at hd
      simp only at hd
      have hd' := hd
      simp only [DynSt.step, hm, Option.some.injEq] at hd
      have e0 : mainOps c w.s w.next src v = [.rmw .mtx true false src v 1] := by simp [mainOps, hm]
      rw [e0] at hs
      subst hs
      refine .mutex _ rfl rfl ?_ rfl (by rw [← hd]) ⟨by rw [← hd], by rw [← hd], by rw [← hd]⟩
        (.inl ⟨src, v, rfl, .inr hm, by rw [← hd]⟩) (vis_main hd' ?_)
      · simp [WdSt.put, WdSt.sends]
      · simp [Visible.mainOps, hm, mir]

theorem step_kind {c : DynCfg} {may : Eid → Nat → Bool → Bool} {w w' : WdSt} {a : WkAct} (h : Core c w)
    (hs : WdSt.step c may w a = some w') (hc : Coherent (ini c) w'.log) : Kind c may w w' := by
  cases a with
  | begin => exact step_begin h hs
  | main src => exact step_main h hs hc
  | take i src => exact step_take h hs
  | work i src => exact step_work h hs hc
  | spurious => exact step_spurious hs
  | use who n wr => exact step_use h hs

end WeakDyn
end CGraph
