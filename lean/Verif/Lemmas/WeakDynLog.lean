import Verif.Model.WeakDyn
import Verif.Lemmas.WeakChain
import Verif.Lemmas.HappensBefore

/-! Logs of `Model/WeakDyn.lean` seen as logs of `Model/Visible.lean`: what happens before there happens before here. -/
namespace CGraph
namespace WeakDyn
open Spec Weak

/-- The operation of `Model/Visible.lean`.  A load that does not find the number complete counts as nothing. -/
def mir (tot : Nat) : WkOp → Visible.Op
  | .store (.left e) _ _ => .store (.left e)
  | .store .fin _ _ => .store .fin
  | .store .mtx _ _ => .unlock .mtx
  | .store (.task n) _ _ => .send n
  | .load .fin _ _ v => if v.toNat ≥ tot then .load .fin else .read .status
  | .load (.task n) _ _ _ => .recv n
  | .load _ _ _ _ => .read .status
  | .rmw (.left e) _ _ _ _ _ => .rmw (.left e)
  | .rmw .fin _ _ _ _ _ => .rmw .fin
  | .rmw .mtx _ _ _ _ _ => .lock .mtx
  | .rmw (.task _) _ _ _ _ _ => .read .status
  | .read (.mark r m) => .note (r, m)
  | .read _ => .read .status
  | .write _ => .read .status

def mirA (tot : Nat) (a : WkLogged) : Visible.Act := ⟨a.tid, mir tot a.op⟩

/-- The orders that the code asks for. -/
def Wf : WkOp → Prop
  | .store _ rel _ => rel = true
  | .load _ acq _ _ => acq = true
  | .rmw l acq rel _ _ _ => acq = true ∧ (l = .mtx ∨ rel = true)
  | _ => True

/-- What is known of an operation when thread `t` does it. -/
structure OpOk (tot : Nat) (log : List WkLogged) (t : Nat) (o : WkOp) : Prop where
  wf : Wf o
  fresh : ∀ acq src v, o = .load .fin acq src v → tot ≤ v.toNat → ∀ (k : Nat) (b : WkLogged) (x : Int), log[k]? = some b →
    b.op.Writes .fin x → ∃ m, src = some m ∧ k ≤ m
  lock : ∀ acq rel src old new, o = .rmw .mtx acq rel src old new → ∀ (m : Nat) (a : WkLogged), LastAt log .mtx m → log[m]? = some a →
    StoreTo .mtx a.op
  unlock : ∀ rel v, o = .store .mtx rel v → ∃ (m : Nat) (a : WkLogged), LastAt log .mtx m ∧ log[m]? = some a ∧ a.tid = t
  send : ∀ n rel v, o = .store (.task n) rel v → ∀ (k : Nat) (b : WkLogged) (x : Int), log[k]? = some b → ¬ b.op.Writes (.task n) x
  recv : ∀ n acq src v, o = .load (.task n) acq src v → v = 1
  noTask : ∀ n acq rel src old new, o ≠ .rmw (.task n) acq rel src old new

/-- The invariant of the log. -/
structure LInv (tot : Nat) (log : List WkLogged) : Prop where
  wf : ∀ (i : Nat) (a : WkLogged), log[i]? = some a → Wf a.op
  edge : ∀ i j, (SeqBefore (log.map (mirA tot)) i j ∨ Synchronizes (log.map (mirA tot)) i j) → WHb log i j
  mt : ∀ (k m : Nat) (a b : WkLogged) (v v' : Int), k < m → log[k]? = some a → a.op.Writes .mtx v → log[m]? = some b →
    b.op.Writes .mtx v' → WHb log k m
  tk : ∀ (i j n : Nat) (a b : WkLogged) (v v' : Int), log[i]? = some a → a.op.Writes (.task n) v → log[j]? = some b →
    b.op.Writes (.task n) v' → i = j

theorem linv_nil (tot : Nat) : LInv tot [] := by
  constructor
  · simp
  · rintro i j (⟨-, a, b, h, -⟩ | ⟨-, a, b, h, -⟩) <;> simp at h
  · simp
  · simp

theorem store_mir {tot : Nat} {o : WkOp} {l : WLoc} (hl : (∃ e, l = .left e) ∨ l = .fin) (h : StoreTo l o) :
    (∃ e, l = .left e ∧ mir tot o = .store (.left e)) ∨ (l = .fin ∧ mir tot o = .store .fin) := by
  cases o with
  | store l' r v =>
    have : l' = l := h
    subst this
    rcases hl with ⟨e, rfl⟩ | rfl
    · exact .inl ⟨e, rfl, rfl⟩
    · exact .inr ⟨rfl, rfl⟩
  | _ => exact h.elim

theorem mir_store {tot : Nat} {o : WkOp} {l : Visible.Loc} (h : mir tot o = .store l ∨ mir tot o = .rmw l) :
    ∃ (k : WLoc) (x : Int), ((∃ e, k = .left e) ∨ k = .fin) ∧ o.Writes k x ∧ (∀ e, l = .left e → k = .left e) ∧ (l = .fin → k = .fin) ∧
      ((∃ e, l = .left e) ∨ l = .fin) := by
  cases o with
  | store k r v =>
    cases k <;> simp [mir] at h <;> subst h
    · exact ⟨_, _, .inl ⟨_, rfl⟩, ⟨rfl, rfl⟩, by simp, by simp, by simp⟩
    · exact ⟨_, _, .inr rfl, ⟨rfl, rfl⟩, by simp, by simp, by simp⟩
  | rmw k r r' s v v' =>
    cases k <;> simp [mir] at h <;> subst h
    · exact ⟨_, _, .inl ⟨_, rfl⟩, ⟨rfl, rfl⟩, by simp, by simp, by simp⟩
    · exact ⟨_, _, .inr rfl, ⟨rfl, rfl⟩, by simp, by simp, by simp⟩
  | load k r s v =>
    exfalso
    cases k <;> simp [mir] at h
    split at h <;> simp at h
  | read k => cases k <;> simp [mir] at h
  | write k => simp [mir] at h

theorem mir_get {tot : Nat} {o : WkOp} {l : Visible.Loc} :
    (mir tot o = .rmw l → ∃ k acq rel src old new, o = .rmw k acq rel src old new ∧ ((∃ e, l = .left e ∧ k = .left e) ∨ (l = .fin ∧ k = .fin))) ∧
    (mir tot o = .load l → ∃ acq src v, o = .load .fin acq src v ∧ tot ≤ v.toNat ∧ l = .fin) ∧
    (mir tot o = .lock l → ∃ acq rel src old new, o = .rmw .mtx acq rel src old new) ∧
    (mir tot o = .unlock l → ∃ rel v, o = .store .mtx rel v) ∧
    (∀ n, mir tot o = .send n → ∃ rel v, o = .store (.task n) rel v) ∧
    (∀ n, mir tot o = .recv n → ∃ acq src v, o = .load (.task n) acq src v) := by
  cases o with
  | store k r v => cases k <;> simp [mir]
  | rmw k r r' s v v' => cases k <;> simp [mir] <;> exact Eq.symm
  | load k r s v =>
    cases k
    case fin =>
      simp only [mir]
      split <;> simp_all
    all_goals simp [mir]
  | read k => cases k <;> simp [mir]
  | write k => simp [mir]

theorem pair_cases {tot : Nat} {a o : WkOp} (h : Pairs (mir tot a) (mir tot o)) :
    (∃ (l : WLoc) (x : Int), ((∃ e, l = .left e) ∨ l = .fin) ∧ a.Writes l x ∧
      ((∃ acq rel src old new, o = .rmw l acq rel src old new) ∨ (∃ acq src v, l = .fin ∧ o = .load .fin acq src v ∧ tot ≤ v.toNat))) ∨
    (∃ x acq rel src old new, a.Writes .mtx x ∧ o = .rmw .mtx acq rel src old new) ∨
    (∃ n x acq src v, a.Writes (.task n) x ∧ o = .load (.task n) acq src v) := by
  have key : ∀ l, (mir tot a = .store l ∨ mir tot a = .rmw l) → (mir tot o = .rmw l ∨ mir tot o = .load l) →
      (∃ (l : WLoc) (x : Int), ((∃ e, l = .left e) ∨ l = .fin) ∧ a.Writes l x ∧
      ((∃ acq rel src old new, o = .rmw l acq rel src old new) ∨ (∃ acq src v, l = .fin ∧ o = .load .fin acq src v ∧ tot ≤ v.toNat))) := by
    intro l h1 h2
    obtain ⟨k, x, h3, h4, h5, h6, -⟩ := mir_store h1
    refine ⟨k, x, h3, h4, ?_⟩
    rcases h2 with h2 | h2
    · obtain ⟨k', acq, rel, src, old, new, rfl, h7⟩ := mir_get.1 h2
      rcases h7 with ⟨e, rfl, rfl⟩ | ⟨rfl, rfl⟩
      · rw [h5 e rfl]; exact .inl ⟨_, _, _, _, _, rfl⟩
      · rw [h6 rfl]; exact .inl ⟨_, _, _, _, _, rfl⟩
    · obtain ⟨acq, src, v, rfl, h7, rfl⟩ := mir_get.2.1 h2
      exact .inr ⟨_, _, _, h6 rfl, rfl, h7⟩
  cases ha : mir tot a with
  | store l =>
    rw [ha] at h
    cases ho : mir tot o with
    | load l' => rw [ho] at h; have : l = l' := h; subst this; exact .inl (key l (.inl ha) (.inr ho))
    | rmw l' => rw [ho] at h; have : l = l' := h; subst this; exact .inl (key l (.inl ha) (.inl ho))
    | _ => rw [ho] at h; exact h.elim
  | rmw l =>
    rw [ha] at h
    cases ho : mir tot o with
    | load l' => rw [ho] at h; have : l = l' := h; subst this; exact .inl (key l (.inr ha) (.inr ho))
    | rmw l' => rw [ho] at h; have : l = l' := h; subst this; exact .inl (key l (.inr ha) (.inl ho))
    | _ => rw [ho] at h; exact h.elim
  | unlock l =>
    rw [ha] at h
    cases ho : mir tot o with
    | lock l' =>
      obtain ⟨acq, rel, src, old, new, rfl⟩ := mir_get.2.2.1 ho
      obtain ⟨rel', v, rfl⟩ := mir_get.2.2.2.1 ha
      exact .inr (.inl ⟨v, _, _, _, _, _, ⟨rfl, rfl⟩, rfl⟩)
    | _ => rw [ho] at h; exact h.elim
  | send n =>
    rw [ha] at h
    cases ho : mir tot o with
    | recv n' =>
      rw [ho] at h
      have : n = n' := h
      subst this
      obtain ⟨acq, src, v, rfl⟩ := (mir_get (l := .fin)).2.2.2.2.2 n ho
      obtain ⟨rel', v', rfl⟩ := (mir_get (l := .fin)).2.2.2.2.1 n ha
      exact .inr (.inr ⟨n, v', _, _, _, ⟨rfl, rfl⟩, rfl⟩)
    | _ => rw [ho] at h; exact h.elim
  | _ => rw [ha] at h; cases mir tot o <;> exact h.elim

section
variable {tot : Nat} {c : DynCfg} {log : List WkLogged}

theorem linv_snoc {t : Nat} {o : WkOp} (h : LInv tot log) (hc : Coherent (ini c) (log ++ [⟨t, o⟩])) (ho : OpOk tot log t o) :
    LInv tot (log ++ [⟨t, o⟩]) := by
  have mtn : ∀ (k m : Nat) (a b : WkLogged) (v v' : Int), k < m → (log ++ [⟨t, o⟩])[k]? = some a → a.op.Writes .mtx v →
      (log ++ [⟨t, o⟩])[m]? = some b → b.op.Writes .mtx v' → WHb (log ++ [⟨t, o⟩]) k m := by
    intro k m a b v v' hkm hk ha hm hb
    have hk' : log[k]? = some a := get_back hk (by have := lt_of_get hm; simp at this; omega)
    rcases get_snoc hm with hm' | ⟨rfl, rfl⟩
    · exact hb_app (h.mt k m a b v v' hkm hk' ha hm' hb)
    · -- the last one so far
      rcases lastv_spec (ini c) log (.mtx : WLoc) with ⟨h1, -⟩ | ⟨p, d, h1, h2, h3⟩
      · exact absurd ha (h1 k a v hk')
      have hpn : WHb (log ++ [⟨t, o⟩]) p log.length := by
        cases o with
        | store l r x =>
          obtain ⟨rfl, rfl⟩ := hb
          obtain ⟨q, e, h4, h5, h6⟩ := ho.unlock r x rfl
          have := last_unique h3 h4
          subst this
          exact hb_seq (lt_of_get h5) (get_app h5) (get_last _) h6
        | rmw l acq rel src old new =>
          obtain ⟨rfl, rfl⟩ := hb
          have h4 := (rmw_last hc rfl).2 p h3
          have h5 := ho.lock _ _ _ _ _ rfl p d h3 h1
          refine hb_sync (lt_of_get h1) (get_app h1) (get_last _) ?_ ⟨ho.wf.1, h4⟩
          obtain ⟨dt, dop⟩ := d
          cases dop with
          | store l r x => exact h.wf p _ h1
          | _ => exact h5.elim
        | _ => exact hb.elim
      have hkp := h3.2 k a v hk' ha
      by_cases e : k = p
      · subst e; exact hpn
      · exact hb_trans (hb_app (h.mt k p a d v _ (by omega) hk' ha h1 h2)) hpn
  -- atomics with release sequences
  have sync : ∀ (i : Nat) (a : WkLogged) (l : WLoc) (x : Int), ((∃ e, l = .left e) ∨ l = .fin) → log[i]? = some a → a.op.Writes l x →
      (∃ m, o.Acquires (some m) ∧ i ≤ m ∧ ∃ (b : WkLogged) (y : Int), log[m]? = some b ∧ b.op.Writes l y) →
      (∀ (k : Nat) (d : Visible.Act), i < k → k < log.length → ((log ++ [(⟨t, o⟩ : WkLogged)]).map (mirA tot))[k]? = some d →
        ¬ Breaks (mir tot a.op) d.op) → WHb (log ++ [⟨t, o⟩]) i log.length := by
    intro i a l x hl hi hw ⟨m, hacq, him, b, y, hm, hby⟩ hbr
    have hrs : RelSeq log i m := by
      refine chain (coherent_left hc) hi hw m b y hm hby him fun k d h1 h2 h3 h4 => ?_
      refine hbr k (mirA tot d) h1 (lt_of_get h3) (by rw [List.getElem?_map, get_app h3]; rfl) ?_
      rcases store_mir (tot := tot) hl h4 with ⟨e, rfl, h5⟩ | ⟨rfl, h5⟩
      · show Breaks _ (mir tot d.op)
        rw [h5]
        obtain ⟨at', aop⟩ := a
        cases aop <;> simp_all [WOp.Writes, mir, Breaks]
      · show Breaks _ (mir tot d.op)
        rw [h5]
        obtain ⟨at', aop⟩ := a
        cases aop <;> simp_all [WOp.Writes, mir, Breaks]
    refine .single (.inr ⟨lt_of_get hi, a, _, m, get_app hi, get_last _, ?_, hacq, relSeq_app hrs⟩)
    have hwf := h.wf i a hi
    obtain ⟨at', aop⟩ := a
    cases aop with
    | store l' r v => exact hwf
    | rmw l' acq rel s v v' =>
      obtain ⟨rfl, -⟩ := hw
      refine hwf.2.resolve_left ?_
      rcases hl with ⟨e, rfl⟩ | rfl <;> simp
    | _ => exact hw.elim
  have rmwOk : ∀ (i : Nat) (a : WkLogged) (l : WLoc) (x : Int) acq rel src old new, o = .rmw l acq rel src old new → acq = true →
      log[i]? = some a → a.op.Writes l x →
      (∃ m, o.Acquires (some m) ∧ i ≤ m ∧ ∃ (b : WkLogged) (y : Int), log[m]? = some b ∧ b.op.Writes l y) := by
    intro i a l x acq rel src old new e hq hi hw
    subst e
    rcases lastv_spec (ini c) log l with ⟨h1, -⟩ | ⟨p, d, h1, h2, h3⟩
    · exact absurd hw (h1 i a x hi)
    · exact ⟨p, ⟨hq, (rmw_last hc rfl).2 p h3⟩, h3.2 i a x hi hw, d, _, h1, h2⟩
  constructor
  · intro i a hi
    rcases get_snoc hi with hi' | ⟨-, rfl⟩
    · exact h.wf i a hi'
    · exact ho.wf
  · intro i j hij
    have hlt : i < j := by rcases hij with h1 | h1 <;> exact h1.1
    by_cases hj : j < log.length
    · -- an old edge
      refine hb_app (h.edge i j ?_)
      rw [List.map_append] at hij
      have back : ∀ {k : Nat} {d : Visible.Act}, k < log.length →
          (log.map (mirA tot) ++ ([⟨t, o⟩] : List WkLogged).map (mirA tot))[k]? = some d → (log.map (mirA tot))[k]? = some d := by
        intro k d hk h1
        rwa [List.getElem?_append_left (by simpa using hk)] at h1
      rcases hij with ⟨h1, a, b, h2, h3, h4⟩ | ⟨h1, a, b, h2, h3, h4, h5⟩
      · exact .inl ⟨h1, a, b, back (by omega) h2, back hj h3, h4⟩
      · exact .inr ⟨h1, a, b, back (by omega) h2, back hj h3, h4, fun k d h6 h7 h8 => h5 k d h6 h7 (Hb.get_app h8)⟩
    · have hj' : j = log.length := by
        rcases hij with ⟨-, a, b, -, h3, -⟩ | ⟨-, a, b, -, h3, -⟩ <;>
          · have := Hb.lt_of_getElem? h3
            simp at this
            omega
      subst hj'
      have geti : ∀ {a : Visible.Act}, ((log ++ [(⟨t, o⟩ : WkLogged)]).map (mirA tot))[i]? = some a → ∃ a', log[i]? = some a' ∧ a = mirA tot a' := by
        intro a ha
        rw [List.getElem?_map, List.getElem?_append_left hlt] at ha
        cases hx : log[i]? with
        | none => rw [hx] at ha; simp at ha
        | some a' => rw [hx] at ha; exact ⟨a', rfl, by simpa using ha.symm⟩
      have getn : ((log ++ [(⟨t, o⟩ : WkLogged)]).map (mirA tot))[log.length]? = some (mirA tot ⟨t, o⟩) := by
        rw [List.getElem?_map, get_last]; rfl
      rcases hij with ⟨-, a, b, h2, h3, h4⟩ | ⟨-, a, b, h2, h3, h4, h5⟩
      · obtain ⟨a', ha', rfl⟩ := geti h2
        rw [getn] at h3
        cases h3
        exact hb_seq hlt (get_app ha') (get_last _) h4
      · obtain ⟨a', ha', rfl⟩ := geti h2
        rw [getn] at h3
        cases h3
        have h4' : Pairs (mir tot a'.op) (mir tot o) := h4
        rcases pair_cases h4' with ⟨l, x, hl, hx, h6⟩ | ⟨x, acq, rel, src, old, new, hx, rfl⟩ | ⟨n, x, acq, src, v, hx, rfl⟩
        · refine sync i a' l x hl ha' hx ?_ (fun k d h6 h7 h8 => h5 k d h6 h7 h8)
          rcases h6 with ⟨acq, rel, src, old, new, rfl⟩ | ⟨acq, src, v, rfl, rfl, hv⟩
          · exact rmwOk i a' _ x _ _ _ _ _ rfl ho.wf.1 ha' hx
          · obtain ⟨m, rfl, him⟩ := ho.fresh acq src v rfl hv i a' x ha' hx
            obtain ⟨hm1, b, hm2, hm3⟩ := hc.rf log.length _ .fin (some m) v (get_last _) ⟨rfl, rfl, rfl⟩
            exact ⟨m, ⟨ho.wf, rfl⟩, him, b, v, get_back hm2 hm1, hm3⟩
        · exact mtn i log.length a' _ x new hlt (get_app ha') hx (get_last _) ⟨rfl, rfl⟩
        · have hv := ho.recv n acq src v rfl
          subst hv
          have hrf := hc.rf log.length _ (.task n) src 1 (get_last _) ⟨rfl, rfl, rfl⟩
          cases src with
          | none => simp [ini] at hrf
          | some m =>
            obtain ⟨hm1, b, hm2, hm3⟩ := hrf
            have := h.tk i m n a' b x 1 ha' hx (get_back hm2 hm1) hm3
            subst this
            refine hb_sync hlt (get_app ha') (get_last _) ?_ ⟨ho.wf, rfl⟩
            have hwf := h.wf i a' ha'
            obtain ⟨at', aop⟩ := a'
            cases aop with
            | store l' r v => exact hwf
            | rmw l' acq' rel s v v' =>
              obtain ⟨rfl, -⟩ := hx
              exact hwf.2.resolve_left (by simp)
            | _ => exact hx.elim
  · exact mtn
  · intro i j n a b v v' hi ha hj hb
    rcases get_snoc hi with hi' | ⟨hi', hi''⟩
    · rcases get_snoc hj with hj' | ⟨hj', hj''⟩
      · exact h.tk i j n a b v v' hi' ha hj' hb
      · exfalso
        subst hj''
        cases o with
        | store l r x => obtain ⟨rfl, rfl⟩ := hb; exact ho.send n r x rfl i a v hi' ha
        | rmw l acq rel src old new => obtain ⟨rfl, rfl⟩ := hb; exact ho.noTask n _ _ _ _ _ rfl
        | _ => exact hb.elim
    · rcases get_snoc hj with hj' | ⟨hj', hj''⟩
      · exfalso
        subst hi''
        cases o with
        | store l r x => obtain ⟨rfl, rfl⟩ := ha; exact ho.send n r x rfl j b v' hj' hb
        | rmw l acq rel src old new => obtain ⟨rfl, rfl⟩ := ha; exact ho.noTask n _ _ _ _ _ rfl
        | _ => exact ha.elim
      · rw [hi', hj']

/-- What happens before in the picture happens before. -/
theorem LInv.hb (h : LInv tot log) {i j : Nat} (hij : HappensBefore (log.map (mirA tot)) i j) : WHb log i j := by
  induction hij with
  | single h1 => exact h.edge _ _ h1
  | tail _ h1 ih => exact hb_trans ih (h.edge _ _ h1)

theorem noted_mir {i r : Nat} {m : Visible.Mk} :
    NotedAt (log.map (mirA tot)) i (r, m) ↔ ∃ t, log[i]? = some ⟨t, .read (.mark r m)⟩ := by
  unfold NotedAt
  rw [List.getElem?_map]
  constructor
  · rintro ⟨t, h⟩
    cases hx : log[i]? with
    | none => rw [hx] at h; simp at h
    | some a =>
      rw [hx] at h
      obtain ⟨at', aop⟩ := a
      simp only [Option.map_some, mirA, Option.some.injEq, MemAct.mk.injEq] at h
      obtain ⟨rfl, h⟩ := h
      refine ⟨at', ?_⟩
      cases aop with
      | read l => cases l <;> simp_all [mir]
      | store l _ _ => cases l <;> simp_all [mir]
      | load l _ _ _ => cases l <;> simp_all [mir] <;> split at h <;> simp_all
      | rmw l _ _ _ _ _ => cases l <;> simp_all [mir]
      | write l => simp_all [mir]
  · rintro ⟨t, h⟩
    exact ⟨t, by rw [h]; rfl⟩

end
end WeakDyn
end CGraph
