import Verif.Model.WeakStatic
import Verif.Lemmas.WeakChain
import Mathlib.Data.List.Perm.Basic
import Mathlib.Data.List.Nodup
import Mathlib.Tactic.SplitIfs

/-! Lemmas for C103: what the steps of the static engine do, numbers of tasks and counts of marks. -/
namespace CGraph
namespace WeakStatic
open Spec Weak SwSt

/-- What a step does. -/
inductive Eff (c : SwCfg) (may : Eid → Nat → Bool → Bool) (w : SwSt) : SwSt → Prop
  | begin (hb : w.busy = false) : Eff c may w
      { w with log := w.log ++ [⟨0, ev (w.nrun + 1) .begin⟩], nrun := w.nrun + 1, busy := true, row := 0, toCommit := [], macros := [],
               mrun := none, futures := [], status := CStatus.ok }
  | mret (e : Eid) (st : CStatus) (hb : w.busy = true) (hm : w.mrun = some e) : Eff c may w
      { w with log := w.log ++ [⟨0, ev w.nrun (.fin e)⟩], mrun := none, status := w.status.add st }
  | mthrow (e : Eid) (msg : String) (hb : w.busy = true) (hm : w.mrun = some e) : Eff c may w
      { w with log := w.log ++ [⟨0, ev w.nrun (.fin e)⟩, ⟨0, ev w.nrun .out⟩], busy := false, toCommit := [], macros := [], mrun := none,
               futures := [], last := some (.throw msg) }
  | direct (e : Eid) (es : List Eid) (hb : w.busy = true) (hm : w.mrun = none) (ht : w.toCommit = e :: es) : Eff c may w
      { w with toCommit := es, macros := w.macros ++ [e] }
  | commit (e : Eid) (es : List Eid) (hb : w.busy = true) (hm : w.mrun = none) (ht : w.toCommit = e :: es) : Eff c may w
      { w with log := w.log ++ [⟨0, .store (.task w.next) true 1⟩], toCommit := es, futures := w.futures ++ [(e, w.next)],
               queued := w.queued ++ [⟨e, w.next, w.nrun⟩], next := w.next + 1 }
  | mstart (e : Eid) (es : List Eid) (hb : w.busy = true) (hm : w.mrun = none) (ht : w.toCommit = []) (hc : w.macros = e :: es) : Eff c may w
      { w with log := w.log ++ [⟨0, ev w.nrun (.start e)⟩], macros := es, mrun := some e }
  | get (e : Eid) (n : Nat) (fs : List (Eid × Nat)) (i : Nat) (st : CStatus) (hb : w.busy = true) (hm : w.mrun = none) (ht : w.toCommit = [])
      (hc : w.macros = []) (hf : w.futures = (e, n) :: fs) (hg : got w.log (.fut n) (some i) = true) : Eff c may w
      { w with log := w.log ++ [⟨0, .load (.fut n) true (some i) 1⟩], futures := fs, status := w.status.add st }
  | gthrow (e : Eid) (n : Nat) (fs : List (Eid × Nat)) (i : Nat) (msg : String) (hb : w.busy = true) (hm : w.mrun = none) (hf : w.futures = (e, n) :: fs)
      (hg : got w.log (.fut n) (some i) = true) : Eff c may w
      { w with log := w.log ++ [⟨0, .load (.fut n) true (some i) 1⟩, ⟨0, ev w.nrun .out⟩], busy := false, toCommit := [], macros := [],
               mrun := none, futures := [], last := some (.throw msg) }
  | ret (b : Bool) (r : Res CStatus) (hb : w.busy = true) (hm : w.mrun = none) (ht : w.toCommit = []) (hc : w.macros = []) (hf : w.futures = [])
      (ho : b = true → c.mat[w.row]? = none ∧ w.status.isErr = false ∧ r = .ret w.status)
      (hn : b = false → checkStatus w.status = some r) : Eff c may w
      { w with log := w.log ++ [⟨0, ev w.nrun (.ret b)⟩], busy := false, last := some r }
  | row (l : List Eid) (hb : w.busy = true) (hm : w.mrun = none) (ht : w.toCommit = []) (hc : w.macros = []) (hf : w.futures = [])
      (hl : c.mat[w.row]? = some l) : Eff c may w { w with row := w.row + 1, toCommit := l }
  | take (i : Nat) (t : STask) (j : Nat) (hq : w.queued[i]? = some t) (hg : got w.log (.task t.n) (some j) = true)
      (hw : w.running.length < c.workers) : Eff c may w
      { w with log := w.log ++ [⟨t.n, .load (.task t.n) true (some j) 1⟩, ⟨t.n, ev t.r (.start t.e)⟩], queued := w.queued.eraseIdx i,
               running := w.running ++ [t] }
  | done (i : Nat) (t : STask) (o : Res CStatus) (hr : w.running[i]? = some t) : Eff c may w
      { w with log := w.log ++ [⟨t.n, ev t.r (.fin t.e)⟩, ⟨t.n, .store (.fut t.n) true 1⟩], running := w.running.eraseIdx i,
               outs := fun k => if k = t.n then some o else w.outs k }
  | use (t r : Nat) (oe : Option Eid) (n : Nat) (wr : Bool) (h : (oe = none ∧ t = 0 ∧ r = w.nrun ∧ w.busy = false) ∨
      (∃ e, oe = some e ∧ may e n wr = true ∧ ((t = 0 ∧ r = w.nrun ∧ w.busy = true ∧ w.mrun = some e) ∨ ⟨e, t, r⟩ ∈ w.running))) : Eff c may w
      { w with log := w.log ++ [⟨t, access n wr⟩], accs := w.accs ++ [(w.log.length, r, oe)] }

theorem eff {c : SwCfg} {may : Eid → Nat → Bool → Bool} {w w' : SwSt} {a : SwAct} (h : SwSt.step c may w a = some w') : Eff c may w w' := by
  cases a with
  | begin =>
    simp only [SwSt.step] at h
    split at h
    · simp at h
    · rename_i hb
      simp only [Option.some.injEq] at h
      subst h
      exact .begin (by simpa using hb)
  | take i src =>
    simp only [SwSt.step] at h
    split at h
    · simp at h
    · rename_i t hq
      split at h
      · rename_i hg
        simp only [Option.some.injEq] at h
        subst h
        cases src with
        | none => simp [got] at hg
        | some j => exact .take i t j hq hg.2 hg.1
      · simp at h
  | done i o =>
    simp only [SwSt.step] at h
    split at h
    · simp at h
    · rename_i t hq
      simp only [Option.some.injEq] at h
      subst h
      exact .done i t o hq
  | use who n wr =>
    cases who with
    | none =>
      simp only [SwSt.step] at h
      split at h
      · rename_i hb
        simp only [Option.some.injEq] at h
        subst h
        exact .use 0 w.nrun none n wr (.inl ⟨rfl, rfl, rfl, hb⟩)
      · rename_i hb
        split at h
        · rename_i e he
          split at h
          · rename_i hy
            simp only [Option.some.injEq] at h
            subst h
            exact .use 0 w.nrun (some e) n wr (.inr ⟨e, rfl, hy, .inl ⟨rfl, rfl, by simpa using hb, he⟩⟩)
          · simp at h
        · simp at h
    | some i =>
      simp only [SwSt.step] at h
      split at h
      · rename_i t ht
        split at h
        · rename_i hy
          simp only [Option.some.injEq] at h
          subst h
          exact .use t.n t.r (some t.e) n wr (.inr ⟨t.e, rfl, hy, .inr (List.mem_of_getElem? ht)⟩)
        · simp at h
      · simp at h
  | main src o =>
    simp only [SwSt.step, mainStep] at h
    split at h
    · simp at h
    rename_i hb
    have hb : w.busy = true := by simpa using hb
    split at h
    · rename_i e hm
      split at h
      · simp only [Option.some.injEq] at h; subst h; exact .mret e _ hb hm
      · simp only [Option.some.injEq] at h; subst h; exact .mthrow e _ hb hm
    rename_i hm
    split at h
    · rename_i e es ht
      split at h
      · simp only [Option.some.injEq] at h; subst h; exact .direct e es hb hm ht
      · simp only [Option.some.injEq] at h; subst h; exact .commit e es hb hm ht
    rename_i ht
    split at h
    · rename_i e es hc
      simp only [Option.some.injEq] at h; subst h; exact .mstart e es hb hm ht hc
    rename_i hc
    split at h
    · rename_i e n fs hf
      split at h
      · rename_i hg
        cases src with
        | none => simp [got] at hg
        | some i =>
          split at h
          · simp only [Option.some.injEq] at h; subst h; exact .get e n fs i _ hb hm ht hc hf hg
          · simp only [Option.some.injEq] at h; subst h; exact .gthrow e n fs i _ hb hm hf hg
          · simp at h
      · simp at h
    rename_i hf
    split at h
    · rename_i r hr
      simp only [Option.some.injEq] at h; subst h; exact .ret false r hb hm ht hc hf (by simp) (fun _ => hr)
    · rename_i hr
      have hne : w.status.isErr = false := by
        unfold checkStatus at hr
        split at hr
        · split at hr <;> simp at hr
        · rename_i h; simpa using h
      split at h
      · rename_i hl
        simp only [Option.some.injEq] at h; subst h; exact .ret true _ hb hm ht hc hf (fun _ => ⟨hl, hne, rfl⟩) (by simp)
      · rename_i l hl
        simp only [Option.some.injEq] at h; subst h; exact .row l hb hm ht hc hf hl

theorem mem_erase {α : Type} {l : List α} {i : Nat} {t : α} (h : l[i]? = some t) : l.Perm (t :: l.eraseIdx i) := by
  have hi := lt_of_get h
  have : l[i] = t := by rw [List.getElem?_eq_getElem hi] at h; exact Option.some.inj h
  rw [← this]
  exact (List.getElem_cons_eraseIdx_perm hi).symm

/-- How often `l` was written. -/
def wc (log : List SLogged) (l : SLoc) : Nat := log.countP (fun a => a.op.isWrite l)
/-- How often the event was marked. -/
def mc (log : List SLogged) (r : Nat) (m : SMk) : Nat := log.countP (fun a => decide (a.op = ev r m))
/-- How many of the tasks are for `e` in run `r`. -/
def tc (l : List STask) (r : Nat) (e : Eid) : Nat := l.countP (fun t => decide (t.e = e ∧ t.r = r))

/-- Numbers of tasks. -/
structure Nums (w : SwSt) : Prop where
  nx : 0 < w.next
  w1 : ∀ l, wc w.log l ≤ 1
  wn : ∀ n, w.next ≤ n → wc w.log (.task n) = 0 ∧ wc w.log (.fut n) = 0
  qn : ∀ t ∈ w.queued ++ w.running, 0 < t.n ∧ t.n < w.next ∧ t.r ≤ w.nrun ∧ wc w.log (.fut t.n) = 0
  nd : ((w.queued ++ w.running).map STask.n).Nodup
  fl : ∀ e n, (e, n) ∈ w.futures → n < w.next
  fq : ∀ e n, (e, n) ∈ w.futures → ∀ t ∈ w.queued ++ w.running, t.n = n → t = ⟨e, n, w.nrun⟩
  fe : ∀ e n, (e, n) ∈ w.futures → ⟨e, n, w.nrun⟩ ∈ w.queued ++ w.running ∨
    ∃ m k : Nat, m < k ∧ w.log[m]? = some ⟨n, ev w.nrun (.fin e)⟩ ∧ w.log[k]? = some ⟨n, .store (.fut n) true 1⟩ ∧ (w.outs n).isSome
  qf : w.busy = true → ∀ t ∈ w.queued ++ w.running, t.r = w.nrun → (t.e, t.n) ∈ w.futures
  id : w.busy = false → w.toCommit = [] ∧ w.macros = [] ∧ w.mrun = none ∧ w.futures = []

theorem nums_init : Nums SwSt.init := by
  constructor <;> simp [SwSt.init, wc]

theorem wc_get {log : List SLogged} {l : SLoc} {i : Nat} {a : SLogged} (h : log[i]? = some a) (hw : a.op.isWrite l = true) : 0 < wc log l :=
  List.countP_pos_iff.2 ⟨a, List.mem_of_getElem? h, hw⟩

theorem count_twice {α : Type} {p : α → Bool} {l : List α} {i j : Nat} {a b : α} (hij : i < j) (hi : l[i]? = some a) (hj : l[j]? = some b)
    (ha : p a = true) (hb : p b = true) : 2 ≤ l.countP p := by
  have h1 := lt_of_get hj
  have e : l = l.take j ++ l.drop j := (List.take_append_drop j l).symm
  rw [e, List.countP_append]
  have g1 : 0 < (l.take j).countP p := List.countP_pos_iff.2 ⟨a, List.mem_of_getElem? (i := i) (by rw [List.getElem?_take_of_lt hij]; exact hi), ha⟩
  have g2 : 0 < (l.drop j).countP p := List.countP_pos_iff.2 ⟨b, List.mem_of_getElem? (i := 0) (by rw [List.getElem?_drop]; simpa using hj), hb⟩
  omega

theorem count_one {α : Type} {p : α → Bool} {l : List α} {i j : Nat} {a b : α} (h : l.countP p ≤ 1) (hi : l[i]? = some a) (hj : l[j]? = some b)
    (ha : p a = true) (hb : p b = true) : i = j := by
  rcases Nat.lt_trichotomy i j with hl | hl | hl
  · have := count_twice hl hi hj ha hb; omega
  · exact hl
  · have := count_twice hl hj hi hb ha; omega

theorem got_get {log : List SLogged} {l : SLoc} {i : Nat} (h : got log l (some i) = true) :
    ∃ t rel, log[i]? = some ⟨t, .store l rel 1⟩ := by
  unfold got at h
  simp only at h
  split at h
  · rename_i t l' rel v hh
    simp at h
    exact ⟨t, rel, by rw [hh, h.1, h.2]⟩
  · simp at h

theorem nums_eff {c : SwCfg} {may : Eid → Nat → Bool → Bool} {w w' : SwSt} (h : Nums w) (hk : Eff c may w w') : Nums w' := by
  have same : ∀ (u : List SLogged), (∀ a ∈ u, ∀ l, a.op.isWrite l = false) → ∀ l, wc (w.log ++ u) l = wc w.log l := by
    intro u hu l
    have : u.countP (fun a => a.op.isWrite l) = 0 := List.countP_eq_zero.2 (fun a ha => by simp [hu a ha l])
    simp [wc, List.countP_append, this]
  have keep : ∀ (u : List SLogged) {e : Eid} {n : Nat}, (⟨e, n, w.nrun⟩ ∈ w.queued ++ w.running ∨
      ∃ m k : Nat, m < k ∧ w.log[m]? = some ⟨n, ev w.nrun (.fin e)⟩ ∧ w.log[k]? = some ⟨n, .store (.fut n) true 1⟩ ∧ (w.outs n).isSome) →
      (⟨e, n, w.nrun⟩ ∈ w.queued ++ w.running ∨ ∃ m k : Nat, m < k ∧ (w.log ++ u)[m]? = some ⟨n, ev w.nrun (.fin e)⟩ ∧
        (w.log ++ u)[k]? = some ⟨n, .store (.fut n) true 1⟩ ∧ (w.outs n).isSome) := by
    rintro u e n (h1 | ⟨m, k, h1, h2, h3, h4⟩)
    · exact .inl h1
    · exact .inr ⟨m, k, h1, get_app h2, get_app h3, h4⟩
  cases hk with
  | begin hb =>
    have e := same [⟨0, ev (w.nrun + 1) .begin⟩] (by simp [ev, WOp.isWrite])
    refine ⟨h.nx, fun l => by simp only [e]; exact h.w1 l, fun n hn => by simp only [e]; exact h.wn n hn, fun t ht => ?_, h.nd, by simp, by simp, by simp, ?_, by simp⟩
    · simp only [e]; have := h.qn t ht; omega
    · intro _ t ht h1
      have := h.qn t ht
      simp only at h1
      omega
  | mret e st hb hm =>
    have e' := same [⟨0, ev w.nrun (.fin e)⟩] (by simp [ev, WOp.isWrite])
    refine ⟨h.nx, fun l => by simp only [e']; exact h.w1 l, fun n hn => by simp only [e']; exact h.wn n hn,
      fun t ht => by simp only [e']; exact h.qn t ht, h.nd, h.fl, h.fq, fun e n hf => ?_, h.qf, fun hf => ?_⟩
    · exact keep _ (h.fe e n hf)
    · simp [hb] at hf
  | mthrow e msg hb hm =>
    have e' := same [⟨0, ev w.nrun (.fin e)⟩, ⟨0, ev w.nrun .out⟩] (by simp [ev, WOp.isWrite])
    exact ⟨h.nx, fun l => by simp only [e']; exact h.w1 l, fun n hn => by simp only [e']; exact h.wn n hn,
      fun t ht => by simp only [e']; exact h.qn t ht, h.nd, by simp, by simp, by simp, by simp, by simp⟩
  | direct e es hb hm ht =>
    exact ⟨h.nx, h.w1, h.wn, h.qn, h.nd, h.fl, h.fq, h.fe, h.qf, fun hf => by simp [hb] at hf⟩
  | commit e es hb hm ht =>
    have h0 := h.wn w.next (Nat.le_refl _)
    have ef : ∀ n, wc (w.log ++ [⟨0, .store (.task w.next) true 1⟩]) (.fut n) = wc w.log (.fut n) := by
      intro n; simp [wc, List.countP_append, WOp.isWrite]
    have et : ∀ n, n ≠ w.next → wc (w.log ++ [⟨0, .store (.task w.next) true 1⟩]) (.task n) = wc w.log (.task n) := by
      intro n hn; simp [wc, List.countP_append, WOp.isWrite, Ne.symm hn]
    have en : wc (w.log ++ [⟨0, .store (.task w.next) true 1⟩]) (.task w.next) = 1 := by
      have := h0.1
      simp [wc, List.countP_append, WOp.isWrite] at this ⊢
      exact this
    have mem : ∀ t : STask, t ∈ (w.queued ++ [⟨e, w.next, w.nrun⟩]) ++ w.running ↔ t ∈ w.queued ++ w.running ∨ t = ⟨e, w.next, w.nrun⟩ := by
      intro t; simp only [List.mem_append, List.mem_singleton]; grind
    have memf : ∀ x : Eid × Nat, x ∈ w.futures ++ [(e, w.next)] ↔ x ∈ w.futures ∨ x = (e, w.next) := by
      intro x; simp only [List.mem_append, List.mem_singleton]
    have perm : ((w.queued ++ [(⟨e, w.next, w.nrun⟩ : STask)]) ++ w.running).Perm ((⟨e, w.next, w.nrun⟩ : STask) :: (w.queued ++ w.running)) := by
      rw [List.append_assoc]
      exact List.perm_middle
    refine ⟨by simp, ?_, ?_, ?_, ?_, ?_, ?_, ?_, ?_, fun hf => by simp [hb] at hf⟩
    · intro l
      cases l with
      | task n =>
        by_cases hn : n = w.next
        · subst hn; simp only [en]; exact Nat.le_refl _
        · simp only [et n hn]; exact h.w1 _
      | fut n => simp only [ef]; exact h.w1 _
    · intro n hn
      simp only at hn
      simp only [ef, et n (by omega)]
      exact h.wn n (by omega)
    · intro t ht
      simp only [ef]
      rcases (mem t).1 ht with ht | rfl
      · have := h.qn t ht; omega
      · simp only; have := h.nx; omega
    · rw [(perm.map STask.n).nodup_iff]
      simp only [List.map_cons, List.nodup_cons]
      refine ⟨fun hm => ?_, h.nd⟩
      obtain ⟨t, ht, h1⟩ := List.mem_map.1 hm
      have := h.qn t ht
      omega
    · intro e' n hf
      simp only [List.mem_append, List.mem_singleton, Prod.mk.injEq] at hf
      rcases hf with hf | ⟨rfl, rfl⟩
      · have := h.fl e' n hf; simp only; omega
      · simp
    · intro e' n hf t ht h1
      have hf := (memf _).1 hf
      simp only [Prod.mk.injEq] at hf
      rcases (mem t).1 ht with ht' | rfl
      · rcases hf with hf | ⟨rfl, rfl⟩
        · exact h.fq e' n hf t ht' h1
        · exact absurd h1 (Nat.ne_of_lt (h.qn t (by assumption)).2.1)
      · rcases hf with hf | ⟨rfl, rfl⟩
        · have := h.fl e' n hf; simp only at h1; omega
        · rfl
    · intro e' n hf
      have hf := (memf _).1 hf
      simp only [Prod.mk.injEq] at hf
      rcases hf with hf | ⟨rfl, rfl⟩
      · rcases h.fe e' n hf with h1 | h1
        · exact .inl ((mem _).2 (.inl h1))
        · obtain ⟨m, k, h1, h2, h3, h4⟩ := h1
          exact .inr ⟨m, k, h1, get_app h2, get_app h3, h4⟩
      · exact .inl ((mem _).2 (.inr rfl))
    · intro _ t ht h1
      refine (memf _).2 ?_
      rcases (mem t).1 ht with ht | rfl
      · exact .inl (h.qf hb t ht h1)
      · exact .inr rfl
  | mstart e es hb hm ht hc =>
    have e' := same [⟨0, ev w.nrun (.start e)⟩] (by simp [ev, WOp.isWrite])
    refine ⟨h.nx, fun l => by simp only [e']; exact h.w1 l, fun n hn => by simp only [e']; exact h.wn n hn,
      fun t ht => by simp only [e']; exact h.qn t ht, h.nd, h.fl, h.fq, fun e n hf => ?_, h.qf, fun hf => ?_⟩
    · exact keep _ (h.fe e n hf)
    · simp [hb] at hf
  | get e n fs i st hb hm ht hc hf hg =>
    have e' := same [⟨0, .load (.fut n) true (some i) 1⟩] (by simp [WOp.isWrite])
    have sub : ∀ x, x ∈ fs → x ∈ w.futures := fun x hx => by rw [hf]; exact List.mem_cons_of_mem _ hx
    obtain ⟨tid, rel, hs⟩ := got_get hg
    refine ⟨h.nx, fun l => by simp only [e']; exact h.w1 l, fun n hn => by simp only [e']; exact h.wn n hn,
      fun t ht => by simp only [e']; exact h.qn t ht, h.nd, fun e n hf => h.fl e n (sub _ hf), fun e n hf => h.fq e n (sub _ hf),
      fun e n hf => ?_, fun _ t ht h1 => ?_, fun hf => ?_⟩
    · exact keep _ (h.fe e n (sub _ hf))
    · have h2 := h.qf hb t ht h1
      rw [hf] at h2
      rcases List.mem_cons.1 h2 with h3 | h3
      · have h4 := (h.qn t ht).2.2.2
        have h5 := wc_get (l := .fut n) hs (by simp [WOp.isWrite])
        simp only [Prod.mk.injEq] at h3
        rw [h3.2] at h4
        omega
      · exact h3
    · simp [hb] at hf
  | gthrow e n fs i msg hb hm hf hg =>
    have e' := same [⟨0, .load (.fut n) true (some i) 1⟩, ⟨0, ev w.nrun .out⟩] (by simp [ev, WOp.isWrite])
    exact ⟨h.nx, fun l => by simp only [e']; exact h.w1 l, fun n hn => by simp only [e']; exact h.wn n hn,
      fun t ht => by simp only [e']; exact h.qn t ht, h.nd, by simp, by simp, by simp, by simp, by simp⟩
  | ret b r hb hm ht hc hf ho hn =>
    have e' := same [⟨0, ev w.nrun (.ret b)⟩] (by simp [ev, WOp.isWrite])
    exact ⟨h.nx, fun l => by simp only [e']; exact h.w1 l, fun n hn => by simp only [e']; exact h.wn n hn,
      fun t ht => by simp only [e']; exact h.qn t ht, h.nd, h.fl, h.fq, fun e n h1 => by simp [hf] at h1, by simp,
      fun _ => ⟨ht, hc, hm, hf⟩⟩
  | row l hb hm ht hc hf hl =>
    exact ⟨h.nx, h.w1, h.wn, h.qn, h.nd, h.fl, h.fq, h.fe, h.qf, fun hf => by simp [hb] at hf⟩
  | take i t j hq hg hw =>
    have e' := same [⟨t.n, .load (.task t.n) true (some j) 1⟩, ⟨t.n, ev t.r (.start t.e)⟩] (by simp [ev, WOp.isWrite])
    have perm : (w.queued.eraseIdx i ++ (w.running ++ [t])).Perm (w.queued ++ w.running) := by
      have h1 := (mem_erase hq).append_right w.running
      refine List.Perm.trans ?_ h1.symm
      rw [← List.append_assoc]
      exact List.perm_append_singleton _ _
    refine ⟨h.nx, fun l => by simp only [e']; exact h.w1 l, fun n hn => by simp only [e']; exact h.wn n hn,
      fun t ht => by simp only [e']; exact h.qn t (perm.mem_iff.1 ht), ?_, h.fl, fun e n hf t ht => h.fq e n hf t (perm.mem_iff.1 ht),
      fun e n hf => ?_, fun hb t ht => h.qf hb t (perm.mem_iff.1 ht), h.id⟩
    · exact (perm.map STask.n).nodup_iff.2 h.nd
    · rcases h.fe e n hf with h1 | h1
      · exact .inl (perm.mem_iff.2 h1)
      · obtain ⟨m, k, h1, h2, h3, h4⟩ := h1
        exact .inr ⟨m, k, h1, get_app h2, get_app h3, h4⟩
  | done i t o hr =>
    have perm : (w.queued ++ w.running).Perm (t :: (w.queued ++ w.running.eraseIdx i)) :=
      ((mem_erase hr).append_left w.queued).trans List.perm_middle
    have htm : t ∈ w.queued ++ w.running := perm.mem_iff.2 (List.mem_cons_self ..)
    have sub : ∀ x, x ∈ w.queued ++ w.running.eraseIdx i → x ∈ w.queued ++ w.running := fun x hx => perm.mem_iff.2 (List.mem_cons_of_mem _ hx)
    have nd : t.n ∉ (w.queued ++ w.running.eraseIdx i).map STask.n ∧ ((w.queued ++ w.running.eraseIdx i).map STask.n).Nodup := by
      have := (perm.map STask.n).nodup_iff.1 h.nd
      simpa only [List.map_cons, List.nodup_cons] using this
    have h0 := h.qn t htm
    have ef : ∀ n, n ≠ t.n → wc (w.log ++ [⟨t.n, ev t.r (.fin t.e)⟩, ⟨t.n, .store (.fut t.n) true 1⟩]) (.fut n) = wc w.log (.fut n) := by
      intro n hn; simp [wc, List.countP_append, WOp.isWrite, ev, Ne.symm hn, List.countP_cons]
    have et : ∀ n, wc (w.log ++ [⟨t.n, ev t.r (.fin t.e)⟩, ⟨t.n, .store (.fut t.n) true 1⟩]) (.task n) = wc w.log (.task n) := by
      intro n; simp [wc, List.countP_append, WOp.isWrite, ev, List.countP_cons]
    have en : wc (w.log ++ [⟨t.n, ev t.r (.fin t.e)⟩, ⟨t.n, .store (.fut t.n) true 1⟩]) (.fut t.n) = 1 := by
      have := h0.2.2.2
      simp [wc, List.countP_append, WOp.isWrite, ev, List.countP_cons] at this ⊢
      exact this
    refine ⟨h.nx, ?_, ?_, ?_, nd.2, h.fl, fun e n hf t ht => h.fq e n hf t (sub _ ht), ?_, fun hb t ht => h.qf hb t (sub _ ht), h.id⟩
    · intro l
      cases l with
      | fut n =>
        by_cases hn : n = t.n
        · subst hn; simp only [en]; exact Nat.le_refl _
        · simp only [ef n hn]; exact h.w1 _
      | task n => simp only [et]; exact h.w1 _
    · intro n hn
      simp only at hn
      simp only [et, ef n (by omega)]
      exact h.wn n (by omega)
    · intro t' ht'
      have hne : t'.n ≠ t.n := fun h1 => nd.1 (List.mem_map.2 ⟨t', ht', h1⟩)
      simp only [ef _ hne]
      exact h.qn t' (sub _ ht')
    · intro e n hf
      by_cases hn : n = t.n
      · subst hn
        have h1 := h.fq e t.n hf t htm rfl
        refine .inr ⟨w.log.length, w.log.length + 1, by omega, ?_, ?_, by simp⟩
        · have h2 : t.r = w.nrun := by rw [h1]
          have h3 : t.e = e := by rw [h1]
          simp [h2, h3]
        · simp
      · rcases h.fe e n hf with h1 | ⟨m, k, h1, h2, h3, h4⟩
        · rcases List.mem_cons.1 (perm.mem_iff.1 h1) with h2 | h2
          · exact absurd (by rw [← h2]) hn
          · exact .inl h2
        · exact .inr ⟨m, k, h1, get_app h2, get_app h3, by simpa [hn] using h4⟩
  | use t r oe n wr hu =>
    have e' := same [⟨t, access n wr⟩] (by cases wr <;> simp [access, WOp.isWrite])
    exact ⟨h.nx, fun l => by simp only [e']; exact h.w1 l, fun n hn => by simp only [e']; exact h.wn n hn,
      fun t ht => by simp only [e']; exact h.qn t ht, h.nd, h.fl, h.fq, fun e n hf => keep _ (h.fe e n hf), h.qf, h.id⟩

/-- Counts of starts and ends. -/
structure Cnt (c : SwCfg) (w : SwSt) : Prop where
  one : ∀ r e, mc w.log r (.start e) + tc w.queued r e +
    (if w.busy = true ∧ r = w.nrun then (w.toCommit ++ (w.macros ++ (c.mat.drop w.row).flatten)).count e else 0) ≤ 1
  bal : ∀ r e, mc w.log r (.fin e) + tc w.running r e + (if w.mrun = some e ∧ r = w.nrun then 1 else 0) = mc w.log r (.start e)
  fresh : ∀ r m, w.nrun < r → mc w.log r m = 0

theorem mc_app (log u : List SLogged) (r : Nat) (m : SMk) : mc (log ++ u) r m = mc log r m + mc u r m := List.countP_append
@[simp] theorem mc_nil (r : Nat) (m : SMk) : mc [] r m = 0 := rfl
theorem mc_cons (a : SLogged) (u : List SLogged) (r : Nat) (m : SMk) : mc (a :: u) r m = (if a.op = ev r m then 1 else 0) + mc u r m := by
  simp [mc, List.countP_cons, Nat.add_comm]
theorem tc_app (l u : List STask) (r : Nat) (e : Eid) : tc (l ++ u) r e = tc l r e + tc u r e := List.countP_append
@[simp] theorem tc_nil (r : Nat) (e : Eid) : tc [] r e = 0 := rfl
theorem tc_cons (t : STask) (l : List STask) (r : Nat) (e : Eid) : tc (t :: l) r e = (if t.e = e ∧ t.r = r then 1 else 0) + tc l r e := by
  simp [tc, List.countP_cons, Nat.add_comm]
theorem tc_erase {l : List STask} {i : Nat} {t : STask} (h : l[i]? = some t) (r : Nat) (e : Eid) : tc l r e = tc (t :: l.eraseIdx i) r e :=
  (mem_erase h).countP_eq _

theorem cnt_init {c : SwCfg} : Cnt c SwSt.init := by
  constructor <;> simp [SwSt.init, mc, tc]

theorem cnt_eff {c : SwCfg} (hnd : c.mat.flatten.Nodup) {may : Eid → Nat → Bool → Bool} {w w' : SwSt} (hN : Nums w) (h : Cnt c w)
    (hk : Eff c may w w') : Cnt c w' := by
  have fq : ∀ r e, w.nrun < r → tc w.queued r e = 0 ∧ tc w.running r e = 0 := by
    intro r e hr
    constructor
    · refine List.countP_eq_zero.2 (fun t ht => ?_)
      have := hN.qn t (List.mem_append_left _ ht)
      simp; intro _; omega
    · refine List.countP_eq_zero.2 (fun t ht => ?_)
      have := hN.qn t (List.mem_append_right _ ht)
      simp; intro _; omega
  have none' : w.busy = false → w.mrun = none := fun hb => (hN.id hb).2.2.1
  cases hk with
  | begin hb =>
    refine ⟨fun r e => ?_, fun r e => ?_, fun r m hr => ?_⟩
    · have h1 := h.one r e
      simp only [mc_app, mc_cons, mc_nil, ev, WOp.read.injEq, SCell.mark.injEq, reduceCtorEq, and_false, if_false, Nat.add_zero] at h1 ⊢
      by_cases hr : r = w.nrun + 1
      · subst hr
        have h2 := h.fresh (w.nrun + 1) (.start e) (by omega)
        have h3 := (fq (w.nrun + 1) e (by omega)).1
        have h4 : (c.mat.flatten).count e ≤ 1 := List.nodup_iff_count_le_one.1 hnd e
        simp [h2, h3]
        exact h4
      · simp [hr, hb] at h1 ⊢
        exact h1
    · have h1 := h.bal r e
      simpa [mc_app, mc_cons, ev, none' hb] using h1
    · simp only at hr
      have h1 := h.fresh r m (by omega)
      have : ¬ (w.nrun + 1 = r) := by omega
      simpa [mc_app, mc_cons, ev, this] using h1
  | mret e st hb hm =>
    refine ⟨fun r x => ?_, fun r x => ?_, fun r m hr => ?_⟩
    · have h1 := h.one r x
      simpa [mc_app, mc_cons, ev] using h1
    · have h1 := h.bal r x
      simp [mc_app, mc_cons, ev, hm] at h1 ⊢
      grind
    · have h1 := h.fresh r m hr
      simp [mc_app, mc_cons, ev] at h1 ⊢
      grind
  | mthrow e msg hb hm =>
    refine ⟨fun r x => ?_, fun r x => ?_, fun r m hr => ?_⟩
    · have h1 := h.one r x
      simp [mc_app, mc_cons, ev] at h1 ⊢
      grind
    · have h1 := h.bal r x
      simp [mc_app, mc_cons, ev, hm] at h1 ⊢
      grind
    · have h1 := h.fresh r m hr
      simp [mc_app, mc_cons, ev] at h1 ⊢
      grind
  | direct e es hb hm ht =>
    refine ⟨fun r x => ?_, h.bal, h.fresh⟩
    have h1 := h.one r x
    simp [ht, hb, List.count_append, List.count_cons] at h1 ⊢
    grind
  | commit e es hb hm ht =>
    refine ⟨fun r x => ?_, fun r x => ?_, fun r m hr => ?_⟩
    · have h1 := h.one r x
      simp [mc_app, mc_cons, ev, tc_app, tc_cons, ht, hb, List.count_append, List.count_cons] at h1 ⊢
      grind
    · have h1 := h.bal r x
      simpa [mc_app, mc_cons, ev] using h1
    · have h1 := h.fresh r m hr
      simpa [mc_app, mc_cons, ev] using h1
  | mstart e es hb hm ht hc =>
    refine ⟨fun r x => ?_, fun r x => ?_, fun r m hr => ?_⟩
    · have h1 := h.one r x
      simp [mc_app, mc_cons, ev, ht, hc, hb, List.count_append, List.count_cons] at h1 ⊢
      grind
    · have h1 := h.bal r x
      simp [mc_app, mc_cons, ev, hm] at h1 ⊢
      grind
    · have h1 := h.fresh r m hr
      simp [mc_app, mc_cons, ev] at h1 ⊢
      grind
  | get e n fs i st hb hm ht hc hf hg =>
    refine ⟨fun r x => ?_, fun r x => ?_, fun r m hr => ?_⟩
    · have h1 := h.one r x
      simpa [mc_app, mc_cons, ev] using h1
    · have h1 := h.bal r x
      simpa [mc_app, mc_cons, ev] using h1
    · have h1 := h.fresh r m hr
      simpa [mc_app, mc_cons, ev] using h1
  | gthrow e n fs i msg hb hm hf hg =>
    refine ⟨fun r x => ?_, fun r x => ?_, fun r m hr => ?_⟩
    · have h1 := h.one r x
      simp [mc_app, mc_cons, ev] at h1 ⊢
      omega
    · have h1 := h.bal r x
      simpa [mc_app, mc_cons, ev, hm] using h1
    · have h1 := h.fresh r m hr
      simp [mc_app, mc_cons, ev] at h1 ⊢
      grind
  | ret b r hb hm ht hc hf ho hn =>
    refine ⟨fun r x => ?_, fun r x => ?_, fun r m hr => ?_⟩
    · have h1 := h.one r x
      simp [mc_app, mc_cons, ev] at h1 ⊢
      omega
    · have h1 := h.bal r x
      simpa [mc_app, mc_cons, ev, hm] using h1
    · have h1 := h.fresh r m hr
      simp [mc_app, mc_cons, ev] at h1 ⊢
      grind
  | row l hb hm ht hc hf hl =>
    refine ⟨fun r x => ?_, h.bal, h.fresh⟩
    have h1 := h.one r x
    have e1 : c.mat.drop w.row = l :: c.mat.drop (w.row + 1) := by
      have := lt_of_get hl
      rw [List.drop_eq_getElem_cons this]
      rw [List.getElem?_eq_getElem this] at hl
      simp at hl
      rw [hl]
    simp only [e1, List.flatten_cons, ht, hc, List.nil_append] at h1 ⊢
    exact h1
  | take i t j hq hg hw =>
    have hp := tc_erase hq
    refine ⟨fun r x => ?_, fun r x => ?_, fun r m hr => ?_⟩
    · have h1 := h.one r x
      rw [hp] at h1
      simp [mc_app, mc_cons, ev, tc_cons] at h1 ⊢
      grind
    · have h1 := h.bal r x
      simp [mc_app, mc_cons, ev, tc_app, tc_cons] at h1 ⊢
      grind
    · have h1 := h.fresh r m hr
      have h2 := hN.qn t (List.mem_append_left _ (List.mem_of_getElem? hq))
      simp only at hr
      have : ¬ (t.r = r) := by omega
      simpa [mc_app, mc_cons, ev, this] using h1
  | done i t o hrr =>
    have hp := tc_erase hrr
    refine ⟨fun r x => ?_, fun r x => ?_, fun r m hr => ?_⟩
    · have h1 := h.one r x
      simpa [mc_app, mc_cons, ev] using h1
    · have h1 := h.bal r x
      rw [hp] at h1
      simp [mc_app, mc_cons, ev, tc_cons] at h1 ⊢
      grind
    · have h1 := h.fresh r m hr
      have h2 := hN.qn t (List.mem_append_right _ (List.mem_of_getElem? hrr))
      simp only at hr
      have : ¬ (t.r = r) := by omega
      simpa [mc_app, mc_cons, ev, this] using h1
  | use t r oe n wr hu =>
    have e1 : ∀ r m, mc (w.log ++ [⟨t, access n wr⟩]) r m = mc w.log r m := by
      intro r m; cases wr <;> simp [mc_app, mc_cons, ev, access]
    refine ⟨fun r x => ?_, fun r x => ?_, fun r m hr => ?_⟩
    · simp only [e1]; exact h.one r x
    · simp only [e1]; exact h.bal r x
    · simp only [e1]; exact h.fresh r m hr

end WeakStatic
end CGraph
