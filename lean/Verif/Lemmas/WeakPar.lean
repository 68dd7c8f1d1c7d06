import Verif.Lemmas.WeakMem
import Verif.Model.WeakPar
import Mathlib.Data.List.Nodup
import Mathlib.Data.List.Perm.Basic

/-! Runs of independent elements on memory with out-of-date reads: invariant. -/
namespace CGraph.Weak
open Spec
namespace Par

/-- An access of cell `c`; `w`: it is a write. -/
def Acc (c : Nat) (w : Bool) (o : WOp PLoc Nat Nat) : Prop := o = PwSt.access c w

theorem conflict_acc {a b : WOp PLoc Nat Nat} (h : WConflict a b) :
    ∃ c w w', Acc c w a ∧ Acc c w' b ∧ (w = true ∨ w' = true) := by
  cases a <;> cases b <;> simp only [WConflict] at h
  all_goals subst h
  · exact ⟨_, false, true, rfl, rfl, .inr rfl⟩
  · exact ⟨_, true, false, rfl, rfl, .inl rfl⟩
  · exact ⟨_, true, true, rfl, rfl, .inl rfl⟩

theorem acc_inj {c c' : Nat} {w w' : Bool} {o : WOp PLoc Nat Nat} (h : Acc c w o) (h' : Acc c' w' o) : c = c' ∧ w = w' := by
  have e : PwSt.access c w = PwSt.access c' w' := h.symm.trans h'
  cases w <;> cases w' <;> simp [PwSt.access] at e <;> simp [e]

theorem acc_nw {c : Nat} {w : Bool} (l : PLoc) (v : Nat) : ¬ (PwSt.access c w).Writes l v := by
  cases w <;> simp [PwSt.access, WOp.Writes]

/-- The caller knows position `i`. -/
def Known (log : List PwOp) (i : Nat) : Prop := ∃ (j : Nat) (a : PwOp), log[j]? = some a ∧ a.tid = 0 ∧ (i = j ∨ WHb log i j)

theorem Known.app {log u : List PwOp} {i : Nat} (h : Known log i) : Known (log ++ u) i := by
  obtain ⟨j, a, h1, h2, h3⟩ := h
  exact ⟨j, a, get_app h1, h2, h3.imp id hb_app⟩

theorem Known.new {log : List PwOp} {i : Nat} (h : Known log i) (o : WOp PLoc Nat Nat) :
    WHb (log ++ [⟨0, o⟩]) i log.length := by
  obtain ⟨j, a, h1, h2, h3⟩ := h
  have h4 : WHb (log ++ [⟨0, o⟩]) j log.length := hb_seq (lt_of_get h1) (get_app h1) (get_last _) h2
  rcases h3 with rfl | h3
  · exact h4
  · exact hb_trans (hb_app h3) h4

/-- Element `e` may do this. -/
def Own (total e : Nat) (o : WOp PLoc Nat Nat) : Prop := ∀ c w, Acc c w o → c = e ∨ (total ≤ c ∧ w = false)

/-- No races so far, and the order between the caller and the elements. -/
structure Good (log : List PwOp) : Prop where
  race : ∀ (i j : Nat) (a b : PwOp), i < j → log[i]? = some a → log[j]? = some b → a.tid ≠ b.tid → WConflict a.op b.op → WHb log i j
  side : ∀ (i j c c' : Nat) (w w' : Bool) (a b : PwOp), i < j → log[i]? = some a → log[j]? = some b → Acc c w a.op → Acc c' w' b.op →
    a.tid ≠ b.tid → (a.tid = 0 ∨ b.tid = 0) → WHb log i j

/-- A new event. -/
theorem Good.snoc {log : List PwOp} (h : Good log) (x : PwOp)
    (hx : ∀ (c : Nat) (w : Bool), Acc c w x.op → ∀ (i c' : Nat) (w' : Bool) (a : PwOp), log[i]? = some a → a.tid ≠ x.tid → Acc c' w' a.op →
      (c = c' ∧ (w = true ∨ w' = true)) ∨ a.tid = 0 ∨ x.tid = 0 → WHb (log ++ [x]) i log.length) : Good (log ++ [x]) where
  race i j a b hij hi hj hne hcf := by
    rcases get_snoc hj with hj' | ⟨hj', rfl⟩
    · exact hb_app (h.race i j a b hij (get_back hi (Nat.lt_trans hij (lt_of_get hj'))) hj' hne hcf)
    · subst hj'
      obtain ⟨c, w, w', h1, h2, h3⟩ := conflict_acc hcf
      exact hx c w' h2 i c w a (get_back hi hij) hne h1 (.inl ⟨rfl, h3.symm⟩)
  side i j c c' w w' a b hij hi hj ha hb hne h0 := by
    rcases get_snoc hj with hj' | ⟨hj', rfl⟩
    · exact hb_app (h.side i j c c' w w' a b hij (get_back hi (Nat.lt_trans hij (lt_of_get hj'))) hj' ha hb hne h0)
    · subst hj'
      exact hx c' w' hb i c w a (get_back hi hij) hne ha (.inr h0)

/-- The state during a run: `b` is where it began, `X` the elements that were counted and where. -/
structure Run (total : Nat) (s : PwSt) (k b : Nat) (X : List (Nat × Nat)) : Prop where
  start : s.log[b]? = some ⟨0, .store .num true 0⟩
  kle : k ≤ total
  /-- the tasks handed over -/
  len : X.length + s.jobs.length + s.queue.length = k
  nodup : (X.map Prod.fst ++ s.jobs.map PwJob.elem ++ s.queue.map Prod.fst).Nodup
  elems : ∀ e ∈ X.map Prod.fst ++ s.jobs.map PwJob.elem ++ s.queue.map Prod.fst, e < k
  tids : (s.jobs.map PwJob.tid).Nodup
  tid0 : ∀ j ∈ s.jobs, j.tid ≠ 0
  /-- the counter -/
  num : ∀ (i : Nat) (a : PwOp) (v : Nat), b < i → s.log[i]? = some a → a.op.Writes .num v → ∃ m : Nat, (X[m]?).map Prod.snd = some i
  cnt : ∀ (m i : Nat), (X[m]?).map Prod.snd = some i → b < i ∧ ∃ t src, t ≠ 0 ∧ s.log[i]? = some ⟨t, .rmw .num false true src m (m + 1)⟩ ∧
    (m = 0 → src = some b) ∧ ∀ p, m = p + 1 → src = (X[p]?).map Prod.snd
  inc : ∀ (m m' i i' : Nat), (X[m]?).map Prod.snd = some i → (X[m']?).map Prod.snd = some i' → m < m' → i < i'
  /-- who was given a task knows of the beginning -/
  task : ∀ p ∈ s.queue, ∀ (i : Nat) (a : PwOp) (v : Nat), s.log[i]? = some a → a.op.Writes (.task p.2) v → b < i
  know : ∀ j ∈ s.jobs, ∃ (i : Nat) (a : PwOp), s.log[i]? = some a ∧ a.tid = j.tid ∧ WHb s.log b i
  /-- accesses: before the run, by elements that are counted, by others -/
  acc : ∀ (i c : Nat) (w : Bool) (a : PwOp), s.log[i]? = some a → Acc c w a.op → WHb s.log i b ∨
    (a.tid ≠ 0 ∧ ∃ e, Own total e a.op ∧
      ((∃ (r : Nat) (y : PwOp), (e, r) ∈ X ∧ s.log[r]? = some y ∧ y.tid = a.tid ∧ i < r) ∨ (⟨a.tid, e⟩ : PwJob) ∈ s.jobs))

structure Inv (total : Nat) (s : PwSt) : Prop where
  good : Good s.log
  /-- task locations -/
  tasks : ∀ (i n v : Nat) (a : PwOp), s.log[i]? = some a → a.op.Writes (.task n) v → n < s.cnt ∧ a = ⟨0, .store (.task n) true 1⟩
  queue : ∀ p ∈ s.queue, p.2 < s.cnt
  idle : s.main = .idle → s.jobs = [] ∧ s.queue = [] ∧ ∀ (i c : Nat) (w : Bool) (a : PwOp), s.log[i]? = some a → Acc c w a.op → Known s.log i
  push : ∀ k, s.main = .push k → ∃ b X, Run total s k b X
  wait : s.main = .wait → ∃ b X, Run total s total b X

theorem inv_init (total : Nat) : Inv total PwSt.init where
  good := ⟨by simp [PwSt.init], by simp [PwSt.init]⟩
  tasks := by simp [PwSt.init]
  queue := by simp [PwSt.init]
  idle := by simp [PwSt.init]
  push := by simp [PwSt.init]
  wait := by simp [PwSt.init]

theorem perm_erase {α : Type} {l : List α} {i : Nat} {a : α} (h : l[i]? = some a) : (a :: l.eraseIdx i).Perm l := by
  obtain ⟨h1, h2⟩ := List.getElem?_eq_some_iff.1 h
  rw [← h2]
  exact List.getElem_cons_eraseIdx_perm h1

/-- An event that neither counts, nor touches memory, nor hands over a task. -/
theorem Run.quiet {total k b : Nat} {s s' : PwSt} {X : List (Nat × Nat)} (h : Run total s k b X) {x : PwOp}
    (hn : ∀ v, ¬ x.op.Writes .num v) (ha : ∀ c w, ¬ Acc c w x.op) (hlog : s'.log = s.log ++ [x]) (hj : s'.jobs = s.jobs)
    (hq : s'.queue = s.queue) : Run total s' k b X where
  start := by rw [hlog]; exact get_app h.start
  kle := h.kle
  len := by rw [hj, hq]; exact h.len
  nodup := by rw [hj, hq]; exact h.nodup
  elems := by rw [hj, hq]; exact h.elems
  tids := by rw [hj]; exact h.tids
  tid0 := by rw [hj]; exact h.tid0
  num i a v hb hi hv := by
    rw [hlog] at hi
    rcases get_snoc hi with hi | ⟨_, rfl⟩
    · exact h.num i a v hb hi hv
    · exact absurd hv (hn v)
  cnt m i hm := by
    obtain ⟨h1, t, src, h2, h3, h4⟩ := h.cnt m i hm
    exact ⟨h1, t, src, h2, by rw [hlog]; exact get_app h3, h4⟩
  inc := h.inc
  task p hp i a v hi hv := by
    rw [hq] at hp
    rw [hlog] at hi
    rcases get_snoc hi with hi | ⟨hi, _⟩
    · exact h.task p hp i a v hi hv
    · rw [hi]; exact lt_of_get h.start
  know j hjm := by
    rw [hj] at hjm
    obtain ⟨i, a, h1, h2, h3⟩ := h.know j hjm
    exact ⟨i, a, by rw [hlog]; exact get_app h1, h2, by rw [hlog]; exact hb_app h3⟩
  acc i c w a hi hac := by
    rw [hlog] at hi ⊢
    rcases get_snoc hi with hi | ⟨_, rfl⟩
    · rcases h.acc i c w a hi hac with h1 | ⟨h1, e, h2, h3⟩
      · exact .inl (hb_app h1)
      · refine .inr ⟨h1, e, h2, ?_⟩
        rw [hj]
        rcases h3 with ⟨r, y, g1, g2, g3⟩ | h3
        · exact .inl ⟨r, y, g1, get_app g2, g3⟩
        · exact .inr h3
    · exact absurd hac (ha c w)

theorem good_quiet {log : List PwOp} (h : Good log) {x : PwOp} (ha : ∀ c w, ¬ Acc c w x.op) : Good (log ++ [x]) :=
  h.snoc x fun c w hc => absurd hc (ha c w)

theorem tasks_quiet {log : List PwOp} {cnt : Nat}
    (h : ∀ (i n v : Nat) (a : PwOp), log[i]? = some a → a.op.Writes (.task n) v → n < cnt ∧ a = ⟨0, .store (.task n) true 1⟩) {x : PwOp}
    (hx : ∀ n v, ¬ x.op.Writes (.task n) v) :
    ∀ (i n v : Nat) (a : PwOp), (log ++ [x])[i]? = some a → a.op.Writes (.task n) v → n < cnt ∧ a = ⟨0, .store (.task n) true 1⟩ := by
  intro i n v a hi hv
  rcases get_snoc hi with hi | ⟨_, rfl⟩
  · exact h i n v a hi hv
  · exact absurd hv (hx n v)

/-- Where the counter was read: at the beginning of the run or at a later count. -/
theorem Run.read {total k b : Nat} {s : PwSt} {X : List (Nat × Nat)} (h : Run total s k b X) {i v : Nat} {a : PwOp} (hbi : b ≤ i)
    (hi : s.log[i]? = some a) (hv : a.op.Writes .num v) :
    (i = b ∧ v = 0) ∨ ∃ m, (X[m]?).map Prod.snd = some i ∧ v = m + 1 := by
  rcases Nat.eq_or_lt_of_le hbi with rfl | hlt
  · have := h.start
    rw [hi] at this; cases this
    exact .inl ⟨rfl, hv.2.symm⟩
  · obtain ⟨m, hm⟩ := h.num i a v hlt hi hv
    obtain ⟨_, t, src, _, h3, _⟩ := h.cnt m i hm
    rw [hi] at h3; cases h3
    exact .inr ⟨m, hm, hv.2.symm⟩

theorem Run.relSeq {total k b : Nat} {s : PwSt} {X : List (Nat × Nat)} (h : Run total s k b X) {m i : Nat}
    (hm : (X[m]?).map Prod.snd = some i) : ∀ (d i' : Nat), (X[m + d]?).map Prod.snd = some i' → RelSeq s.log i i'
  | 0, i', h1 => by
    simp only [Nat.add_zero] at h1
    rw [hm] at h1; cases h1
    exact .head
  | d + 1, i', h1 => by
    obtain ⟨_, t, src, _, h3, _, h5⟩ := h.cnt (m + (d + 1)) i' h1
    have h6 := h5 (m + d) rfl
    have hlt : m + d < X.length := by
      cases hx : X[m + (d + 1)]? with
      | none => rw [hx] at h1; simp at h1
      | some y => have := lt_of_get hx; omega
    have h7 : (X[m + d]?).map Prod.snd = some X[m + d].2 := by simp [hlt]
    have ih := h.relSeq hm d X[m + d].2 h7
    rw [h7] at h6
    subst h6
    exact .next ih h3 rfl

/-- The caller returns only when all elements are counted, and knows of all accesses. -/
theorem Run.over {total b : Nat} {s : PwSt} {X : List (Nat × Nat)} (h : Run total s total b X) {src : Option Nat} {v : Nat}
    (hc : Coherent (fun _ => 0) (s.log ++ [⟨0, .load .num true src v⟩])) (hv : total ≤ v) :
    s.jobs = [] ∧ s.queue = [] ∧ ∀ (i c : Nat) (w : Bool) (a : PwOp), s.log[i]? = some a → Acc c w a.op →
      WHb (s.log ++ [⟨0, .load .num true src v⟩]) i s.log.length := by
  have hb0 := lt_of_get h.start
  have hbn : WHb (s.log ++ [⟨0, .load .num true src v⟩]) b s.log.length := hb_seq hb0 (get_app h.start) (get_last _) rfl
  obtain ⟨i, rfl, hbi⟩ := hc.wr s.log.length b _ _ .num src v 0 (get_last _) ⟨rfl, rfl, rfl⟩ (get_app h.start) ⟨rfl, rfl⟩ hbn
  obtain ⟨hi, y, hy, hyv⟩ := hc.rf s.log.length _ .num (some i) v (get_last _) ⟨rfl, rfl, rfl⟩
  have hy' := get_back hy hi
  have hlen := h.len
  have hX : total ≤ X.length ∧ (X = [] ∨ ∃ m, (X[m]?).map Prod.snd = some i ∧ m + 1 = X.length) := by
    rcases h.read hbi hy' hyv with ⟨_, h0⟩ | ⟨m, hm, hvm⟩
    · exact ⟨by omega, .inl (List.eq_nil_of_length_eq_zero (by omega))⟩
    · have hlt : m < X.length := by
        cases hx : X[m]? with
        | none => rw [hx] at hm; simp at hm
        | some y => exact lt_of_get hx
      exact ⟨by omega, .inr ⟨m, hm, by omega⟩⟩
  obtain ⟨hX1, hX2⟩ := hX
  have hj : s.jobs = [] := List.eq_nil_of_length_eq_zero (by omega)
  have hq : s.queue = [] := List.eq_nil_of_length_eq_zero (by omega)
  refine ⟨hj, hq, fun i' c w a hi' hac => ?_⟩
  rcases h.acc i' c w a hi' hac with h1 | ⟨h1, e, h2, h3⟩
  · exact hb_trans (hb_app h1) hbn
  · rcases h3 with ⟨r, y, g1, g2, g3, g4⟩ | h3
    · rcases hX2 with rfl | ⟨m, hm, hml⟩
      · simp at g1
      · obtain ⟨p, hp⟩ := List.mem_iff_getElem?.1 g1
        have hpl := lt_of_get hp
        have hp' : (X[p]?).map Prod.snd = some r := by rw [hp]; rfl
        have hrs : RelSeq s.log r i := h.relSeq hp' (m - p) i (by rw [show p + (m - p) = m by omega]; exact hm)
        obtain ⟨_, t, sr, _, h6, _⟩ := h.cnt p r hp'
        have hrl := lt_of_get h6
        have e1 : WHb (s.log ++ [⟨0, .load .num true (some i) v⟩]) r s.log.length :=
          .single (.inr ⟨hrl, _, _, i, get_app h6, get_last _, rfl, ⟨rfl, rfl⟩, relSeq_app hrs⟩)
        exact hb_trans (hb_seq g4 (get_app hi') (get_app g2) g3.symm) e1
    · rw [hj] at h3; simp at h3

theorem access_acc (c : Nat) (w : Bool) : Acc c w (PwSt.access c w) := rfl

theorem load_na {l : PLoc} {q : Bool} {src : Option Nat} {v : Nat} : ∀ c w, ¬ Acc c w (.load l q src v) := by
  intro c w h; cases w <;> simp [Acc, PwSt.access] at h

theorem store_na {l : PLoc} {q : Bool} {v : Nat} : ∀ c w, ¬ Acc c w (.store l q v) := by
  intro c w h; cases w <;> simp [Acc, PwSt.access] at h

theorem rmw_na {l : PLoc} {q r : Bool} {src : Option Nat} {v v' : Nat} : ∀ c w, ¬ Acc c w (.rmw l q r src v v') := by
  intro c w h; cases w <;> simp [Acc, PwSt.access] at h

/-- A run exists whenever there are jobs or tasks. -/
theorem Inv.running {total : Nat} {s : PwSt} (h : Inv total s) (hne : s.main ≠ .idle) :
    ∃ k b X, Run total s k b X ∧ ((s.main = .push k) ∨ (s.main = .wait ∧ k = total)) := by
  cases hm : s.main with
  | idle => exact absurd hm hne
  | push k => obtain ⟨b, X, hr⟩ := h.push k hm; exact ⟨k, b, X, hr, .inl rfl⟩
  | wait => obtain ⟨b, X, hr⟩ := h.wait hm; exact ⟨total, b, X, hr, .inr ⟨rfl, rfl⟩⟩

/-- A step inside a run that keeps where the caller is. -/
theorem inv_in {total k b : Nat} {s s' : PwSt} {X : List (Nat × Nat)} (h : Inv total s) (hm : s'.main = s.main)
    (hk : s.main = .push k ∨ (s.main = .wait ∧ k = total)) (hr : Run total s' k b X) (hg : Good s'.log) (hcnt : s'.cnt = s.cnt)
    (ht : ∀ (i n v : Nat) (a : PwOp), s'.log[i]? = some a → a.op.Writes (.task n) v → n < s.cnt ∧ a = ⟨0, .store (.task n) true 1⟩)
    (hq : ∀ p ∈ s'.queue, p ∈ s.queue) : Inv total s' where
  good := hg
  tasks := by rw [hcnt]; exact ht
  queue p hp := by rw [hcnt]; exact h.queue p (hq p hp)
  idle hi := by
    rw [hm] at hi
    rcases hk with hk | ⟨hk, _⟩ <;> rw [hi] at hk <;> cases hk
  push k' hk' := by
    rw [hm] at hk'
    rcases hk with hk | ⟨hk, _⟩
    · rw [hk] at hk'; cases hk'; exact ⟨b, X, hr⟩
    · rw [hk] at hk'; cases hk'
  wait hw := by
    rw [hm] at hw
    rcases hk with hk | ⟨_, rfl⟩
    · rw [hk] at hw; cases hw
    · exact ⟨b, X, hr⟩

theorem inv_use {total : Nat} {s : PwSt} (h : Inv total s) (hm : s.main = .idle) (c : Nat) (w : Bool) :
    Inv total (s.put 0 (PwSt.access c w)) := by
  obtain ⟨hj, hq, hk⟩ := h.idle hm
  exact {
    good := h.good.snoc _ fun c' w' _ i c'' w'' a hi _ ha _ => (hk i c'' w'' a hi ha).new _
    tasks := tasks_quiet h.tasks fun n v => acc_nw _ _
    queue := h.queue
    idle := fun _ => ⟨hj, hq, fun i c' w' a hi ha => by
      simp only [PwSt.put] at hi ⊢
      rcases get_snoc hi with hi | ⟨rfl, rfl⟩
      · exact (hk i c' w' a hi ha).app
      · exact ⟨_, _, get_last _, rfl, .inl rfl⟩⟩
    push := fun k hk => by simp [PwSt.put, hm] at hk
    wait := fun hk => by simp [PwSt.put, hm] at hk }

theorem inv_begin {total : Nat} {s : PwSt} (h : Inv total s) (hm : s.main = .idle) :
    Inv total { s.put 0 (.store .num true 0) with main := .push 0 } := by
  obtain ⟨hj, hq, hk⟩ := h.idle hm
  exact {
    good := good_quiet h.good store_na
    tasks := tasks_quiet h.tasks (by simp [WOp.Writes])
    queue := h.queue
    idle := fun h => by cases h
    wait := fun h => by cases h
    push := fun k hk' => by
      simp only [PwMain.push.injEq] at hk'
      subst hk'
      refine ⟨s.log.length, [], ?_⟩
      exact {
        start := get_last _
        kle := Nat.zero_le _
        len := by simp [PwSt.put, hj, hq]
        nodup := by simp [PwSt.put, hj, hq]
        elems := by simp [PwSt.put, hj, hq]
        tids := by simp [PwSt.put, hj]
        tid0 := by simp [PwSt.put, hj]
        num := fun i a v hb hi _ => by
          have := lt_of_get hi
          simp [PwSt.put] at this; omega
        cnt := by simp
        inc := by simp
        task := by simp [PwSt.put, hq]
        know := by simp [PwSt.put, hj]
        acc := fun i c w a hi ha => by
          left
          simp only [PwSt.put] at hi ⊢
          rcases get_snoc hi with hi | ⟨_, rfl⟩
          · exact (hk i c w a hi ha).new _
          · exact absurd ha (store_na c w) } }

theorem inv_push {total k : Nat} {s : PwSt} (h : Inv total s) (hm : s.main = .push k) (hk : k < total) :
    Inv total { s.put 0 (.store (.task s.cnt) true 1) with
      main := .push (k + 1), queue := s.queue ++ [(k, s.cnt)], cnt := s.cnt + 1 } := by
  obtain ⟨b, X, hr⟩ := h.push k hm
  exact {
    good := good_quiet h.good store_na
    tasks := fun i n v a hi hv => by
      simp only [PwSt.put] at hi ⊢
      rcases get_snoc hi with hi | ⟨_, rfl⟩
      · obtain ⟨h1, h2⟩ := h.tasks i n v a hi hv
        exact ⟨by omega, h2⟩
      · have e := hv.1
        cases e
        exact ⟨by omega, rfl⟩
    queue := fun p hp => by
      rcases List.mem_append.1 hp with hp | hp
      · have := h.queue p hp; simp only; omega
      · simp at hp; subst hp; simp
    idle := fun h => by cases h
    wait := fun h => by cases h
    push := fun k' hk' => by
      simp only [PwMain.push.injEq] at hk'
      subst hk'
      refine ⟨b, X, ?_⟩
      have hr' : Run total (s.put 0 (.store (.task s.cnt) true 1)) k b X :=
        hr.quiet (x := ⟨0, .store (.task s.cnt) true 1⟩) (by simp [WOp.Writes]) store_na rfl rfl rfl
      exact {
        start := hr'.start
        kle := hk
        len := by have := hr.len; simp [PwSt.put]; omega
        nodup := by
          simp only [PwSt.put, List.map_append, List.map_cons, List.map_nil, ← List.append_assoc]
          rw [List.nodup_append]
          refine ⟨hr.nodup, by simp, fun a ha c hc => ?_⟩
          have := hr.elems a ha
          simp at hc; omega
        elems := by
          intro e he
          simp only [PwSt.put, List.map_append, List.map_cons, List.map_nil, ← List.append_assoc] at he
          rcases List.mem_append.1 he with he | he
          · have := hr.elems e he; omega
          · simp at he; omega
        tids := hr'.tids
        tid0 := hr'.tid0
        num := hr'.num
        cnt := hr'.cnt
        inc := hr'.inc
        task := fun p hp i a v hi hv => by
          rcases List.mem_append.1 hp with hp | hp
          · exact hr'.task p hp i a v hi hv
          · simp at hp; subst hp
            simp only [PwSt.put] at hi
            rcases get_snoc hi with hi | ⟨hi, _⟩
            · have := (h.tasks i s.cnt v a hi hv).1; omega
            · rw [hi]; exact lt_of_get hr.start
        know := hr'.know
        acc := hr'.acc } }

theorem inv_towait {total k : Nat} {s : PwSt} (h : Inv total s) (hm : s.main = .push k) (hk : ¬ k < total) :
    Inv total { s with main := .wait } := by
  obtain ⟨b, X, hr⟩ := h.push k hm
  have hke : k = total := by have := hr.kle; omega
  subst hke
  exact {
    good := h.good
    tasks := h.tasks
    queue := h.queue
    idle := fun h => by cases h
    push := fun _ h => by cases h
    wait := fun _ => ⟨b, X, ⟨hr.start, hr.kle, hr.len, hr.nodup, hr.elems, hr.tids, hr.tid0, hr.num, hr.cnt, hr.inc, hr.task,
      hr.know, hr.acc⟩⟩ }

theorem inv_ret {total : Nat} {s : PwSt} (h : Inv total s) (hm : s.main = .wait) {src : Option Nat} {v : Nat} {n : Nat}
    (hc : Coherent (fun _ => 0) (s.log ++ [⟨0, .load .num true src v⟩])) (hv : total ≤ v) :
    Inv total { s.put 0 (.load .num true src v) with main := .idle, runs := n } := by
  obtain ⟨b, X, hr⟩ := h.wait hm
  obtain ⟨hj, hq, hk⟩ := hr.over hc hv
  exact {
    good := good_quiet h.good load_na
    tasks := tasks_quiet h.tasks (by simp [WOp.Writes])
    queue := h.queue
    idle := fun _ => ⟨hj, hq, fun i c w a hi ha => by
      simp only [PwSt.put] at hi ⊢
      rcases get_snoc hi with hi | ⟨_, rfl⟩
      · exact ⟨_, _, get_last _, rfl, .inr (hk i c w a hi ha)⟩
      · exact absurd ha (load_na c w)⟩
    push := fun _ h => by cases h
    wait := fun h => by cases h }

theorem inv_take {total e n t : Nat} {s : PwSt} (h : Inv total s) {i : Nat} (hq : s.queue[i]? = some (e, n)) (ht : t ≠ 0)
    (hfree : ∀ j ∈ s.jobs, j.tid ≠ t) {src : Option Nat}
    (hc : Coherent (fun _ => 0) (s.log ++ [⟨t, .load (.task n) true src 1⟩])) :
    Inv total { s.put t (.load (.task n) true src 1) with queue := s.queue.eraseIdx i, jobs := s.jobs ++ [⟨t, e⟩] } := by
  have hmem : (e, n) ∈ s.queue := List.mem_of_getElem? hq
  have hne : s.main ≠ .idle := fun hm => by rw [(h.idle hm).2.1] at hmem; simp at hmem
  obtain ⟨k, b, X, hr, hk⟩ := h.running hne
  have hr' : Run total (s.put t (.load (.task n) true src 1)) k b X :=
    hr.quiet (x := ⟨t, .load (.task n) true src 1⟩) (by simp [WOp.Writes]) load_na rfl rfl rfl
  have hperm := perm_erase hq
  have hp : (X.map Prod.fst ++ (s.jobs ++ [(⟨t, e⟩ : PwJob)]).map PwJob.elem ++ (s.queue.eraseIdx i).map Prod.fst).Perm
      (X.map Prod.fst ++ s.jobs.map PwJob.elem ++ s.queue.map Prod.fst) := by
    simp only [List.map_append, List.map_cons, List.map_nil, List.append_assoc, List.cons_append, List.nil_append]
    exact (((hperm.map Prod.fst)).append_left _).append_left _
  refine inv_in h rfl hk (b := b) (X := X) ?_ (good_quiet h.good load_na) rfl (tasks_quiet h.tasks (by simp [WOp.Writes]))
    (fun p hp => (List.eraseIdx_sublist _ _).mem hp)
  exact {
    start := hr'.start
    kle := hr.kle
    len := by
      have h1 := hr.len
      have h2 := hperm.length_eq
      simp only [List.length_cons] at h2
      simp only [List.length_append, List.length_singleton]
      omega
    nodup := hp.nodup_iff.2 hr.nodup
    elems := fun e' he' => hr.elems e' (hp.mem_iff.1 he')
    tids := by
      simp only [List.map_append, List.map_cons, List.map_nil]
      rw [List.nodup_append]
      refine ⟨hr.tids, by simp, fun a ha c hc => ?_⟩
      obtain ⟨j, hj, rfl⟩ := List.mem_map.1 ha
      simp at hc; subst hc
      exact hfree j hj
    tid0 := fun j hj => by
      rcases List.mem_append.1 hj with hj | hj
      · exact hr.tid0 j hj
      · simp at hj; subst hj; exact ht
    num := hr'.num
    cnt := hr'.cnt
    inc := hr'.inc
    task := fun p hp => hr'.task p ((List.eraseIdx_sublist _ _).mem hp)
    know := fun j hj => by
      rcases List.mem_append.1 hj with hj | hj
      · exact hr'.know j hj
      · simp at hj; subst hj
        refine ⟨s.log.length, _, get_last _, rfl, ?_⟩
        have hrf := hc.rf s.log.length _ (.task n) src 1 (get_last _) ⟨rfl, rfl, rfl⟩
        cases src with
        | none => simp at hrf
        | some p =>
          obtain ⟨h1, y, h2, h3⟩ := hrf
          have h2' := get_back h2 h1
          have hbp := hr.task (e, n) hmem p y 1 h2' h3
          have hy := (h.tasks p n 1 y h2' h3).2
          subst hy
          have e1 : WHb (s.log ++ [⟨t, .load (.task n) true (some p) 1⟩]) b p :=
            hb_seq hbp (get_app hr.start) h2 rfl
          have e2 : WHb (s.log ++ [⟨t, .load (.task n) true (some p) 1⟩]) p s.log.length :=
            hb_sync h1 h2 (get_last _) rfl ⟨rfl, rfl⟩
          exact hb_trans e1 e2
    acc := fun i' c w a hi ha => by
      rcases hr'.acc i' c w a hi ha with h1 | ⟨h1, e', h2, h3⟩
      · exact .inl h1
      · refine .inr ⟨h1, e', h2, ?_⟩
        rcases h3 with h3 | h3
        · exact .inl h3
        · exact .inr (List.mem_append_left _ h3) }

theorem inv_body {total c : Nat} {w : Bool} {s : PwSt} (h : Inv total s) {i : Nat} {j : PwJob} (hj : s.jobs[i]? = some j)
    (hown : c = j.elem ∨ (total ≤ c ∧ w = false)) : Inv total (s.put j.tid (PwSt.access c w)) := by
  have hmem : j ∈ s.jobs := List.mem_of_getElem? hj
  have hne : s.main ≠ .idle := fun hm => by rw [(h.idle hm).1] at hmem; simp at hmem
  obtain ⟨k, b, X, hr, hk⟩ := h.running hne
  have hOwn : Own total j.elem (PwSt.access c w) := fun c' w' h' => by
    obtain ⟨rfl, rfl⟩ := acc_inj (access_acc c w) h'; exact hown
  have hlt : ∀ e, e ∈ X.map Prod.fst ∨ e ∈ s.jobs.map PwJob.elem → e < total := fun e he => by
    have := hr.elems e (by simp only [List.mem_append]; exact .inl he)
    have := hr.kle
    omega
  have hnd := hr.nodup
  rw [List.nodup_append, List.nodup_append] at hnd
  obtain ⟨⟨_, hnj, hdis⟩, _, _⟩ := hnd
  refine inv_in h rfl hk (b := b) (X := X) ?_ ?_ rfl (tasks_quiet h.tasks fun n v => acc_nw _ _) (fun p hp => hp)
  · exact {
      start := get_app hr.start
      kle := hr.kle
      len := hr.len
      nodup := hr.nodup
      elems := hr.elems
      tids := hr.tids
      tid0 := hr.tid0
      num := fun i' a v hb hi hv => by
        simp only [PwSt.put] at hi
        rcases get_snoc hi with hi | ⟨_, rfl⟩
        · exact hr.num i' a v hb hi hv
        · exact absurd hv (acc_nw _ _)
      cnt := fun m i' hm => by
        obtain ⟨h1, t, src, h2, h3, h4⟩ := hr.cnt m i' hm
        exact ⟨h1, t, src, h2, get_app h3, h4⟩
      inc := hr.inc
      task := fun p hp i' a v hi hv => by
        simp only [PwSt.put] at hi
        rcases get_snoc hi with hi | ⟨hi, _⟩
        · exact hr.task p hp i' a v hi hv
        · rw [hi]; exact lt_of_get hr.start
      know := fun j' hj' => by
        obtain ⟨i', a, h1, h2, h3⟩ := hr.know j' hj'
        exact ⟨i', a, get_app h1, h2, hb_app h3⟩
      acc := fun i' c' w' a hi ha => by
        simp only [PwSt.put] at hi ⊢
        rcases get_snoc hi with hi | ⟨_, rfl⟩
        · rcases hr.acc i' c' w' a hi ha with h1 | ⟨h1, e, h2, h3⟩
          · exact .inl (hb_app h1)
          · refine .inr ⟨h1, e, h2, ?_⟩
            rcases h3 with ⟨r, y, g1, g2, g3⟩ | h3
            · exact .inl ⟨r, y, g1, get_app g2, g3⟩
            · exact .inr h3
        · exact .inr ⟨hr.tid0 j hmem, j.elem, hOwn, .inr hmem⟩ }
  · refine h.good.snoc _ fun c' w' hc' i' c'' w'' a hi hne' ha hcase => ?_
    obtain ⟨rfl, rfl⟩ := acc_inj (access_acc c w) hc'
    rcases hr.acc i' c'' w'' a hi ha with h1 | ⟨h1, e, h2, h3⟩
    · obtain ⟨p, y, g1, g2, g3⟩ := hr.know j hmem
      exact hb_trans (hb_app (hb_trans h1 g3)) (hb_seq (lt_of_get g1) (get_app g1) (get_last _) g2)
    · exfalso
      have hj0 := hr.tid0 j hmem
      rcases hcase with ⟨rfl, hw⟩ | h0 | h0
      · have he : e < total := by
          rcases h3 with ⟨r, y, g1, _⟩ | h3
          · exact hlt e (.inl (List.mem_map_of_mem (f := Prod.fst) g1))
          · exact hlt e (.inr (List.mem_map_of_mem (f := PwJob.elem) h3))
        have hje := hlt j.elem (.inr (List.mem_map_of_mem hmem))
        have hee : e = j.elem := by
          rcases h2 c w'' ha with h4 | ⟨h4, h5⟩ <;> rcases hown with h6 | ⟨h6, h7⟩
          · omega
          · omega
          · omega
          · simp [h5, h7] at hw
        subst hee
        rcases h3 with ⟨r, y, g1, _⟩ | h3
        · exact hdis j.elem (List.mem_map_of_mem (f := Prod.fst) g1) j.elem (List.mem_map_of_mem hmem) rfl
        · have := List.inj_on_of_nodup_map hnj h3 hmem rfl
          exact hne' (by rw [← this])
      · exact h1 h0
      · exact hj0 h0

theorem inv_inc {total : Nat} {s : PwSt} (h : Inv total s) {i : Nat} {j : PwJob} (hj : s.jobs[i]? = some j) {src : Option Nat} {v : Nat}
    (hc : Coherent (fun _ => 0) (s.log ++ [⟨j.tid, .rmw .num false true src v (v + 1)⟩])) :
    Inv total { s.put j.tid (.rmw .num false true src v (v + 1)) with jobs := s.jobs.eraseIdx i } := by
  have hmem : j ∈ s.jobs := List.mem_of_getElem? hj
  have hne : s.main ≠ .idle := fun hm => by rw [(h.idle hm).1] at hmem; simp at hmem
  obtain ⟨k, b, X, hr, hk⟩ := h.running hne
  have hperm := perm_erase hj
  have hb0 := lt_of_get hr.start
  -- what is read
  obtain ⟨p, rfl, hbp⟩ := hc.at' s.log.length b _ _ .num src v 0 (get_last _) ⟨rfl, rfl, rfl⟩ rfl (get_app hr.start) ⟨rfl, rfl⟩ hb0
  obtain ⟨hp, y, hy, hyv⟩ := hc.rf s.log.length _ .num (some p) v (get_last _) ⟨rfl, rfl, rfl⟩
  have hy' := get_back hy hp
  have hlast : v = X.length ∧ (X = [] → p = b) ∧ ∀ q, X.length = q + 1 → some p = (X[q]?).map Prod.snd := by
    by_cases hX : X = []
    · subst hX
      rcases hr.read hbp hy' hyv with ⟨h1, h2⟩ | ⟨m, hm, _⟩
      · exact ⟨by simpa using h2, fun _ => h1, by simp⟩
      · simp at hm
    · have hl : 0 < X.length := List.length_pos_iff.2 hX
      have hx : (X[X.length - 1]?).map Prod.snd = some X[X.length - 1].2 := by
        rw [List.getElem?_eq_getElem (by omega)]; rfl
      obtain ⟨_, t, sr, _, g1, _⟩ := hr.cnt _ _ hx
      obtain ⟨p', hp', hle⟩ := hc.at' s.log.length X[X.length - 1].2 _ _ .num (some p) v _ (get_last _) ⟨rfl, rfl, rfl⟩ rfl (get_app g1)
        ⟨rfl, rfl⟩ (lt_of_get g1)
      cases hp'
      have hbx := (hr.cnt _ _ hx).1
      rcases hr.read hbp hy' hyv with ⟨h1, h2⟩ | ⟨m, hm, hv⟩
      · omega
      · have hml : m < X.length := by
          cases hz : X[m]? with
          | none => rw [hz] at hm; simp at hm
          | some y => exact lt_of_get hz
        have hme : m = X.length - 1 := by
          by_contra hne
          have := hr.inc m (X.length - 1) _ _ hm hx (by omega)
          omega
        subst hme
        refine ⟨by omega, fun h => absurd h hX, fun q hq => ?_⟩
        rw [show q = X.length - 1 by omega]
        exact hm.symm
  obtain ⟨hv, hl0, hl1⟩ := hlast
  have hP : (((X ++ [(j.elem, s.log.length)]).map Prod.fst ++ (s.jobs.eraseIdx i).map PwJob.elem) ++ s.queue.map Prod.fst).Perm
      (X.map Prod.fst ++ s.jobs.map PwJob.elem ++ s.queue.map Prod.fst) := by
    refine List.Perm.append_right _ ?_
    simp only [List.map_append, List.map_cons, List.map_nil, List.append_assoc, List.cons_append, List.nil_append]
    exact (hperm.map PwJob.elem).append_left _
  have snd_snoc : ∀ (m q : Nat), ((X ++ [(j.elem, s.log.length)])[m]?).map Prod.snd = some q →
      (X[m]?).map Prod.snd = some q ∨ (m = X.length ∧ q = s.log.length) := by
    intro m q hq
    cases hz : (X ++ [(j.elem, s.log.length)])[m]? with
    | none => rw [hz] at hq; simp at hq
    | some z =>
      rw [hz] at hq
      rcases get_snoc hz with hz' | ⟨hz', rfl⟩
      · left; rw [hz']; exact hq
      · right; simp at hq; exact ⟨hz', hq.symm⟩
  have snd_old : ∀ (m : Nat), m < X.length → ((X ++ [(j.elem, s.log.length)])[m]?).map Prod.snd = (X[m]?).map Prod.snd := by
    intro m hm; rw [List.getElem?_append_left hm]
  have lt_of_snd : ∀ (m q : Nat), (X[m]?).map Prod.snd = some q → m < X.length := by
    intro m q hq
    cases hz : X[m]? with
    | none => rw [hz] at hq; simp at hq
    | some y => exact lt_of_get hz
  refine inv_in h rfl hk (b := b) (X := X ++ [(j.elem, s.log.length)]) ?_ (good_quiet h.good rmw_na) rfl
    (tasks_quiet h.tasks (by simp [WOp.Writes])) (fun p hp => hp)
  exact {
    start := get_app hr.start
    kle := hr.kle
    len := by
      have h1 := hr.len
      have h2 := hperm.length_eq
      simp only [List.length_cons] at h2
      simp only [List.length_append, List.length_singleton, PwSt.put]
      omega
    nodup := hP.nodup_iff.2 hr.nodup
    elems := fun e' he' => hr.elems e' (hP.mem_iff.1 he')
    tids := hr.tids.sublist ((List.eraseIdx_sublist _ _).map _)
    tid0 := fun j' hj' => hr.tid0 j' ((List.eraseIdx_sublist _ _).mem hj')
    num := fun i' a w hb hi hw => by
      simp only [PwSt.put] at hi
      rcases get_snoc hi with hi | ⟨hi, _⟩
      · obtain ⟨m, hm⟩ := hr.num i' a w hb hi hw
        exact ⟨m, by rw [snd_old m (lt_of_snd m i' hm)]; exact hm⟩
      · exact ⟨X.length, by simp [hi]⟩
    cnt := fun m i' hm => by
      rcases snd_snoc m i' hm with hm' | ⟨rfl, rfl⟩
      · obtain ⟨h1, t, sr, h2, h3, h4, h5⟩ := hr.cnt m i' hm'
        have := lt_of_snd m i' hm'
        exact ⟨h1, t, sr, h2, get_app h3, h4, fun q hq => by rw [snd_old q (by omega)]; exact h5 q hq⟩
      · refine ⟨hb0, j.tid, some p, hr.tid0 j hmem, ?_, fun h0 => ?_, fun q hq => ?_⟩
        · rw [← hv]; exact get_last _
        · rw [hl0 (List.eq_nil_of_length_eq_zero h0)]
        · rw [snd_old q (by omega)]; exact hl1 q hq
    inc := fun m m' i1 i2 h1 h2 hlt => by
      rcases snd_snoc m i1 h1 with h1 | ⟨rfl, rfl⟩
      · rcases snd_snoc m' i2 h2 with h2 | ⟨rfl, rfl⟩
        · exact hr.inc m m' i1 i2 h1 h2 hlt
        · obtain ⟨_, _, _, _, h3, _⟩ := hr.cnt m i1 h1
          exact lt_of_get h3
      · rcases snd_snoc m' i2 h2 with h2 | ⟨rfl, rfl⟩
        · have := lt_of_snd m' i2 h2; omega
        · omega
    task := fun p' hp' i' a w hi hw => by
      simp only [PwSt.put] at hi
      rcases get_snoc hi with hi | ⟨hi, _⟩
      · exact hr.task p' hp' i' a w hi hw
      · rw [hi]; exact hb0
    know := fun j' hj' => by
      obtain ⟨i', a, h1, h2, h3⟩ := hr.know j' ((List.eraseIdx_sublist _ _).mem hj')
      exact ⟨i', a, get_app h1, h2, hb_app h3⟩
    acc := fun i' c' w' a hi ha => by
      simp only [PwSt.put] at hi ⊢
      rcases get_snoc hi with hi' | ⟨_, rfl⟩
      · rcases hr.acc i' c' w' a hi' ha with h1 | ⟨h1, e, h2, h3⟩
        · exact .inl (hb_app h1)
        · refine .inr ⟨h1, e, h2, ?_⟩
          rcases h3 with ⟨r, y, g1, g2, g3⟩ | h3
          · exact .inl ⟨r, y, List.mem_append_left _ g1, get_app g2, g3⟩
          · rcases List.mem_cons.1 (hperm.mem_iff.2 h3) with h4 | h4
            · subst h4
              exact .inl ⟨s.log.length, _, by simp, get_last _, rfl, lt_of_get hi'⟩
            · exact .inr h4
      · exact absurd ha (rmw_na c' w') }

theorem inv_step {total : Nat} {s : PwSt} (h : Inv total s) (o : PwAct) (hc : Coherent (fun _ => 0) (s.step total o).log) :
    Inv total (s.step total o) := by
  cases o with
  | use c w =>
    simp only [PwSt.step]
    split
    · rename_i hm; exact inv_use h hm c w
    · exact h
  | begin =>
    simp only [PwSt.step]
    split
    · rename_i hm; exact inv_begin h hm
    · exact h
  | main src =>
    cases hm : s.main with
    | idle => simp only [PwSt.step, hm]; exact h
    | push k =>
      simp only [PwSt.step, hm]
      split
      · rename_i hk; exact inv_push h hm hk
      · rename_i hk; exact inv_towait h hm hk
    | wait =>
      simp only [PwSt.step, hm] at hc ⊢
      split
      · rename_i hv
        rw [if_pos hv] at hc
        exact inv_ret h hm hc hv
      · obtain ⟨b, X, hr⟩ := h.wait hm
        exact inv_in h rfl (.inr ⟨hm, rfl⟩) (hr.quiet (x := ⟨0, .load .num true src (PwSt.val s.log src)⟩) (by simp [WOp.Writes]) load_na
          rfl rfl rfl) (good_quiet h.good load_na) rfl (tasks_quiet h.tasks (by simp [WOp.Writes])) (fun p hp => hp)
  | take i t src =>
    cases hq : s.queue[i]? with
    | none => simp only [PwSt.step, hq]; exact h
    | some p =>
      obtain ⟨e, n⟩ := p
      simp only [PwSt.step, hq] at hc ⊢
      split
      · rename_i ht
        rw [if_pos ht] at hc
        obtain ⟨ht1, ht2⟩ := ht
        have hfree : ∀ j ∈ s.jobs, j.tid ≠ t := fun j hj => by simpa using List.all_eq_true.1 ht2 j hj
        split
        · rename_i hv
          rw [if_pos hv] at hc
          simp only [hv] at hc ⊢
          exact inv_take h hq ht1 hfree hc
        · have hmem : (e, n) ∈ s.queue := List.mem_of_getElem? hq
          have hne : s.main ≠ .idle := fun hm => by rw [(h.idle hm).2.1] at hmem; simp at hmem
          obtain ⟨k, b, X, hr, hk⟩ := h.running hne
          exact inv_in h rfl hk (hr.quiet (x := ⟨t, .load (.task n) true src (PwSt.val s.log src)⟩) (by simp [WOp.Writes]) load_na
            rfl rfl rfl) (good_quiet h.good load_na) rfl (tasks_quiet h.tasks (by simp [WOp.Writes])) (fun p hp => hp)
      · exact h
  | body i c w =>
    cases hj : s.jobs[i]? with
    | none => simp only [PwSt.step, hj]; exact h
    | some j =>
      simp only [PwSt.step, hj]
      split
      · rename_i ho; exact inv_body h hj ho
      · exact h
  | inc i src =>
    cases hj : s.jobs[i]? with
    | none => simp only [PwSt.step, hj]; exact h
    | some j =>
      simp only [PwSt.step, hj] at hc ⊢
      exact inv_inc h hj hc

theorem step_log (total : Nat) (s : PwSt) (o : PwAct) : ∃ u, (s.step total o).log = s.log ++ u := by
  cases o with
  | use c w => simp only [PwSt.step]; split <;> first | exact ⟨_, rfl⟩ | exact ⟨[], by simp⟩
  | begin => simp only [PwSt.step]; split <;> first | exact ⟨_, rfl⟩ | exact ⟨[], by simp⟩
  | main src =>
    cases hm : s.main <;> simp only [PwSt.step, hm] <;> try split
    all_goals first | exact ⟨_, rfl⟩ | exact ⟨[], by simp⟩
  | take i t src =>
    cases hq : s.queue[i]? with
    | none => simp only [PwSt.step, hq]; exact ⟨[], by simp⟩
    | some p =>
      obtain ⟨e, n⟩ := p
      simp only [PwSt.step, hq]
      split
      · split <;> exact ⟨_, rfl⟩
      · exact ⟨[], by simp⟩
  | body i c w =>
    cases hj : s.jobs[i]? with
    | none => simp only [PwSt.step, hj]; exact ⟨[], by simp⟩
    | some j => simp only [PwSt.step, hj]; split <;> first | exact ⟨_, rfl⟩ | exact ⟨[], by simp⟩
  | inc i src =>
    cases hj : s.jobs[i]? with
    | none => simp only [PwSt.step, hj]; exact ⟨[], by simp⟩
    | some j => simp only [PwSt.step, hj]; exact ⟨_, rfl⟩

theorem run_log (total : Nat) (s : PwSt) (l : List PwAct) : ∃ u, (s.run total l).log = s.log ++ u := by
  induction l generalizing s with
  | nil => exact ⟨[], by simp [PwSt.run]⟩
  | cons o l ih =>
    obtain ⟨u, hu⟩ := step_log total s o
    obtain ⟨w, hw⟩ := ih (s.step total o)
    exact ⟨u ++ w, by simp only [PwSt.run, List.foldl_cons] at hw ⊢; rw [hw, hu, List.append_assoc]⟩

theorem inv_run {total : Nat} {s : PwSt} (h : Inv total s) (l : List PwAct) (hc : Coherent (fun _ => 0) (s.run total l).log) :
    Inv total (s.run total l) := by
  induction l generalizing s with
  | nil => exact h
  | cons o l ih =>
    refine ih (inv_step h o ?_) hc
    obtain ⟨u, hu⟩ := run_log total (s.step total o) l
    have : (s.run total (o :: l)).log = (s.step total o).log ++ u := hu
    rw [this] at hc
    exact coherent_left hc

end Par
end CGraph.Weak
