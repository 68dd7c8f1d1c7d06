import Verif.Spec.PipeMgr
import Mathlib.Data.List.Perm.Basic
import Mathlib.Data.List.Nodup

/-! # Lemmas about the pipeline manager -/
namespace CGraph
namespace PmSt
open Spec

theorem exec_append (s : PmSt) (as bs : List PmAct) : s.exec (as ++ bs) = (s.exec as).exec bs := by
  induction as generalizing s with
  | nil => rfl
  | cons a as ih => exact ih _

theorem pmRegs_snoc (l : List PmEv) (x : PmEv) : pmRegs (l ++ [x]) = match x with
    | .added p => pmRegs l ++ [p]
    | .removed p => (pmRegs l).filter (· != p)
    | .cleared => []
    | _ => pmRegs l := by
  unfold pmRegs
  rw [List.foldl_append]
  rfl

theorem pmHeld_snoc (l : List PmEv) (x : PmEv) : pmHeld (l ++ [x]) = match x with
    | .begin t p => pmHeld l ++ [(t, p)]
    | .done t p _ => (pmHeld l).filter (· != (t, p))
    | .thrown t p => (pmHeld l).filter (· != (t, p))
    | _ => pmHeld l := by
  unfold pmHeld
  rw [List.foldl_append]
  rfl

theorem pmLost_snoc (l : List PmEv) (x : PmEv) : pmLost (l ++ [x]) = match x with
    | .thrown _ p => pmLost l ++ [p]
    | _ => pmLost l := by
  unfold pmLost
  rw [List.filterMap_append]
  cases x <;> simp

theorem fair_snoc {l : List PmEv} {x : PmEv} (h : PmFair (l ++ [x])) : PmFair l := by
  obtain ⟨a, b, c⟩ := h
  refine ⟨?_, ?_, ?_⟩
  · rintro p q y rfl; exact a p (q ++ [x]) y (by simp)
  · rintro p q y rfl; exact b p (q ++ [x]) y (by simp)
  · rintro p q rfl; exact c p (q ++ [x]) (by simp)

/-- The invariant, for fair histories. -/
structure Inv (s : PmSt) : Prop where
  reg : (s.mgr.free ++ s.mgr.used).Perm (pmRegs s.hist)
  nodup : (s.mgr.free ++ s.mgr.used).Nodup
  busy : s.mgr.used.Perm (pmBusy s.hist)
  pcs : ∀ t p, s.pc t = .hold p ↔ (t, p) ∈ pmHeld s.hist
  noFree : ∀ t p q, s.hist = p ++ .noFree t :: q → ∀ x, x ∈ pmRegs p → x ∈ pmBusy p
  got : ∀ t x p q, s.hist = p ++ .begin t x :: q → x ∈ pmRegs p ∧ x ∉ pmBusy p
  ok : ∀ t x r p q, s.hist = p ++ .done t x r :: q → r = true
  stop : ∀ x p q, s.hist = p ++ x :: q → x = .destroyed ∨ x = .inited → pmBusy p = []

theorem snoc_split {l p q : List PmEv} {x y : PmEv} (h : l ++ [x] = p ++ y :: q) :
    (q = [] ∧ x = y ∧ l = p) ∨ ∃ q', l = p ++ y :: q' := by
  rcases List.eq_nil_or_concat q with rfl | ⟨q', z, rfl⟩
  · left
    have := List.append_inj' h rfl
    simp only [List.cons.injEq, and_true] at this
    exact ⟨rfl, this.2, this.1⟩
  · right
    have h2 : l ++ [x] = (p ++ y :: q') ++ [z] := by rw [h]; simp
    exact ⟨q', (List.append_inj' h2 rfl).1⟩

/-- Events that change neither the registered nor the busy pipelines. -/
def quiet : PmEv → Bool
  | .inited | .destroyed | .notInit _ | .refused | .noFree _ => true
  | _ => false

theorem quiet_regs {l : List PmEv} {x : PmEv} (h : quiet x = true) :
    pmRegs (l ++ [x]) = pmRegs l ∧ pmHeld (l ++ [x]) = pmHeld l ∧ pmBusy (l ++ [x]) = pmBusy l := by
  have h1 : pmRegs (l ++ [x]) = pmRegs l := by rw [pmRegs_snoc]; cases x <;> simp_all [quiet]
  have h2 : pmHeld (l ++ [x]) = pmHeld l := by rw [pmHeld_snoc]; cases x <;> simp_all [quiet]
  have h3 : pmLost (l ++ [x]) = pmLost l := by rw [pmLost_snoc]; cases x <;> simp_all [quiet]
  exact ⟨h1, h2, by unfold pmBusy; rw [h2, h3]⟩

/-- The three facts about the past, extended by an event. -/
theorem Inv.past {s : PmSt} (h : Inv s) {x : PmEv}
    (h1 : ∀ t, x = .noFree t → ∀ y, y ∈ pmRegs s.hist → y ∈ pmBusy s.hist)
    (h2 : ∀ t y, x = .begin t y → y ∈ pmRegs s.hist ∧ y ∉ pmBusy s.hist)
    (h3 : ∀ t y r, x = .done t y r → r = true) (h4 : x = .destroyed ∨ x = .inited → pmBusy s.hist = []) :
    (∀ t p q, s.hist ++ [x] = p ++ .noFree t :: q → ∀ y, y ∈ pmRegs p → y ∈ pmBusy p) ∧
    (∀ t y p q, s.hist ++ [x] = p ++ .begin t y :: q → y ∈ pmRegs p ∧ y ∉ pmBusy p) ∧
    (∀ t y r p q, s.hist ++ [x] = p ++ .done t y r :: q → r = true) ∧
    (∀ y p q, s.hist ++ [x] = p ++ y :: q → y = .destroyed ∨ y = .inited → pmBusy p = []) := by
  refine ⟨?_, ?_, ?_, ?_⟩
  · intro t p q hs
    rcases snoc_split hs with ⟨_, hx, rfl⟩ | ⟨q', hq⟩
    · exact h1 t hx
    · exact h.noFree t p q' hq
  · intro t y p q hs
    rcases snoc_split hs with ⟨_, hx, rfl⟩ | ⟨q', hq⟩
    · exact h2 t y hx
    · exact h.got t y p q' hq
  · intro t y r p q hs
    rcases snoc_split hs with ⟨_, hx, rfl⟩ | ⟨q', hq⟩
    · exact h3 t y r hx
    · exact h.ok t y r p q' hq
  · intro y p q hs hy
    rcases snoc_split hs with ⟨_, hx, rfl⟩ | ⟨q', hq⟩
    · exact h4 (hx ▸ hy)
    · exact h.stop y p q' hq hy

/-- A step that only records a quiet event. -/
theorem Inv.quiet {s : PmSt} (h : Inv s) {x : PmEv} (hx : quiet x = true) {b : Bool} {pc' : Nat → PmPc}
    (hpc : ∀ t p, pc' t = .hold p ↔ s.pc t = .hold p)
    (h1 : ∀ t, x = .noFree t → ∀ y, y ∈ pmRegs s.hist → y ∈ pmBusy s.hist)
    (h4 : x = .destroyed ∨ x = .inited → pmBusy s.hist = []) :
    Inv ⟨{ s.mgr with isInit := b }, pc', s.hist ++ [x]⟩ := by
  obtain ⟨a1, a2, a3⟩ := quiet_regs (l := s.hist) hx
  obtain ⟨b1, b2, b3, b4⟩ := h.past (x := x) h1 (by rintro t y rfl; cases hx) (by rintro t y r rfl; cases hx) h4
  refine ⟨?_, h.nodup, ?_, ?_, b1, b2, b3, b4⟩
  · rw [a1]; exact h.reg
  · rw [a3]; exact h.busy
  · intro t p; rw [a2]; exact (hpc t p).trans (h.pcs t p)

theorem Inv.mem_busy {s : PmSt} (h : Inv s) {p : Nat} : p ∈ s.mgr.used ↔ p ∈ pmBusy s.hist := h.busy.mem_iff

theorem Inv.mem_reg {s : PmSt} (h : Inv s) {p : Nat} : p ∈ s.mgr.free ∨ p ∈ s.mgr.used ↔ p ∈ pmRegs s.hist := by
  rw [← h.reg.mem_iff, List.mem_append]

theorem held_busy {l : List PmEv} {t p : Nat} (h : (t, p) ∈ pmHeld l) : p ∈ pmBusy l := by
  unfold pmBusy
  exact List.mem_append_left _ (List.mem_map.mpr ⟨(t, p), h, rfl⟩)

theorem Inv.busy_nodup {s : PmSt} (h : Inv s) : (pmBusy s.hist).Nodup :=
  h.busy.nodup_iff.mp (List.nodup_append.mp h.nodup).2.1

/-- A pipeline is executed by one caller at most. -/
theorem Inv.held_inj {s : PmSt} (h : Inv s) {t u p : Nat} (h1 : (t, p) ∈ pmHeld s.hist) (h2 : (u, p) ∈ pmHeld s.hist) :
    t = u := by
  have hn := h.busy_nodup
  unfold pmBusy at hn
  have := List.inj_on_of_nodup_map (List.nodup_append.mp hn).1 h1 h2 rfl
  exact (Prod.mk.injEq _ _ _ _ ▸ this).1

theorem filter_map_snd {l : List (Nat × Nat)} {t p : Nat} (h : (l.map Prod.snd).Nodup) (hm : (t, p) ∈ l) :
    (l.filter (· != (t, p))).map Prod.snd = (l.map Prod.snd).filter (· != p) := by
  induction l with
  | nil => cases hm
  | cons a l ih =>
    simp only [List.map_cons, List.nodup_cons] at h
    rcases List.mem_cons.mp hm with rfl | hm'
    · have hnot : ∀ b ∈ l, b.2 ≠ p := by
        intro b hb hbp
        exact h.1 (List.mem_map.mpr ⟨b, hb, hbp⟩)
      have e1 : l.filter (· != (t, p)) = l := by
        rw [List.filter_eq_self]
        intro b hb
        simp only [bne_iff_ne, ne_eq]
        intro hbe; exact hnot b hb (by rw [hbe])
      have e2 : (l.map Prod.snd).filter (· != p) = l.map Prod.snd := by
        rw [List.filter_eq_self]
        intro b hb
        obtain ⟨c, hc, rfl⟩ := List.mem_map.mp hb
        simpa using hnot c hc
      simp [e1, e2]
    · have ha : a.2 ≠ p := by
        intro hap
        exact h.1 (List.mem_map.mpr ⟨(t, p), hm', hap.symm⟩)
      have ha' : a ≠ (t, p) := by intro hh; exact ha (by rw [hh])
      simp [ha, ha', ih h.2 hm']

theorem perm_filter_cons {l : List Nat} {p : Nat} (hn : l.Nodup) (hm : p ∈ l) :
    (p :: l.filter (· != p)).Perm l := by
  rw [List.perm_ext_iff_of_nodup]
  · intro a
    simp only [List.mem_cons, List.mem_filter, bne_iff_ne, ne_eq]
    constructor
    · rintro (rfl | h)
      · exact hm
      · exact h.1
    · intro h
      by_cases hap : a = p
      · exact Or.inl hap
      · exact Or.inr ⟨h, hap⟩
  · rw [List.nodup_cons]
    exact ⟨by simp, hn.filter _⟩
  · exact hn

theorem Inv.busy_filter {s : PmSt} (h : Inv s) {t p : Nat} (hm : (t, p) ∈ pmHeld s.hist) :
    ((pmHeld s.hist).filter (· != (t, p))).map Prod.snd ++ pmLost s.hist = (pmBusy s.hist).filter (· != p) := by
  have hn := h.busy_nodup
  unfold pmBusy at hn ⊢
  obtain ⟨h1, _, h3⟩ := List.nodup_append.mp hn
  rw [List.filter_append, filter_map_snd h1 hm]
  congr 1
  symm
  rw [List.filter_eq_self]
  intro b hb
  simp only [bne_iff_ne, ne_eq]
  intro hbp
  exact h3 p (List.mem_map.mpr ⟨(t, p), hm, rfl⟩) b hb hbp.symm

theorem Inv.add {s : PmSt} (h : Inv s) {p : Nat} (hp : p ∉ pmRegs s.hist) :
    Inv ⟨{ s.mgr with free := s.mgr.free ++ [p] }, s.pc, s.hist ++ [.added p]⟩ := by
  obtain ⟨b1, b2, b3, b4⟩ := h.past (x := .added p) (by simp) (by simp) (by simp) (by simp)
  have hperm : ((s.mgr.free ++ [p]) ++ s.mgr.used).Perm (pmRegs s.hist ++ [p]) := by
    refine (List.Perm.trans ?_ (h.reg.append_right [p]))
    rw [List.append_assoc, List.append_assoc]
    exact List.Perm.append_left _ List.perm_append_comm
  have hb : pmBusy (s.hist ++ [.added p]) = pmBusy s.hist := by
    unfold pmBusy; rw [pmHeld_snoc, pmLost_snoc]
  refine ⟨?_, ?_, ?_, ?_, b1, b2, b3, b4⟩
  · rw [pmRegs_snoc]; exact hperm
  · rw [hperm.nodup_iff, List.nodup_append]
    exact ⟨h.reg.nodup_iff.mp h.nodup, by simp, by
      intro a ha b hbb hab
      simp only [List.mem_singleton] at hbb
      rw [hab, hbb] at ha; exact hp ha⟩
  · rw [hb]; exact h.busy
  · intro t q; rw [pmHeld_snoc]; exact h.pcs t q

theorem Inv.remove {s : PmSt} (h : Inv s) {p : Nat} (hp : p ∉ pmBusy s.hist) :
    Inv ⟨{ s.mgr with free := s.mgr.free.filter (· != p) }, s.pc, s.hist ++ [.removed p]⟩ := by
  obtain ⟨b1, b2, b3, b4⟩ := h.past (x := .removed p) (by simp) (by simp) (by simp) (by simp)
  have hu : s.mgr.used.filter (· != p) = s.mgr.used := by
    rw [List.filter_eq_self]
    intro a ha
    simp only [bne_iff_ne, ne_eq]
    rintro rfl
    exact hp (h.mem_busy.mp ha)
  have he : s.mgr.free.filter (· != p) ++ s.mgr.used = (s.mgr.free ++ s.mgr.used).filter (· != p) := by
    rw [List.filter_append, hu]
  have hb : pmBusy (s.hist ++ [.removed p]) = pmBusy s.hist := by
    unfold pmBusy; rw [pmHeld_snoc, pmLost_snoc]
  refine ⟨?_, ?_, ?_, ?_, b1, b2, b3, b4⟩
  · rw [pmRegs_snoc]; show (s.mgr.free.filter (· != p) ++ s.mgr.used).Perm _; rw [he]; exact h.reg.filter _
  · show (s.mgr.free.filter (· != p) ++ s.mgr.used).Nodup; rw [he]; exact h.nodup.filter _
  · rw [hb]; exact h.busy
  · intro t q; rw [pmHeld_snoc]; exact h.pcs t q

theorem Inv.clear {s : PmSt} (h : Inv s) (hp : pmBusy s.hist = []) :
    Inv ⟨{ s.mgr with free := [], used := [] }, s.pc, s.hist ++ [.cleared]⟩ := by
  obtain ⟨b1, b2, b3, b4⟩ := h.past (x := .cleared) (by simp) (by simp) (by simp) (by simp)
  have hb : pmBusy (s.hist ++ [.cleared]) = [] := by
    unfold pmBusy; rw [pmHeld_snoc, pmLost_snoc]; exact hp
  refine ⟨?_, by simp, ?_, ?_, b1, b2, b3, b4⟩
  · rw [pmRegs_snoc]; simp
  · rw [hb]
  · intro t q; rw [pmHeld_snoc]; exact h.pcs t q

theorem Inv.fetch {s : PmSt} (h : Inv s) {t p : Nat} {l : List Nat} (hf : s.mgr.free = p :: l)
    (ht : ∀ q, s.pc t ≠ .hold q) :
    Inv ⟨{ s.mgr with free := l, used := s.mgr.used ++ [p] }, fun u => if u = t then .hold p else s.pc u,
      s.hist ++ [.begin t p]⟩ := by
  have hnd := h.nodup
  rw [hf] at hnd
  simp only [List.cons_append, List.nodup_cons, List.mem_append, not_or] at hnd
  have hpf : p ∈ pmRegs s.hist := h.mem_reg.mp (Or.inl (by rw [hf]; simp))
  have hpb : p ∉ pmBusy s.hist := fun x => hnd.1.2 (h.mem_busy.mpr x)
  obtain ⟨b1, b2, b3, b4⟩ := h.past (x := .begin t p) (by simp) (by
    intro u y he
    simp only [PmEv.begin.injEq] at he
    obtain ⟨_, rfl⟩ := he
    exact ⟨hpf, hpb⟩) (by simp) (by simp)
  have hperm : (l ++ (s.mgr.used ++ [p])).Perm (s.mgr.free ++ s.mgr.used) := by
    rw [hf, ← List.append_assoc]
    exact List.perm_append_singleton _ _
  refine ⟨?_, ?_, ?_, ?_, b1, b2, b3, b4⟩
  · rw [pmRegs_snoc]; exact hperm.trans h.reg
  · exact hperm.nodup_iff.mpr h.nodup
  · have : pmBusy (s.hist ++ [.begin t p]) = (pmHeld s.hist).map Prod.snd ++ [p] ++ pmLost s.hist := by
      unfold pmBusy; rw [pmHeld_snoc, pmLost_snoc]; simp
    rw [this]
    have h2 : (s.mgr.used ++ [p]).Perm (pmBusy s.hist ++ [p]) := h.busy.append_right _
    refine h2.trans ?_
    unfold pmBusy
    rw [List.append_assoc, List.append_assoc]
    exact List.Perm.append_left _ List.perm_append_comm
  · intro u q
    rw [pmHeld_snoc]
    simp only [List.mem_append, List.mem_singleton, Prod.mk.injEq]
    by_cases hu : u = t
    · subst hu
      simp only [if_true, PmPc.hold.injEq, true_and]
      constructor
      · intro hq; exact Or.inr hq.symm
      · rintro (hq | hq)
        · exact absurd ((h.pcs u q).mpr hq) (ht q)
        · exact hq.symm
    · simp only [hu, if_false, false_and, or_false]
      exact h.pcs u q

theorem held_filter {l : List (Nat × Nat)} {t p u q : Nat} :
    (u, q) ∈ l.filter (· != (t, p)) ↔ (u, q) ∈ l ∧ ¬ (u = t ∧ q = p) := by
  simp [List.mem_filter]

theorem Inv.pcs_drop {s : PmSt} (h : Inv s) {t p : Nat} (ht : s.pc t = .hold p) (u q : Nat) :
    (if u = t then PmPc.out else s.pc u) = .hold q ↔ (u, q) ∈ (pmHeld s.hist).filter (· != (t, p)) := by
  rw [held_filter]
  by_cases hu : u = t
  · subst hu
    simp only [if_true, reduceCtorEq, true_and, false_iff, not_and, Classical.not_not]
    intro hq
    have := (h.pcs u q).mpr hq
    rw [ht] at this
    exact (PmPc.hold.injEq _ _ ▸ this).symm
  · simp only [hu, if_false, false_and, not_false_eq_true, and_true]
    exact h.pcs u q

theorem Inv.release {s : PmSt} (h : Inv s) {t p : Nat} (ht : s.pc t = .hold p) :
    s.mgr.release p = (true, { s.mgr with used := s.mgr.used.filter (· != p), free := p :: s.mgr.free }) ∧
    Inv ⟨{ s.mgr with used := s.mgr.used.filter (· != p), free := p :: s.mgr.free },
      fun u => if u = t then .out else s.pc u, s.hist ++ [.done t p true]⟩ := by
  have hheld := (h.pcs t p).mp ht
  have hused : p ∈ s.mgr.used := h.mem_busy.mpr (held_busy hheld)
  constructor
  · unfold PipeMgr.release
    rw [if_pos (by simpa using hused)]
  obtain ⟨b1, b2, b3, b4⟩ := h.past (x := .done t p true) (by simp) (by simp) (by
    intro u y r he; simp only [PmEv.done.injEq] at he; exact he.2.2.symm) (by simp)
  have hun : s.mgr.used.Nodup := (List.nodup_append.mp h.nodup).2.1
  have hperm : ((p :: s.mgr.free) ++ s.mgr.used.filter (· != p)).Perm (s.mgr.free ++ s.mgr.used) := by
    refine List.Perm.trans ?_ (List.Perm.append_left _ (perm_filter_cons hun hused))
    exact List.perm_middle.symm
  refine ⟨?_, hperm.nodup_iff.mpr h.nodup, ?_, ?_, b1, b2, b3, b4⟩
  · rw [pmRegs_snoc]; exact hperm.trans h.reg
  · have : pmBusy (s.hist ++ [.done t p true]) = (pmBusy s.hist).filter (· != p) := by
      rw [← h.busy_filter hheld]; unfold pmBusy; rw [pmHeld_snoc, pmLost_snoc]
    rw [this]
    exact h.busy.filter _
  · intro u q
    rw [pmHeld_snoc]
    exact h.pcs_drop ht u q

theorem Inv.throw {s : PmSt} (h : Inv s) {t p : Nat} (ht : s.pc t = .hold p) :
    Inv ⟨s.mgr, fun u => if u = t then .out else s.pc u, s.hist ++ [.thrown t p]⟩ := by
  have hheld := (h.pcs t p).mp ht
  obtain ⟨b1, b2, b3, b4⟩ := h.past (x := .thrown t p) (by simp) (by simp) (by simp) (by simp)
  refine ⟨?_, h.nodup, ?_, ?_, b1, b2, b3, b4⟩
  · rw [pmRegs_snoc]; exact h.reg
  · have : pmBusy (s.hist ++ [.thrown t p]) = (pmBusy s.hist).filter (· != p) ++ [p] := by
      rw [← h.busy_filter hheld]; unfold pmBusy; rw [pmHeld_snoc, pmLost_snoc, List.append_assoc]
    rw [this]
    refine h.busy.trans ?_
    exact ((List.perm_append_singleton _ _).trans (perm_filter_cons h.busy_nodup (held_busy hheld))).symm
  · intro u q
    rw [pmHeld_snoc]
    exact h.pcs_drop ht u q

theorem Inv.quietPc {s : PmSt} (h : Inv s) {pc' : Nat → PmPc} (hpc : ∀ t p, pc' t = .hold p ↔ s.pc t = .hold p) :
    Inv ⟨s.mgr, pc', s.hist⟩ :=
  ⟨h.reg, h.nodup, h.busy, fun t p => (hpc t p).trans (h.pcs t p), h.noFree, h.got, h.ok, h.stop⟩

theorem inv_start : Inv start where
  reg := by simp [start, PipeMgr.new, pmRegs]
  nodup := by simp [start, PipeMgr.new]
  busy := by simp [start, PipeMgr.new, pmBusy, pmHeld, pmLost]
  pcs := by simp [start, pmHeld]
  noFree := by simp [start]
  got := by simp [start]
  ok := by simp [start]
  stop := by simp [start]

theorem Inv.step {s s' : PmSt} (h : Inv s) {a : PmAct} (hs : s.step a = some s') (hf : PmFair s'.hist) : Inv s' := by
  have hsame : ∀ t p, s.pc t = .hold p ↔ s.pc t = .hold p := fun _ _ => Iff.rfl
  have hctl : ∀ x, PmSt.quiet x = true → (x = .destroyed ∨ x = .inited → pmBusy s.hist = []) → (∀ t, x ≠ .noFree t) → Inv ⟨s.mgr, s.pc, s.hist ++ [x]⟩ := by
    intro x hx hd hn
    exact h.quiet hx (b := s.mgr.isInit) hsame (fun t ht => absurd ht (hn t)) hd
  have href := hctl .refused rfl (by simp) (by simp)
  cases a with
  | add p =>
    simp only [PmSt.step, Option.some.injEq] at hs
    subst hs
    by_cases hi : s.mgr.isInit
    · simpa [PmSt.ctl, PipeMgr.add, hi] using href
    · simp only [PmSt.ctl, PipeMgr.add, hi, Bool.false_eq_true, if_false, if_true] at hf ⊢
      simpa [hi] using h.add (hf.1 _ [] p rfl)
  | remove p =>
    simp only [PmSt.step, Option.some.injEq] at hs
    subst hs
    by_cases hi : s.mgr.isInit
    · simpa [PmSt.ctl, PipeMgr.remove, hi] using href
    · simp only [PmSt.ctl, PipeMgr.remove, hi, Bool.false_eq_true, if_false, if_true] at hf ⊢
      simpa [hi] using h.remove (hf.2.1 _ [] p rfl)
  | clear =>
    simp only [PmSt.step, Option.some.injEq] at hs
    subst hs
    by_cases hi : s.mgr.isInit
    · simpa [PmSt.ctl, PipeMgr.clear, hi] using href
    · simp only [PmSt.ctl, PipeMgr.clear, hi, Bool.false_eq_true, if_false, if_true] at hf ⊢
      simpa [hi] using h.clear (hf.2.2 _ [] rfl)
  | init ok =>
    simp only [PmSt.step, Option.some.injEq] at hs
    subst hs
    unfold PmSt.ctl PipeMgr.init at hf ⊢
    split
    · exact href
    · split
      · exact href
      · rename_i hu
        split
        · refine h.quiet (x := .inited) rfl hsame (by simp) (fun _ => ?_)
          have hb := h.busy
          rw [Classical.not_not.mp hu] at hb
          exact hb.symm.eq_nil
        · exact href
  | destroy ok =>
    simp only [PmSt.step, Option.some.injEq] at hs
    subst hs
    unfold PmSt.ctl PipeMgr.destroy at hf ⊢
    split
    · exact href
    · split
      · exact href
      · rename_i hu
        split
        · refine h.quiet (x := .destroyed) rfl hsame (by simp) (fun _ => ?_)
          have hb := h.busy
          rw [Classical.not_not.mp hu] at hb
          exact hb.symm.eq_nil
        · exact href
  | run t =>
    simp only [PmSt.step] at hs
    split at hs
    · rename_i ho
      split at hs
      · cases hs
        refine h.quietPc (pc' := fun u => if u = t then .checked else s.pc u) ?_
        intro u p
        by_cases hu : u = t
        · subst hu; simp [ho]
        · simp [hu]
      · cases hs; exact hctl (.notInit t) rfl (by simp) (by simp)
    · cases hs
  | fetch t =>
    have hgo : (∀ q, s.pc t ≠ .hold q) → (match s.mgr.fetch with
        | (none, m) => some { s.setPc t .out with mgr := m, hist := s.hist ++ [.noFree t] }
        | (some p, m) => some { s.setPc t (.hold p) with mgr := m, hist := s.hist ++ [.begin t p] }) = some s' →
        Inv s' := by
      intro ht hm
      unfold PipeMgr.fetch at hm
      cases hfree : s.mgr.free with
      | nil =>
        rw [hfree] at hm
        simp only [Option.some.injEq] at hm
        subst hm
        refine h.quiet (x := .noFree t) rfl (b := s.mgr.isInit) ?_ ?_ (by simp)
        · intro u p
          by_cases hu : u = t
          · subst hu; simp [ht p, setPc]
          · simp [hu, setPc]
        · intro _ _ y hy
          rcases h.mem_reg.mpr hy with h1 | h1
          · rw [hfree] at h1; cases h1
          · exact h.mem_busy.mp h1
      | cons p l =>
        rw [hfree] at hm
        simp only [Option.some.injEq] at hm
        subst hm
        exact h.fetch hfree ht
    simp only [PmSt.step] at hs
    cases hp : s.pc t with
    | hold q => rw [hp] at hs; cases hs
    | out => rw [hp] at hs; exact hgo (by rw [hp]; simp) hs
    | checked => rw [hp] at hs; exact hgo (by rw [hp]; simp) hs
  | release t =>
    simp only [PmSt.step] at hs
    split at hs
    · rename_i p hp
      cases hs
      obtain ⟨h1, h2⟩ := h.release hp
      rw [h1]
      exact h2
    · cases hs
  | throw t =>
    simp only [PmSt.step] at hs
    split at hs
    · rename_i p hp
      cases hs
      exact h.throw hp
    · cases hs

theorem step_hist {s s' : PmSt} {a : PmAct} (hs : s.step a = some s') : s'.hist = s.hist ∨ ∃ x, s'.hist = s.hist ++ [x] := by
  cases a with
  | run t =>
    simp only [PmSt.step] at hs
    split at hs
    · split at hs
      · cases hs; exact Or.inl rfl
      · cases hs; exact Or.inr ⟨_, rfl⟩
    · cases hs
  | fetch t =>
    simp only [PmSt.step] at hs
    split at hs
    · cases hs
    · split at hs
      · cases hs; exact Or.inr ⟨_, rfl⟩
      · cases hs; exact Or.inr ⟨_, rfl⟩
  | release t =>
    simp only [PmSt.step] at hs
    split at hs
    · cases hs; exact Or.inr ⟨_, rfl⟩
    · cases hs
  | throw t =>
    simp only [PmSt.step] at hs
    split at hs
    · cases hs; exact Or.inr ⟨_, rfl⟩
    · cases hs
  | _ => cases hs; exact Or.inr ⟨_, rfl⟩

theorem exec_hist (as : List PmAct) (s : PmSt) : ∃ l, (s.exec as).hist = s.hist ++ l := by
  induction as generalizing s with
  | nil => exact ⟨[], by simp [exec]⟩
  | cons a as ih =>
    rw [exec]
    obtain ⟨l, hl⟩ := ih ((s.step a).getD s)
    cases hs : s.step a with
    | none => rw [hs] at hl; exact ⟨l, hl⟩
    | some s' =>
      rw [hs] at hl
      rcases step_hist hs with h1 | ⟨x, h1⟩
      · exact ⟨l, by rw [Option.getD_some] at hl ⊢; rw [hl, h1]⟩
      · exact ⟨x :: l, by rw [Option.getD_some] at hl ⊢; rw [hl, h1]; simp⟩

theorem fair_prefix {l m : List PmEv} (h : PmFair (l ++ m)) : PmFair l := by
  obtain ⟨a, b, c⟩ := h
  refine ⟨?_, ?_, ?_⟩
  · rintro p q y rfl; exact a p (q ++ m) y (by simp)
  · rintro p q y rfl; exact b p (q ++ m) y (by simp)
  · rintro p q rfl; exact c p (q ++ m) (by simp)

theorem Inv.exec (as : List PmAct) {s : PmSt} (h : Inv s) (hf : PmFair (s.exec as).hist) : Inv (s.exec as) := by
  induction as generalizing s with
  | nil => exact h
  | cons a as ih =>
    rw [PmSt.exec] at hf ⊢
    refine ih ?_ hf
    obtain ⟨l, hl⟩ := exec_hist as ((s.step a).getD s)
    rw [hl] at hf
    have hf' := fair_prefix hf
    cases hs : s.step a with
    | none => exact h
    | some s' => rw [hs] at hf'; exact h.step hs hf'

end PmSt
end CGraph
