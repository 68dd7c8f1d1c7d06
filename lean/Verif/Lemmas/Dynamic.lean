import Verif.Model.Dynamic
import Verif.Lemmas.Kahn
import Verif.Lemmas.StaticRun

/-! Invariant of the dynamic engine under every interleaving. -/
namespace CGraph

namespace DynCfg

theorem isLink_iff {c : DynCfg} {e : Eid} (h : c.isLink e = true) :
    ∃ x, c.g.succs e = [x] ∧ (c.g.deps x).length = 1 := by
  unfold isLink at h
  split at h
  · rename_i x hx
    simp at h
    exact ⟨x, hx, h.1⟩
  · simp at h

theorem shape_linkable {c : DynCfg} {e : Eid} (h : c.shapeOf e = .linkable) :
    ∃ x, c.g.succs e = [x] ∧ (c.g.deps x).length = 1 := by
  apply isLink_iff
  unfold shapeOf at h
  grind

theorem shape_root {c : DynCfg} {e : Eid} (h : c.shapeOf e = .root) :
    ∀ x ∈ c.g.succs e, (c.g.deps x).length = 1 := by
  unfold shapeOf at h
  split at h
  · simp at h
  · split at h
    · rename_i h2
      simp at h2
      exact h2.2
    · grind

theorem shape_tail {c : DynCfg} {e : Eid} (h : c.shapeOf e = .tail) : c.g.succs e = [] := by
  unfold shapeOf at h
  grind

theorem shape_of_nil {c : DynCfg} {e : Eid} (h : c.g.succs e = []) : c.shapeOf e = .tail := by
  simp [shapeOf, isLink, h]

theorem shape_normal {c : DynCfg} {e : Eid} (w : c.g.WF) (h : c.shapeOf e = .normal) {x : Eid}
    (he : e ∈ c.g.elems) (hx : x ∈ c.g.succs e) : ∀ d ∈ c.g.deps x, c.shapeOf d = .normal := by
  intro d hd
  have hxe := w.closedS e he x hx
  have hde := w.closedD x hxe d hd
  have hdx : x ∈ c.g.succs d := (w.sym d x).2 hd
  have hex : e ∈ c.g.deps x := (w.sym e x).1 hx
  by_cases h1 : (c.g.deps x).length = 1
  · obtain ⟨y, hy⟩ := List.length_eq_one_iff.1 h1
    rw [hy] at hd hex
    simp at hd hex
    rw [hd, ← hex]; exact h
  · cases hs : c.shapeOf d with
    | normal => rfl
    | linkable =>
      obtain ⟨y, hy, hl⟩ := shape_linkable hs
      rw [hy] at hdx; simp at hdx
      subst hdx; exact absurd hl h1
    | root => exact absurd (shape_root hs x hdx) h1
    | tail => rw [shape_tail hs] at hdx; simp at hdx

end DynCfg

/-- Released, not yet started elements a thread carries. -/
def Job.held : Job → List Eid
  | .exec e => [e]
  | .proc e => [e]
  | .nIter _ _ (some r) => [r]
  | .nPost _ x _ r => [x, r]
  | .rIter _ rest => rest
  | _ => []

/-- The element whose body the thread is executing. -/
def Job.bodyOf : Job → List Eid
  | .body e => [e]
  | _ => []

/-- Dependency edges the thread has still to account for. -/
def Job.pend (g : Graph) : Job → List (Eid × Eid)
  | .after e => (g.succs e).map (fun x => (e, x))
  | .nIter e rest _ => rest.map (fun x => (e, x))
  | .nPost e _ rest _ => rest.map (fun x => (e, x))
  | _ => []

/-- Tails the thread has still to count. -/
def Job.endp (g : Graph) : Job → List Eid
  | .after e => if g.succs e = [] then [e] else []
  | .tailInc e => [e]
  | _ => []

/-- The thread will not touch any engine data any more, except for a notification. -/
def Job.harmless : Job → Bool
  | .nIter _ [] none => true
  | .rIter _ [] => true
  | .tailNotify => true
  | .errNotify => true
  | _ => false

namespace DynSt

/-- How often `x` occurs in the lists that `f` assigns to the jobs. -/
def cnt {α : Type} [BEq α] (f : Job → List α) (J : List Job) (x : α) : Nat := (J.flatMap f).count x

@[simp] theorem cnt_nil {α : Type} [BEq α] (f : Job → List α) (x : α) : cnt f [] x = 0 := rfl

@[simp] theorem cnt_cons {α : Type} [BEq α] (f : Job → List α) (j : Job) (J : List Job) (x : α) :
    cnt f (j :: J) x = (f j).count x + cnt f J x := by
  simp [cnt, List.flatMap_cons, List.count_append]

theorem cnt_perm {α : Type} [BEq α] (f : Job → List α) {J J' : List Job} (h : J.Perm J') (x : α) :
    cnt f J x = cnt f J' x := (h.flatMap_right f).count_eq x

/-- All dependencies of `v` have been accounted for. -/
def Ready (c : DynCfg) (s : DynSt) (v : Eid) : Prop := ∀ d ∈ c.g.deps v, (d, v) ∈ s.fired

/-- Number of dependencies of `v` not yet accounted for. -/
def unfired (c : DynCfg) (s : DynSt) (v : Eid) : Nat :=
  ((c.g.deps v).filter (fun d => (d, v) ∉ s.fired)).length

/-- Per job facts. -/
def JobOk (c : DynCfg) (s : DynSt) : Job → Prop
  | .nIter e _ _ => c.shapeOf e = .normal ∧ e ∈ c.g.elems
  | .nPost e _ _ _ => c.shapeOf e = .normal ∧ e ∈ c.g.elems
  | .errSet st => st.isErr = true ∧ ∃ e, (e, st) ∈ s.failed
  | _ => True

/-- Invariant of a run; `J` are the jobs of all threads including the caller, `fr` the front elements the
caller has still to process. -/
structure Inv (c : DynCfg) (s : DynSt) (J : List Job) (fr : List Eid) : Prop where
  tok : ∀ v, s.queue.count v + cnt Job.held J v + fr.count v + s.trace.count (.start v) ≤ 1
  rdy : ∀ v, 1 ≤ s.queue.count v + cnt Job.held J v + fr.count v + s.trace.count (.start v) →
    v ∈ c.g.elems ∧ Ready c s v
  tokE : s.failed = [] → ∀ v ∈ c.g.elems, Ready c s v →
    1 ≤ s.queue.count v + cnt Job.held J v + fr.count v + s.trace.count (.start v)
  body : ∀ v, cnt Job.bodyOf J v + s.trace.count (.finish v) + (s.failed.map Prod.fst).count v =
    s.trace.count (.start v)
  edge : ∀ e x, cnt (Job.pend c.g) J (e, x) + s.fired.count (e, x) ≤ s.trace.count (.finish e)
  edgeS : ∀ e x, 1 ≤ cnt (Job.pend c.g) J (e, x) + s.fired.count (e, x) → x ∈ c.g.succs e
  edgeE : s.failed = [] → ∀ e, ∀ x ∈ c.g.succs e,
    s.trace.count (.finish e) ≤ cnt (Job.pend c.g) J (e, x) + s.fired.count (e, x)
  leftN : ∀ v ∈ c.g.elems, s.trace.count (.start v) = 0 → (∀ d ∈ c.g.deps v, c.shapeOf d = .normal) →
    s.left v = (unfired c s v : Int)
  leftO : ∀ v ∈ c.g.elems, (s.trace.count (.start v) = 0 → ¬ ∀ d ∈ c.g.deps v, c.shapeOf d = .normal) →
    s.left v = ((c.g.deps v).length : Int)
  tails : ∀ v, cnt (Job.endp c.g) J v + s.ended.count v ≤ s.trace.count (.finish v)
  tailsS : ∀ v, 1 ≤ cnt (Job.endp c.g) J v + s.ended.count v → c.g.succs v = []
  tailsE : s.failed = [] → ∀ v, c.g.succs v = [] →
    s.trace.count (.finish v) ≤ cnt (Job.endp c.g) J v + s.ended.count v
  fin : s.fin = s.ended.length
  good : StaticSt.GoodTrace c.g.Edge s.trace
  stErr : s.status.isErr = true → ∃ p ∈ s.failed, s.status = p.2
  stOk : s.status.isErr = false → s.status = CStatus.ok
  stFail : s.failed ≠ [] → s.status.isErr = true ∨ ∃ st, Job.errSet st ∈ J
  failErr : ∀ p ∈ s.failed, p.2.isErr = true
  jobs : ∀ j ∈ J, JobOk c s j

/-- The part of the state the invariant talks about. -/
theorem Inv.congr {c : DynCfg} {s s' : DynSt} {J fr} (h : Inv c s J fr) (h1 : s'.queue = s.queue)
    (h2 : s'.trace = s.trace) (h3 : s'.fired = s.fired) (h4 : s'.failed = s.failed) (h5 : s'.ended = s.ended)
    (h6 : s'.fin = s.fin) (h7 : s'.left = s.left) (h8 : s'.status = s.status) : Inv c s' J fr := by
  have hR : Ready c s' = Ready c s := by funext v; simp only [Ready, h3]
  have hU : unfired c s' = unfired c s := by funext v; simp only [unfired, h3]
  have hJ : JobOk c s' = JobOk c s := by funext j; cases j <;> simp only [JobOk, h4]
  obtain ⟨a1, a2, a3, a4, a5, a6, a7, a8, a9, a10, a11, a12, a13, a14, a15, a16, a17, a18, a19⟩ := h
  constructor <;> simp only [h1, h2, h3, h4, h5, h6, h7, h8, hR, hU, hJ] <;> assumption

theorem Inv.perm {c : DynCfg} {s : DynSt} {J J' fr} (h : Inv c s J fr) (p : J.Perm J') : Inv c s J' fr := by
  obtain ⟨a1, a2, a3, a4, a5, a6, a7, a8, a9, a10, a11, a12, a13, a14, a15, a16, a17, a18, a19⟩ := h
  constructor <;> (try simp only [← cnt_perm _ p, ← p.mem_iff]) <;> assumption

theorem notify_inv {c : DynCfg} {s : DynSt} {J fr} (h : Inv c s J fr) : Inv c s.notify J fr := by
  unfold notify
  split
  · exact h.congr rfl rfl rfl rfl rfl rfl rfl rfl
  · exact h


theorem JobOk.mono {c : DynCfg} {s s' : DynSt} (h : ∀ p ∈ s.failed, p ∈ s'.failed) {j : Job}
    (hj : JobOk c s j) : JobOk c s' j := by
  cases j <;> simp only [JobOk] at * <;> grind

theorem unfired_zero {c : DynCfg} {s : DynSt} {v : Eid} : unfired c s v = 0 ↔ Ready c s v := by
  simp [unfired, Ready, List.length_eq_zero_iff, List.filter_eq_nil_iff]

theorem unfired_congr {c : DynCfg} {s s' : DynSt} {v : Eid}
    (h : ∀ d ∈ c.g.deps v, (d, v) ∈ s'.fired ↔ (d, v) ∈ s.fired) : unfired c s' v = unfired c s v := by
  unfold unfired
  congr 1
  apply List.filter_congr
  intro d hd
  simp [h d hd]

theorem filter_ne_length {l : List Eid} {e : Eid} {p : Eid → Bool} (hn : l.Nodup) (he : e ∈ l) (hp : p e = true) :
    (l.filter (fun d => p d && !decide (d = e))).length + 1 = (l.filter p).length := by
  induction l with
  | nil => simp at he
  | cons a l ih =>
    rw [List.nodup_cons] at hn
    by_cases hae : a = e
    · subst hae
      have : l.filter (fun d => p d && !decide (d = a)) = l.filter p := by
        apply List.filter_congr
        intro d hd
        have : d ≠ a := fun h => hn.1 (h ▸ hd)
        simp [this]
      simp [hp, this]
    · have := ih hn.2 (by simpa [Ne.symm hae] using he)
      by_cases hpa : p a = true
      · simp [hpa, hae]; simpa using this
      · simp [hpa]; simpa using this

theorem unfired_fire {c : DynCfg} {s s' : DynSt} {e x : Eid} (hn : (c.g.deps x).Nodup) (he : e ∈ c.g.deps x)
    (h0 : (e, x) ∉ s.fired) (hf : s'.fired = s.fired ++ [(e, x)]) :
    unfired c s' x + 1 = unfired c s x := by
  have := filter_ne_length (p := fun d => decide ((d, x) ∉ s.fired)) hn he (by simpa using h0)
  unfold unfired
  rw [← this]
  congr 2
  apply List.filter_congr
  intro d hd
  simp [hf]

theorem count_pair (e : Eid) (l : List Eid) (a b : Eid) :
    (l.map (fun x => (e, x))).count (a, b) = if a = e then l.count b else 0 := by
  induction l with
  | nil => simp
  | cons y l ih =>
    simp only [List.map_cons, List.count_cons, ih]
    by_cases h : a = e
    · subst h; simp
    · have : ¬ ((e, y) == (a, b)) = true := by simp; intro h1; exact absurd h1.symm h
      simp [h, Ne.symm h]

theorem Inv.finished_le {c : DynCfg} {s : DynSt} {J fr} (h : Inv c s J fr) (v : Eid) :
    s.trace.count (.finish v) ≤ 1 := by
  have := h.body v; have := h.tok v; omega


set_option maxHeartbeats 2000000
/-- Simplify all counts, then try everything. -/
macro "dyn_prep" : tactic => `(tactic| (
  constructor <;> (try dsimp only) <;>
    (try simp only [cnt_cons, Job.held, Job.bodyOf, Job.pend, Job.endp, List.count_append, List.count_cons,
      List.count_nil, List.mem_cons, count_pair, List.mem_append, List.cons_append, List.nil_append] at *) <;>
    (try assumption)))

theorem Inv.exec {c : DynCfg} {s : DynSt} {e J fr} (h : Inv c s (.exec e :: J) fr) :
    Inv c { s with left := Graph.setLeft s.left e ((c.g.deps e).length : Int),
                   trace := s.trace ++ [.start e] } (.body e :: J) fr := by
  have hrdy := h.rdy e
  have htok := h.tok e
  have hfired : ∀ d x, (d, x) ∈ s.fired → Ev.finish d ∈ s.trace := by
    intro d x hdx
    have := h.edge d x
    have h2 := List.count_pos_iff.2 hdx
    exact List.count_pos_iff.1 (by omega)
  simp [Job.held] at hrdy htok
  have hgood : StaticSt.GoodTrace c.g.Edge (s.trace ++ [.start e]) := by
    apply StaticSt.goodTrace_start h.good
    · rw [← List.count_eq_zero]; omega
    · intro d hd
      exact hfired d e ((hrdy (by omega)).2 d hd)
  have hs0 : List.count (Ev.start e) s.trace = 0 := by omega
  have hin := (hrdy (by omega)).1
  obtain ⟨a1, a2, a3, a4, a5, a6, a7, a8, a9, a10, a11, a12, a13, a14, a15, a16, a17, a18, a19⟩ := h
  dyn_prep
  case jobs =>
    intro j hj
    rcases hj with rfl | hj
    · first | trivial | exact ⟨by simpa [JobOk] using (a19 _ (Or.inl rfl)).1, by simpa [JobOk] using (a19 _ (Or.inl rfl)).2⟩
    · exact (a19 j (Or.inr hj)).mono (fun p hp => by first | exact hp | simp [hp])
  all_goals (try grind [Ready, unfired, Graph.setLeft])

theorem Inv.bodyOk {c : DynCfg} (w : c.g.WF) {s : DynSt} {e J fr} (h : Inv c s (.body e :: J) fr) :
    Inv c { s with trace := s.trace ++ [.finish e] } (.after e :: J) fr := by
  have hb := h.body e
  have htok := h.tok e
  simp [Job.bodyOf] at hb
  have hgood := StaticSt.goodTrace_finish h.good e
  have hin := (h.rdy e (by omega)).1
  have hsn : ∀ e ∈ c.g.elems, ∀ y, List.count y (c.g.succs e) ≤ 1 :=
    fun e he y => List.nodup_iff_count_le_one.1 (w.snodup e he) y
  have hsm : ∀ e y, 1 ≤ List.count y (c.g.succs e) ↔ y ∈ c.g.succs e := fun e y => List.count_pos_iff
  obtain ⟨a1, a2, a3, a4, a5, a6, a7, a8, a9, a10, a11, a12, a13, a14, a15, a16, a17, a18, a19⟩ := h
  dyn_prep
  case jobs =>
    intro j hj
    rcases hj with rfl | hj
    · first | trivial | exact ⟨by simpa [JobOk] using (a19 _ (Or.inl rfl)).1, by simpa [JobOk] using (a19 _ (Or.inl rfl)).2⟩
    · exact (a19 j (Or.inr hj)).mono (fun p hp => by first | exact hp | simp [hp])
  all_goals (try grind [Ready, unfired, Graph.setLeft])

theorem Inv.bodyErr {c : DynCfg} {s : DynSt} {e J fr} (h : Inv c s (.body e :: J) fr) {st : CStatus}
    (hst : st.isErr = true) :
    Inv c { s with failed := s.failed ++ [(e, st)] } (.errSet st :: J) fr := by
  obtain ⟨a1, a2, a3, a4, a5, a6, a7, a8, a9, a10, a11, a12, a13, a14, a15, a16, a17, a18, a19⟩ := h
  dyn_prep
  case jobs =>
    intro j hj
    rcases hj with rfl | hj
    · exact ⟨hst, e, by simp⟩
    · exact (a19 j (Or.inr hj)).mono (fun p hp => by simp [hp])
  case tokE => intro h0; simp at h0
  case edgeE => intro h0; simp at h0
  case tailsE => intro h0; simp at h0
  all_goals (try grind [Ready, unfired, Graph.setLeft])

theorem Inv.drop {c : DynCfg} {s : DynSt} {j J fr} (h : Inv c s (j :: J) fr) (he : s.status.isErr = true)
    (hb : j.bodyOf = []) (hs : ∀ st, j ≠ .errSet st) : Inv c s J fr := by
  obtain ⟨p, hp, -⟩ := h.stErr he
  have hf : s.failed ≠ [] := by intro h0; simp [h0] at hp
  obtain ⟨a1, a2, a3, a4, a5, a6, a7, a8, a9, a10, a11, a12, a13, a14, a15, a16, a17, a18, a19⟩ := h
  dyn_prep
  case jobs =>
    intro j hj
    exact (a19 j (Or.inr hj)).mono (fun p hp => by first | exact hp | simp [hp])
  all_goals (try grind [Ready, unfired, Graph.setLeft])

theorem Inv.dropHarmless {c : DynCfg} {s : DynSt} {j J fr} (h : Inv c s (j :: J) fr) (hj : j.harmless = true) :
    Inv c s J fr := by
  have h1 : j.held = [] := by unfold Job.harmless at hj; split at hj <;> simp_all [Job.held]
  have h2 : j.bodyOf = [] := by unfold Job.harmless at hj; split at hj <;> simp_all [Job.bodyOf]
  have h3 : j.pend c.g = [] := by unfold Job.harmless at hj; split at hj <;> simp_all [Job.pend]
  have h4 : j.endp c.g = [] := by unfold Job.harmless at hj; split at hj <;> simp_all [Job.endp]
  have h5 : ∀ st, j ≠ .errSet st := by intro st he; subst he; simp [Job.harmless] at hj
  obtain ⟨a1, a2, a3, a4, a5, a6, a7, a8, a9, a10, a11, a12, a13, a14, a15, a16, a17, a18, a19⟩ := h
  simp only [cnt_cons, h1, h2, h3, h4, List.count_nil, Nat.zero_add, List.mem_cons] at *
  constructor <;> (try assumption)
  case jobs =>
    intro j hj
    exact a19 j (Or.inr hj)
  case stFail => grind

theorem Inv.afterNormal {c : DynCfg} {s : DynSt} {e J fr} (h : Inv c s (.after e :: J) fr)
    (hsh : c.shapeOf e = .normal) (he : e ∈ c.g.elems) : Inv c s (.nIter e (c.g.succs e) none :: J) fr := by
  have hne : c.g.succs e ≠ [] := by intro h0; rw [DynCfg.shape_of_nil h0] at hsh; simp at hsh
  obtain ⟨a1, a2, a3, a4, a5, a6, a7, a8, a9, a10, a11, a12, a13, a14, a15, a16, a17, a18, a19⟩ := h
  dyn_prep
  case jobs =>
    intro j hj
    rcases hj with rfl | hj
    · first | exact ⟨hsh, he⟩ | trivial | exact ⟨by simpa [JobOk] using (a19 _ (Or.inl rfl)).1, by simpa [JobOk] using (a19 _ (Or.inl rfl)).2⟩
    · exact (a19 j (Or.inr hj)).mono (fun p hp => by first | exact hp | simp [hp])
  all_goals (try grind [Ready, unfired, Graph.setLeft])

theorem Inv.afterTail {c : DynCfg} {s : DynSt} {e J fr} (h : Inv c s (.after e :: J) fr)
    (hsh : c.shapeOf e = .tail) : Inv c s (.tailInc e :: J) fr := by
  have hne := DynCfg.shape_tail hsh
  obtain ⟨a1, a2, a3, a4, a5, a6, a7, a8, a9, a10, a11, a12, a13, a14, a15, a16, a17, a18, a19⟩ := h
  dyn_prep
  case jobs =>
    intro j hj
    rcases hj with rfl | hj
    · first | trivial | exact ⟨by simpa [JobOk] using (a19 _ (Or.inl rfl)).1, by simpa [JobOk] using (a19 _ (Or.inl rfl)).2⟩
    · exact (a19 j (Or.inr hj)).mono (fun p hp => by first | exact hp | simp [hp])
  all_goals (try grind [Ready, unfired, Graph.setLeft])

theorem Inv.tailInc1 {c : DynCfg} {s : DynSt} {e J fr} (h : Inv c s (.tailInc e :: J) fr) :
    Inv c { s with fin := s.fin + 1, ended := s.ended ++ [e] } (.tailNotify :: J) fr := by
  obtain ⟨a1, a2, a3, a4, a5, a6, a7, a8, a9, a10, a11, a12, a13, a14, a15, a16, a17, a18, a19⟩ := h
  dyn_prep
  case jobs =>
    intro j hj
    rcases hj with rfl | hj
    · first | trivial | exact ⟨by simpa [JobOk] using (a19 _ (Or.inl rfl)).1, by simpa [JobOk] using (a19 _ (Or.inl rfl)).2⟩
    · exact (a19 j (Or.inr hj)).mono (fun p hp => by first | exact hp | simp [hp])
  all_goals (try grind [Ready, unfired, Graph.setLeft])

theorem Inv.errSet1 {c : DynCfg} {s : DynSt} {st J fr} (h : Inv c s (.errSet st :: J) fr) :
    Inv c { s with status := s.status.add st } (.errNotify :: J) fr := by
  have h0 := h.jobs (.errSet st) (by simp)
  simp only [JobOk] at h0
  obtain ⟨h1, e0, h2⟩ := h0
  have hadd := CStatus.add_isErr s.status st
  have ha1 := CStatus.add_of_err (a := s.status) st
  have ha2 := CStatus.add_of_not_err (a := s.status) (b := st)
  obtain ⟨a1, a2, a3, a4, a5, a6, a7, a8, a9, a10, a11, a12, a13, a14, a15, a16, a17, a18, a19⟩ := h
  dyn_prep
  case jobs =>
    intro j hj
    rcases hj with rfl | hj
    · first | trivial | exact ⟨by simpa [JobOk] using (a19 _ (Or.inl rfl)).1, by simpa [JobOk] using (a19 _ (Or.inl rfl)).2⟩
    · exact (a19 j (Or.inr hj)).mono (fun p hp => by first | exact hp | simp [hp])
  all_goals (try grind [Ready, unfired, Graph.setLeft])

theorem Inv.nIterProc {c : DynCfg} {s : DynSt} {e r J fr} (h : Inv c s (.nIter e [] (some r) :: J) fr) :
    Inv c s (.proc r :: J) fr := by
  obtain ⟨a1, a2, a3, a4, a5, a6, a7, a8, a9, a10, a11, a12, a13, a14, a15, a16, a17, a18, a19⟩ := h
  dyn_prep
  case jobs =>
    intro j hj
    rcases hj with rfl | hj
    · first | trivial | exact ⟨by simpa [JobOk] using (a19 _ (Or.inl rfl)).1, by simpa [JobOk] using (a19 _ (Or.inl rfl)).2⟩
    · exact (a19 j (Or.inr hj)).mono (fun p hp => by first | exact hp | simp [hp])
  all_goals (try grind [Ready, unfired, Graph.setLeft])

theorem Inv.rIterProc {c : DynCfg} {s : DynSt} {e r J fr} (h : Inv c s (.rIter e [r] :: J) fr) :
    Inv c s (.proc r :: J) fr := by
  obtain ⟨a1, a2, a3, a4, a5, a6, a7, a8, a9, a10, a11, a12, a13, a14, a15, a16, a17, a18, a19⟩ := h
  dyn_prep
  case jobs =>
    intro j hj
    rcases hj with rfl | hj
    · first | trivial | exact ⟨by simpa [JobOk] using (a19 _ (Or.inl rfl)).1, by simpa [JobOk] using (a19 _ (Or.inl rfl)).2⟩
    · exact (a19 j (Or.inr hj)).mono (fun p hp => by first | exact hp | simp [hp])
  all_goals (try grind [Ready, unfired, Graph.setLeft])

theorem Inv.procExec {c : DynCfg} {s : DynSt} {r J fr} (h : Inv c s (.proc r :: J) fr) :
    Inv c s (.exec r :: J) fr := by
  obtain ⟨a1, a2, a3, a4, a5, a6, a7, a8, a9, a10, a11, a12, a13, a14, a15, a16, a17, a18, a19⟩ := h
  dyn_prep
  case jobs =>
    intro j hj
    rcases hj with rfl | hj
    · first | trivial | exact ⟨by simpa [JobOk] using (a19 _ (Or.inl rfl)).1, by simpa [JobOk] using (a19 _ (Or.inl rfl)).2⟩
    · exact (a19 j (Or.inr hj)).mono (fun p hp => by first | exact hp | simp [hp])
  all_goals (try grind [Ready, unfired, Graph.setLeft])

theorem Inv.procPush {c : DynCfg} {s : DynSt} {r J fr} (h : Inv c s (.proc r :: J) fr) :
    Inv c (s.push r) J fr := by
  unfold push
  obtain ⟨a1, a2, a3, a4, a5, a6, a7, a8, a9, a10, a11, a12, a13, a14, a15, a16, a17, a18, a19⟩ := h
  dyn_prep
  case jobs =>
    intro j hj
    exact (a19 j (Or.inr hj)).mono (fun p hp => by first | exact hp | simp [hp])
  all_goals (try grind [Ready, unfired, Graph.setLeft])

theorem Inv.nPostPush {c : DynCfg} {s : DynSt} {e x rest y J fr} (h : Inv c s (.nPost e x rest y :: J) fr) :
    Inv c (s.push x) (.nIter e rest (some y) :: J) fr := by
  unfold push
  obtain ⟨a1, a2, a3, a4, a5, a6, a7, a8, a9, a10, a11, a12, a13, a14, a15, a16, a17, a18, a19⟩ := h
  dyn_prep
  case jobs =>
    intro j hj
    rcases hj with rfl | hj
    · first | trivial | exact ⟨by simpa [JobOk] using (a19 _ (Or.inl rfl)).1, by simpa [JobOk] using (a19 _ (Or.inl rfl)).2⟩
    · exact (a19 j (Or.inr hj)).mono (fun p hp => by first | exact hp | simp [hp])
  all_goals (try grind [Ready, unfired, Graph.setLeft])

theorem Inv.nPostSkip {c : DynCfg} {s : DynSt} {e x rest y J fr} (h : Inv c s (.nPost e x rest y :: J) fr)
    (he : s.status.isErr = true) : Inv c s (.nIter e rest (some y) :: J) fr := by
  obtain ⟨p, hp, -⟩ := h.stErr he
  have hf : s.failed ≠ [] := by intro h0; simp [h0] at hp
  obtain ⟨a1, a2, a3, a4, a5, a6, a7, a8, a9, a10, a11, a12, a13, a14, a15, a16, a17, a18, a19⟩ := h
  dyn_prep
  case jobs =>
    intro j hj
    rcases hj with rfl | hj
    · first | trivial | exact ⟨by simpa [JobOk] using (a19 _ (Or.inl rfl)).1, by simpa [JobOk] using (a19 _ (Or.inl rfl)).2⟩
    · exact (a19 j (Or.inr hj)).mono (fun p hp => by first | exact hp | simp [hp])
  all_goals (try grind [Ready, unfired, Graph.setLeft])

theorem Inv.rIterPush {c : DynCfg} {s : DynSt} {e x rest J fr} (h : Inv c s (.rIter e (x :: rest) :: J) fr) :
    Inv c (s.push x) (.rIter e rest :: J) fr := by
  unfold push
  obtain ⟨a1, a2, a3, a4, a5, a6, a7, a8, a9, a10, a11, a12, a13, a14, a15, a16, a17, a18, a19⟩ := h
  dyn_prep
  case jobs =>
    intro j hj
    rcases hj with rfl | hj
    · first | trivial | exact ⟨by simpa [JobOk] using (a19 _ (Or.inl rfl)).1, by simpa [JobOk] using (a19 _ (Or.inl rfl)).2⟩
    · exact (a19 j (Or.inr hj)).mono (fun p hp => by first | exact hp | simp [hp])
  all_goals (try grind [Ready, unfired, Graph.setLeft])

theorem Inv.rIterSkip {c : DynCfg} {s : DynSt} {e x rest J fr} (h : Inv c s (.rIter e (x :: rest) :: J) fr)
    (he : s.status.isErr = true) : Inv c s (.rIter e rest :: J) fr := by
  obtain ⟨p, hp, -⟩ := h.stErr he
  have hf : s.failed ≠ [] := by intro h0; simp [h0] at hp
  obtain ⟨a1, a2, a3, a4, a5, a6, a7, a8, a9, a10, a11, a12, a13, a14, a15, a16, a17, a18, a19⟩ := h
  dyn_prep
  case jobs =>
    intro j hj
    rcases hj with rfl | hj
    · first | trivial | exact ⟨by simpa [JobOk] using (a19 _ (Or.inl rfl)).1, by simpa [JobOk] using (a19 _ (Or.inl rfl)).2⟩
    · exact (a19 j (Or.inr hj)).mono (fun p hp => by first | exact hp | simp [hp])
  all_goals (try grind [Ready, unfired, Graph.setLeft])

theorem dep_unique {c : DynCfg} {x d e : Eid} (hl : (c.g.deps x).length = 1) (hd : d ∈ c.g.deps x)
    (he : e ∈ c.g.deps x) : d = e := by
  obtain ⟨y, hy⟩ := List.length_eq_one_iff.1 hl
  rw [hy] at hd he
  simp at hd he
  rw [hd, he]

/-- Facts about the element whose successors a thread is about to release. -/
theorem Inv.after_facts {c : DynCfg} {s : DynSt} {e J fr} (w : c.g.WF) (h : Inv c s (.after e :: J) fr) :
    e ∈ c.g.elems ∨ c.g.succs e = [] := by
  by_cases h0 : c.g.succs e = []
  · exact Or.inr h0
  · left
    obtain ⟨x, hx⟩ := List.exists_mem_of_ne_nil _ h0
    have h1 := h.edge e x
    simp only [cnt_cons, Job.pend, count_pair] at h1
    have h2 : 0 < List.count x (c.g.succs e) := List.count_pos_iff.2 hx
    have h3 := h.body e
    simp at h1
    exact (h.rdy e (by omega)).1

theorem Inv.afterLink {c : DynCfg} {s : DynSt} {e x J fr} (w : c.g.WF) (h : Inv c s (.after e :: J) fr)
    (he : e ∈ c.g.elems) (hx : c.g.succs e = [x]) (hl : (c.g.deps x).length = 1)
    (hsh : c.shapeOf e = .linkable) :
    Inv c { s with fired := s.fired ++ [(e, x)] } (.proc x :: J) fr := by
  have hsn : ∀ e ∈ c.g.elems, ∀ y, List.count y (c.g.succs e) ≤ 1 :=
    fun e he y => List.nodup_iff_count_le_one.1 (w.snodup e he) y
  have hxe : x ∈ c.g.elems := w.closedS e he x (by simp [hx])
  have hex : e ∈ c.g.deps x := (w.sym e x).1 (by simp [hx])
  have huniq : ∀ d ∈ c.g.deps x, d = e := fun d hd => dep_unique hl hd hex
  have hfle := h.finished_le e
  have hedge := h.edge e x
  simp only [cnt_cons, Job.pend, count_pair, hx] at hedge
  simp at hedge
  have hnf : (e, x) ∉ s.fired := by rw [← List.count_eq_zero]; omega
  have hnr : ¬ Ready c s x := fun hr => hnf (hr e hex)
  have htx : s.queue.count x + cnt Job.held (.after e :: J) x + fr.count x + s.trace.count (.start x) = 0 := by
    by_contra h0
    exact hnr (h.rdy x (by omega)).2
  have hRx : Ready c { s with fired := s.fired ++ [(e, x)] } x := by
    intro d hd; rw [huniq d hd]; simp
  have hRo : ∀ v, v ≠ x → (Ready c { s with fired := s.fired ++ [(e, x)] } v ↔ Ready c s v) := by
    intro v hv; simp [Ready, hv]
  have hUo : ∀ v, v ≠ x → unfired c { s with fired := s.fired ++ [(e, x)] } v = unfired c s v := by
    intro v hv; apply unfired_congr; intro d hd; simp [hv]
  obtain ⟨a1, a2, a3, a4, a5, a6, a7, a8, a9, a10, a11, a12, a13, a14, a15, a16, a17, a18, a19⟩ := h
  dyn_prep
  case jobs =>
    intro j hj
    rcases hj with rfl | hj
    · trivial
    · exact (a19 j (Or.inr hj)).mono (fun p hp => hp)
  all_goals (try grind)

theorem Inv.afterRoot {c : DynCfg} {s : DynSt} {e J fr} (w : c.g.WF) (h : Inv c s (.after e :: J) fr)
    (he : e ∈ c.g.elems) (hl : ∀ x ∈ c.g.succs e, (c.g.deps x).length = 1) (hne : c.g.succs e ≠ [])
    (hsh : c.shapeOf e = .root) :
    Inv c { s with fired := s.fired ++ (c.g.succs e).map (fun x => (e, x)) } (.rIter e (c.g.succs e) :: J) fr := by
  have hsn : ∀ y, List.count y (c.g.succs e) ≤ 1 :=
    fun y => List.nodup_iff_count_le_one.1 (w.snodup e he) y
  have hsm : ∀ y, 1 ≤ List.count y (c.g.succs e) ↔ y ∈ c.g.succs e := fun y => List.count_pos_iff
  have hxe : ∀ x ∈ c.g.succs e, x ∈ c.g.elems := w.closedS e he
  have hex : ∀ x ∈ c.g.succs e, e ∈ c.g.deps x := fun x hx => (w.sym e x).1 hx
  have huniq : ∀ x ∈ c.g.succs e, ∀ d ∈ c.g.deps x, d = e := fun x hx d hd => dep_unique (hl x hx) hd (hex x hx)
  have hfle := h.finished_le e
  have hnf : ∀ x ∈ c.g.succs e, (e, x) ∉ s.fired := by
    intro x hx
    have hedge := h.edge e x
    simp only [cnt_cons, Job.pend, count_pair] at hedge
    have := (hsm x).2 hx
    simp at hedge
    rw [← List.count_eq_zero]; omega
  have htx : ∀ x ∈ c.g.succs e,
      s.queue.count x + cnt Job.held (.after e :: J) x + fr.count x + s.trace.count (.start x) = 0 := by
    intro x hx
    by_contra h0
    exact hnf x hx ((h.rdy x (by omega)).2 e (hex x hx))
  have hRx : ∀ x ∈ c.g.succs e,
      Ready c { s with fired := s.fired ++ (c.g.succs e).map (fun x => (e, x)) } x := by
    intro x hx d hd; rw [huniq x hx d hd]; simp [hx]
  have hRo : ∀ v, v ∉ c.g.succs e →
      (Ready c { s with fired := s.fired ++ (c.g.succs e).map (fun x => (e, x)) } v ↔ Ready c s v) := by
    intro v hv; simp [Ready, hv]
  have hUo : ∀ v, v ∉ c.g.succs e →
      unfired c { s with fired := s.fired ++ (c.g.succs e).map (fun x => (e, x)) } v = unfired c s v := by
    intro v hv; apply unfired_congr; intro d hd; simp [hv]
  obtain ⟨a1, a2, a3, a4, a5, a6, a7, a8, a9, a10, a11, a12, a13, a14, a15, a16, a17, a18, a19⟩ := h
  dyn_prep
  case jobs =>
    intro j hj
    rcases hj with rfl | hj
    · trivial
    · exact (a19 j (Or.inr hj)).mono (fun p hp => hp)
  all_goals (try grind)

theorem Inv.fire {c : DynCfg} {s : DynSt} {e x rest r J fr j'} (w : c.g.WF)
    (h : Inv c s (.nIter e (x :: rest) r :: J) fr)
    (hheld : ∀ v, j'.held.count v = r.toList.count v + if s.left x - 1 = 0 ∧ v = x then 1 else 0)
    (hbody : j'.bodyOf = []) (hpend : j'.pend c.g = rest.map (fun y => (e, y))) (hend : j'.endp c.g = [])
    (hok : JobOk c s j') (hne : ∀ st, j' ≠ .errSet st) :
    Inv c { s with left := Graph.setLeft s.left x (s.left x - 1), fired := s.fired ++ [(e, x)] } (j' :: J) fr := by
  have hj0 := h.jobs _ (List.mem_cons_self ..)
  simp only [JobOk] at hj0
  obtain ⟨hsh, he⟩ := hj0
  have hr0 : ∀ v, (Job.nIter e (x :: rest) r).held.count v = r.toList.count v := by
    intro v; cases r <;> rfl
  have hx : x ∈ c.g.succs e := by
    apply h.edgeS e x
    simp only [cnt_cons, Job.pend, count_pair]; simp; omega
  have hnorm := DynCfg.shape_normal w hsh he hx
  have hxe : x ∈ c.g.elems := w.closedS e he x hx
  have hex : e ∈ c.g.deps x := (w.sym e x).1 hx
  have hfle := h.finished_le e
  have hnf : (e, x) ∉ s.fired := by
    have hedge := h.edge e x
    simp only [cnt_cons, Job.pend, count_pair] at hedge
    simp at hedge
    rw [← List.count_eq_zero]; omega
  have htx : s.queue.count x + cnt Job.held (.nIter e (x :: rest) r :: J) x + fr.count x +
      s.trace.count (.start x) = 0 := by
    by_contra h0
    exact hnf ((h.rdy x (by omega)).2 e hex)
  have hs' : ∀ L, unfired c { s with left := L, fired := s.fired ++ [(e, x)] } x + 1 = unfired c s x :=
    fun L => unfired_fire (w.dnodup x hxe) hex hnf rfl
  have hleft := h.leftN x hxe (by omega) hnorm
  have hRx : ∀ L, (Ready c { s with left := L, fired := s.fired ++ [(e, x)] } x ↔ s.left x - 1 = 0) := by
    intro L
    rw [← unfired_zero]
    have := hs' L
    omega
  have hRo : ∀ L v, v ≠ x → (Ready c { s with left := L, fired := s.fired ++ [(e, x)] } v ↔ Ready c s v) := by
    intro L v hv; simp [Ready, hv]
  have hUo : ∀ L v, v ≠ x → unfired c { s with left := L, fired := s.fired ++ [(e, x)] } v = unfired c s v := by
    intro L v hv; apply unfired_congr; intro d hd; simp [hv]
  obtain ⟨a1, a2, a3, a4, a5, a6, a7, a8, a9, a10, a11, a12, a13, a14, a15, a16, a17, a18, a19⟩ := h
  simp only [cnt_cons, hr0] at a1 a2 a3 htx
  simp only [cnt_cons, Job.bodyOf, Job.pend, Job.endp, count_pair, List.count_nil, List.count_cons,
    List.mem_cons] at a4 a5 a6 a7 a10 a11 a12 a17 a19
  constructor <;> (try dsimp only) <;>
    (try simp only [cnt_cons, hheld, hbody, hpend, hend, List.count_append,
      List.count_cons, List.count_nil, List.mem_cons, count_pair]) <;>
    (try assumption)
  case jobs =>
    intro j hj
    rcases hj with rfl | hj
    · exact hok.mono (fun p hp => hp)
    · exact (a19 j (Or.inr hj)).mono (fun p hp => hp)
  all_goals (try grind [Graph.setLeft])

end DynSt
end CGraph
