import Verif.Spec.Overlap
import Verif.Lemmas.Dynamic

/-! Lemmas for C94: in a forest every task of every run is conserved. -/
namespace CGraph
namespace Overlap
open Spec OvSt

/-- How often the thread at this place is going to start `x`, apart from what the body of an element decides. -/
def owe (c : DynCfg) : Job → Eid → Nat
  | .exec e, x => [e].count x
  | .after e, x => (c.g.succs e).count x
  | .rIter _ rest, x => rest.count x
  | .proc e, x => [e].count x
  | _, _ => 0

/-- In the body of `x`. -/
def inBody : Job → Eid → Nat
  | .body e, x => [e].count x
  | _, _ => 0

/-- Places that exist in a forest only. -/
def plain : Job → Prop
  | .nIter .. => False
  | .nPost .. => False
  | _ => True

/-- Places that exist without a failure only. -/
def clean : Job → Prop
  | .errSet _ => False
  | _ => True

def oweO (c : DynCfg) (o : Option Job) (x : Eid) : Nat := (o.map (fun j => owe c j x)).getD 0
def bodyO (o : Option Job) (x : Eid) : Nat := (o.map (fun j => inBody j x)).getD 0

/-- What a caller owes. -/
def oweC (c : DynCfg) : OPc → Eid → Nat
  | .zero, x => c.fronts.count x
  | .at (.fronts rest), x => rest.count x
  | .at (.inline j), x => owe c j x
  | _, _ => 0

def bodyC : OPc → Eid → Nat
  | .at (.inline j), x => inBody j x
  | _, _ => 0

/-- Sum over the threads of the pool that belong to `r`. -/
def sumJ (f : Job → Nat) (l : List (Nat × Job)) (r : Nat) : Nat := (l.map (fun p => if p.1 = r then f p.2 else 0)).sum

theorem sumJ_append (f : Job → Nat) (l m : List (Nat × Job)) (r : Nat) : sumJ f (l ++ m) r = sumJ f l r + sumJ f m r := by
  simp [sumJ]

theorem sumJ_split (f : Job → Nat) : ∀ (l : List (Nat × Job)) (i : Nat) (p : Nat × Job) (_ : l[i]? = some p) (r : Nat),
    sumJ f l r = (if p.1 = r then f p.2 else 0) + sumJ f (l.eraseIdx i) r ∧
    ∀ j', sumJ f (l.set i (p.1, j')) r = (if p.1 = r then f j' else 0) + sumJ f (l.eraseIdx i) r := by
  intro l
  induction l with
  | nil => intro i p h; simp at h
  | cons q l ih =>
    intro i p h r
    cases i with
    | zero =>
      simp at h; subst h
      simp [sumJ]
    | succ i =>
      simp at h
      obtain ⟨h1, h2⟩ := ih i p h r
      refine ⟨?_, fun j' => ?_⟩
      · simp only [sumJ, List.map_cons, List.sum_cons, List.eraseIdx_cons_succ] at h1 ⊢
        omega
      · have := h2 j'
        simp only [sumJ, List.map_cons, List.sum_cons, List.eraseIdx_cons_succ, List.set_cons_succ] at this ⊢
        omega

/-- How often the caller of run `r` is going to start `x`. -/
def callerOwe (c : DynCfg) (s : OvSt) (r : Nat) (x : Eid) : Nat := ((s.callers[r]?).map (fun p => oweC c p x)).getD 0
def callerBody (s : OvSt) (r : Nat) (x : Eid) : Nat := ((s.callers[r]?).map (fun p => bodyC p x)).getD 0

/-- Starts of `x` that are still to come in run `r`. -/
def pending (c : DynCfg) (s : OvSt) (r : Nat) (x : Eid) : Nat :=
  s.queue.count (r, x) + sumJ (fun j => owe c j x) s.jobs r + callerOwe c s r x

def bodies (s : OvSt) (r : Nat) (x : Eid) : Nat := sumJ (fun j => inBody j x) s.jobs r + callerBody s r x

/-- Starts of `x` that are due in run `r`. -/
def due (c : DynCfg) (n : Nat) (t : List (Nat × Ev)) (r : Nat) (x : Eid) : Nat :=
  (if r < n then c.fronts.count x else 0) + ((c.g.deps x).map (fun d => t.count (r, Ev.finish d))).sum

/-- The invariant; `nf`: nothing fails. -/
structure OInv (nf : Prop) (c : DynCfg) (s : OvSt) : Prop where
  bal : ∀ r x, ∃ l, s.trace.count (r, .start x) + pending c s r x + l = due c s.callers.length s.trace r x ∧ (nf → l = 0)
  body : ∀ r x, ∃ l, s.trace.count (r, .finish x) + bodies s r x + l = s.trace.count (r, .start x) ∧ (nf → l = 0)
  el : ∀ r x, (r, Ev.start x) ∈ s.trace → x ∈ c.g.elems
  good : ∀ pre r x post, s.trace = pre ++ (r, .start x) :: post → ∀ d ∈ c.g.deps x, (r, Ev.finish d) ∈ pre
  plJ : ∀ p ∈ s.jobs, plain p.2
  plC : ∀ j, OPc.at (.inline j) ∈ s.callers → plain j
  ok : nf → s.status = .ok ∧ (∀ p ∈ s.jobs, clean p.2) ∧ ∀ j, OPc.at (.inline j) ∈ s.callers → clean j

/-- What a step of a thread does that belongs to run `r` and is at `j`. -/
structure JobEff (nf : Prop) (c : DynCfg) (s s' : OvSt) (r : Nat) (j : Job) (oj : Option Job) : Prop where
  jobs : s'.jobs = s.jobs
  len : s'.callers.length = s.callers.length
  cal : ∀ i : Nat, i < s.callers.length → s'.callers[i]? = s.callers[i]? ∨
    (s.callers[i]? = some (.at .asleep) ∧ s'.callers[i]? = some (.at .waking))
  bal : ∀ r' x, ∃ l, s'.trace.count (r', .start x) + s'.queue.count (r', x) + (if r = r' then oweO c oj x else 0) + l +
      ((c.g.deps x).map (fun d => s.trace.count (r', Ev.finish d))).sum =
    s.trace.count (r', .start x) + s.queue.count (r', x) + (if r = r' then owe c j x else 0) +
      ((c.g.deps x).map (fun d => s'.trace.count (r', Ev.finish d))).sum ∧ (nf → l = 0)
  body : ∀ r' x, ∃ l, s'.trace.count (r', .finish x) + (if r = r' then bodyO oj x else 0) + l + s.trace.count (r', .start x) =
    s.trace.count (r', .finish x) + (if r = r' then inBody j x else 0) + s'.trace.count (r', .start x) ∧ (nf → l = 0)
  tr : s'.trace = s.trace ∨ (∃ e, j = .exec e ∧ s'.trace = s.trace ++ [(r, .start e)]) ∨
    ∃ e, s'.trace = s.trace ++ [(r, .finish e)]
  pl : ∀ j', oj = some j' → plain j'
  ok : nf → s'.status = .ok ∧ ∀ j', oj = some j' → clean j'

theorem notify_cal (s : OvSt) (k : Nat) : (s.notify k).callers.length = s.callers.length ∧
    ∀ i : Nat, i < s.callers.length → (s.notify k).callers[i]? = s.callers[i]? ∨
      (s.callers[i]? = some (.at .asleep) ∧ (s.notify k).callers[i]? = some (.at .waking)) := by
  unfold notify
  split
  · rename_i h
    refine ⟨by simp, fun i hi => ?_⟩
    by_cases hk : k = i
    · subst hk; right; exact ⟨h, by simp [hi]⟩
    · left; simp [List.getElem?_set_ne hk]
  · refine ⟨by simp, fun i hi => ?_⟩
    by_cases hk : s.callers.findIdx (fun p => p == OPc.at .asleep) = i
    · right
      have h1 : s.callers.findIdx (fun p => p == OPc.at .asleep) < s.callers.length := by omega
      have h2 := List.findIdx_getElem (w := h1)
      simp only [hk, beq_iff_eq] at h2
      refine ⟨by rw [List.getElem?_eq_getElem hi, h2], ?_⟩
      simp [hk, hi]
    · left; simp [List.getElem?_set_ne hk]

theorem deps_count {c : DynCfg} (w : c.g.WF) (hf : Forest c.g) {e : Eid} (he : e ∈ c.g.elems) (x : Eid) :
    (c.g.deps x).count e = (c.g.succs e).count x := by
  by_cases h : x ∈ c.g.succs e
  · rw [List.count_eq_one_of_mem (w.snodup e he) h]
    have h1 := (w.sym e x).1 h
    have h2 := hf x
    have h3 : (c.g.deps x).count e ≤ (c.g.deps x).length := List.count_le_length
    have h4 := List.count_pos_iff.2 h1
    omega
  · rw [List.count_eq_zero_of_not_mem h, List.count_eq_zero_of_not_mem]
    exact fun h' => h ((w.sym e x).2 h')

theorem shape_forest {c : DynCfg} (w : c.g.WF) (hf : Forest c.g) (e : Eid) : c.shapeOf e ≠ .normal := by
  intro h
  unfold DynCfg.shapeOf at h
  have key : ∀ x ∈ c.g.succs e, (c.g.deps x).length = 1 := by
    intro x hx
    have h1 := List.length_pos_of_mem ((w.sym e x).1 hx)
    have h2 := hf x
    omega
  split at h
  · simp at h
  · split at h
    · simp at h
    · split at h
      · simp at h
      · rename_i h1 h2 h3
        apply h2
        simp only [Bool.and_eq_true, List.all_eq_true, decide_eq_true_eq, Bool.not_eq_true'] at *
        exact ⟨by simpa using h3, key⟩

theorem fin_count (t : List (Nat × Ev)) (r r' : Nat) (e d : Eid) :
    (t ++ [(r, Ev.finish e)]).count (r', Ev.finish d) = t.count (r', Ev.finish d) + if r = r' ∧ e = d then 1 else 0 := by
  rw [List.count_append, List.count_singleton]
  congr 1
  by_cases h : r = r' <;> by_cases h2 : e = d <;> simp [h, h2]

theorem fin_start (t : List (Nat × Ev)) (r r' : Nat) (e d : Eid) :
    (t ++ [(r, Ev.finish e)]).count (r', Ev.start d) = t.count (r', Ev.start d) := by
  rw [List.count_append, List.count_singleton]
  simp

theorem start_count (t : List (Nat × Ev)) (r r' : Nat) (e d : Eid) :
    (t ++ [(r, Ev.start e)]).count (r', Ev.start d) = t.count (r', Ev.start d) + if r = r' ∧ e = d then 1 else 0 := by
  rw [List.count_append, List.count_singleton]
  congr 1
  by_cases h : r = r' <;> by_cases h2 : e = d <;> simp [h, h2]

theorem start_fin (t : List (Nat × Ev)) (r r' : Nat) (e d : Eid) :
    (t ++ [(r, Ev.start e)]).count (r', Ev.finish d) = t.count (r', Ev.finish d) := by
  rw [List.count_append, List.count_singleton]
  simp

theorem queue_count (q : List (Nat × Eid)) (r r' : Nat) (e x : Eid) :
    (q ++ [(r, e)]).count (r', x) = q.count (r', x) + if r = r' ∧ e = x then 1 else 0 := by
  rw [List.count_append, List.count_singleton]
  congr 1
  by_cases h : r = r' <;> by_cases h2 : e = x <;> simp [h, h2]

theorem notify_rest (s : OvSt) (k : Nat) : (s.notify k).jobs = s.jobs ∧ (s.notify k).queue = s.queue ∧
    (s.notify k).trace = s.trace ∧ (s.notify k).status = s.status := by
  unfold notify
  split <;> exact ⟨rfl, rfl, rfl, rfl⟩

theorem fin_sum (t : List (Nat × Ev)) (r r' : Nat) (e : Eid) (l : List Eid) :
    (l.map (fun d => (t ++ [(r, Ev.finish e)]).count (r', Ev.finish d))).sum =
      (l.map (fun d => t.count (r', Ev.finish d))).sum + if r = r' then l.count e else 0 := by
  induction l with
  | nil => simp
  | cons d l ih =>
    rw [List.map_cons, List.sum_cons, ih, List.map_cons, List.sum_cons, fin_count, List.count_cons]
    by_cases h : r = r' <;> by_cases h2 : e = d
    · subst h; subst h2; simp; omega
    · have h3 : ¬ d = e := fun h => h2 h.symm
      simp [h, h2, h3]; omega
    · simp [h]
    · simp [h]

theorem jobStep_eff {nf : Prop} {c : DynCfg} (w : c.g.WF) (hf : Forest c.g) {s s' : OvSt} {r k : Nat} {st : CStatus} {j : Job}
    {oj : Option Job} (hs : jobStep c s r st k j = some (s', oj)) (hp : plain j) (he : ∀ e, j = .body e → e ∈ c.g.elems)
    (hn : nf → s.status = .ok ∧ clean j ∧ st.isErr = false) : JobEff nf c s s' r j oj := by
  have hne : nf → s.status.isErr = false := fun h => by rw [(hn h).1]; rfl
  cases j with
  | exec e =>
    simp only [jobStep, Option.some.injEq, Prod.mk.injEq] at hs
    obtain ⟨rfl, rfl⟩ := hs
    refine ⟨rfl, rfl, fun i _ => .inl rfl, fun r' x => ⟨0, ?_, fun _ => rfl⟩, fun r' x => ⟨0, ?_, fun _ => rfl⟩,
      .inr (.inl ⟨e, rfl, rfl⟩), by simp [plain], fun h => ⟨(hn h).1, by simp [clean]⟩⟩
    · simp only [start_count, start_fin, oweO, owe, Option.map_some, Option.getD_some, List.count_singleton]
      by_cases h1 : r = r' <;> by_cases h2 : e = x <;> simp [h1, h2] <;> omega
    · simp only [start_count, start_fin, bodyO, inBody, Option.map_some, Option.getD_some, List.count_singleton]
      by_cases h1 : r = r' <;> by_cases h2 : e = x <;> simp [h1, h2] <;> omega
  | body e =>
    simp only [jobStep] at hs
    split at hs
    · simp only [Option.some.injEq, Prod.mk.injEq] at hs
      obtain ⟨rfl, rfl⟩ := hs
      refine ⟨rfl, rfl, fun i _ => .inl rfl, fun r' x => ⟨0, ?_, fun _ => rfl⟩, fun r' x => ⟨0, ?_, fun _ => rfl⟩,
        .inr (.inr ⟨e, rfl⟩), by simp [plain], fun h => ⟨(hn h).1, by simp [clean]⟩⟩
      · simp only [fin_sum, fin_start, oweO, owe, Option.map_some, Option.getD_some, deps_count w hf (he e rfl) x]
        by_cases h1 : r = r' <;> simp [h1] <;> omega
      · simp only [fin_start, fin_count, bodyO, inBody, Option.map_some, Option.getD_some, List.count_singleton]
        by_cases h1 : r = r' <;> by_cases h2 : e = x <;> simp [h1, h2]
    · rename_i hst
      simp only [Option.some.injEq, Prod.mk.injEq] at hs
      obtain ⟨rfl, rfl⟩ := hs
      have hnf : ¬ nf := fun h => hst (by rw [CStatus.isNotErr_eq, (hn h).2.2]; rfl)
      refine ⟨rfl, rfl, fun i _ => .inl rfl, fun r' x => ⟨0, ?_, fun _ => rfl⟩,
        fun r' x => ⟨if r = r' then [e].count x else 0, ?_, fun h => absurd h hnf⟩,
        .inl rfl, by simp [plain], fun h => absurd h hnf⟩
      · simp [oweO, owe]
      · simp only [bodyO, inBody, Option.map_some, Option.getD_some]
        by_cases h1 : r = r' <;> simp [h1]
  | after e =>
    simp only [jobStep] at hs
    split at hs
    · rename_i hse
      simp only [Option.some.injEq, Prod.mk.injEq] at hs
      obtain ⟨rfl, rfl⟩ := hs
      have hnf : ¬ nf := fun h => by rw [hne h] at hse; simp at hse
      exact ⟨rfl, rfl, fun i _ => .inl rfl,
        fun r' x => ⟨if r = r' then (c.g.succs e).count x else 0, by simp [oweO, owe], fun h => absurd h hnf⟩,
        fun r' x => ⟨0, by simp [bodyO, inBody], fun _ => rfl⟩, .inl rfl, by simp, fun h => absurd h hnf⟩
    · cases hsh : c.shapeOf e with
      | normal => exact absurd hsh (shape_forest w hf e)
      | linkable =>
        obtain ⟨y, hy, -⟩ := DynCfg.shape_linkable hsh
        simp only [hsh, hy, Option.some.injEq, Prod.mk.injEq] at hs
        obtain ⟨rfl, rfl⟩ := hs
        exact ⟨rfl, rfl, fun i _ => .inl rfl, fun r' x => ⟨0, by simp [oweO, owe, hy], fun _ => rfl⟩,
          fun r' x => ⟨0, by simp [bodyO, inBody], fun _ => rfl⟩, .inl rfl, by simp [plain],
          fun h => ⟨(hn h).1, by simp [clean]⟩⟩
      | root =>
        simp only [hsh, Option.some.injEq, Prod.mk.injEq] at hs
        obtain ⟨rfl, rfl⟩ := hs
        exact ⟨rfl, rfl, fun i _ => .inl rfl, fun r' x => ⟨0, by simp [oweO, owe], fun _ => rfl⟩,
          fun r' x => ⟨0, by simp [bodyO, inBody], fun _ => rfl⟩, .inl rfl, by simp [plain],
          fun h => ⟨(hn h).1, by simp [clean]⟩⟩
      | tail =>
        have hy := DynCfg.shape_tail hsh
        simp only [hsh, Option.some.injEq, Prod.mk.injEq] at hs
        obtain ⟨rfl, rfl⟩ := hs
        exact ⟨rfl, rfl, fun i _ => .inl rfl, fun r' x => ⟨0, by simp [oweO, owe, hy], fun _ => rfl⟩,
          fun r' x => ⟨0, by simp [bodyO, inBody], fun _ => rfl⟩, .inl rfl, by simp [plain],
          fun h => ⟨(hn h).1, by simp [clean]⟩⟩
  | nIter e rest q => exact absurd hp (by simp [plain])
  | nPost e x rest y => exact absurd hp (by simp [plain])
  | rIter e rest =>
    match rest, hs with
    | [], hs =>
      simp only [jobStep, Option.some.injEq, Prod.mk.injEq] at hs
      obtain ⟨rfl, rfl⟩ := hs
      exact ⟨rfl, rfl, fun i _ => .inl rfl, fun r' x => ⟨0, by simp [oweO, owe], fun _ => rfl⟩,
        fun r' x => ⟨0, by simp [bodyO, inBody], fun _ => rfl⟩, .inl rfl, by simp, fun h => ⟨(hn h).1, by simp⟩⟩
    | [y], hs =>
      simp only [jobStep, Option.some.injEq, Prod.mk.injEq] at hs
      obtain ⟨rfl, rfl⟩ := hs
      exact ⟨rfl, rfl, fun i _ => .inl rfl, fun r' x => ⟨0, by simp [oweO, owe], fun _ => rfl⟩,
        fun r' x => ⟨0, by simp [bodyO, inBody], fun _ => rfl⟩, .inl rfl, by simp [plain],
        fun h => ⟨(hn h).1, by simp [clean]⟩⟩
    | y :: z :: rest, hs =>
      simp only [jobStep] at hs
      split at hs
      · rename_i hse
        simp only [Option.some.injEq, Prod.mk.injEq] at hs
        obtain ⟨rfl, rfl⟩ := hs
        have hnf : ¬ nf := fun h => by rw [hne h] at hse; simp at hse
        refine ⟨rfl, rfl, fun i _ => .inl rfl,
          fun r' x => ⟨if r = r' then [y].count x else 0, ?_, fun h => absurd h hnf⟩,
          fun r' x => ⟨0, by simp [bodyO, inBody], fun _ => rfl⟩, .inl rfl, by simp [plain], fun h => absurd h hnf⟩
        simp only [oweO, owe, Option.map_some, Option.getD_some]
        rw [List.count_singleton, List.count_cons (a := x) (b := y) (l := z :: rest)]
        by_cases h1 : r = r' <;> by_cases h2 : y = x <;> simp [h1, h2] <;> omega
      · simp only [Option.some.injEq, Prod.mk.injEq] at hs
        obtain ⟨rfl, rfl⟩ := hs
        refine ⟨rfl, rfl, fun i _ => .inl rfl, fun r' x => ⟨0, ?_, fun _ => rfl⟩,
          fun r' x => ⟨0, by simp [bodyO, inBody, push], fun _ => rfl⟩, .inl rfl, by simp [plain],
          fun h => ⟨(hn h).1, by simp [clean]⟩⟩
        simp only [push, queue_count, oweO, owe, Option.map_some, Option.getD_some]
        rw [List.count_cons (a := x) (b := y)]
        by_cases h1 : r = r' <;> by_cases h2 : y = x <;> simp [h1, h2] <;> omega
  | proc e =>
    simp only [jobStep] at hs
    split at hs
    · rename_i hse
      simp only [Option.some.injEq, Prod.mk.injEq] at hs
      obtain ⟨rfl, rfl⟩ := hs
      have hnf : ¬ nf := fun h => by rw [hne h] at hse; simp at hse
      exact ⟨rfl, rfl, fun i _ => .inl rfl,
        fun r' x => ⟨if r = r' then [e].count x else 0, by simp [oweO, owe], fun h => absurd h hnf⟩,
        fun r' x => ⟨0, by simp [bodyO, inBody], fun _ => rfl⟩, .inl rfl, by simp, fun h => absurd h hnf⟩
    · split at hs
      · simp only [Option.some.injEq, Prod.mk.injEq] at hs
        obtain ⟨rfl, rfl⟩ := hs
        exact ⟨rfl, rfl, fun i _ => .inl rfl, fun r' x => ⟨0, by simp [oweO, owe], fun _ => rfl⟩,
          fun r' x => ⟨0, by simp [bodyO, inBody], fun _ => rfl⟩, .inl rfl, by simp [plain],
          fun h => ⟨(hn h).1, by simp [clean]⟩⟩
      · simp only [Option.some.injEq, Prod.mk.injEq] at hs
        obtain ⟨rfl, rfl⟩ := hs
        refine ⟨rfl, rfl, fun i _ => .inl rfl, fun r' x => ⟨0, ?_, fun _ => rfl⟩,
          fun r' x => ⟨0, by simp [bodyO, inBody, push], fun _ => rfl⟩, .inl rfl, by simp,
          fun h => ⟨(hn h).1, by simp⟩⟩
        simp only [push, queue_count, oweO, owe, Option.map_none, Option.getD_none, List.count_singleton]
        by_cases h1 : r = r' <;> by_cases h2 : e = x <;> simp [h1, h2] <;> omega
  | tailInc e =>
    simp only [jobStep, Option.some.injEq, Prod.mk.injEq] at hs
    obtain ⟨rfl, rfl⟩ := hs
    refine ⟨rfl, rfl, fun i _ => .inl rfl, fun r' x => ⟨0, ?_, fun _ => rfl⟩,
      fun r' x => ⟨0, ?_, fun _ => rfl⟩, .inl rfl, ?_, fun h => ⟨(hn h).1, ?_⟩⟩
    · by_cases hh : s.fin + 1 = c.totalEnd <;> simp [oweO, owe, hh]
    · by_cases hh : s.fin + 1 = c.totalEnd <;> simp [bodyO, inBody, hh]
    · intro j' hj'
      by_cases hh : s.fin + 1 = c.totalEnd <;> simp [hh] at hj'
      subst hj'; trivial
    · intro j' hj'
      by_cases hh : s.fin + 1 = c.totalEnd <;> simp [hh] at hj'
      subst hj'; trivial
  | tailNotify =>
    simp only [jobStep] at hs
    split at hs
    · simp at hs
    · simp only [Option.some.injEq, Prod.mk.injEq] at hs
      obtain ⟨rfl, rfl⟩ := hs
      obtain ⟨n1, n2⟩ := notify_cal s k
      obtain ⟨q1, q2, q3, q4⟩ := notify_rest s k
      exact ⟨q1, n1, n2, fun r' x => ⟨0, by simp [oweO, owe, q2, q3], fun _ => rfl⟩,
        fun r' x => ⟨0, by simp [bodyO, inBody, q3], fun _ => rfl⟩, .inl q3, by simp, fun h => ⟨by rw [q4]; exact (hn h).1, by simp⟩⟩
  | errSet st' =>
    simp only [jobStep, Option.some.injEq, Prod.mk.injEq] at hs
    obtain ⟨rfl, rfl⟩ := hs
    exact ⟨rfl, rfl, fun i _ => .inl rfl, fun r' x => ⟨0, by simp [oweO, owe], fun _ => rfl⟩,
      fun r' x => ⟨0, by simp [bodyO, inBody], fun _ => rfl⟩, .inl rfl, by simp [plain],
      fun h => absurd (hn h).2.1 (by simp [clean])⟩
  | errNotify =>
    simp only [jobStep, Option.some.injEq, Prod.mk.injEq] at hs
    obtain ⟨rfl, rfl⟩ := hs
    obtain ⟨n1, n2⟩ := notify_cal s k
    obtain ⟨q1, q2, q3, q4⟩ := notify_rest s k
    exact ⟨q1, n1, n2, fun r' x => ⟨0, by simp [oweO, owe, q2, q3], fun _ => rfl⟩,
      fun r' x => ⟨0, by simp [bodyO, inBody, q3], fun _ => rfl⟩, .inl q3, by simp, fun h => ⟨by rw [q4]; exact (hn h).1, by simp⟩⟩

/-! ### the invariant is kept -/

theorem OInv.due_pos {nf : Prop} {c : DynCfg} (w : c.g.WF) (hf : Forest c.g) {s : OvSt} (h : OInv nf c s) {r : Nat} {x : Eid}
    (hp : 1 ≤ due c s.callers.length s.trace r x) :
    x ∈ c.g.elems ∧ ∀ d ∈ c.g.deps x, (r, Ev.finish d) ∈ s.trace := by
  unfold due at hp
  match hd : c.g.deps x with
  | [] =>
    rw [hd] at hp
    have h1 : 0 < c.fronts.count x := by
      by_contra h0
      have : c.fronts.count x = 0 := by omega
      simp [this] at hp
    have := List.count_pos_iff.1 h1
    exact ⟨(List.mem_filter.1 this).1, by simp⟩
  | [d] =>
    rw [hd] at hp
    have h1 : c.fronts.count x = 0 := by
      rw [List.count_eq_zero]
      intro h0
      have := (List.mem_filter.1 h0).2
      simp [hd] at this
    simp [h1] at hp
    have h2 : (r, Ev.finish d) ∈ s.trace := hp
    have h5 := List.count_pos_iff.2 h2
    obtain ⟨l, hl, -⟩ := h.body r d
    have h3 : 0 < s.trace.count (r, Ev.start d) := by omega
    have h4 := h.el r d (List.count_pos_iff.1 h3)
    refine ⟨w.closedS d h4 x ((w.sym d x).2 (by simp [hd])), ?_⟩
    simpa using h2
  | _ :: _ :: _ =>
    have := hf x
    simp [hd] at this

theorem OInv.mk_step {nf : Prop} {c : DynCfg} (w : c.g.WF) (hf : Forest c.g) {s s' : OvSt} (h : OInv nf c s)
    (hb : ∀ r x, ∃ l, s'.trace.count (r, .start x) + pending c s' r x + l + due c s.callers.length s.trace r x =
      s.trace.count (r, .start x) + pending c s r x + due c s'.callers.length s'.trace r x ∧ (nf → l = 0))
    (hy : ∀ r x, ∃ l, s'.trace.count (r, .finish x) + bodies s' r x + l + s.trace.count (r, .start x) =
      s.trace.count (r, .finish x) + bodies s r x + s'.trace.count (r, .start x) ∧ (nf → l = 0))
    (ht : s'.trace = s.trace ∨ (∃ r e, 1 ≤ pending c s r e ∧ s'.trace = s.trace ++ [(r, .start e)]) ∨
      ∃ r e, s'.trace = s.trace ++ [(r, .finish e)])
    (h1 : ∀ p ∈ s'.jobs, plain p.2) (h2 : ∀ j, OPc.at (.inline j) ∈ s'.callers → plain j)
    (h3 : nf → s'.status = .ok ∧ (∀ p ∈ s'.jobs, clean p.2) ∧ ∀ j, OPc.at (.inline j) ∈ s'.callers → clean j) :
    OInv nf c s' := by
  refine ⟨fun r x => ?_, fun r x => ?_, ?_, ?_, h1, h2, h3⟩
  · obtain ⟨l, hl, hl0⟩ := hb r x
    obtain ⟨m, hm, hm0⟩ := h.bal r x
    exact ⟨l + m, by omega, fun hn => by rw [hl0 hn, hm0 hn]⟩
  · obtain ⟨l, hl, hl0⟩ := hy r x
    obtain ⟨m, hm, hm0⟩ := h.body r x
    exact ⟨l + m, by omega, fun hn => by rw [hl0 hn, hm0 hn]⟩
  · intro r x hx
    rcases ht with ht | ⟨r0, e, hp, ht⟩ | ⟨r0, e, ht⟩
    · rw [ht] at hx; exact h.el r x hx
    · rw [ht] at hx
      simp at hx
      rcases hx with hx | ⟨rfl, rfl⟩
      · exact h.el r x hx
      · obtain ⟨m, hm, -⟩ := h.bal r x
        have hd : 1 ≤ due c s.callers.length s.trace r x := by omega
        exact (h.due_pos w hf hd).1
    · rw [ht] at hx
      simp at hx
      exact h.el r x hx
  · intro pre r x post hx
    rcases ht with ht | ⟨r0, e, hp, ht⟩ | ⟨r0, e, ht⟩
    · rw [ht] at hx; exact h.good pre r x post hx
    · rw [ht] at hx
      rcases List.eq_nil_or_concat post with rfl | ⟨post', y, rfl⟩
      · obtain ⟨e1, e2⟩ := List.append_inj' hx rfl
        simp at e2
        obtain ⟨rfl, rfl⟩ := e2
        subst e1
        obtain ⟨m, hm, -⟩ := h.bal r0 e
        have hd : 1 ≤ due c s.callers.length s.trace r0 e := by omega
        exact (h.due_pos w hf hd).2
      · have hx' : s.trace ++ [(r0, Ev.start e)] = (pre ++ (r, Ev.start x) :: post') ++ [y] := by simp [hx]
        exact h.good pre r x post' (List.append_inj' hx' rfl).1
    · rw [ht] at hx
      rcases List.eq_nil_or_concat post with rfl | ⟨post', y, rfl⟩
      · obtain ⟨e1, e2⟩ := List.append_inj' hx rfl
        simp at e2
      · have hx' : s.trace ++ [(r0, Ev.finish e)] = (pre ++ (r, Ev.start x) :: post') ++ [y] := by simp [hx]
        exact h.good pre r x post' (List.append_inj' hx' rfl).1

theorem cal_eff {c : DynCfg} {s s' : OvSt} (len : s'.callers.length = s.callers.length)
    (cal : ∀ i : Nat, i < s.callers.length → s'.callers[i]? = s.callers[i]? ∨
      (s.callers[i]? = some (.at .asleep) ∧ s'.callers[i]? = some (.at .waking))) (r : Nat) (x : Eid) :
    callerOwe c s' r x = callerOwe c s r x ∧ callerBody s' r x = callerBody s r x := by
  unfold callerOwe callerBody
  by_cases hr : r < s.callers.length
  · rcases cal r hr with h | ⟨h1, h2⟩
    · rw [h]; exact ⟨rfl, rfl⟩
    · rw [h1, h2]; simp [oweC, bodyC]
  · rw [List.getElem?_eq_none (by omega), List.getElem?_eq_none (by omega)]; exact ⟨rfl, rfl⟩

theorem cal_inline {s s' : OvSt} (len : s'.callers.length = s.callers.length)
    (cal : ∀ i : Nat, i < s.callers.length → s'.callers[i]? = s.callers[i]? ∨
      (s.callers[i]? = some (.at .asleep) ∧ s'.callers[i]? = some (.at .waking))) {j : Job}
    (h : OPc.at (.inline j) ∈ s'.callers) : OPc.at (.inline j) ∈ s.callers := by
  obtain ⟨i, hi, he⟩ := List.mem_iff_getElem.1 h
  have hg : s'.callers[i]? = some (OPc.at (.inline j)) := by rw [List.getElem?_eq_getElem hi, he]
  rcases cal i (by omega) with h1 | ⟨h1, h2⟩
  · rw [hg] at h1
    exact List.mem_of_getElem? h1.symm
  · rw [hg] at h2; simp at h2

/-- What is owed when the program counter of one caller changes. -/
theorem set_owe (c : DynCfg) (s : OvSt) (r : Nat) (p q : OPc) (hp : s.callers[r]? = some p) (r' : Nat) (x : Eid)
    (l : List OPc) (hl : l = s.callers.set r q) :
    ((l[r']?).map (fun p => oweC c p x)).getD 0 + (if r = r' then oweC c p x else 0) =
      callerOwe c s r' x + (if r = r' then oweC c q x else 0) ∧
    ((l[r']?).map (fun p => bodyC p x)).getD 0 + (if r = r' then bodyC p x else 0) =
      callerBody s r' x + (if r = r' then bodyC q x else 0) := by
  subst hl
  unfold callerOwe callerBody
  by_cases h : r = r'
  · subst h
    have hr : r < s.callers.length := (List.getElem?_eq_some_iff.1 hp).1
    simp [hp, List.getElem?_set_self hr, Nat.add_comm]
  · simp [h, List.getElem?_set_ne h]

theorem owe_exec_pos {c : DynCfg} {s : OvSt} {i : Nat} {r : Nat} {e : Eid} (h : s.jobs[i]? = some (r, .exec e)) :
    1 ≤ pending c s r e := by
  have := (sumJ_split (fun j => owe c j e) s.jobs i _ h r).1
  have h1 : owe c (.exec e) e = 1 := by simp [owe]
  simp only [if_true, h1] at this
  unfold pending
  omega

/-- A step of a caller that only moves it, and perhaps hands a task to the pool. -/
theorem inv_caller {nf : Prop} {c : DynCfg} (w : c.g.WF) (hf : Forest c.g) {s s' : OvSt} (h : OInv nf c s) {r : Nat}
    {p q : OPc} (hp : s.callers[r]? = some p) (hc : s'.callers = s.callers.set r q) (ht : s'.trace = s.trace)
    (hj : s'.jobs = s.jobs) (hst : s'.status = s.status)
    (hq : ∀ r' x, ∃ l, s'.queue.count (r', x) + (if r = r' then oweC c q x else 0) + l =
      s.queue.count (r', x) + (if r = r' then oweC c p x else 0) ∧ (nf → l = 0))
    (hb : ∀ x, bodyC q x = bodyC p x) (hpl : ∀ j, q = .at (.inline j) → plain j ∧ clean j) : OInv nf c s' := by
  refine h.mk_step w hf (fun r' x => ?_) (fun r' x => ?_) (.inl ht) (by rw [hj]; exact h.plJ) ?_ ?_
  · obtain ⟨l, hl, hl0⟩ := hq r' x
    refine ⟨l, ?_, hl0⟩
    have h1 := (set_owe c s r p q hp r' x s'.callers hc).1
    have h2 : s'.callers.length = s.callers.length := by rw [hc]; simp
    rw [ht, h2]
    unfold pending
    rw [hj]
    have h3 : callerOwe c s' r' x = ((s'.callers[r']?).map (fun p => oweC c p x)).getD 0 := rfl
    omega
  · refine ⟨0, ?_, fun _ => rfl⟩
    have h1 := (set_owe c s r p q hp r' x s'.callers hc).2
    rw [ht]
    unfold bodies
    rw [hj]
    have h3 : callerBody s' r' x = ((s'.callers[r']?).map (fun p => bodyC p x)).getD 0 := rfl
    rw [hb x] at h1
    omega
  · intro j hj'
    rw [hc] at hj'
    rcases List.mem_or_eq_of_mem_set hj' with h1 | h1
    · exact h.plC j h1
    · exact (hpl j h1.symm).1
  · intro hn
    obtain ⟨o1, o2, o3⟩ := h.ok hn
    refine ⟨by rw [hst]; exact o1, by rw [hj]; exact o2, fun j hj' => ?_⟩
    rw [hc] at hj'
    rcases List.mem_or_eq_of_mem_set hj' with h1 | h1
    · exact o3 j h1
    · exact (hpl j h1.symm).2

theorem body_elem {nf : Prop} {c : DynCfg} {s : OvSt} (h : OInv nf c s) {r : Nat} {e : Eid} (hb : 1 ≤ bodies s r e) :
    e ∈ c.g.elems := by
  obtain ⟨l, hl, -⟩ := h.body r e
  exact h.el r e (List.count_pos_iff.1 (by omega))

theorem inv_inline {nf : Prop} {c : DynCfg} (w : c.g.WF) (hf : Forest c.g) {s s1 s' : OvSt} (h : OInv nf c s) {r k : Nat}
    {st : CStatus} {j : Job} {oj : Option Job} (hp : s.callers[r]? = some (.at (.inline j)))
    (hs : jobStep c s r st k j = some (s1, oj)) (hn : nf → st.isErr = false)
    {q : MainPc} (hq : (oj = none ∧ q = .poll c.epoch) ∨ ∃ j', oj = some j' ∧ q = .inline j')
    (hs' : s' = s1.goto r q) : OInv nf c s' := by
  have hmem : OPc.at (.inline j) ∈ s.callers := List.mem_of_getElem? hp
  have hr : r < s.callers.length := (List.getElem?_eq_some_iff.1 hp).1
  have hcb : ∀ x, callerBody s r x = inBody j x := fun x => by simp [callerBody, hp, bodyC]
  have hco : ∀ x, callerOwe c s r x = owe c j x := fun x => by simp [callerOwe, hp, oweC]
  have E : JobEff nf c s s1 r j oj := jobStep_eff w hf hs (h.plC j hmem)
    (fun e he => body_elem h (r := r) (by unfold bodies; rw [hcb e, he]; simp [inBody]))
    (fun hnf => ⟨(h.ok hnf).1, (h.ok hnf).2.2 j hmem, hn hnf⟩)
  have hp1 : s1.callers[r]? = some (.at (.inline j)) := by
    rcases E.cal r hr with h1 | ⟨h1, -⟩
    · rw [h1, hp]
    · rw [hp] at h1; simp at h1
  have hoc : ∀ x, oweC c (.at q) x = oweO c oj x := by
    intro x; rcases hq with ⟨rfl, rfl⟩ | ⟨j', rfl, rfl⟩ <;> simp [oweC, oweO]
  have hbc : ∀ x, bodyC (.at q) x = bodyO oj x := by
    intro x; rcases hq with ⟨rfl, rfl⟩ | ⟨j', rfl, rfl⟩ <;> simp [bodyC, bodyO]
  have hlen : s'.callers.length = s.callers.length := by rw [hs']; simp [goto, E.len]
  have htr : s'.trace = s1.trace := by rw [hs']; rfl
  have hjobs : s'.jobs = s.jobs := by rw [hs', ← E.jobs]; rfl
  have hqu : s'.queue = s1.queue := by rw [hs']; rfl
  have hin : ∀ j', OPc.at (.inline j') ∈ s'.callers → OPc.at (.inline j') ∈ s.callers ∨ oj = some j' := by
    intro j' hj'
    rw [hs'] at hj'
    rcases List.mem_or_eq_of_mem_set hj' with h1 | h1
    · exact .inl (cal_inline E.len E.cal h1)
    · rcases hq with ⟨rfl, rfl⟩ | ⟨j2, rfl, rfl⟩
      · simp at h1
      · simp at h1; right; rw [h1]
  refine h.mk_step w hf (fun r' x => ?_) (fun r' x => ?_) ?_ (by rw [hjobs]; exact h.plJ) ?_ ?_
  · obtain ⟨l, hl, hl0⟩ := E.bal r' x
    refine ⟨l, ?_, hl0⟩
    have h1 := (set_owe c s1 r _ _ hp1 r' x s'.callers (by rw [hs']; rfl)).1
    have h2 := (cal_eff (c := c) E.len E.cal r' x).1
    have h3 : callerOwe c s' r' x = ((s'.callers[r']?).map (fun p => oweC c p x)).getD 0 := rfl
    rw [hoc x, ← h3, h2] at h1
    have h4 : oweC c (.at (.inline j)) x = owe c j x := rfl
    rw [h4] at h1
    unfold pending due
    rw [htr, hjobs, hqu, hlen]
    omega
  · obtain ⟨l, hl, hl0⟩ := E.body r' x
    refine ⟨l, ?_, hl0⟩
    have h1 := (set_owe c s1 r _ _ hp1 r' x s'.callers (by rw [hs']; rfl)).2
    have h2 := (cal_eff (c := c) E.len E.cal r' x).2
    have h3 : callerBody s' r' x = ((s'.callers[r']?).map (fun p => bodyC p x)).getD 0 := rfl
    rw [hbc x, ← h3, h2] at h1
    have h4 : bodyC (.at (.inline j)) x = inBody j x := rfl
    rw [h4] at h1
    unfold bodies
    rw [htr, hjobs]
    omega
  · rw [htr]
    rcases E.tr with h1 | ⟨e, he, h1⟩ | ⟨e, h1⟩
    · exact .inl h1
    · refine .inr (.inl ⟨r, e, ?_, h1⟩)
      unfold pending
      rw [hco e, he]
      simp [owe]
    · exact .inr (.inr ⟨r, e, h1⟩)
  · intro j' hj'
    rcases hin j' hj' with h1 | h1
    · exact h.plC j' h1
    · exact E.pl j' h1
  · intro hnf
    obtain ⟨o1, o2, o3⟩ := h.ok hnf
    refine ⟨by rw [hs']; exact (E.ok hnf).1, by rw [hjobs]; exact o2, fun j' hj' => ?_⟩
    rcases hin j' hj' with h1 | h1
    · exact o3 j' h1
    · exact (E.ok hnf).2 j' h1

theorem inv_work {nf : Prop} {c : DynCfg} (w : c.g.WF) (hf : Forest c.g) {s s1 s' : OvSt} (h : OInv nf c s) {i k : Nat}
    {st : CStatus} {p : Nat × Job} {oj : Option Job} (hp : s.jobs[i]? = some p)
    (hs : jobStep c s p.1 st k p.2 = some (s1, oj)) (hn : nf → st.isErr = false)
    (hs' : s' = { s1 with jobs := match oj with | some j' => s.jobs.set i (p.1, j') | none => s.jobs.eraseIdx i }) :
    OInv nf c s' := by
  have hmem : p ∈ s.jobs := List.mem_of_getElem? hp
  have E : JobEff nf c s s1 p.1 p.2 oj := jobStep_eff w hf hs (h.plJ p hmem)
    (fun e he => body_elem h (r := p.1) (by
      have := (sumJ_split (fun j => inBody j e) s.jobs i p hp p.1).1
      have h1 : inBody p.2 e = 1 := by rw [he]; simp [inBody]
      simp only [if_true, h1] at this
      unfold bodies
      omega))
    (fun hnf => ⟨(h.ok hnf).1, (h.ok hnf).2.1 p hmem, hn hnf⟩)
  have hcal : s'.callers = s1.callers := by rw [hs']
  have htr : s'.trace = s1.trace := by rw [hs']
  have hqu : s'.queue = s1.queue := by rw [hs']
  have hjm : ∀ q ∈ s'.jobs, q ∈ s.jobs ∨ oj = some q.2 := by
    intro q hq
    rw [hs'] at hq
    cases oj with
    | none => exact .inl (List.mem_of_mem_eraseIdx hq)
    | some j' =>
      rcases List.mem_or_eq_of_mem_set hq with h1 | h1
      · exact .inl h1
      · right; rw [h1]
  have hsum : ∀ (f : Job → Nat) r', sumJ f s'.jobs r' + (if p.1 = r' then f p.2 else 0) =
      sumJ f s.jobs r' + (if p.1 = r' then (oj.map f).getD 0 else 0) := by
    intro f r'
    obtain ⟨h1, h2⟩ := sumJ_split f s.jobs i p hp r'
    rw [hs']
    cases oj with
    | none => simp only [Option.map_none, Option.getD_none, ite_self]; omega
    | some j' =>
      have := h2 j'
      simp only [Option.map_some, Option.getD_some]
      omega
  refine h.mk_step w hf (fun r' x => ?_) (fun r' x => ?_) ?_ ?_ ?_ ?_
  · obtain ⟨l, hl, hl0⟩ := E.bal r' x
    refine ⟨l, ?_, hl0⟩
    have h1 := hsum (fun j => owe c j x) r'
    have h2 := (cal_eff (c := c) E.len E.cal r' x).1
    have h3 : callerOwe c s' r' x = callerOwe c s1 r' x := by unfold callerOwe; rw [hcal]
    have h4 : (oj.map (fun j => owe c j x)).getD 0 = oweO c oj x := rfl
    rw [h4] at h1
    unfold pending due
    rw [htr, hqu, hcal, E.len]
    omega
  · obtain ⟨l, hl, hl0⟩ := E.body r' x
    refine ⟨l, ?_, hl0⟩
    have h1 := hsum (fun j => inBody j x) r'
    have h2 := (cal_eff (c := c) E.len E.cal r' x).2
    have h3 : callerBody s' r' x = callerBody s1 r' x := by unfold callerBody; rw [hcal]
    have h4 : (oj.map (fun j => inBody j x)).getD 0 = bodyO oj x := rfl
    rw [h4] at h1
    unfold bodies
    rw [htr]
    omega
  · rw [htr]
    rcases E.tr with h1 | ⟨e, he, h1⟩ | ⟨e, h1⟩
    · exact .inl h1
    · refine .inr (.inl ⟨p.1, e, owe_exec_pos (i := i) ?_, h1⟩)
      rw [hp, ← he]
    · exact .inr (.inr ⟨p.1, e, h1⟩)
  · intro q hq
    rcases hjm q hq with h1 | h1
    · exact h.plJ q h1
    · exact E.pl _ h1
  · intro j hj
    rw [hcal] at hj
    exact h.plC j (cal_inline E.len E.cal hj)
  · intro hnf
    obtain ⟨o1, o2, o3⟩ := h.ok hnf
    refine ⟨by rw [hs']; exact (E.ok hnf).1, fun q hq => ?_, fun j hj => ?_⟩
    · rcases hjm q hq with h1 | h1
      · exact o2 q h1
      · exact (E.ok hnf).2 _ h1
    · rw [hcal] at hj
      exact o3 j (cal_inline E.len E.cal hj)

theorem oinv_init (nf : Prop) (c : DynCfg) : OInv nf c (init c) := by
  refine ⟨fun r x => ⟨0, ?_, fun _ => rfl⟩, fun r x => ⟨0, ?_, fun _ => rfl⟩, ?_, ?_, ?_, ?_, fun _ => ⟨rfl, ?_, ?_⟩⟩
  · simp [init, pending, due, sumJ, callerOwe]
  · simp [init, bodies, sumJ, callerBody]
  · simp [init]
  · simp [init]
  · simp [init]
  · simp [init]
  · simp [init]
  · simp [init]

theorem oinv_step {nf : Prop} {c : DynCfg} (w : c.g.WF) (hf : Forest c.g) {s s' : OvSt} {a : OvAct} (h : OInv nf c s)
    (hs : step c s a = some s') (hn : nf → FineAct a) : OInv nf c s' := by
  cases a with
  | begin =>
    simp only [step, Option.some.injEq] at hs
    have hcal : s'.callers = s.callers ++ [.zero] := by rw [← hs]
    have htr : s'.trace = s.trace := by rw [← hs]; dsimp only; split <;> rfl
    have hj : s'.jobs = s.jobs := by rw [← hs]; dsimp only; split <;> rfl
    have hq : s'.queue = s.queue := by rw [← hs]; dsimp only; split <;> rfl
    have hst : nf → s'.status = s.status := by
      intro hnf
      rw [← hs]
      dsimp only
      rw [if_pos (by rw [(h.ok hnf).1]; rfl)]
    have hcl : ∀ r, s'.callers[r]? = if r = s.callers.length then some .zero else s.callers[r]? := by
      intro r
      rw [hcal]
      by_cases h1 : r = s.callers.length
      · subst h1; simp
      · rw [if_neg h1]
        by_cases h2 : r < s.callers.length
        · rw [List.getElem?_append_left h2]
        · rw [List.getElem?_eq_none (by simp; omega), List.getElem?_eq_none (by omega)]
    have hin : ∀ j, OPc.at (.inline j) ∈ s'.callers → OPc.at (.inline j) ∈ s.callers := by
      intro j hj'; rw [hcal] at hj'; simpa using hj'
    refine h.mk_step w hf (fun r x => ⟨0, ?_, fun _ => rfl⟩) (fun r x => ⟨0, ?_, fun _ => rfl⟩) (.inl htr)
      (by rw [hj]; exact h.plJ) (fun j hj' => h.plC j (hin j hj'))
      (fun hnf => ⟨by rw [hst hnf]; exact (h.ok hnf).1, by rw [hj]; exact (h.ok hnf).2.1,
        fun j hj' => (h.ok hnf).2.2 j (hin j hj')⟩)
    · unfold pending due callerOwe
      rw [htr, hj, hq, hcl r]
      have hlen : s'.callers.length = s.callers.length + 1 := by rw [hcal]; simp
      rw [hlen]
      by_cases h1 : r = s.callers.length
      · subst h1; simp [oweC]; omega
      · rw [if_neg h1]
        by_cases h2 : r < s.callers.length
        · rw [if_pos h2, if_pos (by omega)]; omega
        · rw [if_neg h2, if_neg (by omega)]; omega
    · unfold bodies callerBody
      rw [htr, hj, hcl r]
      by_cases h1 : r = s.callers.length
      · subst h1; simp [bodyC]
      · rw [if_neg h1]; omega
  | main r st k =>
    simp only [step] at hs
    split at hs
    · simp at hs
    · rename_i p hp
      have hn' : nf → st.isErr = false := fun hnf => hn hnf st (.inl ⟨r, k, rfl⟩)
      have hne : nf → s.status.isErr = false := fun hnf => by rw [(h.ok hnf).1]; rfl
      have simple : ∀ q, s' = { s with callers := s.callers.set r q } → (∀ x, oweC c q x = oweC c p x) →
          (∀ x, bodyC q x = bodyC p x) → (∀ j, q = .at (.inline j) → plain j ∧ clean j) → OInv nf c s' := by
        intro q e1 e2 e3 e4
        subst e1
        refine inv_caller (s := s) w hf h hp rfl rfl rfl rfl (fun r' x => ⟨0, ?_, fun _ => rfl⟩) e3 e4
        rw [e2 x]
        simp
      cases p with
      | returned st0 => simp [mainStep] at hs
      | zero =>
        simp only [mainStep, Option.some.injEq] at hs
        subst hs
        refine inv_caller (s := s) w hf h hp rfl rfl rfl rfl (fun r' x => ⟨0, ?_, fun _ => rfl⟩) (fun _ => rfl) (by simp)
        simp [oweC, goto]
      | «at» m =>
        match m, hp, hs with
        | .idle, hp, hs => simp [mainStep] at hs
        | .fronts [], hp, hs =>
          simp only [mainStep, Option.some.injEq] at hs
          exact simple (.at (.poll c.epoch)) hs.symm (by simp [oweC]) (by simp [bodyC]) (by simp)
        | .fronts [y], hp, hs =>
          simp only [mainStep] at hs
          split at hs
          · rename_i hse
            simp only [Option.some.injEq] at hs
            subst hs
            refine inv_caller (s := s) w hf h hp rfl rfl rfl rfl (fun r' x => ⟨if r = r' then [y].count x else 0, ?_, fun hnf => ?_⟩)
              (fun _ => rfl) (by simp)
            · simp [oweC, goto]
            · rw [hne hnf] at hse; simp at hse
          · split at hs
            · simp only [Option.some.injEq] at hs
              exact simple (.at (.inline (.exec y))) hs.symm (by simp [oweC, owe]) (by simp [bodyC, inBody])
                (by simp [plain, clean])
            · simp only [Option.some.injEq] at hs
              subst hs
              refine inv_caller (s := s) w hf h hp rfl rfl rfl rfl (fun r' x => ⟨0, ?_, fun _ => rfl⟩) (fun _ => rfl) (by simp)
              simp only [goto, push, queue_count, oweC, List.count_singleton]
              by_cases h1 : r = r' <;> by_cases h2 : y = x <;> simp [h1, h2]
        | .fronts (y :: z :: rest), hp, hs =>
          simp only [mainStep] at hs
          split at hs
          · rename_i hse
            simp only [Option.some.injEq] at hs
            subst hs
            refine inv_caller (s := s) w hf h hp rfl rfl rfl rfl (fun r' x => ⟨if r = r' then [y].count x else 0, ?_, fun hnf => ?_⟩)
              (fun _ => rfl) (by simp)
            · simp only [oweC, goto]
              rw [List.count_singleton, List.count_cons (a := x) (b := y) (l := z :: rest)]
              by_cases h1 : r = r' <;> simp [h1] <;> omega
            · rw [hne hnf] at hse; simp at hse
          · simp only [Option.some.injEq] at hs
            subst hs
            refine inv_caller (s := s) w hf h hp rfl rfl rfl rfl (fun r' x => ⟨0, ?_, fun _ => rfl⟩) (fun _ => rfl) (by simp)
            simp only [goto, push, queue_count, oweC]
            rw [List.count_cons (a := x) (b := y) (l := z :: rest)]
            by_cases h1 : r = r' <;> by_cases h2 : y = x <;> simp [h1, h2] <;> omega
        | .inline j, hp, hs =>
          simp only [mainStep] at hs
          split at hs
          · simp at hs
          · rename_i s1 j' hj
            simp only [Option.some.injEq] at hs
            exact inv_inline w hf h hp hj hn' (.inr ⟨j', rfl, rfl⟩) hs.symm
          · rename_i s1 hj
            simp only [Option.some.injEq] at hs
            exact inv_inline w hf h hp hj hn' (.inl ⟨rfl, rfl⟩) hs.symm
        | .poll 0, hp, hs =>
          simp only [mainStep, Option.some.injEq] at hs
          exact simple (.at .lock) hs.symm (by simp [oweC]) (by simp [bodyC]) (by simp)
        | .poll (n + 1), hp, hs =>
          simp only [mainStep] at hs
          split at hs
          · simp only [Option.some.injEq] at hs
            exact simple (.returned s.status) hs.symm (by simp [oweC]) (by simp [bodyC]) (by simp)
          · simp only [Option.some.injEq] at hs
            exact simple (.at (.poll n)) hs.symm (by simp [oweC]) (by simp [bodyC]) (by simp)
        | .lock, hp, hs =>
          simp only [mainStep] at hs
          split at hs
          · simp at hs
          · simp only [Option.some.injEq] at hs
            exact simple (.at .check) hs.symm (by simp [oweC]) (by simp [bodyC]) (by simp)
        | .check, hp, hs =>
          simp only [mainStep] at hs
          split at hs
          · simp only [Option.some.injEq] at hs
            exact simple (.returned s.status) hs.symm (by simp [oweC]) (by simp [bodyC]) (by simp)
          · simp only [Option.some.injEq] at hs
            exact simple (.at .preSleep) hs.symm (by simp [oweC]) (by simp [bodyC]) (by simp)
        | .preSleep, hp, hs =>
          simp only [mainStep, Option.some.injEq] at hs
          exact simple (.at .asleep) hs.symm (by simp [oweC]) (by simp [bodyC]) (by simp)
        | .asleep, hp, hs => simp [mainStep] at hs
        | .waking, hp, hs =>
          simp only [mainStep] at hs
          split at hs
          · simp at hs
          · simp only [Option.some.injEq] at hs
            exact simple (.at .check) hs.symm (by simp [oweC]) (by simp [bodyC]) (by simp)
  | take i =>
    simp only [step] at hs
    split at hs
    · simp at hs
    · rename_i p hp
      split at hs
      · simp only [Option.some.injEq] at hs
        subst hs
        have hcount : ∀ q, s.queue.count q = (s.queue.eraseIdx i).count q + if p = q then 1 else 0 := by
          intro q
          obtain ⟨hi, he⟩ := List.getElem?_eq_some_iff.1 hp
          have := (List.getElem_cons_eraseIdx_perm hi).count_eq q
          rw [← this, List.count_cons, he]
          simp
        refine h.mk_step w hf (fun r x => ⟨0, ?_, fun _ => rfl⟩) (fun r x => ⟨0, ?_, fun _ => rfl⟩) (.inl rfl) ?_ h.plC ?_
        · have h1 := hcount (r, x)
          unfold pending
          simp only [sumJ_append]
          have h2 : sumJ (fun j => owe c j x) [(p.1, Job.exec p.2)] r = if p = (r, x) then 1 else 0 := by
            obtain ⟨a, b⟩ := p
            by_cases e1 : a = r <;> by_cases e2 : b = x <;> simp [sumJ, owe, e1, e2]
          have h3 : callerOwe c { s with queue := s.queue.eraseIdx i, jobs := s.jobs ++ [(p.1, Job.exec p.2)] } r x =
            callerOwe c s r x := rfl
          omega
        · unfold bodies
          simp only [sumJ_append]
          have h2 : sumJ (fun j => inBody j x) [(p.1, Job.exec p.2)] r = 0 := by simp [sumJ, inBody]
          have h3 : callerBody { s with queue := s.queue.eraseIdx i, jobs := s.jobs ++ [(p.1, Job.exec p.2)] } r x =
            callerBody s r x := rfl
          omega
        · intro q hq
          simp at hq
          rcases hq with hq | rfl
          · exact h.plJ q hq
          · trivial
        · intro hnf
          obtain ⟨o1, o2, o3⟩ := h.ok hnf
          refine ⟨o1, fun q hq => ?_, o3⟩
          simp at hq
          rcases hq with hq | rfl
          · exact o2 q hq
          · trivial
      · simp at hs
  | work i st k =>
    have hn' : nf → st.isErr = false := fun hnf => hn hnf st (.inr ⟨i, k, rfl⟩)
    simp only [step] at hs
    split at hs
    · simp at hs
    · rename_i p hp
      split at hs
      · simp at hs
      · rename_i s1 j' hj
        simp only [Option.some.injEq] at hs
        exact inv_work w hf h hp hj hn' hs.symm
      · rename_i s1 hj
        simp only [Option.some.injEq] at hs
        exact inv_work w hf h hp hj hn' hs.symm
  | spurious r =>
    simp only [step] at hs
    split at hs
    · rename_i hp
      simp only [Option.some.injEq] at hs
      subst hs
      exact inv_caller (s := s) w hf h hp rfl rfl rfl rfl (fun r' x => ⟨0, by simp [oweC], fun _ => rfl⟩) (fun _ => rfl) (by simp)
    · simp at hs

theorem oinv_run {nf : Prop} {c : DynCfg} (w : c.g.WF) (hf : Forest c.g) (acts : List OvAct) (hn : nf → ∀ a ∈ acts, FineAct a) :
    OInv nf c (OvSt.run c (init c) acts) := by
  suffices H : ∀ s, OInv nf c s → OInv nf c (OvSt.run c s acts) from H _ (oinv_init nf c)
  induction acts with
  | nil => intro s h; exact h
  | cons a as ih =>
    intro s h
    simp only [OvSt.run]
    apply ih (fun hnf b hb => hn hnf b (List.mem_cons_of_mem _ hb))
    cases hs : step c s a with
    | none => exact h
    | some s' => exact oinv_step w hf h hs (fun hnf => hn hnf a (List.mem_cons_self ..))

/-! ### the events of one run -/

theorem count_eventsOf (t : List (Nat × Ev)) (r : Nat) (e : Ev) : (eventsOf t r).count e = t.count (r, e) := by
  induction t with
  | nil => rfl
  | cons p t ih =>
    obtain ⟨a, b⟩ := p
    unfold eventsOf at ih ⊢
    rw [List.count_cons (a := (r, e)) (b := (a, b))]
    by_cases h1 : a = r
    · subst h1
      rw [List.filter_cons_of_pos (by simp), List.map_cons, List.count_cons, ih]
      simp
    · rw [List.filter_cons_of_neg (by simpa using h1), ih]
      simp [h1]

theorem mem_eventsOf (t : List (Nat × Ev)) (r : Nat) (e : Ev) : e ∈ eventsOf t r ↔ (r, e) ∈ t := by
  simp [eventsOf]

theorem eventsOf_split (t : List (Nat × Ev)) (r : Nat) (pre : List Ev) (e : Ev) (post : List Ev)
    (h : eventsOf t r = pre ++ e :: post) :
    ∃ a b, t = a ++ (r, e) :: b ∧ eventsOf a r = pre ∧ eventsOf b r = post := by
  unfold eventsOf at h
  obtain ⟨l1, l2, h1, h2, h3⟩ := List.map_eq_append_iff.1 h
  obtain ⟨p, l3, h4, h5, h6⟩ := List.map_eq_cons_iff.1 h3
  obtain ⟨t1, t2, e1, e2, e3⟩ := List.filter_eq_append_iff.1 h1
  rw [h4] at e3
  obtain ⟨u1, u2, e4, e5, e6, e7⟩ := List.filter_eq_cons_iff.1 e3
  refine ⟨t1 ++ u1, u2, ?_, ?_, ?_⟩
  · rw [e1, e4]
    have : p = (r, e) := by
      have : p.1 = r := by simpa using e6
      rw [← this, ← h5]
    simp [this]
  · unfold eventsOf
    rw [List.filter_append, e2, List.filter_eq_nil_iff.2 e5]
    simpa using h2
  · unfold eventsOf
    rw [e7]
    exact h6

theorem fronts_count {c : DynCfg} (w : c.g.WF) (x : Eid) :
    c.fronts.count x = if x ∈ c.g.elems ∧ c.g.deps x = [] then 1 else 0 := by
  have hnd : c.fronts.Nodup := w.nodup.filter _
  by_cases hx : x ∈ c.fronts
  · rw [List.count_eq_one_of_mem hnd hx, if_pos]
    simpa [DynCfg.fronts] using hx
  · rw [List.count_eq_zero_of_not_mem hx, if_neg]
    simpa [DynCfg.fronts] using hx

/-- Nothing is started twice in one run. -/
theorem OInv.start_le {nf : Prop} {c : DynCfg} (w : c.g.WF) (ha : AcyclicOn c.g.Edge c.g.elems) (hf : Forest c.g) {s : OvSt}
    (h : OInv nf c s) (r : Nat) (x : Eid) : s.trace.count (r, .start x) ≤ 1 := by
  by_contra hx
  have hR := Graph.no_deadlock (c.g.elems.filter (fun v => decide (2 ≤ s.trace.count (r, .start v))))
    (fun v hv => ha v (List.mem_filter.1 hv).1) (by
      intro v hv
      rw [List.mem_filter, decide_eq_true_eq] at hv
      obtain ⟨l, hl, -⟩ := h.bal r v
      have hfr := fronts_count w v
      have hlen := hf v
      unfold due at hl
      match hd : c.g.deps v with
      | [] =>
        rw [hd] at hl hfr
        simp at hl
        split at hl <;> split at hfr <;> omega
      | d :: d' :: rest => rw [hd] at hlen; simp at hlen
      | [d] =>
        rw [hd] at hl hfr
        rw [if_neg (by simp)] at hfr
        rw [hfr] at hl
        simp at hl
        obtain ⟨l2, hl2, -⟩ := h.body r d
        refine ⟨d, ?_, by simp⟩
        rw [List.mem_filter, decide_eq_true_eq]
        exact ⟨h.el r d (List.count_pos_iff.1 (by omega)), by omega⟩)
  have : x ∈ c.g.elems.filter (fun v => decide (2 ≤ s.trace.count (r, .start v))) := by
    rw [List.mem_filter, decide_eq_true_eq]
    exact ⟨h.el r x (List.count_pos_iff.1 (by omega)), by omega⟩
  rw [hR] at this
  cases this

/-- Nothing is left out when nothing is pending. -/
theorem OInv.start_ge {nf : Prop} {c : DynCfg} (w : c.g.WF) (ha : AcyclicOn c.g.Edge c.g.elems) (hf : Forest c.g) {s : OvSt}
    (h : OInv nf c s) (hn : nf) (r : Nat) (hr : r < s.callers.length) (hp : ∀ x, pending c s r x = 0)
    (hb : ∀ x, bodies s r x = 0) (x : Eid) (hx : x ∈ c.g.elems) :
    s.trace.count (r, .start x) = 1 ∧ s.trace.count (r, .finish x) = 1 := by
  have heq : ∀ v, s.trace.count (r, .finish v) = s.trace.count (r, .start v) := by
    intro v
    obtain ⟨l, hl, h0⟩ := h.body r v
    have := h0 hn
    have := hb v
    omega
  have hR := Graph.no_deadlock (c.g.elems.filter (fun v => decide (s.trace.count (r, .start v) = 0)))
    (fun v hv => ha v (List.mem_filter.1 hv).1) (by
      intro v hv
      rw [List.mem_filter, decide_eq_true_eq] at hv
      obtain ⟨l, hl, h0⟩ := h.bal r v
      have hl0 := h0 hn
      have hfr := fronts_count w v
      have hlen := hf v
      unfold due at hl
      rw [if_pos hr, hp v] at hl
      match hd : c.g.deps v with
      | [] =>
        rw [hd] at hl hfr
        rw [if_pos ⟨hv.1, rfl⟩] at hfr
        simp at hl
        omega
      | d :: d' :: rest => rw [hd] at hlen; simp at hlen
      | [d] =>
        rw [hd] at hl hfr
        rw [if_neg (by simp)] at hfr
        rw [hfr] at hl
        simp at hl
        refine ⟨d, ?_, by simp⟩
        rw [List.mem_filter, decide_eq_true_eq]
        have := heq d
        exact ⟨w.closedD v hv.1 d (by rw [hd]; simp), by omega⟩)
  have h1 : s.trace.count (r, .start x) ≠ 0 := by
    intro h1
    have : x ∈ c.g.elems.filter (fun v => decide (s.trace.count (r, .start v) = 0)) := by
      rw [List.mem_filter, decide_eq_true_eq]; exact ⟨hx, h1⟩
    rw [hR] at this
    cases this
  have h2 := h.start_le w ha hf r x
  rw [heq x]
  omega

/-! ### states in which nothing can move -/

theorem jobStep_none {c : DynCfg} {s : OvSt} {r k : Nat} {st : CStatus} {j : Job} (h : jobStep c s r st k j = none) :
    s.holds = true := by
  by_contra h0
  simp at h0
  cases j with
  | nIter e rest q => cases rest <;> cases q <;> simp [jobStep] at h <;> split at h <;> simp at h
  | rIter e rest => match rest with
    | [] => simp [jobStep] at h
    | [x] => simp [jobStep] at h
    | x :: y :: rest => simp [jobStep] at h; split at h <;> simp at h
  | after e =>
    simp only [jobStep] at h
    split at h
    · simp at h
    · split at h
      · simp at h
      · split at h <;> simp at h
      · simp at h
      · simp at h
  | proc e => simp only [jobStep] at h; split at h <;> [simp at h; (split at h <;> simp at h)]
  | nPost e x rest y => simp only [jobStep] at h; split at h <;> simp at h
  | body e => simp only [jobStep] at h; split at h <;> simp at h
  | tailNotify => simp [jobStep, h0] at h
  | _ => simp [jobStep] at h

theorem quiet_facts {c : DynCfg} {s : OvSt} (h : Quiet c s) (hw : 0 < c.workers) :
    s.queue = [] ∧ s.jobs = [] ∧ ∀ (r : Nat) (p : OPc), s.callers[r]? = some p →
      p = .at .asleep ∨ (∃ st, p = .returned st) ∨ p = .at .idle := by
  obtain ⟨h1, h2, h3⟩ := h
  have hh : s.holds = false := by
    by_contra h0
    simp [holds] at h0
    obtain ⟨p, hp, hq⟩ := h0
    obtain ⟨r, hr⟩ := List.getElem?_of_mem hp
    have := h1 r .ok 0
    simp only [step, hr] at this
    rcases Classical.or_iff_not_imp_left.2 hq with rfl | rfl
    · simp only [mainStep] at this; split at this <;> simp at this
    · simp [mainStep] at this
  have hj : s.jobs = [] := by
    by_contra h0
    obtain ⟨p, l, hl⟩ := List.exists_cons_of_ne_nil h0
    have := h3 0 .ok 0
    simp only [step, hl, List.getElem?_cons_zero] at this
    split at this
    · rename_i hn
      rw [jobStep_none hn] at hh
      simp at hh
    · simp at this
    · simp at this
  refine ⟨?_, hj, fun r p hp => ?_⟩
  · by_contra h0
    obtain ⟨p, l, hl⟩ := List.exists_cons_of_ne_nil h0
    have := h2 0
    simp [step, hl, hj, hw] at this
  · have := h1 r .ok 0
    simp only [step, hp] at this
    cases p with
    | returned st => exact .inr (.inl ⟨st, rfl⟩)
    | zero => simp [mainStep] at this
    | «at» m =>
      match m, this with
      | .asleep, _ => exact .inl rfl
      | .idle, _ => exact .inr (.inr rfl)
      | .fronts [], this => simp [mainStep] at this
      | .fronts [y], this => simp only [mainStep] at this; split at this <;> [simp at this; (split at this <;> simp at this)]
      | .fronts (y :: z :: l), this => simp only [mainStep] at this; split at this <;> simp at this
      | .inline j, this =>
        simp only [mainStep] at this
        split at this
        · rename_i hn
          rw [jobStep_none hn] at hh
          simp at hh
        · simp at this
        · simp at this
      | .poll 0, this => simp [mainStep] at this
      | .poll (n + 1), this => simp only [mainStep] at this; split at this <;> simp at this
      | .lock, this => simp [mainStep, hh] at this
      | .check, this => simp only [mainStep] at this; split at this <;> simp at this
      | .preSleep, this => simp [mainStep] at this
      | .waking, this => simp [mainStep, hh] at this

theorem quiet_of {c : DynCfg} {s : OvSt} (hq : s.queue = []) (hj : s.jobs = [])
    (hc : ∀ p ∈ s.callers, p = .at .asleep ∨ ∃ st, p = .returned st) : Quiet c s := by
  refine ⟨fun r st k => ?_, fun i => ?_, fun i st k => ?_⟩
  · simp only [step]
    cases hp : s.callers[r]? with
    | none => rfl
    | some p =>
      rcases hc p (List.mem_of_getElem? hp) with rfl | ⟨st', rfl⟩ <;> rfl
  · simp [step, hq]
  · simp [step, hj]

theorem quiet_run {c : DynCfg} {s : OvSt} (h : Quiet c s) (acts : List OvAct)
    (ha : ∀ a ∈ acts, a ≠ .begin ∧ ∀ r, a ≠ .spurious r) : OvSt.run c s acts = s := by
  induction acts with
  | nil => rfl
  | cons a as ih =>
    have h1 : step c s a = none := by
      have := ha a (List.mem_cons_self ..)
      cases a with
      | begin => exact absurd rfl this.1
      | spurious r => exact absurd rfl (this.2 r)
      | main r st k => exact h.1 r st k
      | take i => exact h.2.1 i
      | work i st k => exact h.2.2 i st k
    simp only [OvSt.run, h1, Option.getD_none]
    exact ih (fun b hb => ha b (List.mem_cons_of_mem _ hb))

end Overlap
end CGraph
