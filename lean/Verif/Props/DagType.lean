import Verif.Lemmas.DagType
import Verif.Lemmas.DynPar
import Verif.Props.Dynamic

/-! # C31: serial and fully parallel special cases of the dynamic engine -/
namespace CGraph

open Spec

theorem take_takeWhile_upToFirst (p : Eid → Bool) (l : List Eid) :
    l.take ((l.takeWhile (fun e => !p e)).length + 1) = upToFirst p l := by
  induction l with
  | nil => rfl
  | cons a l ih =>
    simp only [upToFirst]
    cases h : p a with
    | true => simp [h]
    | false => simp [h, ih]

theorem foldl_add_find (fp : Eid → CStatus) (l : List Eid) (st : CStatus) (h : st.isErr = false) :
    l.foldl (fun s e => s.add (fp e)) st = ((l.find? (fun e => (fp e).isErr)).map fp).getD st := by
  induction l with
  | nil => rfl
  | cons a l ih =>
    simp only [List.foldl_cons, List.find?_cons]
    cases ha : (fp a).isErr with
    | false =>
      rw [CStatus.add_not_err_right ha]
      exact ih
    | true =>
      have h1 : st.add (fp a) = fp a := by
        cases hf : fp a
        rw [hf] at ha
        simp [CStatus.add, h, ha]
      rw [h1]
      have h2 : ∀ l : List Eid, l.foldl (fun s e => s.add (fp e)) (fp a) = fp a := by
        intro l
        induction l with
        | nil => rfl
        | cons b l ihl => simp only [List.foldl_cons]; rw [CStatus.add_of_err _ ha]; exact ihl
      simp [h2]

/-- **C31** (serial): if the engine chooses the serial path for a non-empty acyclic graph then the elements
form one chain; the run executes them in chain order up to and including the first element that fails, and
returns that element's status (the incoming status if none fails). -/
theorem C31_serial_is_chain (c : DynCfg) (w : c.g.WF) (ha : AcyclicOn c.g.Edge c.g.elems)
    (hne : c.g.elems ≠ []) (hd : c.dagType = .serial) :
    ∃ l, l.Perm c.g.elems ∧ IsOneChain c.g.deps c.g.succs l ∧
      ∀ fp st, st.isErr = false → c.serialRunAll fp st =
        (upToFirst (fun e => (fp e).isErr) l, ((l.find? (fun e => (fp e).isErr)).map fp).getD st) := by
  have hcond : c.fronts.length = 1 ∧ c.g.elems.length - 1 = c.linkedSize := by
    unfold DynCfg.dagType at hd
    split at hd
    · rename_i h
      simpa [hne] using h
    · split at hd <;> simp at hd
  obtain ⟨f, hf⟩ := List.length_eq_one_iff.1 hcond.1
  have hffr : f ∈ c.g.elems ∧ c.g.deps f = [] := by
    have : f ∈ c.fronts := by rw [hf]; simp
    simpa [DynCfg.fronts] using this
  have hpred := DynCfg.serial_preds w hf hcond.2
  obtain ⟨t, c1, c2, c3⟩ := DynCfg.chain_of_preds w ha hffr.1 hffr.2 hpred
  refine ⟨f :: t, c1, c2, ?_⟩
  intro fp st hst
  have := (c3 fp st).resolve_right (by simp [hst])
  simp only [DynCfg.serialRunAll, hf, this]
  rw [take_takeWhile_upToFirst (fun e => (fp e).isErr), foldl_add_find fp _ st hst]

/-- An empty pipeline takes the serial path and does nothing. -/
theorem C31_serial_empty (c : DynCfg) (h : c.g.elems = []) (fp : Eid → CStatus) (st : CStatus) :
    c.dagType = .serial ∧ c.serialRunAll fp st = ([], st) := by
  simp [DynCfg.dagType, DynCfg.serialRunAll, DynCfg.fronts, h]

/-- `0 → 1 → 2`, registered in another order. -/
def exChain : DynCfg :=
  ⟨⟨[2, 0, 1], fun e => if e = 2 then [1] else if e = 1 then [0] else [],
    fun e => if e = 0 then [1] else if e = 1 then [2] else []⟩, fun _ => -1, 2, 1⟩

example : exChain.dagType = .serial ∧
    (exChain.serialRunAll (fun e => if e = 1 then CStatus.err "x" else CStatus.ok) CStatus.ok).1 = [0, 1] ∧
    (exChain.serialRunAll (fun _ => CStatus.ok) CStatus.ok).1 = [0, 1, 2] := by decide

example : AcyclicOn exChain.g.Edge exChain.g.elems := by
  have h : ∀ a b, Relation.TransGen exChain.g.Edge a b → a < b := by
    have h0 : ∀ a b, exChain.g.Edge a b → a < b := by
      intro a b hab
      simp only [Graph.Edge, exChain] at hab
      split at hab
      · rename_i h; simp at hab; subst h; subst hab; decide
      · split at hab
        · rename_i h; simp at hab; subst h; subst hab; decide
        · simp at hab
    intro a b hab
    induction hab with
    | single h => exact h0 _ _ h
    | tail _ h ih => exact Nat.lt_trans ih (h0 _ _ h)
  intro v _ hv
  exact Nat.lt_irrefl _ (h v v hv)

example : exChain.g.WF where
  nodup := by decide
  dnodup := by intro e; simp only [exChain]; split <;> (try split) <;> simp
  snodup := by intro e; simp only [exChain]; split <;> (try split) <;> simp
  sym := by intro a b; simp only [exChain]; grind
  closedS := by intro a _ b; simp only [exChain]; grind
  closedD := by intro a _ b; simp only [exChain]; grind

/-- **C31** (parallel): the fully parallel path is chosen only if no element has a dependency or a successor. -/
theorem C31_parallel_only_isolated (c : DynCfg) (hd : c.dagType = .parallel) :
    ∀ e ∈ c.g.elems, c.g.deps e = [] ∧ c.g.succs e = [] := by
  have hc : c.g.elems.length = c.totalEnd ∧ c.fronts.length = c.totalEnd := by
    unfold DynCfg.dagType at hd
    split at hd
    · simp at hd
    · split at hd
      · rename_i h; simpa using h
      · simp at hd
  intro e he
  have h1 : (c.g.elems.filter (fun e => (c.g.succs e).isEmpty)).length = c.g.elems.length := hc.1.symm
  have h2 : (c.g.elems.filter (fun e => (c.g.deps e).isEmpty)).length = c.g.elems.length :=
    hc.2.trans hc.1.symm
  rw [List.length_filter_eq_length_iff] at h1 h2
  exact ⟨by simpa using h2 e he, by simpa using h1 e he⟩

/-- **C31** (chunks): for every positive number of threads the rows of the fully parallel path contain every
element exactly once in order, no row is empty, there are at most as many rows as threads, and no row is
longer than ⌈elements / threads⌉; with no threads init fails. -/
theorem C31_chunks (c : DynCfg) (hd : c.dagType = .parallel) (thd : Nat) :
    (thd = 0 → c.parMatrix thd = none) ∧
    (0 < thd → ∃ m, c.parMatrix thd = some m ∧ m.flatten = c.g.elems ∧ m.length ≤ thd ∧
      ∀ row ∈ m, row ≠ [] ∧ row.length ≤ (c.g.elems.length + thd - 1) / thd) := by
  have hc : c.g.elems.length = c.totalEnd ∧ c.g.elems ≠ [] := by
    unfold DynCfg.dagType at hd
    split at hd
    · simp at hd
    · split at hd
      · rename_i h0 h; simp at h h0; exact ⟨h.1, h0.1⟩
      · simp at hd
  refine ⟨fun h => by simp [DynCfg.parMatrix, h], fun h => ?_⟩
  generalize hn : c.totalEnd = n at *
  have hpos : 0 < n := by rw [← hc.1]; exact List.length_pos_iff.2 hc.2
  obtain ⟨per, hper⟩ : ∃ per, per = n / thd + (if n % thd ≠ 0 then 1 else 0) := ⟨_, rfl⟩
  have hdm := Nat.div_add_mod n thd
  have hml := Nat.mod_lt n h
  have hle : n ≤ per * thd := by
    rw [hper, Nat.add_mul, Nat.mul_comm (n / thd)]
    split <;> omega
  have hp0 : 0 < per := by
    rcases Nat.eq_zero_or_pos per with h0 | h0
    · rw [h0, Nat.zero_mul] at hle; omega
    · exact h0
  have hceil : per = (n + thd - 1) / thd := by
    symm
    rw [Nat.div_eq_iff h, hper, Nat.add_mul, Nat.mul_comm (n / thd)]
    split <;> omega
  obtain ⟨s1, s2, s3, -⟩ := DynCfg.parLoop_spec c.g.elems per hp0 (n + 1) 0 (by omega)
  refine ⟨DynCfg.parLoop c.g.elems c.g.elems.length per (n + 1) 0, ?_, by simpa using s1, ?_, ?_⟩
  · simp only [DynCfg.parMatrix, hn]
    rw [← hper]
    simp [Nat.ne_of_gt h, Nat.ne_of_gt hp0, hc.1]
  · have : (DynCfg.parLoop c.g.elems c.g.elems.length per (n + 1) 0).length * per < (thd + 1) * per := by
      rw [Nat.add_mul, Nat.mul_comm thd]; omega
    exact Nat.lt_succ_iff.1 (Nat.lt_of_mul_lt_mul_right this)
  · intro row hr
    rw [hc.1, ← hceil]
    exact s2 row hr

/-- Five isolated elements. -/
def exIso : DynCfg := ⟨⟨[0, 1, 2, 3, 4], fun _ => [], fun _ => []⟩, fun _ => -1, 2, 1⟩

example : exIso.dagType = .parallel ∧ exIso.parMatrix 2 = some [[0, 1, 2], [3, 4]] ∧
    exIso.parMatrix 4 = some [[0, 1], [2, 3], [4]] ∧ exIso.parMatrix 9 = some [[0], [1], [2], [3], [4]] := by
  decide

open ParSt in
/-- **C31** (parallel run, at most once): in every reachable state, failures included, no element has started
more often than it occurs among the tasks, and only tasks are executed. -/
theorem C31_parallel_at_most_once (T : List Eid) (w ep : Nat) (s : ParSt) (hs : ParSt.Reach T w ep s) (v : Eid) :
    s.trace.count (.start v) ≤ T.count v := by
  have h := sinv_reach hs
  by_cases hn : s.nrun = 0
  · have := h.first hn; subst this; simp [init]
  · have h1 := (h.inv hn).st v
    have h2 := (h.inv hn).tok v
    omega

open ParSt in
/-- **C31** (parallel run, result): when a run of the fully parallel path has returned `r`: if `r` is not an
error then no element failed and each was started and finished exactly as often as it occurs among the tasks
(once, see `C31_chunks`); if `r` is an error it is the status returned by an element that failed. -/
theorem C31_parallel_result (T : List Eid) (w ep : Nat) (s : ParSt) (hs : ParSt.Reach T w ep s) (r : CStatus)
    (hr : s.lastRet = some r) :
    (r.isErr = false → s.failed = [] ∧ ∀ v, s.trace.count (.start v) = T.count v ∧
      s.trace.count (.finish v) = T.count v) ∧
    (r.isErr = true → ∃ e, (e, r) ∈ s.failed ∧ Ev.finish e ∈ s.trace) := by
  have h := sinv_reach hs
  have hn : s.nrun ≠ 0 := by
    intro h0; have := h.first h0; subst this; simp [init] at hr
  have hi := h.inv hn
  obtain ⟨r1, r2, r3⟩ := hi.ret r hr
  subst r2
  constructor
  · intro he
    have hnum : T.length ≤ s.num := r3.resolve_left (by simp [he])
    obtain ⟨f1, f2, f3, f4⟩ := hi.full hnum
    refine ⟨?_, ?_⟩
    · by_contra h0
      rcases hi.pend h0 with h1 | ⟨e, st, h1⟩
      · simp [he] at h1
      · have := f4 _ h1; simp [PJob.harmless] at this
    · intro v
      have a1 := hi.st v
      have a2 := hi.fi v
      have a3 := pcnt_harmless (f := PJob.act) (by simp [PJob.act]) f4 v
      have a4 := pcnt_harmless (f := PJob.bodyOf) (by simp [PJob.bodyOf]) f4 v
      have := f1 v
      omega
  · intro he
    obtain ⟨e, h1⟩ := hi.fail he
    exact ⟨e, h1, (hi.failE _ h1).2⟩

open ParSt in
/-- **C31** (parallel run, termination): in every reachable state of a run — whatever elements fail — some step
is possible, and every step that is not a new run or a spurious wake-up strictly decreases a measure; so every
run of the fully parallel path returns. -/
theorem C31_parallel_returns (T : List Eid) (w ep : Nat) (hw : 1 ≤ w) (s : ParSt) (hs : ParSt.Reach T w ep s)
    (hm : s.main ≠ .idle) :
    (∃ a, a ≠ .begin ∧ a ≠ .spurious ∧ step T T.length w ep s a ≠ none) ∧
    ∀ a s', a ≠ .begin → a ≠ .spurious → step T T.length w ep s a = some s' → work ep s' < work ep s := by
  refine ⟨not_stuck hw (sinv_reach hs) hm, fun a s' h1 h2 h3 => ?_⟩
  have := step_work h3 h1
  simp [h2] at this
  omega

/-- A complete run over three tasks on two threads in which the caller sleeps and is woken up. -/
def exParActs : List DynAct :=
  [.begin, .main .ok, .main .ok, .main .ok, .main .ok, .take 1, .take 0, .work 0 .ok, .work 1 .ok,
   .main .ok, .main .ok, .main .ok, .main .ok, .main .ok, .work 0 .ok, .work 0 .ok, .work 0 .ok, .take 0,
   .work 0 .ok, .work 0 .ok, .work 1 .ok, .work 1 .ok, .work 1 .ok, .work 0 .ok, .work 0 .ok, .work 0 .ok,
   .main .ok, .main .ok]

example : (ParSt.run [7, 8, 9] 3 2 1 ParSt.init exParActs).lastRet = some .ok ∧
    (ParSt.run [7, 8, 9] 3 2 1 ParSt.init (exParActs.take 14)).main = .asleep ∧
    (ParSt.run [7, 8, 9] 3 2 1 ParSt.init exParActs).trace =
      [.start 8, .start 7, .finish 8, .finish 7, .start 9, .finish 9] := by decide

end CGraph
