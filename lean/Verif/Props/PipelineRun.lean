import Verif.Props.Pipeline

/-! # C52, C59, C73, C74: runs, `process`, and pairing of `init` and `destroy` -/
namespace CGraph.Pipe

/-! ## C52 -/

/-- The answers to a list of calls made after the calls `h`. -/
def answers (env : PEnv) (h : List PCall) : List PCall → List (Res CStatus)
  | [] => []
  | c :: cs => env.answer h c :: answers env (h ++ [c]) cs

/-- Everything a run calls when nothing goes wrong, with the status handed to `reset`. -/
def runCalls (s : Pipe) (st : CStatus) : List PCall :=
  s.params.map .setup ++ ([.run, .collect] ++ (s.events.map .wait ++ s.params.map (fun i => .reset i st)))

theorem andThen_mk (s : Pipe) (r : CStatus) (f : Pipe → CStatus → Pipe × Res CStatus) :
    andThen (s, .ret r) f = f s r := rfl

theorem plus_mk (s : Pipe) (a r : CStatus) (f : Pipe → CStatus → Pipe × Res CStatus) :
    plus a (s, .ret r) f = f s (a.add r) := rfl

theorem sumAll_prefix (env : PEnv) (c : Nat → PCall) (l : List Nat) (st : CStatus) (s : Pipe) :
    ∃ k, (sumAll env c l st s).1 = { s with calls := s.calls ++ (l.take k).map c } ∧
      ((∃ r, (sumAll env c l st s).2 = .ret r) → k = l.length) := by
  induction l generalizing st s with
  | nil => exact ⟨0, by simp [sumAll], fun _ => rfl⟩
  | cons i l ih =>
    cases h : env.answer s.calls (c i) with
    | throw m =>
      refine ⟨1, ?_, ?_⟩
      · simp [sumAll, call, h, andThen]
      · rintro ⟨r, hr⟩; simp [sumAll, call, h, andThen] at hr
    | ret r =>
      obtain ⟨k, h1, h2⟩ := ih (st.add r) { s with calls := s.calls ++ [c i] }
      refine ⟨k + 1, ?_, ?_⟩
      · simp only [sumAll, call, h, andThen, h1]; simp
      · intro hr
        simp only [sumAll, call, h, andThen] at hr
        rw [h2 hr]; rfl

theorem each_prefix (env : PEnv) (c : Nat → PCall) (l : List Nat) (st : CStatus) (s : Pipe) :
    ∃ k, (each env c l st s).1 = { s with calls := s.calls ++ (l.take k).map c } := by
  induction l generalizing s with
  | nil => exact ⟨0, by simp [each]⟩
  | cons i l ih =>
    cases h : env.answer s.calls (c i) with
    | throw m => exact ⟨1, by simp [each, call, h, andThen]⟩
    | ret r =>
      obtain ⟨k, h1⟩ := ih { s with calls := s.calls ++ [c i] }
      exact ⟨k + 1, by simp only [each, call, h, andThen, h1]; simp⟩

/-- Whatever the parts answer - errors and exceptions included - a run calls its parts in the order: `setup` of every
parameter, the elements, the waiting for asynchronous work, `reset` of every parameter; it may only stop early. -/
theorem C52_order (env : PEnv) (s : Pipe) :
    ∃ new st, (run env s).1.calls = s.calls ++ new ∧ new <+: runCalls s st := by
  let Q : Pipe × Res CStatus → Prop := fun y => ∃ new st, y.1.calls = s.calls ++ new ∧ new <+: runCalls s st
  show Q (run env s)
  unfold run
  split
  · exact ⟨[], CStatus.ok, by simp, List.nil_prefix⟩
  · obtain ⟨k, h1, h2⟩ := sumAll_prefix env .setup s.params CStatus.ok (s.push .normal)
    have pre : ∀ (t : Pipe), t.calls = s.calls ++ (s.params.take k).map .setup → ∀ r, Q (t, r) := by
      intro t ht r
      refine ⟨_, CStatus.ok, ht, ?_⟩
      refine List.IsPrefix.trans ?_ (List.prefix_append _ _)
      rw [List.map_take]; exact List.take_prefix _ _
    have e1 : (sumAll env .setup s.params CStatus.ok (s.push .normal)).1.calls =
        s.calls ++ (s.params.take k).map .setup := by rw [h1]; rfl
    cases hx : (sumAll env .setup s.params CStatus.ok (s.push .normal)) with
    | mk t q =>
    rw [hx] at h1 e1 h2
    simp only at h1 e1 h2
    cases q with
    | throw m => exact pre _ e1 _
    | ret q =>
      have hk := h2 ⟨q, rfl⟩
      rw [hk, List.take_length] at e1
      have hp : t.params = s.params := by rw [h1]; rfl
      have hev : t.events = s.events := by rw [h1]; rfl
      rw [plus_mk]
      refine checked_post (fun _ => True) Q trivial (fun r _ => pre t (by rw [hk, List.take_length]; exact e1) r) fun _ => ?_
      cases hr : env.answer t.calls .run with
      | throw m =>
        have : engineRun env t = ((engineRun env t).1, .throw m) := by
          refine Prod.ext rfl ?_; simp only [engineRun, call]; exact hr
        rw [this]
        refine ⟨s.params.map .setup ++ [.run], CStatus.ok, ?_, ?_⟩
        · simp [andThen, engineRun, call, e1]
        · unfold runCalls
          exact (List.prefix_append_right_inj _).mpr (by simp)
      | ret r =>
        have : engineRun env t = ((engineRun env t).1, .ret r) := by
          refine Prod.ext rfl ?_; simp only [engineRun, call]; exact hr
        rw [this, andThen_mk]
        have e2 : (engineRun env t).1.calls = s.calls ++ (s.params.map .setup ++ [.run]) := by
          simp [engineRun, call, e1]
        have hp2 : (engineRun env t).1.params = s.params := hp
        have hev2 : (engineRun env t).1.events = s.events := hev
        generalize (engineRun env t).1 = u at e2 hp2 hev2
        unfold plus
        have e3 : (call env u .collect).1.calls = s.calls ++ (s.params.map .setup ++ [.run, .collect]) := by
          simp [call, e2]
        have hp3 : (call env u .collect).1.params = s.params := hp2
        have hev3 : (call env u .collect).1.events = s.events := hev2
        generalize call env u .collect = v at e3 hp3 hev3
        obtain ⟨v, q2⟩ := v
        cases q2 with
        | throw m =>
          refine ⟨_, CStatus.ok, e3, ?_⟩
          unfold runCalls
          exact (List.prefix_append_right_inj _).mpr (List.prefix_append _ _)
        | ret q2 =>
          rw [andThen_mk]
          simp only at e3 hp3 hev3 ⊢
          generalize hst : (CStatus.assign _ r).add q2 = st
          rw [hev3]
          obtain ⟨k2, h4⟩ := each_prefix env .wait s.events st v
          have e4 : (each env .wait s.events st v).1.calls =
              s.calls ++ (s.params.map .setup ++ ([.run, .collect] ++ (s.events.take k2).map .wait)) := by
            rw [h4]; simp [e3]
          cases hy : each env .wait s.events st v with
          | mk w q3 =>
          rw [hy] at e4 h4
          cases q3 with
          | throw m =>
            refine ⟨_, CStatus.ok, e4, ?_⟩
            unfold runCalls
            refine (List.prefix_append_right_inj _).mpr ((List.prefix_append_right_inj _).mpr ?_)
            refine List.IsPrefix.trans ?_ (List.prefix_append _ _)
            rw [List.map_take]; exact List.take_prefix _ _
          | ret q3 =>
            obtain ⟨rfl, rfl⟩ := each_ret hy
            obtain ⟨k3, h5⟩ := each_prefix env (fun i => .reset i q3) v.params q3
              { v with calls := v.calls ++ s.events.map .wait }
            refine ⟨s.params.map .setup ++ ([.run, .collect] ++ (s.events.map .wait ++
              (s.params.take k3).map (fun i => .reset i q3))), q3, ?_, ?_⟩
            · rw [andThen_mk]
              refine (congrArg Pipe.calls h5).trans ?_
              simp [e3, hp3]
            · unfold runCalls
              refine (List.prefix_append_right_inj _).mpr ((List.prefix_append_right_inj _).mpr
                ((List.prefix_append_right_inj _).mpr ?_))
              rw [List.map_take]; exact List.take_prefix _ _

theorem sumAll_answers (env : PEnv) (c : Nat → PCall) (l : List Nat) (st : CStatus) (s : Pipe)
    (h : ∀ a ∈ answers env s.calls (l.map c), ∃ r, a = .ret r) :
    ∃ r, sumAll env c l st s = ({ s with calls := s.calls ++ l.map c }, .ret r) ∧
      (r.isErr = true ↔ st.isErr = true ∨ ∃ a ∈ answers env s.calls (l.map c), works a = false) := by
  induction l generalizing st s with
  | nil => exact ⟨st, by simp [sumAll], by simp [answers]⟩
  | cons i l ih =>
    simp only [List.map_cons, answers, List.mem_cons, forall_eq_or_imp] at h
    obtain ⟨⟨r, hr⟩, h⟩ := h
    obtain ⟨q, h1, h2⟩ := ih (st.add r) { s with calls := s.calls ++ [c i] } h
    refine ⟨q, ?_, ?_⟩
    · simp only [sumAll, call, hr, andThen, h1]; simp
    · rw [h2, CStatus.add_isErr]
      simp only [List.map_cons, answers, List.mem_cons, exists_eq_or_imp, hr, works, Bool.or_eq_true,
        Bool.not_eq_false', or_assoc]

/-- When all `setup` calls succeed and nothing throws, the run executes the elements and then resets every parameter with
exactly the status that it returns. -/
theorem C52_complete (env : PEnv) (s : Pipe) (hi : s.isInit = true)
    (hs : ∀ a ∈ answers env s.calls (s.params.map .setup), works a = true)
    (st : CStatus) (hr : (run env s).2 = .ret st) : (run env s).1.calls = s.calls ++ runCalls s st := by
  obtain ⟨t, ht⟩ : ∃ t, run env s = (t, .ret st) := ⟨_, Prod.ext rfl hr⟩
  rw [ht]
  obtain ⟨q, h1, h2⟩ := sumAll_answers env .setup s.params CStatus.ok (s.push .normal)
    (fun a ha => (works_iff.mp (hs a ha)).imp fun _ h => h.1)
  have hq : q.isErr = false := by
    cases hq : q.isErr with
    | false => rfl
    | true =>
      rcases h2.mp hq with h | ⟨a, ha, hw⟩
      · simp at h
      · rw [hs a ha] at hw; simp at hw
  unfold run at ht
  simp only [hi, Bool.not_true, Bool.false_eq_true, if_false, plus, h1, andThen,
    checked_ok (show (CStatus.ok.add q).isErr = false by rw [CStatus.add_isErr, hq]; rfl)] at ht
  obtain ⟨s₁, r₁, h3, h4⟩ := andThen_ret.mp ht
  obtain ⟨s₂, r₂, h5, h6⟩ := andThen_ret.mp h4
  obtain ⟨s₃, r₃, h7, h8⟩ := andThen_ret.mp h6
  obtain ⟨rfl, rfl⟩ := each_ret h8
  obtain ⟨rfl, _⟩ := each_ret h7
  obtain ⟨rfl, _⟩ := call_ret h5
  simp only [engineRun, call, Prod.mk.injEq] at h3
  obtain ⟨rfl, _⟩ := h3
  simp [runCalls, push]

/-- The elements are executed exactly when every `setup` succeeds.  If one reports an error the run reports an error. -/
theorem C52_setup (env : PEnv) (s : Pipe) (hi : s.isInit = true)
    (hr : ∀ a ∈ answers env s.calls (s.params.map .setup), ∃ r, a = .ret r) :
    (∃ new, (run env s).1.calls = s.calls ++ new ∧
      (PCall.run ∈ new ↔ ∀ a ∈ answers env s.calls (s.params.map .setup), works a = true)) ∧
    ((∃ a ∈ answers env s.calls (s.params.map .setup), works a = false) → works (run env s).2 = false) := by
  obtain ⟨q, h1, h2⟩ := sumAll_answers env .setup s.params CStatus.ok (s.push .normal) hr
  have h2' : q.isErr = true ↔ ∃ a ∈ answers env s.calls (s.params.map .setup), works a = false := by
    rw [h2]; simp [push]
  have noRun : PCall.run ∉ s.params.map PCall.setup := by simp
  cases hq : q.isErr with
  | true =>
    have hb := h2'.mp hq
    have hadd : CStatus.ok.add q = q := CStatus.add_of_not_err CStatus.ok_isErr hq
    have he : run env s = ({ s.push .normal with calls := s.calls ++ s.params.map .setup },
        if q.isCrash then .throw q.info else .ret q) := by
      unfold run
      simp only [hi, Bool.not_true, Bool.false_eq_true, if_false, plus, h1, andThen, hadd]
      rw [checked_eq, hq]
      rfl
    rw [he]
    refine ⟨⟨_, rfl, iff_of_false noRun ?_⟩, fun _ => ?_⟩
    · obtain ⟨a, ha, hw⟩ := hb
      intro h; rw [h a ha] at hw; simp at hw
    · cases q.isCrash <;> simp [works, hq]
  | false =>
    have hb : ¬ ∃ a ∈ answers env s.calls (s.params.map .setup), works a = false := by
      rw [← h2', hq]; simp
    refine ⟨?_, fun h => absurd h hb⟩
    have all : ∀ a ∈ answers env s.calls (s.params.map .setup), works a = true := by
      intro a ha
      cases hw : works a with
      | true => rfl
      | false => exact absurd ⟨a, ha, hw⟩ hb
    have this : Frame (engineRun env { s.push .normal with calls := s.calls ++ s.params.map .setup }).1 (run env s).1 := by
      unfold run
      simp only [hi, Bool.not_true, Bool.false_eq_true, if_false, h1]
      rw [plus_mk, checked_ok (show (CStatus.ok.add q).isErr = false by rw [CStatus.add_isErr, hq]; rfl)]
      refine andThen_keep (Frame _) (Frame.refl _) fun u r h => ?_
      refine andThen_keep (Frame _) (h.trans (call_frame _ _ _)) fun v r h => ?_
      refine andThen_keep (Frame _) (h.trans (each_frame _ _ _ _ _)) fun v r h => ?_
      exact h.trans (each_frame _ _ _ _ _)
    obtain ⟨more, hm⟩ := this.calls
    refine ⟨s.params.map .setup ++ ([.run] ++ more), ?_, iff_of_true (by simp) all⟩
    rw [← hm]
    simp [engineRun, call]

/-- The code violates the second half of the property: when a `setup` reports an error, no parameter is reset, although
all were set up. -/
theorem C52_no_reset_violated (env : PEnv) (s : Pipe) (hi : s.isInit = true)
    (hr : ∀ a ∈ answers env s.calls (s.params.map .setup), ∃ r, a = .ret r)
    (hb : ∃ a ∈ answers env s.calls (s.params.map .setup), works a = false) :
    (run env s).1.calls = s.calls ++ s.params.map .setup := by
  obtain ⟨⟨new, h1, h2⟩, _⟩ := C52_setup env s hi hr
  obtain ⟨new', st, h3, h4⟩ := C52_order env s
  have : new = new' := by rw [h1] at h3; exact List.append_cancel_left h3
  subst this
  obtain ⟨q, h5, h6⟩ := sumAll_answers env .setup s.params CStatus.ok (s.push .normal) hr
  have hq : q.isErr = true := h6.mpr (.inr (by simpa [push] using hb))
  have hadd : CStatus.ok.add q = q := CStatus.add_of_not_err CStatus.ok_isErr hq
  unfold run
  simp only [hi, Bool.not_true, Bool.false_eq_true, if_false, plus, h5, andThen, hadd]
  rw [checked_eq, hq]
  rfl

/-- An environment in which the calls in `bad` fail and everything else works. -/
def failing (bad : List PCall) : PEnv :=
  ⟨fun _ c => if c ∈ bad then .ret (CStatus.err "bad") else .ret CStatus.ok, fun _ => none⟩

/-- A pipeline with two parts of each kind. -/
def sample : Pipe := { new with params := [1, 2], events := [1, 2], elems := [1, 2], stages := [1, 2], daemons := [1, 2] }

/-- A run in which an element fails: parameters are reset with the error. -/
example : (run (failing [.run]) { sample with isInit := true, engineUp := true, poolUp := true }).1.calls =
    [.setup 1, .setup 2, .run, .collect, .wait 1, .wait 2, .reset 1 (.err "bad"), .reset 2 (.err "bad")] := by
  decide +kernel

/-- The second `setup` fails: nothing is reset. -/
example : (run (failing [.setup 2]) { sample with isInit := true, engineUp := true, poolUp := true }).1.calls =
    [.setup 1, .setup 2] := by decide +kernel

/-! ## C59 -/

/-- The pipeline after `k` runs. -/
def afterRuns (env : PEnv) (s : Pipe) : Nat → Pipe
  | 0 => s
  | k + 1 => (run env (afterRuns env s k)).1

/-- The results of the first `k` runs. -/
def runResults (env : PEnv) (s : Pipe) (k : Nat) : List (Res CStatus) :=
  (List.range k).map fun i => (run env (afterRuns env s i)).2

/-- The first error among the results, OK if there is none. -/
def firstError : List (Res CStatus) → CStatus
  | [] => CStatus.ok
  | .ret st :: l => if st.isErr then st else firstError l
  | .throw _ :: l => firstError l

theorem afterRuns_succ (env : PEnv) (s : Pipe) (k : Nat) :
    afterRuns env s (k + 1) = afterRuns env (run env s).1 k := by
  induction k with
  | zero => rfl
  | succ k ih => rw [afterRuns, ih, ← afterRuns]

theorem runResults_succ (env : PEnv) (s : Pipe) (k : Nat) :
    runResults env s (k + 1) = (run env s).2 :: runResults env (run env s).1 k := by
  unfold runResults
  rw [List.range_succ_eq_map]
  simp only [List.map_cons, List.map_map, afterRuns]
  congr 1
  refine List.map_congr_left fun i _ => ?_
  simp only [Function.comp, Nat.succ_eq_add_one, afterRuns_succ]

theorem loop_err (env : PEnv) (n : Nat) (st : CStatus) (s : Pipe) (h : st.isErr = true) :
    loop env n st s = (s, .ret st) := by
  cases n with
  | zero => rfl
  | succ n => simp [loop, h]

/-- The loop of `process` makes a number of runs and stops for one of three reasons. -/
theorem loop_spec (env : PEnv) (n : Nat) (s : Pipe)
    (hr : ∀ i < n, ∃ r, (run env (afterRuns env s i)).2 = .ret r) :
    ∃ k ≤ n, loop env n CStatus.ok s = (afterRuns env s k, .ret (firstError (runResults env s k))) ∧
      (∀ i < k, (afterRuns env s i).state ≠ .cancel) ∧
      (∀ i, i + 1 < k → works (run env (afterRuns env s i)).2 = true) ∧
      (k = n ∨ (afterRuns env s k).state = .cancel ∨ ∃ i, i + 1 = k ∧ works (run env (afterRuns env s i)).2 = false) := by
  induction n generalizing s with
  | zero => exact ⟨0, Nat.le_refl _, rfl, by simp, by simp, .inl rfl⟩
  | succ n ih =>
    by_cases hc : s.state = .cancel
    · exact ⟨0, Nat.zero_le _, by simp [loop, hc, runResults, firstError, afterRuns], by simp, by simp, .inr (.inl hc)⟩
    · obtain ⟨r, h0⟩ := hr 0 (Nat.succ_pos n)
      simp only [afterRuns] at h0
      have hx : run env s = ((run env s).1, .ret r) := Prod.ext rfl h0
      have hl : loop env (n + 1) CStatus.ok s = loop env n (CStatus.ok.add r) (run env s).1 := by
        rw [loop]
        simp only [CStatus.ok_isErr, Bool.not_false, Bool.true_and, decide_not, hc, not_false_eq_true, decide_false,
          if_true, ne_eq]
        rw [hx]; rfl
      cases he : r.isErr with
      | true =>
        have hadd : CStatus.ok.add r = r := CStatus.add_of_not_err CStatus.ok_isErr he
        refine ⟨1, by omega, ?_, ?_, ?_, .inr (.inr ⟨0, rfl, ?_⟩)⟩
        · rw [hl, hadd, loop_err _ _ _ _ he]
          simp [afterRuns, runResults, h0, firstError, he]
        · intro i hi
          obtain rfl : i = 0 := by omega
          exact hc
        · intro i hi; omega
        · simp only [afterRuns]; rw [h0]; simp [works, he]
      | false =>
        have hadd : CStatus.ok.add r = CStatus.ok := CStatus.add_not_err_right he
        obtain ⟨k, hk, h1, h2, h3, h4⟩ := ih (run env s).1 (fun i hi => by
          have := hr (i + 1) (by omega)
          rwa [afterRuns_succ] at this)
        refine ⟨k + 1, by omega, ?_, ?_, ?_, ?_⟩
        · rw [hl, hadd, h1, afterRuns_succ, runResults_succ, h0]
          simp [firstError, he]
        · intro i hi
          cases i with
          | zero => exact hc
          | succ i => rw [afterRuns_succ]; exact h2 i (by omega)
        · intro i hi
          cases i with
          | zero => simp only [afterRuns]; rw [h0]; simp [works, he]
          | succ i => rw [afterRuns_succ]; exact h3 i (by omega)
        · rcases h4 with h | h | ⟨i, hi, h⟩
          · exact .inl (by omega)
          · exact .inr (.inl (by rw [afterRuns_succ]; exact h))
          · exact .inr (.inr ⟨i + 1, by omega, by rw [afterRuns_succ]; exact h⟩)

theorem add_ok_of {st r : CStatus} (h : st = CStatus.ok) (hr : (st.add r).isErr = false) : st.add r = CStatus.ok := by
  rw [CStatus.add_not_err_right (add_of_add_ok hr).2]; exact h

/-- A successful `init` returns OK. -/
theorem init_ok {env s s' r} (h : init env s = (s', .ret r)) (hr : r.isErr = false) : r = CStatus.ok := by
  unfold init at h
  split at h
  · simp only [refused, Prod.mk.injEq, Res.ret.injEq] at h
    rw [← h.2] at hr; simp [CStatus.err, CStatus.isErr, STATUS_ERR, STATUS_OK] at hr
  · obtain ⟨s₁, r₁, _, h⟩ := plus_ret.mp h
    obtain ⟨e1, h⟩ := checked_ret h hr
    obtain ⟨s₂, r₂, _, h⟩ := plus_ret.mp h
    obtain ⟨s₃, r₃, _, h⟩ := plus_ret.mp h
    obtain ⟨s₄, r₄, _, h⟩ := plus_ret.mp h
    obtain ⟨s₅, r₅, _, h⟩ := plus_ret.mp h
    obtain ⟨s₆, r₆, _, h⟩ := plus_ret.mp h
    obtain ⟨e2, h⟩ := checked_ret h hr
    simp only [Prod.mk.injEq, Res.ret.injEq] at h
    rw [← h.2]
    have e6 := e2
    have e5 := (add_of_add_ok e6).1
    have e4 := (add_of_add_ok e5).1
    have e3 := (add_of_add_ok e4).1
    have e2 := (add_of_add_ok e3).1
    exact add_ok_of (add_ok_of (add_ok_of (add_ok_of (add_ok_of (add_ok_of rfl e1) e2) e3) e4) e5) e6

theorem firstError_snoc (l : List (Res CStatus)) (d : CStatus) :
    (firstError l).add d = firstError (l ++ [.ret d]) := by
  induction l with
  | nil => simp only [firstError, List.nil_append, CStatus.add]; cases d.isErr <;> simp
  | cons a l ih =>
    cases a with
    | throw m => exact ih
    | ret st =>
      simp only [firstError, List.cons_append]
      split
      · rename_i h; exact CStatus.add_of_err _ h
      · exact ih

/-- `process(n)` after a successful `init`: runs at most `n` times, goes on exactly while the last run succeeded and no
cancellation is pending, then destroys once and returns the first error of all steps.
Partial: the runs and `destroy` must not leave by an exception (see `C59_exception_violated`). -/
theorem C59_process_partial (env : PEnv) (n : Nat) (s s₀ : Pipe) (r₀ : CStatus) (hi : init env s = (s₀, .ret r₀))
    (h₀ : r₀.isErr = false) (hr : ∀ i < n, ∃ r, (run env (afterRuns env s₀ i)).2 = .ret r)
    (hd : ∀ i ≤ n, ∃ r, (destroy env (afterRuns env s₀ i)).2 = .ret r) :
    ∃ k ≤ n, (process env n s).1 = (destroy env (afterRuns env s₀ k)).1 ∧
      (process env n s).2 =
        .ret (firstError (runResults env s₀ k ++ [(destroy env (afterRuns env s₀ k)).2])) ∧
      (∀ i < k, (afterRuns env s₀ i).state ≠ .cancel) ∧
      (∀ i, i + 1 < k → works (run env (afterRuns env s₀ i)).2 = true) ∧
      (k = n ∨ (afterRuns env s₀ k).state = .cancel ∨
        ∃ i, i + 1 = k ∧ works (run env (afterRuns env s₀ i)).2 = false) := by
  obtain rfl := init_ok hi h₀
  obtain ⟨k, hk, h1, h2, h3, h4⟩ := loop_spec env n s₀ hr
  obtain ⟨d, hd⟩ := hd k hk
  have hx : destroy env (afterRuns env s₀ k) = ((destroy env (afterRuns env s₀ k)).1, .ret d) := Prod.ext rfl hd
  have hp : process env n s = ((destroy env (afterRuns env s₀ k)).1, .ret ((firstError (runResults env s₀ k)).add d)) := by
    unfold process
    rw [hi]
    simp only [andThen, checked_ok CStatus.ok_isErr, h1, plus]
    rw [hx]
  refine ⟨k, hk, by rw [hp], ?_, h2, h3, h4⟩
  rw [hp, hd, firstError_snoc]

/-- If `init` fails nothing is run or destroyed: `process` stops where `init` stopped and fails as well. -/
theorem C59_init_fails (env : PEnv) (n : Nat) (s : Pipe) (h : works (init env s).2 = false) :
    (process env n s).1 = (init env s).1 ∧ works (process env n s).2 = false := by
  unfold process
  cases hx : init env s with
  | mk t q =>
  rw [hx] at h
  cases q with
  | throw m => exact ⟨rfl, rfl⟩
  | ret st =>
    simp only [works, Bool.not_eq_false'] at h
    simp only [andThen]
    rw [checked_eq, h]
    refine ⟨rfl, ?_⟩
    cases st.isCrash <;> simp [works, h]

/-- A run that leaves by an exception makes `process` skip `destroy`: the exception escapes, the pipeline stays
initialised, and another `process` is refused. -/
theorem C59_exception_violated (env : PEnv) (n k : Nat) (s s₀ : Pipe) (r₀ : CStatus) (m : String) (hk : k < n)
    (hi : init env s = (s₀, .ret r₀)) (h₀ : r₀.isErr = false)
    (hr : ∀ i < k, works (run env (afterRuns env s₀ i)).2 = true)
    (hc : ∀ i ≤ k, (afterRuns env s₀ i).state ≠ .cancel)
    (hm : (run env (afterRuns env s₀ k)).2 = .throw m) :
    process env n s = (afterRuns env s₀ (k + 1), .throw m) ∧ (process env n s).1.isInit = true ∧
    ∀ n', (process env n' (process env n s).1).1 = (process env n s).1 := by
  obtain rfl := init_ok hi h₀
  have hl : ∀ k n t, k < n → (∀ i < k, works (run env (afterRuns env t i)).2 = true) →
      (∀ i ≤ k, (afterRuns env t i).state ≠ .cancel) → (run env (afterRuns env t k)).2 = .throw m →
      loop env n CStatus.ok t = (afterRuns env t (k + 1), .throw m) := by
    intro k
    induction k with
    | zero =>
      intro n t hn _ hc hm
      obtain ⟨n, rfl⟩ : ∃ n', n = n' + 1 := ⟨n - 1, by omega⟩
      have h0 := hc 0 (Nat.le_refl _)
      simp only [afterRuns] at h0 hm ⊢
      have hx : run env t = ((run env t).1, .throw m) := Prod.ext rfl hm
      rw [loop]
      simp only [CStatus.ok_isErr, Bool.not_false, Bool.true_and, decide_not, h0, not_false_eq_true, decide_false,
        if_true, ne_eq]
      rw [hx]; rfl
    | succ k ih =>
      intro n t hn hr hc hm
      obtain ⟨n, rfl⟩ : ∃ n', n = n' + 1 := ⟨n - 1, by omega⟩
      have h0 := hc 0 (Nat.zero_le _)
      obtain ⟨r, h1, he⟩ := works_iff.mp (hr 0 (Nat.succ_pos _))
      simp only [afterRuns] at h0 h1
      have hx : run env t = ((run env t).1, .ret r) := Prod.ext rfl h1
      rw [loop]
      simp only [CStatus.ok_isErr, Bool.not_false, Bool.true_and, decide_not, h0, not_false_eq_true, decide_false,
        if_true, ne_eq]
      rw [hx]
      simp only [plus, andThen, CStatus.add_not_err_right he]
      rw [afterRuns_succ]
      refine ih n _ (by omega) ?_ ?_ ?_
      · intro i hi; have := hr (i + 1) (by omega); rwa [afterRuns_succ] at this
      · intro i hi; have := hc (i + 1) (by omega); rwa [afterRuns_succ] at this
      · rwa [afterRuns_succ] at hm
  have hp : process env n s = (afterRuns env s₀ (k + 1), .throw m) := by
    unfold process
    rw [hi]
    simp only [andThen, checked_ok CStatus.ok_isErr, hl k n s₀ hk hr hc hm]
  have h1 : s₀.isInit = true := by
    have := C58_phase env s .init (by simp)
    simp only [step, hi, phase, works, CStatus.ok_isErr] at this
    simpa using this
  have h2 : ∀ i, (afterRuns env s₀ i).isInit = true := by
    intro i
    induction i with
    | zero => exact h1
    | succ i ih => rw [afterRuns, (run_frame env _).isInit]; exact ih
  refine ⟨hp, by rw [hp]; exact h2 _, fun n' => ?_⟩
  exact (C58_refused env _ (.process n') false rfl (by rw [hp]; simp [h2])).1

/-- An environment in which the setup of parameter 2 throws. -/
def throwing : PEnv := ⟨fun _ c => if c = .setup 2 then .throw "boom" else .ret CStatus.ok, fun _ => none⟩

example : let x := process throwing 3 sample
    x.2 = .throw "boom" ∧ x.1.isInit = true ∧ PCall.destroy .elem 1 ∉ x.1.calls := by
  decide +kernel

/-- Three runs succeed, four calls of `run` are not made after the second one fails. -/
example : (process (failing []) 3 sample).2 = .ret .ok ∧ (process (failing []) 3 sample).1.calls.count .run = 3 ∧
    (process (failing [.run]) 4 sample).2 = .ret (.err "bad") ∧
    (process (failing [.run]) 4 sample).1.calls.count .run = 1 ∧
    (process (failing [.run]) 4 sample).1.calls.count (.destroy .elem 1) = 1 := by
  decide +kernel

/-- A cancellation in the second of five runs. -/
example : let env : PEnv := ⟨fun _ _ => .ret CStatus.ok, fun h => if h.count .run = 1 then some .cancel else none⟩
    (process env 5 sample).1.calls.count .run = 2 ∧ (process env 5 sample).2 = .ret .ok := by
  decide +kernel

end CGraph.Pipe
