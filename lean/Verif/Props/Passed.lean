import Verif.Lemmas.Passed

/-! # C92: passed parameters are private copies -/
namespace CGraph
namespace Passed
open Spec

/-- **C92** (values; partial: no `clone` throws): a program that keeps to the rules of `PSpec` sees exactly what it would see if
every holder kept values of its own, and no deleted object is used. -/
theorem C92_values_partial (kind : Nat → Holder) (ops : List Op) (hn : NoThrow ops) (outs : List Out) (a : PSpec)
    (ha : PSpec.init.run kind ops = some (outs, a)) :
    (run kind ops Passed.init).1 = outs ∧ Out.ub ∉ outs := by
  obtain ⟨h1, h2, -⟩ := sim_run kind ops Sim.init hn ha
  exact ⟨h1, h2⟩

/-- **C92** (no leak; partial as above): every object that is alive and not the caller's is the parameter of a holder that
has not been deleted. -/
theorem C92_no_leak_partial (kind : Nat → Holder) (ops : List Op) (hn : NoThrow ops) (outs : List Out) (a : PSpec)
    (ha : PSpec.init.run kind ops = some (outs, a)) (b : Nat) (c : Cell)
    (hb : (run kind ops Passed.init).2.mem b = some c) (hc : c.mine = false) :
    ∃ h k, (run kind ops Passed.init).2.gone h = false ∧ (k, some b) ∈ (run kind ops Passed.init).2.tbl h := by
  obtain ⟨-, -, S⟩ := sim_run kind ops Sim.init hn ha
  obtain ⟨h, k, hf⟩ := S.kept b c hb hc
  refine ⟨h, k, ?_, (find_mem (S.keys h) k (some b)).1 hf⟩
  cases hg : (run kind ops Passed.init).2.gone h with
  | false => rfl
  | true => rw [S.goneE h hg] at hf; simp [find] at hf

/-- The operation leaves the parameter `k` of `h` alone. -/
def Aside (h k : Nat) (op : Op) : Prop :=
  (∀ i T b, op ≠ .set h k i T b) ∧ (∀ T j, op ≠ .get h k T j) ∧ op ≠ .drop h

/-- The parameter `k` of `h` is `v` and nobody has borrowed it. -/
def Quiet (a : PSpec) (h k : Nat) (v : PVal) : Prop :=
  a.slot h k = some v ∧ (∀ i, a.vars i ≠ .lent h k) ∧ a.gone h = false

theorem upd_lent {vars : Nat → Ref} {j h k : Nat} {r : Ref} (hv : ∀ i, vars i ≠ .lent h k) (hr : r ≠ .lent h k) :
    ∀ i, Function.update vars j r i ≠ .lent h k := by
  intro i
  by_cases hij : i = j
  · subst hij; rw [Function.update_self]; exact hr
  · rw [Function.update_of_ne hij]; exact hv i

theorem expire_ne {vars : Nat → Ref} {p : Nat → Nat → Bool} {h k : Nat} (hv : ∀ i, vars i ≠ .lent h k) :
    ∀ i, expire vars p i ≠ .lent h k := fun i hi => hv i (expire_lent.1 hi).1

theorem quiet_step {kind : Nat → Holder} {a a' : PSpec} {h k : Nat} {v : PVal} {op : Op} {o : Out} (q : Quiet a h k v)
    (hop : Aside h k op) (ha : a.step kind op = some (a', o)) : Quiet a' h k v := by
  obtain ⟨q1, q2, q3⟩ := q
  cases op with
  | new i ty x =>
    simp only [PSpec.step, Option.some.injEq, Prod.mk.injEq] at ha
    obtain ⟨rfl, -⟩ := ha
    exact ⟨q1, upd_lent q2 (by simp), q3⟩
  | del i =>
    simp only [PSpec.step] at ha
    split at ha <;> simp only [Option.some.injEq, Prod.mk.injEq, reduceCtorEq] at ha
    · obtain ⟨rfl, -⟩ := ha; exact ⟨q1, q2, q3⟩
    · obtain ⟨rfl, -⟩ := ha; exact ⟨q1, upd_lent q2 (by simp), q3⟩
  | write i x =>
    simp only [PSpec.step] at ha
    split at ha <;> simp only [Option.some.injEq, Prod.mk.injEq, reduceCtorEq] at ha
    · obtain ⟨rfl, -⟩ := ha; exact ⟨q1, upd_lent q2 (by simp), q3⟩
    · rename_i h' k' hr
      obtain ⟨rfl, -⟩ := ha
      have : ¬ (h = h' ∧ k = k') := by rintro ⟨rfl, rfl⟩; exact q2 i hr
      exact ⟨by dsimp only; rw [if_neg this]; exact q1, q2, q3⟩
  | read i =>
    simp only [PSpec.step, Option.map_eq_some_iff, Prod.mk.injEq] at ha
    obtain ⟨w, -, rfl, -⟩ := ha
    exact ⟨q1, q2, q3⟩
  | set h' k' i T b =>
    have hne : ¬ (h = h' ∧ k = k') := by rintro ⟨rfl, rfl⟩; exact hop.1 i T b rfl
    simp only [PSpec.step] at ha
    by_cases c1 : a.gone h' = true
    · rw [if_pos c1] at ha; simp at ha
    rw [if_neg c1] at ha
    by_cases c2 : kind h' = .element ∧ a.inited h' = true
    · rw [if_pos c2] at ha
      simp only [Option.some.injEq, Prod.mk.injEq] at ha
      obtain ⟨rfl, -⟩ := ha
      exact ⟨q1, q2, q3⟩
    rw [if_neg c2] at ha
    by_cases c3 : a.vars i = .null
    · rw [if_pos c3] at ha
      simp only [Option.some.injEq, Prod.mk.injEq] at ha
      obtain ⟨rfl, -⟩ := ha
      exact ⟨q1, q2, q3⟩
    rw [if_neg c3] at ha
    by_cases c4 : a.vars i = .lent h' k'
    · rw [if_pos c4] at ha; simp at ha
    rw [if_neg c4] at ha
    simp only [Option.map_eq_some_iff] at ha
    obtain ⟨w, -, he⟩ := ha
    cases b with
    | true =>
      simp only [if_true, Prod.mk.injEq] at he
      obtain ⟨rfl, -⟩ := he
      exact ⟨q1, q2, q3⟩
    | false =>
      simp only [Bool.false_eq_true, if_false, Prod.mk.injEq] at he
      obtain ⟨rfl, -⟩ := he
      exact ⟨by dsimp only; rw [if_neg hne]; exact q1, expire_ne q2, q3⟩
  | get h' k' T j =>
    have hne : ¬ (h = h' ∧ k = k') := by rintro ⟨rfl, rfl⟩; exact hop.2.1 T j rfl
    simp only [PSpec.step] at ha
    by_cases c1 : a.gone h' = true
    · rw [if_pos c1] at ha; simp at ha
    rw [if_neg c1] at ha
    split at ha <;> simp only [Option.some.injEq] at ha
    · split at ha <;> simp only [Prod.mk.injEq] at ha <;> obtain ⟨rfl, -⟩ := ha
      · exact ⟨q1, q2, q3⟩
      · exact ⟨q1, upd_lent q2 (by simp), q3⟩
    · split at ha <;> simp only [Prod.mk.injEq] at ha <;> obtain ⟨rfl, -⟩ := ha
      · refine ⟨q1, upd_lent q2 ?_, q3⟩
        simp only [ne_eq, Ref.lent.injEq, not_and]
        rintro rfl rfl; exact hne ⟨rfl, rfl⟩
      · exact ⟨q1, upd_lent q2 (by simp), q3⟩
  | initialise h' =>
    simp only [PSpec.step] at ha
    by_cases c1 : a.gone h' = true
    · rw [if_pos c1] at ha; simp at ha
    rw [if_neg c1] at ha
    simp only [Option.some.injEq, Prod.mk.injEq] at ha
    obtain ⟨rfl, -⟩ := ha
    exact ⟨q1, q2, q3⟩
  | drop h' =>
    have hne : h ≠ h' := by rintro rfl; exact hop.2.2 rfl
    simp only [PSpec.step] at ha
    by_cases c1 : a.gone h' = true
    · rw [if_pos c1] at ha; simp at ha
    rw [if_neg c1] at ha
    simp only [Option.some.injEq, Prod.mk.injEq] at ha
    obtain ⟨rfl, -⟩ := ha
    refine ⟨by dsimp only; rw [if_neg hne]; exact q1, expire_ne q2, ?_⟩
    dsimp only
    rw [Function.update_of_ne hne]
    exact q3

theorem quiet_run {kind : Nat → Holder} {h k : Nat} {v : PVal} : ∀ (ops : List Op) {a a' : PSpec} {outs : List Out},
    Quiet a h k v → (∀ op ∈ ops, Aside h k op) → a.run kind ops = some (outs, a') → Quiet a' h k v := by
  intro ops
  induction ops with
  | nil =>
    intro a a' outs q _ ha
    simp only [PSpec.run, Option.some.injEq, Prod.mk.injEq] at ha
    obtain ⟨-, rfl⟩ := ha
    exact q
  | cons op ops ih =>
    intro a a' outs q hop ha
    simp only [PSpec.run, Option.bind_eq_some_iff, Option.map_eq_some_iff] at ha
    obtain ⟨⟨a1, o⟩, h1, ⟨outs1, a2⟩, h2, h3⟩ := ha
    simp only [Prod.mk.injEq] at h3
    obtain ⟨-, rfl⟩ := h3
    exact ih (quiet_step q (hop op (by simp)) h1) (fun op' ho => hop op' (by simp [ho])) h2

theorem run_append {kind : Nat → Holder} : ∀ (l1 l2 : List Op) {a a' : PSpec} {outs : List Out},
    a.run kind (l1 ++ l2) = some (outs, a') ↔
      ∃ o1 a1 o2, a.run kind l1 = some (o1, a1) ∧ a1.run kind l2 = some (o2, a') ∧ outs = o1 ++ o2 := by
  intro l1
  induction l1 with
  | nil => intro l2 a a' outs; simp [PSpec.run]
  | cons op l1 ih =>
    intro l2 a a' outs
    simp only [List.cons_append, PSpec.run, Option.bind_eq_some_iff, Option.map_eq_some_iff, Prod.mk.injEq]
    constructor
    · rintro ⟨⟨a1, o⟩, h1, ⟨outs1, a2⟩, h2, rfl, rfl⟩
      obtain ⟨o1, a3, o2, e1, e2, rfl⟩ := (ih l2).1 h2
      exact ⟨o :: o1, a3, o2, ⟨(a1, o), h1, (o1, a3), e1, rfl, rfl⟩, e2, rfl⟩
    · rintro ⟨o1, a3, o2, ⟨⟨a1, o⟩, h1, ⟨o1', a3'⟩, e1, rfl, rfl⟩, e2, rfl⟩
      exact ⟨(a1, o), h1, (o1' ++ o2, a'), (ih l2).2 ⟨o1', a3', o2, e1, e2, rfl⟩, rfl, rfl⟩

theorem crun_append {kind : Nat → Holder} : ∀ (l1 l2 : List Op) (s : St), Out.ub ∉ (run kind l1 s).1 →
    run kind (l1 ++ l2) s = ((run kind l1 s).1 ++ (run kind l2 (run kind l1 s).2).1, (run kind l2 (run kind l1 s).2).2) := by
  intro l1
  induction l1 with
  | nil => intro l2 s _; simp [run]
  | cons op l1 ih =>
    intro l2 s hu
    simp only [List.cons_append, run] at hu ⊢
    by_cases hub : (step kind s op).2 = .ub
    · rw [if_pos hub] at hu; simp at hu
    · rw [if_neg hub] at hu ⊢
      rw [if_neg hub]
      dsimp only at hu ⊢
      rw [ih l2 _ (fun hm => hu (List.mem_cons_of_mem _ hm))]
      rfl

/-- The answer to the last operation of a program. -/
theorem crun_last {kind : Nat → Holder} (l : List Op) (op : Op) (s : St) (hu : Out.ub ∉ (run kind l s).1) :
    (run kind (l ++ [op]) s).1.getLast? = some (step kind (run kind l s).2 op).2 := by
  rw [crun_append l [op] s hu]
  simp only [run]
  by_cases hub : (step kind (run kind l s).2 op).2 = .ub
  · rw [if_pos hub, hub]; simp
  · rw [if_neg hub]; simp

/-- **C92** (private copy; partial as above): what is read from a holder is what the object handed in contained at that time,
whatever the program does in between with the object it handed in (change it, hand it to others, delete it) and with all
other holders and keys. -/
theorem C92_private_partial (kind : Nat → Holder) (pre mid : List Op) (h k i T j x : Nat)
    (hn : NoThrow (pre ++ .set h k i T false :: mid ++ [.get h k T j, .read j]))
    (hmid : ∀ op ∈ mid, Aside h k op)
    (hx : (run kind (pre ++ [.read i]) Passed.init).1.getLast? = some (.val x))
    (hset : (run kind (pre ++ [.set h k i T false]) Passed.init).1.getLast? = some .done)
    (outs : List Out) (a : PSpec)
    (ha : PSpec.init.run kind (pre ++ .set h k i T false :: mid ++ [.get h k T j, .read j]) = some (outs, a)) :
    (run kind (pre ++ .set h k i T false :: mid ++ [.get h k T j, .read j]) Passed.init).1.getLast? = some (.val x) := by
  obtain ⟨e1, -⟩ := C92_values_partial kind _ hn outs a ha
  rw [e1]
  rw [List.append_assoc] at ha hn
  obtain ⟨o1, a1, o2, r1, r2, rfl⟩ := (run_append _ _).1 ha
  rw [List.cons_append] at r2
  simp only [PSpec.run, Option.bind_eq_some_iff, Option.map_eq_some_iff] at r2
  obtain ⟨⟨a2, o⟩, q1, ⟨o3, a3⟩, q2, q3⟩ := r2
  simp only [Prod.mk.injEq] at q3
  obtain ⟨rfl, rfl⟩ := q3
  obtain ⟨o4, a4, o5, u1, u2, rfl⟩ := (run_append _ _).1 q2
  obtain ⟨c1, c2, S⟩ := sim_run kind pre Sim.init (fun op ho => hn op (List.mem_append_left _ ho)) r1
  rw [crun_last _ _ _ (by rw [c1]; exact c2)] at hx hset
  -- what was stored
  have hq : Quiet a2 h k ⟨T, x⟩ := by
    obtain ⟨d1, -, -⟩ := sim_step kind S (.set h k i T false) (by simp) q1
    simp only [Option.some.injEq] at hset hx
    have hread : ∀ (p : Nat) (m : Bool) (v : PVal), (run kind pre Passed.init).2.vars i = some p →
        (run kind pre Passed.init).2.mem p = some ⟨v.ty, v.val, m⟩ → v.val = x := by
      intro p m v h1 h2
      simpa [step, h1, h2] using hx
    simp only [PSpec.step] at q1
    by_cases g1 : a1.gone h = true
    · rw [if_pos g1] at q1; simp at q1
    rw [if_neg g1] at q1
    by_cases g2 : kind h = .element ∧ a1.inited h = true
    · rw [if_pos g2] at q1
      simp only [Option.some.injEq, Prod.mk.injEq] at q1
      rw [hset, ← q1.2] at d1
      simp at d1
    rw [if_neg g2] at q1
    by_cases g3 : a1.vars i = .null
    · have := S.nul i g3
      simp [step, this] at hx
    rw [if_neg g3] at q1
    by_cases g4 : a1.vars i = .lent h k
    · rw [if_pos g4] at q1; simp at q1
    rw [if_neg g4] at q1
    simp only [Option.map_eq_some_iff, Bool.false_eq_true, if_false, Prod.mk.injEq] at q1
    obtain ⟨w, hw, rfl, -⟩ := q1
    obtain ⟨p, m, h1, h2⟩ := S.value hw
    have := hread p m w h1 h2
    subst this
    refine ⟨by simp, ?_, by simpa using g1⟩
    intro i' hi'
    have := (expire_lent.1 hi').2
    simp at this
  have hq4 := quiet_run mid hq hmid u1
  -- the last two operations
  obtain ⟨w1, w2, w3⟩ := hq4
  simp only [PSpec.run, PSpec.step, w1, w3, Bool.false_eq_true, if_false, or_true, if_true, Option.bind_some,
    Function.update_self, PSpec.value, Option.map_some, Option.some.injEq, Prod.mk.injEq] at u2
  obtain ⟨rfl, -⟩ := u2
  rw [show o1 ++ o :: (o4 ++ [Out.got, Out.val x]) = (o1 ++ o :: o4 ++ [Out.got]) ++ [Out.val x] by simp]
  exact List.getLast?_concat

/-- **C92** (frozen): once an element is initialised, `addEParam` throws and changes nothing. -/
theorem C92_frozen (kind : Nat → Holder) (ops : List Op) (h k i T : Nat) (b : Bool) (hk : kind h = .element)
    (hi : (run kind ops Passed.init).2.inited h = true) (hg : (run kind ops Passed.init).2.gone h = false) :
    step kind (run kind ops Passed.init).2 (.set h k i T b) = ((run kind ops Passed.init).2, .thrown) := by
  simp [step, hk, hi, hg]

/-- **C92** fails when an object obtained from a holder is handed back under the same key: the holder deletes it before it
is copied. -/
theorem C92_self_violated (kind : Nat → Holder) (s : St) (h k i T b : Nat) (hg : s.gone h = false)
    (hi : kind h = .element → s.inited h = false) (hv : s.vars i = some b) (hf : find (s.tbl h) k = some (some b))
    (hl : s.mem b ≠ none) (hb : b < s.next) (th : Bool) :
    (step kind s (.set h k i T th)).2 = .ub := by
  have hh : ¬ (kind h = .element ∧ s.inited h = true) := by
    rintro ⟨h1, h2⟩; rw [hi h1] at h2; simp at h2
  simp only [step, hg, Bool.false_eq_true, if_false, if_neg hh, hv]
  have hd : delPtr s.mem ((find (s.tbl h) k).getD none) = some (Function.update s.mem b none) := by
    rw [hf]; simp [delPtr, Option.isSome_iff_ne_none.2 hl]
  unfold store
  rw [hd]
  dsimp only
  rw [Function.update_of_ne (by omega), Function.update_self]

/-- Every kind of holder: get the parameter, hand it back. -/
theorem C92_self_program_violated (kd : Holder) :
    (run (fun _ => kd) [.new 0 1 7, .set 5 0 0 1 false, .get 5 0 1 1, .set 5 0 1 1 false] Passed.init).1 =
      [.done, .done, .got, .ub] := by
  cases kd <;> decide +kernel

/-- **C92** fails when `clone` throws.  An element loses the parameter it had, `getEParam` throws from then on, and the new
object is never deleted. -/
theorem C92_throw_element_violated :
    let ops : List Op := [.new 0 1 7, .set 5 3 0 1 false, .set 5 3 0 1 true, .get 5 3 1 1, .drop 5]
    let r := run (fun _ => .element) ops Passed.init
    r.1 = [.done, .done, .thrown, .thrown, .done] ∧ r.2.mem 2 = some ⟨1, 0, false⟩ ∧ r.2.gone 5 = true ∧
      (PSpec.init.run (fun _ => .element) ops).map (·.1) = some [.done, .done, .thrown, .got, .done] := by
  decide +kernel

/-- An aspect, daemon or stage is left with a new object in place of the parameter it had. -/
theorem C92_throw_other_violated (kd : Holder) (hk : kd ≠ .element) :
    let ops : List Op := [.new 0 1 7, .set 5 0 0 1 false, .set 5 0 0 1 true, .get 5 0 1 1, .read 1]
    (run (fun _ => kd) ops Passed.init).1 = [.done, .done, .thrown, .got, .val 0] ∧
      (PSpec.init.run (fun _ => kd) ops).map (·.1) = some [.done, .done, .thrown, .got, .val 7] := by
  cases kd
  · exact absurd rfl hk
  · decide +kernel
  · decide +kernel

/-! ## Examples -/

/-- Two keys of an element and an aspect; the object handed in is changed and deleted afterwards. -/
def exPassed : List Op :=
  [.new 0 1 7, .set 1 3 0 1 false, .set 1 4 0 2 false, .write 0 8, .set 2 0 0 1 false, .del 0,
   .get 1 3 1 1, .read 1, .write 1 9, .get 1 4 1 2, .get 1 4 2 2, .read 2, .get 2 0 1 3, .read 3,
   .set 1 4 1 2 false, .get 1 4 2 4, .read 4, .initialise 1, .set 1 5 3 1 false, .drop 1, .read 3, .drop 2]

def exKind : Nat → Holder := fun h => if h = 1 then .element else .aspect

example : NoThrow exPassed := by
  intro op ho h k i T
  simp only [exPassed, List.mem_cons, List.not_mem_nil, or_false] at ho
  rcases ho with h | h | h | h | h | h | h | h | h | h | h | h | h | h | h | h | h | h | h | h | h | h <;> subst h <;> simp

example : (PSpec.init.run exKind exPassed).map (·.1) =
    some [.done, .done, .done, .done, .done, .done, .got, .val 7, .done, .isNull, .got, .val 7, .got, .val 8,
      .done, .got, .val 9, .done, .thrown, .done, .val 8, .done] := by decide +kernel

example : (run exKind exPassed Passed.init).1 =
    [.done, .done, .done, .done, .done, .done, .got, .val 7, .done, .isNull, .got, .val 7, .got, .val 8,
      .done, .got, .val 9, .done, .thrown, .done, .val 8, .done] := by decide +kernel

/-- The hypotheses of `C92_private_partial`: the object is changed and deleted in between. -/
example : (run exKind ([.new 0 1 7] ++ [.read 0]) Passed.init).1.getLast? = some (.val 7) ∧
    (run exKind ([.new 0 1 7] ++ [.set 1 3 0 1 false]) Passed.init).1.getLast? = some .done ∧
    (PSpec.init.run exKind ([.new 0 1 7] ++ .set 1 3 0 1 false :: [.write 0 8, .set 2 0 0 1 false, .del 0] ++
      [.get 1 3 1 4, .read 4])).isSome = true := by decide +kernel

/-- The hypotheses of `C92_self_violated`. -/
example : let s := (run exKind [.new 0 1 7, .set 1 3 0 1 false, .get 1 3 1 1] Passed.init).2
    s.gone 1 = false ∧ s.inited 1 = false ∧ s.vars 1 = some 1 ∧ find (s.tbl 1) 3 = some (some 1) ∧ s.mem 1 ≠ none ∧
      1 < s.next := by decide +kernel

end Passed
end CGraph
