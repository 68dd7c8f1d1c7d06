import Verif.Spec.Some
import Verif.Lemmas.Status

/-! # Facts about the some-group -/
namespace CGraph
open CGraph.Spec

/-- Replacing one entry changes a count by one at most. -/
theorem countP_set_some {α : Type} (p : α → Bool) (x : α) :
    ∀ (l : List α) (i : Nat) (y : α), l[i]? = some y →
      (l.set i x).countP p + (if p y then 1 else 0) = l.countP p + (if p x then 1 else 0)
  | [], _, _, h => by simp at h
  | a :: l, 0, y, h => by
    simp at h; subst h
    simp [List.countP_cons]; omega
  | a :: l, i + 1, y, h => by
    simp at h
    have := countP_set_some p x l i y h
    simp [List.countP_cons]; omega

theorem sum_set_some {α : Type} (f : α → Nat) (x : α) :
    ∀ (l : List α) (i : Nat) (y : α), l[i]? = some y →
      ((l.set i x).map f).sum + f y = (l.map f).sum + f x
  | [], _, _, h => by simp at h
  | a :: l, 0, y, h => by
    simp at h; subst h
    simp; omega
  | a :: l, i + 1, y, h => by
    simp at h
    have := sum_set_some f x l i y h
    simp only [List.set_cons_succ, List.map_cons, List.sum_cons]; omega

namespace SomeSt

/-- A task that is not over is one of the current ones. -/
theorem current {old cur : List KidJob} (hold : ∀ q ∈ old, q.pc = .gone) {j : Nat} {q : KidJob}
    (h : (old ++ cur)[j]? = some q) (hq : q.pc ≠ .gone) :
    ∃ i, cur[i]? = some q ∧ ∀ x, (old ++ cur).set j x = old ++ cur.set i x := by
  rcases Nat.lt_or_ge j old.length with hj | hj
  · rw [List.getElem?_append_left hj] at h
    exact absurd (hold q (List.mem_of_getElem? h)) hq
  · refine ⟨j - old.length, ?_, fun x => ?_⟩
    · rw [← List.getElem?_append_right hj]; exact h
    · rw [List.set_append_right _ _ hj]

/-- The task is past its body. -/
def past (q : KidJob) : Bool :=
  match q.pc with
  | .ended _ => true
  | .gone => true
  | _ => false

/-- The task is over. -/
def over (q : KidJob) : Bool := q.pc == .gone

/-- Number of children submitted. -/
def pushed (n : Nat) : SomePc → Nat
  | .idle => 0
  | .reset => 0
  | .push i => i
  | _ => n

/-- The children have not been marked yet. -/
def early : SomePc → Bool
  | .mark _ => false
  | .ret _ => false
  | _ => true

/-- What a history says at the moments the group returned. -/
def Backs (k : Nat) (new : List SomeEv) : Prop :=
  ∀ a b st, new = a ++ .back st :: b →
    if st.isErr then ∃ c, .leave c st ∈ a else k ≤ (finished a).length

/-- Invariant of one run that began with all earlier tasks over and all children normal. -/
structure Inv (n k : Nat) (old cur : List KidJob) (H new : List SomeEv) (s : SomeSt) : Prop where
  hist : s.hist = H ++ new
  jobs : s.jobs = old ++ cur
  gone : ∀ q ∈ old, q.pc = .gone
  kids : cur.map (·.kid) = List.range (pushed n s.pc)
  le : pushed n s.pc ≤ n
  num : s.num = (k : Int) - (cur.countP over : Nat)
  fin : early s.pc = true → cur.countP past = (finished new).length
  norm : early s.pc = true → ∀ c, s.marked c = false
  nodup : (finished new).Nodup
  mem : ∀ q ∈ cur, q.kid ∈ finished new → past q = true
  sub : ∀ c ∈ finished new, ∃ q ∈ cur, q.kid = c
  ended : ∀ q ∈ cur, ∀ st, q.pc = .ended st → st = CStatus.ok ∨ .leave q.kid st ∈ new
  stat : s.pc ≠ .reset → s.status.isErr = true → ∃ c, .leave c s.status ∈ new
  marking : ∀ i, s.pc = .mark i → s.status.isErr = true ∨ k ≤ (finished new).length
  backs : Backs k new
  run : s.pc ≠ .idle

theorem finished_append : ∀ a b : List SomeEv, finished (a ++ b) = finished a ++ finished b
  | [], b => rfl
  | .leave c st :: a, b => by simp [finished, finished_append a b]
  | .call _ :: a, b => by simp [finished, finished_append a b]
  | .enter _ :: a, b => by simp [finished, finished_append a b]
  | .back _ :: a, b => by simp [finished, finished_append a b]

theorem entered_append : ∀ a b : List SomeEv, entered (a ++ b) = entered a ++ entered b
  | [], b => rfl
  | .leave c st :: a, b => by simp [entered, entered_append a b]
  | .call _ :: a, b => by simp [entered, entered_append a b]
  | .enter _ :: a, b => by simp [entered, entered_append a b]
  | .back _ :: a, b => by simp [entered, entered_append a b]

theorem Backs.snoc {k : Nat} {new : List SomeEv} (h : Backs k new) {e : SomeEv} (he : ∀ st, e ≠ .back st) :
    Backs k (new ++ [e]) := by
  intro a b st hab
  rcases List.eq_nil_or_concat b with hb | ⟨b', x, hb⟩
  · subst hb
    have := congrArg List.getLast? hab
    simp at this
    exact absurd this (he st)
  · subst hb
    have h1 : new ++ [e] = (a ++ .back st :: b') ++ [x] := by simpa using hab
    have h2 := List.append_inj' h1 rfl
    exact h a b' st h2.1

theorem Backs.back {k : Nat} {new : List SomeEv} (h : Backs k new) {st : CStatus}
    (hst : if st.isErr then ∃ c, .leave c st ∈ new else k ≤ (finished new).length) :
    Backs k (new ++ [.back st]) := by
  intro a b st' hab
  rcases List.eq_nil_or_concat b with hb | ⟨b', x, hb⟩
  · subst hb
    have h2 := List.append_inj' hab rfl
    obtain ⟨h3, h4⟩ := h2
    simp at h4
    subst h3 h4
    exact hst
  · subst hb
    have h1 : new ++ [.back st] = (a ++ .back st' :: b') ++ [x] := by simpa using hab
    have h2 := List.append_inj' h1 rfl
    exact h a b' st' h2.1

/-- Finished children are at least as many as finished tasks. -/
theorem over_le_past (l : List KidJob) : l.countP over ≤ l.countP past := by
  apply List.countP_mono_left
  intro q _ h
  simp [over] at h
  simp [past, h]

theorem kids_set {cur : List KidJob} {i : Nat} {q : KidJob} (h : cur[i]? = some q) (p : KidPc) :
    (cur.set i ⟨q.kid, p⟩).map (·.kid) = cur.map (·.kid) := by
  apply List.ext_getElem?
  intro l
  rw [List.getElem?_map, List.getElem?_map, List.getElem?_set]
  split
  · next e =>
    subst e
    have := (List.getElem?_eq_some_iff.1 h).1
    rw [h]
    simp [this]
  · rfl

/-- The children of the current tasks are distinct. -/
theorem kid_inj {m : Nat} {cur : List KidJob} (hk : cur.map (·.kid) = List.range m) {i : Nat} {q r : KidJob}
    (h : cur[i]? = some q) {l : Nat} (hr : cur[l]? = some r) (hqr : r.kid = q.kid) : l = i := by
  have h1 : (List.range m)[i]? = some q.kid := by rw [← hk]; simp [h]
  have h2 : (List.range m)[l]? = some r.kid := by rw [← hk]; simp [hr]
  have h3 := List.mem_of_getElem? h1
  have h4 := List.mem_of_getElem? h2
  obtain ⟨hi, h1⟩ := List.getElem?_eq_some_iff.1 h1
  obtain ⟨hl, h2⟩ := List.getElem?_eq_some_iff.1 h2
  simp at h1 h2
  omega

/-- A member of a list with one entry replaced. -/
theorem mem_set_kid {m : Nat} {cur : List KidJob} (hk : cur.map (·.kid) = List.range m) {i : Nat} {q : KidJob}
    (h : cur[i]? = some q) {p : KidPc} {r : KidJob} (hr : r ∈ cur.set i ⟨q.kid, p⟩) :
    r = ⟨q.kid, p⟩ ∨ (r ∈ cur ∧ r.kid ≠ q.kid) := by
  obtain ⟨l, hl⟩ := List.mem_iff_getElem?.1 hr
  rcases Nat.decEq l i with hli | hli
  · rw [List.getElem?_set_ne (Ne.symm hli)] at hl
    right
    exact ⟨List.mem_of_getElem? hl, fun e => hli (kid_inj hk h hl e)⟩
  · subst hli
    left
    have hlt := (List.getElem?_eq_some_iff.1 h).1
    rw [List.getElem?_set_self hlt] at hl
    exact (Option.some.inj hl).symm

theorem sub_set {cur : List KidJob} {i : Nat} {q : KidJob} {p : KidPc}
    (h : cur[i]? = some q) {d : Nat} (hd : ∃ r ∈ cur, r.kid = d) : ∃ r ∈ cur.set i ⟨q.kid, p⟩, r.kid = d := by
  obtain ⟨r, hr, e⟩ := hd
  have h1 : d ∈ (cur.set i ⟨q.kid, p⟩).map (·.kid) := by
    rw [kids_set h]; exact List.mem_map.2 ⟨r, hr, e⟩
  obtain ⟨r', h2, h3⟩ := List.mem_map.1 h1
  exact ⟨r', h2, h3⟩

/-- A task moves without anything being seen from outside. -/
theorem Inv.move {n k : Nat} {old cur : List KidJob} {H new : List SomeEv} {s : SomeSt}
    (I : Inv n k old cur H new s) {i : Nat} {q : KidJob} (hi : cur[i]? = some q) {p : KidPc}
    (h1 : past ⟨q.kid, p⟩ = past q ∨ early s.pc = false) (h2 : over ⟨q.kid, p⟩ = over q)
    (h3 : past q = true → past ⟨q.kid, p⟩ = true) (h4 : ∀ st, p = .ended st → st = CStatus.ok)
    {s' : SomeSt} (e1 : s'.jobs = old ++ cur.set i ⟨q.kid, p⟩) (e2 : s'.num = s.num) (e3 : s'.status = s.status)
    (e4 : s'.pc = s.pc) (e5 : s'.marked = s.marked) {ev : List SomeEv} (e6 : s'.hist = s.hist ++ ev)
    (e7 : ev = [] ∨ ev = [.enter q.kid]) :
    Inv n k old (cur.set i ⟨q.kid, p⟩) H (new ++ ev) s' := by
  have hf : finished (new ++ ev) = finished new := by
    rcases e7 with e | e <;> subst e <;> simp [finished_append, finished]
  have hc1 := countP_set_some past ⟨q.kid, p⟩ cur i q hi
  have hc2 := countP_set_some over ⟨q.kid, p⟩ cur i q hi
  constructor
  · rw [e6, I.hist]; simp
  · exact e1
  · exact I.gone
  · rw [kids_set hi, I.kids, e4]
  · rw [e4]; exact I.le
  · rw [e2, I.num]; rw [h2] at hc2; omega
  · intro he
    rw [e4] at he
    rw [hf, ← I.fin he]
    rcases h1 with h1 | h1
    · rw [h1] at hc1; omega
    · rw [he] at h1; simp at h1
  · intro he c; rw [e4] at he; rw [e5]; exact I.norm he c
  · rw [hf]; exact I.nodup
  · intro r hr hm
    rw [hf] at hm
    rcases mem_set_kid I.kids hi hr with e | ⟨e, _⟩
    · subst e; exact h3 (I.mem q (List.mem_of_getElem? hi) hm)
    · exact I.mem r e hm
  · intro d hd
    rw [hf] at hd
    exact sub_set hi (I.sub d hd)
  · intro r hr st hst
    rcases mem_set_kid I.kids hi hr with e | ⟨e, _⟩
    · subst e; exact .inl (h4 st hst)
    · rcases I.ended r e st hst with h | h
      · exact .inl h
      · exact .inr (by simp [h])
  · intro hp he
    rw [e4] at hp; rw [e3] at he ⊢
    obtain ⟨c, hc⟩ := I.stat hp he
    exact ⟨c, by simp [hc]⟩
  · intro l hl
    rw [e4] at hl; rw [e3, hf]; exact I.marking l hl
  · rcases e7 with e | e
    · subst e; simpa using I.backs
    · subst e; exact I.backs.snoc (by simp)
  · rw [e4]; exact I.run

/-- A body ends. -/
theorem Inv.leave {n k : Nat} {old cur : List KidJob} {H new : List SomeEv} {s : SomeSt}
    (I : Inv n k old cur H new s) {i : Nat} {c : Nat} (hi : cur[i]? = some ⟨c, .body⟩) (st : CStatus)
    {s' : SomeSt} (e1 : s'.jobs = old ++ cur.set i ⟨c, .ended st⟩) (e2 : s'.num = s.num)
    (e3 : s'.status = s.status)
    (e4 : s'.pc = s.pc) (e5 : s'.marked = s.marked) (e6 : s'.hist = s.hist ++ [.leave c st]) :
    Inv n k old (cur.set i ⟨c, .ended st⟩) H (new ++ [.leave c st]) s' := by
  have hf : finished (new ++ [.leave c st]) = finished new ++ [c] := by
    simp [finished_append, finished]
  have hc1 := countP_set_some past ⟨c, .ended st⟩ cur i _ hi
  have hc2 := countP_set_some over ⟨c, .ended st⟩ cur i _ hi
  have hnot : c ∉ finished new := fun h => by
    have := I.mem _ (List.mem_of_getElem? hi) h
    simp [past] at this
  constructor
  · rw [e6, I.hist]; simp
  · exact e1
  · exact I.gone
  · have := kids_set hi (.ended st); rw [this, I.kids, e4]
  · rw [e4]; exact I.le
  · rw [e2, I.num]; simp [over] at hc2; omega
  · intro he
    rw [e4] at he
    have h0 := I.fin he
    simp only [past] at hc1 h0
    rw [hf]; simp [past] at hc1 h0 ⊢; omega
  · intro he c; rw [e4] at he; rw [e5]; exact I.norm he c
  · rw [hf, List.nodup_append]
    refine ⟨I.nodup, by simp, ?_⟩
    intro a ha b hb; simp at hb; subst hb; intro e; subst e; exact hnot ha
  · intro r hr hm
    rw [hf] at hm
    rcases mem_set_kid I.kids hi hr with e | ⟨e, hne⟩
    · subst e; simp [past]
    · simp at hm
      rcases hm with hm | hm
      · exact I.mem r e hm
      · exact absurd hm hne
  · intro d hd
    rw [hf] at hd
    simp at hd
    rcases hd with hd | hd
    · exact sub_set hi (I.sub d hd)
    · subst hd; exact sub_set hi ⟨_, List.mem_of_getElem? hi, rfl⟩
  · intro r hr st' hst
    rcases mem_set_kid I.kids hi hr with e | ⟨e, _⟩
    · subst e; simp at hst; subst hst; right; simp
    · rcases I.ended r e st' hst with h | h
      · exact .inl h
      · exact .inr (by simp [h])
  · intro hp he
    rw [e4] at hp; rw [e3] at he ⊢
    obtain ⟨d, hd⟩ := I.stat hp he
    exact ⟨d, by simp [hd]⟩
  · intro l hl
    rw [e4] at hl; rw [e3, hf]
    rcases I.marking l hl with h | h
    · exact .inl h
    · right; simp; omega
  · exact I.backs.snoc (by simp)
  · rw [e4]; exact I.run

/-- A task adds its result. -/
theorem Inv.count {n k : Nat} {old cur : List KidJob} {H new : List SomeEv} {s : SomeSt}
    (I : Inv n k old cur H new s) {i : Nat} {c : Nat} {st : CStatus} (hi : cur[i]? = some ⟨c, .ended st⟩)
    {s' : SomeSt} (e1 : s'.jobs = old ++ cur.set i ⟨c, .gone⟩) (e2 : s'.num = s.num - 1)
    (e3 : s'.status = s.status.add st) (hm : ∀ i, s.pc ≠ .mark i)
    (e4 : s'.pc = s.pc ∨ (s.pc = .asleep ∧ s'.pc = .test)) (e5 : s'.marked = s.marked) (e6 : s'.hist = s.hist) :
    Inv n k old (cur.set i ⟨c, .gone⟩) H new s' := by
  have hc1 := countP_set_some past ⟨c, .gone⟩ cur i _ hi
  have hc2 := countP_set_some over ⟨c, .gone⟩ cur i _ hi
  have hpu : pushed n s'.pc = pushed n s.pc := by
    rcases e4 with e | ⟨e, e'⟩
    · rw [e]
    · rw [e, e']; rfl
  have hea : early s'.pc = early s.pc := by
    rcases e4 with e | ⟨e, e'⟩
    · rw [e]
    · rw [e, e']; rfl
  constructor
  · rw [e6, I.hist]
  · exact e1
  · exact I.gone
  · have := kids_set hi .gone; rw [this, I.kids, hpu]
  · rw [hpu]; exact I.le
  · rw [e2, I.num]; simp [over] at hc2; omega
  · intro he
    rw [hea] at he
    have h0 := I.fin he
    simp [past] at hc1 h0 ⊢; omega
  · intro he c; rw [hea] at he; rw [e5]; exact I.norm he c
  · exact I.nodup
  · intro r hr hm
    rcases mem_set_kid I.kids hi hr with e | ⟨e, hne⟩
    · subst e; simp [past]
    · exact I.mem r e hm
  · intro d hd
    exact sub_set hi (I.sub d hd)
  · intro r hr st' hst
    rcases mem_set_kid I.kids hi hr with e | ⟨e, _⟩
    · subst e; simp at hst
    · exact I.ended r e st' hst
  · intro hp he
    have hp' : s.pc ≠ .reset := by
      intro h
      rcases e4 with e | ⟨e, e'⟩
      · rw [e] at hp; exact hp h
      · rw [h] at e; simp at e
    rw [e3] at he ⊢
    cases hs : s.status.isErr with
    | true => rw [CStatus.add_of_err _ hs]; exact I.stat hp' hs
    | false =>
      rw [CStatus.add_isErr, hs] at he
      simp at he
      rw [CStatus.add_of_not_err hs he]
      rcases I.ended _ (List.mem_of_getElem? hi) st rfl with h | h
      · subst h; simp at he
      · exact ⟨c, h⟩
  · intro l hl
    rcases e4 with e | ⟨e, e'⟩
    · rw [e] at hl; exact absurd hl (hm l)
    · rw [e'] at hl; simp at hl
  · exact I.backs
  · rcases e4 with e | ⟨e, e'⟩
    · rw [e]; exact I.run
    · rw [e']; simp

/-- Steps of the group's thread. -/
theorem Inv.main {n k : Nat} {old cur : List KidJob} {H new : List SomeEv} {s s' : SomeSt}
    (I : Inv n k old cur H new s) (h : s.main n = some s') :
    ∃ cur' new', Inv n k old cur' H new' s' := by
  unfold SomeSt.main at h
  cases hp : s.pc with
  | idle => rw [hp] at h; simp at h
  | asleep => rw [hp] at h; simp at h
  | ret st => rw [hp] at h; simp at h
  | reset =>
    rw [hp] at h; simp at h; subst h
    refine ⟨cur, new, ?_⟩
    have hk := I.kids
    have hfin := I.fin
    have hnorm := I.norm
    rw [hp] at hk hfin hnorm
    exact { hist := I.hist, jobs := I.jobs, gone := I.gone, kids := hk, le := Nat.zero_le _, num := I.num,
            fin := hfin, norm := hnorm, nodup := I.nodup, mem := I.mem, sub := I.sub, ended := I.ended,
            stat := by intro _ h; simp at h, marking := by simp, backs := I.backs, run := by simp }
  | push i =>
    rw [hp] at h; simp only at h
    have hk := I.kids
    have hfin := I.fin
    have hnorm := I.norm
    have hle := I.le
    have hst := I.stat (by rw [hp]; simp)
    rw [hp] at hk hfin hnorm hle
    simp only [pushed] at hk hle
    split at h
    · next hi =>
      simp at h; subst h
      refine ⟨cur ++ [⟨i, .queued⟩], new, ?_⟩
      exact {
        hist := I.hist
        jobs := by simp [I.jobs]
        gone := I.gone
        kids := by simp [pushed, hk, List.range_succ]
        le := hi
        num := by simp [over, I.num]
        fin := by intro _; simp [past, hfin rfl]
        norm := fun _ => hnorm rfl
        nodup := I.nodup
        mem := by
          intro q hq hm
          simp at hq
          rcases hq with hq | hq
          · exact I.mem q hq hm
          · subst hq
            exfalso
            -- a child not submitted has not finished
            obtain ⟨q, hq, hqi⟩ := I.sub i hm
            have : q.kid ∈ cur.map (·.kid) := List.mem_map.2 ⟨q, hq, rfl⟩
            rw [hk] at this
            simp at this
            omega
        sub := fun c hc => by
          obtain ⟨q, hq, hqi⟩ := I.sub c hc
          exact ⟨q, by simp [hq], hqi⟩
        ended := by
          intro q hq st hst
          simp at hq
          rcases hq with hq | hq
          · exact I.ended q hq st hst
          · subst hq; simp at hst
        stat := fun _ h => hst h
        marking := by simp
        backs := I.backs
        run := by simp }
    · next hi =>
      simp at h; subst h
      have hin : i = n := by omega
      subst hin
      refine ⟨cur, new, ?_⟩
      exact { hist := I.hist, jobs := I.jobs, gone := I.gone, kids := hk, le := Nat.le_refl _, num := I.num,
              fin := fun _ => hfin rfl, norm := fun _ => hnorm rfl, nodup := I.nodup, mem := I.mem, sub := I.sub, ended := I.ended,
              stat := fun _ h => hst h, marking := by simp, backs := I.backs, run := by simp }
  | test =>
    rw [hp] at h; simp only at h
    have hk := I.kids
    have hfin := I.fin
    have hnorm := I.norm
    have hst := I.stat (by rw [hp]; simp)
    rw [hp] at hk hfin hnorm
    split at h
    · next hr =>
      simp at h; subst h
      refine ⟨cur, new, ?_⟩
      exact { hist := I.hist, jobs := I.jobs, gone := I.gone, kids := hk, le := Nat.le_refl _, num := I.num,
              fin := by simp [early], norm := by simp [early], nodup := I.nodup, mem := I.mem, sub := I.sub, ended := I.ended,
              stat := fun _ h => hst h, backs := I.backs, run := by simp
              marking := by
                intro l _
                simp only [SomeSt.ready, Bool.or_eq_true, decide_eq_true_eq] at hr
                rcases hr with hr | hr
                · right
                  have h1 := I.num
                  have h2 := over_le_past cur
                  have h3 := hfin rfl
                  omega
                · exact .inl hr }
    · simp at h; subst h
      refine ⟨cur, new, ?_⟩
      exact { hist := I.hist, jobs := I.jobs, gone := I.gone, kids := hk, le := Nat.le_refl _, num := I.num,
              fin := fun _ => hfin rfl, norm := fun _ => hnorm rfl, nodup := I.nodup, mem := I.mem, sub := I.sub, ended := I.ended,
              stat := fun _ h => hst h, marking := by simp, backs := I.backs, run := by simp }
  | mark i =>
    rw [hp] at h; simp only at h
    have hk := I.kids
    have hst := I.stat (by rw [hp]; simp)
    have hma := I.marking i hp
    rw [hp] at hk
    split at h
    · simp at h; subst h
      refine ⟨cur, new, ?_⟩
      exact { hist := I.hist, jobs := I.jobs, gone := I.gone, kids := hk, le := Nat.le_refl _, num := I.num,
              fin := by simp [early], norm := by simp [early], nodup := I.nodup, mem := I.mem, sub := I.sub, ended := I.ended,
              stat := fun _ h => hst h, marking := fun _ _ => hma, backs := I.backs, run := by simp }
    · simp at h; subst h
      have hf : finished (new ++ [.back s.status]) = finished new := by simp [finished_append, finished]
      refine ⟨cur, new ++ [.back s.status], ?_⟩
      exact { hist := by simp [I.hist], jobs := I.jobs, gone := I.gone, kids := hk, le := Nat.le_refl _, num := I.num,
              fin := by simp [early], norm := by simp [early], nodup := by rw [hf]; exact I.nodup
              mem := by rw [hf]; exact I.mem
              sub := by rw [hf]; exact I.sub
              ended := by
                intro q hq st h
                rcases I.ended q hq st h with h | h
                · exact .inl h
                · exact .inr (by simp [h])
              stat := fun _ h => by
                obtain ⟨c, hc⟩ := hst h
                exact ⟨c, by simp [hc]⟩
              marking := by simp, run := by simp
              backs := by
                apply I.backs.back
                split
                · next he => exact hst he
                · next he =>
                  rcases hma with h | h
                  · exact absurd h he
                  · exact h }

end SomeSt
end CGraph
