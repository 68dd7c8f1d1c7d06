import Verif.Model.TopicConc
import Verif.Spec.TopicConc
import Verif.Lemmas.ParamConc
import Verif.Lemmas.PubSub

namespace CGraph.TopicConc
open Spec TcSt Chan
open ParamConc (lookup_some lookup_none snd_inj filter_snoc_self filter_snoc_other)

set_option maxHeartbeats 1000000

variable {α : Type}

/-- The call in the words of the specification. -/
def TcCall.spec : TcCall α → TdCall
  | .create k ty sz => .make k ty sz
  | .remove k => .drop k
  | .clear => .clear
  | .send k _ _ => .look k
  | .recv k => .look k

/-- The result in the words of the specification. -/
def TcRes.spec : TcRes → TdRes
  | .done b => .done b
  | .at p => .at p

/-- The history in the words of the specification. -/
def TcSt.hist (s : TcSt α) : List (Nat × TdCall × TdRes) := s.log.map fun e => (e.1, e.2.1.spec, e.2.2.spec)

/-- The directory in the words of the specification. -/
def TcSt.abs (s : TcSt α) : TdDir := s.map.map fun e => (e.1, (s.obj e.2).ty, (s.obj e.2).size, e.2)

/-- The topic of a send or a receive. -/
def TcCall.topic : TcCall α → Option String
  | .send k _ _ => some k
  | .recv k => some k
  | _ => none

/-- The thread possesses the mutex. -/
def TcPc.inside? : TcPc α → Bool
  | .find c => c.topic.isNone
  | .comp .. => true
  | .alloc .. => true
  | .insert .. => true
  | .del .. => true
  | .erase .. => true
  | .wipe .. => true
  | .unlock .. => true
  | _ => false

/-- What has taken effect but has not returned. -/
def pend (t : Nat) : TcPc α → List (Nat × TcCall α × TcRes)
  | .unlock c r => [(t, c, r)]
  | .enter c p => [(t, c, .at (some p))]
  | .inside c p => [(t, c, .at (some p))]
  | _ => []

/-- The call that has not taken effect. -/
def TcPc.open : TcPc α → List (TcCall α)
  | .lock c => [c]
  | .find c => [c]
  | .comp k ty sz _ => [.create k ty sz]
  | .alloc k ty sz => [.create k ty sz]
  | .insert k ty sz _ => [.create k ty sz]
  | .del k _ => [.remove k]
  | .erase k => [.remove k]
  | .wipe _ => [.clear]
  | _ => []

/-- The thread has deleted queues that are still in the map. -/
def TcPc.kills (m : List (String × Nat)) (p : Nat) : TcPc α → Bool
  | .erase k => m.lookup k == some p
  | .wipe ps => !ps.contains p
  | _ => false

/-- What is known of a thread at a place. -/
def Pos (s : TcSt α) : TcPc α → Prop
  | .lock c => c.first = .lock c
  | .comp k _ _ p => s.map.lookup k = some p ∧ s.live p = true
  | .alloc k _ _ => s.map.lookup k = none
  | .insert k ty sz p => s.map.lookup k = none ∧ p < s.next ∧ (∀ e ∈ s.map, e.2 ≠ p) ∧ s.obj p = ⟨k, ty, sz⟩ ∧ s.live p = true
  | .del k p => s.map.lookup k = some p
  | .erase k => s.map.lookup k ≠ none
  | .wipe ps => (∀ p ∈ ps, ∃ k, (k, p) ∈ s.map) ∧ ps.Nodup
  | .enter c p => p < s.next ∧ c.topic = some (s.obj p).key
  | .inside c p => p < s.next ∧ c.topic = some (s.obj p).key
  | _ => True

/-- The invariant. -/
structure Inv (s : TcSt α) : Prop where
  hist : TdHist [] s.hist s.abs
  keys : (s.map.map Prod.fst).Nodup
  ptrs : (s.map.map Prod.snd).Nodup
  lt : ∀ e ∈ s.map, e.2 < s.next ∧ (s.obj e.2).key = e.1
  own : ∀ t, s.owner = some t ↔ (s.pc t).inside? = true
  pos : ∀ t, Pos s (s.pc t)
  alive : ∀ e ∈ s.map, s.live e.2 = true ∨ ∃ t, (s.pc t).kills s.map e.2 = true
  pend : ∀ t, s.log.filter (fun e => e.1 = t) = s.rets.filter (fun e => e.1 = t) ++ pend t (s.pc t)
  calls : ∀ t, (s.calls.filter (fun e => e.1 = t)).map Prod.snd =
    (s.log.filter (fun e => e.1 = t)).map (fun e => e.2.1) ++ (s.pc t).open

theorem abs_has {s : TcSt α} {k : String} {ty sz p : Nat} :
    TdHas s.abs k ty sz p ↔ (k, p) ∈ s.map ∧ (s.obj p).ty = ty ∧ (s.obj p).size = sz := by
  simp only [TdHas, abs, List.mem_map, Prod.mk.injEq, Prod.exists]
  constructor
  · rintro ⟨a, b, h, rfl, h2, h3, rfl⟩; exact ⟨h, h2, h3⟩
  · rintro ⟨h, h2, h3⟩; exact ⟨k, p, h, rfl, h2, h3, rfl⟩

theorem abs_free {s : TcSt α} {k : String} : TdFree s.abs k ↔ s.map.lookup k = none := by
  rw [lookup_none]
  constructor
  · intro h p hp; exact h _ _ p (abs_has.2 ⟨hp, rfl, rfl⟩)
  · intro h ty sz p hp; exact h p (abs_has.1 hp).1

/-! ### how the threads fit together -/

/-- What other threads notice of a step. -/
structure Frame (s s' : TcSt α) (t : Nat) : Prop where
  next : s.next ≤ s'.next
  obj : ∀ p, p < s.next → s'.obj p = s.obj p
  stay : s.owner ≠ some t → s'.map = s.map ∧ s'.live = s.live

theorem pos_other {s s' : TcSt α} {t u : Nat} (h : Frame s s' t) (hu : u ≠ t) {p : TcPc α}
    (hi : p.inside? = true → s.owner = some u) (hp : Pos s p) : Pos s' p := by
  have hst : p.inside? = true → s'.map = s.map ∧ s'.live = s.live := fun hp => h.stay (by
    rw [hi hp]; intro h'; exact hu (Option.some.inj h'))
  have h1 := h.next
  cases p with
  | out => trivial
  | lock c => exact hp
  | find c => trivial
  | unlock => trivial
  | comp k ty sz p => obtain ⟨e1, e2⟩ := hst rfl; simpa only [Pos, e1, e2] using hp
  | alloc => obtain ⟨e1, e2⟩ := hst rfl; simpa only [Pos, e1] using hp
  | insert k ty sz p =>
    obtain ⟨e1, e2⟩ := hst rfl
    obtain ⟨a, b, c, d, e⟩ := hp
    simp only [Pos, e1, e2]
    exact ⟨a, by omega, c, by rw [h.obj p b]; exact d, e⟩
  | del k p => obtain ⟨e1, e2⟩ := hst rfl; simpa only [Pos, e1, e2] using hp
  | erase k => obtain ⟨e1, e2⟩ := hst rfl; simpa only [Pos, e1] using hp
  | wipe ps => obtain ⟨e1, e2⟩ := hst rfl; simpa only [Pos, e1] using hp
  | enter c p => exact ⟨Nat.lt_of_lt_of_le hp.1 h1, by rw [h.obj p hp.1]; exact hp.2⟩
  | inside c p => exact ⟨Nat.lt_of_lt_of_le hp.1 h1, by rw [h.obj p hp.1]; exact hp.2⟩

theorem kills_inside {m : List (String × Nat)} {p : Nat} {q : TcPc α} (h : q.kills m p = true) : q.inside? = true := by
  cases q <;> first | rfl | simp [TcPc.kills] at h

/-- Thread `t` moves to `q`. -/
theorem Inv.upd {s s' : TcSt α} (h : Inv s) (t : Nat) (q : TcPc α) (f : Frame s s' t)
    (hpc : s'.pc = fun k => if k = t then q else s.pc k)
    (hhist : TdHist [] s'.hist s'.abs) (hkeys : (s'.map.map Prod.fst).Nodup) (hptrs : (s'.map.map Prod.snd).Nodup)
    (hlt : ∀ e ∈ s'.map, e.2 < s'.next ∧ (s'.obj e.2).key = e.1)
    (ht : s'.owner = some t ↔ q.inside? = true) (ho : ∀ u, u ≠ t → (s'.owner = some u ↔ s.owner = some u))
    (hp : Pos s' q)
    (hal : ∀ e ∈ s'.map, s'.live e.2 = true ∨ q.kills s'.map e.2 = true ∨ ∃ u, u ≠ t ∧ (s.pc u).kills s'.map e.2 = true)
    (hlog : ∀ u, u ≠ t → s'.log.filter (fun e => e.1 = u) = s.log.filter (fun e => e.1 = u) ∧
      s'.rets.filter (fun e => e.1 = u) = s.rets.filter (fun e => e.1 = u) ∧
      s'.calls.filter (fun e => e.1 = u) = s.calls.filter (fun e => e.1 = u))
    (hpend : s'.log.filter (fun e => e.1 = t) = s'.rets.filter (fun e => e.1 = t) ++ TopicConc.pend t q)
    (hcalls : (s'.calls.filter (fun e => e.1 = t)).map Prod.snd =
      (s'.log.filter (fun e => e.1 = t)).map (fun e => e.2.1) ++ q.open) : Inv s' := by
  have hpcu : ∀ u, u ≠ t → s'.pc u = s.pc u := fun u hu => by rw [hpc]; simp [hu]
  have hpct : s'.pc t = q := by rw [hpc]; simp
  refine ⟨hhist, hkeys, hptrs, hlt, ?_, ?_, ?_, ?_, ?_⟩
  · intro u
    by_cases hu : u = t
    · subst hu; rw [hpct]; exact ht
    · rw [hpcu u hu, ho u hu]; exact h.own u
  · intro u
    by_cases hu : u = t
    · subst hu; rw [hpct]; exact hp
    · rw [hpcu u hu]; exact pos_other f hu (fun hi => (h.own u).2 hi) (h.pos u)
  · intro e he
    rcases hal e he with h1 | h1 | ⟨u, hu, h1⟩
    · exact .inl h1
    · exact .inr ⟨t, by rw [hpct]; exact h1⟩
    · exact .inr ⟨u, by rw [hpcu u hu]; exact h1⟩
  · intro u
    by_cases hu : u = t
    · subst hu; rw [hpct]; exact hpend
    · obtain ⟨e1, e2, _⟩ := hlog u hu
      rw [hpcu u hu, e1, e2]; exact h.pend u
  · intro u
    by_cases hu : u = t
    · subst hu; rw [hpct]; exact hcalls
    · obtain ⟨e1, _, e3⟩ := hlog u hu
      rw [hpcu u hu, e1, e3]; exact h.calls u

/-- A thread that changes neither the map nor the objects nor the log, and stays inside or outside. -/
theorem Inv.move {s s' : TcSt α} (h : Inv s) (t : Nat) (q : TcPc α) (hpc : s'.pc = fun k => if k = t then q else s.pc k)
    (hmap : s'.map = s.map) (hobj : s'.obj = s.obj) (hlive : s'.live = s.live) (hnext : s'.next = s.next)
    (hlog : s'.log = s.log) (hrets : s'.rets = s.rets) (hcalls : s'.calls = s.calls)
    (ht : s'.owner = some t ↔ q.inside? = true) (ho : ∀ u, u ≠ t → (s'.owner = some u ↔ s.owner = some u))
    (hp : Pos s' q) (hk : ∀ p, (s.pc t).kills s.map p = true → q.kills s.map p = true)
    (hpend : TopicConc.pend t q = TopicConc.pend t (s.pc t)) (hopen : q.open = (s.pc t).open) : Inv s' := by
  have habs : s'.abs = s.abs := by simp only [abs, hmap, hobj]
  have hh : s'.hist = s.hist := by simp only [TcSt.hist, hlog]
  refine h.upd t q ⟨by omega, fun p _ => by rw [hobj], fun _ => ⟨hmap, hlive⟩⟩ hpc
    (by rw [hh, habs]; exact h.hist) (by rw [hmap]; exact h.keys) (by rw [hmap]; exact h.ptrs)
    (by rw [hmap, hnext, hobj]; exact h.lt) ht ho hp ?_ (by simp [hlog, hrets, hcalls]) ?_ ?_
  · intro e he
    rw [hmap] at he ⊢
    rw [hlive]
    rcases h.alive e he with h1 | ⟨u, h1⟩
    · exact .inl h1
    · by_cases hu : u = t
      · subst hu; exact .inr (.inl (hk _ h1))
      · exact .inr (.inr ⟨u, hu, h1⟩)
  · rw [hlog, hrets, hpend]; exact h.pend t
  · rw [hlog, hcalls, hopen]; exact h.calls t

theorem hist_snoc {s s' : TcSt α} {t c r} (h : TdHist [] s.hist s.abs) (hl : s'.log = s.log ++ [(t, c, r)])
    (hs : TdStep s.abs c.spec r.spec s'.abs) : TdHist [] s'.hist s'.abs := by
  have : s'.hist = s.hist ++ [(t, c.spec, r.spec)] := by simp [hist, hl]
  rw [this]
  exact .snoc t h hs

/-- A call takes effect under the mutex. -/
theorem Inv.leave {s s' : TcSt α} (h : Inv s) {t : Nat} {c : TcCall α} {r : TcRes} (m' : List (String × Nat))
    (hs' : s' = { s.leave t c r with map := m' }) (hi : (s.pc t).inside? = true) (hop : (s.pc t).open = [c])
    (hpd : TopicConc.pend t (s.pc t) = []) (hkeys : (m'.map Prod.fst).Nodup) (hptrs : (m'.map Prod.snd).Nodup)
    (hlt : ∀ e ∈ m', e.2 < s.next ∧ (s.obj e.2).key = e.1) (hst : TdStep s.abs c.spec r.spec s'.abs)
    (hal : ∀ e ∈ m', s.live e.2 = true) : Inv s' := by
  subst hs'
  have ho := (h.own t).2 hi
  refine h.upd t (.unlock c r) ⟨Nat.le_refl _, fun p _ => rfl, fun h' => absurd ho h'⟩ rfl
    (hist_snoc h.hist rfl hst) hkeys hptrs hlt ?_ (fun u _ => Iff.rfl) trivial (fun e he => .inl (hal e he)) ?_ ?_ ?_
  · exact iff_of_true ho rfl
  · intro u hu
    exact ⟨filter_snoc_other _ hu _, rfl, rfl⟩
  · show (s.log ++ [(t, c, r)]).filter _ = s.rets.filter _ ++ [(t, c, r)]
    rw [filter_snoc_self, h.pend t, hpd]; simp
  · show (s.calls.filter _).map Prod.snd = ((s.log ++ [(t, c, r)]).filter _).map _ ++ []
    rw [filter_snoc_self, h.calls t, hop]; simp

theorem Inv.killer {s : TcSt α} (h : Inv s) {t u : Nat} (hi : (s.pc t).inside? = true) {p : Nat}
    (hk : (s.pc u).kills s.map p = true) : u = t := by
  have h1 := (h.own t).2 hi
  have h2 := (h.own u).2 (kills_inside hk)
  rw [h1] at h2
  exact (Option.some.inj h2).symm

/-- All queues in the map are alive unless the possessor of the mutex is deleting. -/
theorem Inv.all {s : TcSt α} (h : Inv s) {t : Nat} (hi : (s.pc t).inside? = true)
    (hk : ∀ p, (s.pc t).kills s.map p = false) : ∀ e ∈ s.map, s.live e.2 = true := by
  intro e he
  rcases h.alive e he with h1 | ⟨u, h1⟩
  · exact h1
  · have := h.killer hi h1
    subst this
    rw [hk] at h1; simp at h1

theorem Inv.same {s s' : TcSt α} (h : Inv s) (hpc : s'.pc = s.pc) (hmap : s'.map = s.map) (hobj : s'.obj = s.obj)
    (hlive : s'.live = s.live) (hnext : s'.next = s.next) (hlog : s'.log = s.log) (hrets : s'.rets = s.rets)
    (hcalls : s'.calls = s.calls) (ho : s'.owner = s.owner) : Inv s' := by
  have := h.move (s' := s') 0 (s.pc 0) (by
    rw [hpc]; funext k; split
    · rename_i h; rw [h]
    · rfl) hmap hobj hlive hnext hlog hrets hcalls (by rw [ho]; exact h.own 0)
    (fun u _ => by rw [ho]) ?_ (fun p h => h) rfl rfl
  · exact this
  · have := h.pos 0
    unfold Pos at this ⊢
    rw [hmap, hobj, hlive, hnext]; exact this

/-- A send or a receive returns. -/
theorem Inv.ret {s s' : TcSt α} (h : Inv s) {t : Nat} {c : TcCall α} {r : TcRes}
    (hs' : s' = s.ret t c r) (hi : (s.pc t).inside? = false) (hop : (s.pc t).open = [])
    (hpd : TopicConc.pend t (s.pc t) = [(t, c, r)]) : Inv s' := by
  subst hs'
  refine h.upd t .out ⟨Nat.le_refl _, fun p _ => rfl, fun h' => ⟨rfl, rfl⟩⟩ rfl
    h.hist h.keys h.ptrs h.lt ?_ (fun u _ => Iff.rfl) trivial ?_ ?_ ?_ ?_
  · have := h.own t
    rw [hi] at this
    exact this
  · intro e he
    rcases h.alive e he with h1 | ⟨u, h1⟩
    · exact .inl h1
    · refine .inr (.inr ⟨u, ?_, h1⟩)
      rintro rfl
      rw [kills_inside h1] at hi; simp at hi
  · intro u hu
    exact ⟨rfl, filter_snoc_other _ hu _, rfl⟩
  · show s.log.filter _ = (s.rets ++ [(t, c, r)]).filter _ ++ []
    rw [filter_snoc_self, h.pend t, hpd]; simp
  · show (s.calls.filter _).map Prod.snd = (s.log.filter _).map _ ++ []
    rw [h.calls t, hop]

theorem inv_init : Inv (init : TcSt α) where
  hist := .nil
  keys := List.nodup_nil
  ptrs := List.nodup_nil
  lt := by simp [init]
  own := by simp [init, TcPc.inside?]
  pos := by simp [init, Pos]
  alive := by simp [init]
  pend := by simp [init, TopicConc.pend]
  calls := by simp [init, TcPc.open]

theorem out_of {p : TcPc α} (h : p.isOut = true) : p = .out := by cases p <;> simp [TcPc.isOut] at h ⊢

theorem inv_call {s : TcSt α} (h : Inv s) (t : Nat) (c : TcCall α) (hp : s.pc t = .out) :
    Inv { s.setPc t c.first with calls := s.calls ++ [(t, c)] } := by
  have hno : s.owner ≠ some t := fun h' => by have := (h.own t).1 h'; rw [hp] at this; simp [TcPc.inside?] at this
  refine h.upd t c.first ⟨Nat.le_refl _, fun p _ => rfl, fun h' => ⟨rfl, rfl⟩⟩ rfl
    h.hist h.keys h.ptrs h.lt ?_ (fun u _ => Iff.rfl) ?_ ?_ ?_ ?_ ?_
  · refine iff_of_false hno ?_
    cases c <;> simp [TcCall.first, TcPc.inside?, TcCall.topic]
  · cases c <;> simp [TcCall.first, Pos]
  · intro e he
    rcases h.alive e he with h1 | ⟨u, h1⟩
    · exact .inl h1
    · refine .inr (.inr ⟨u, ?_, h1⟩)
      rintro rfl
      rw [hp] at h1; simp [TcPc.kills] at h1
  · intro u hu
    exact ⟨rfl, rfl, filter_snoc_other _ hu _⟩
  · show s.log.filter _ = s.rets.filter _ ++ TopicConc.pend t c.first
    rw [h.pend t, hp]
    cases c <;> rfl
  · show ((s.calls ++ [(t, c)]).filter _).map Prod.snd = (s.log.filter _).map _ ++ c.first.open
    rw [filter_snoc_self, List.map_append, h.calls t, hp]
    cases c <;> simp [TcPc.open, TcCall.first]

theorem inv_use {s : TcSt α} (h : Inv s) (t : Nat) (c : TcCall α) (k : String) (hp : s.pc t = .find c) (hc : c.topic = some k) :
    Inv (s.useStep t c k) := by
  have hi : (s.pc t).inside? = false := by rw [hp]; simp [TcPc.inside?, hc]
  have hno : s.owner ≠ some t := fun h' => by have := (h.own t).1 h'; rw [hi] at this; simp at this
  have hsp : c.spec = .look k := by cases c <;> simp [TcCall.topic] at hc <;> rw [hc] <;> rfl
  have hal : ∀ e ∈ s.map, s.live e.2 = true ∨ ∃ u, u ≠ t ∧ (s.pc u).kills s.map e.2 = true := by
    intro e he
    rcases h.alive e he with h1 | ⟨u, h1⟩
    · exact .inl h1
    · refine .inr ⟨u, ?_, h1⟩
      rintro rfl
      rw [kills_inside h1] at hi; simp at hi
  unfold useStep
  split
  · rename_i p hl
    have hm := (lookup_some h.keys).1 hl
    refine h.upd t (.enter c p) ⟨Nat.le_refl _, fun p _ => rfl, fun h' => ⟨rfl, rfl⟩⟩ rfl
      (hist_snoc (s := s) h.hist rfl ?_) h.keys h.ptrs h.lt (iff_of_false hno (by simp [TcPc.inside?])) (fun u _ => Iff.rfl)
      ⟨(h.lt _ hm).1, by rw [hc]; exact congrArg some (h.lt _ hm).2.symm⟩ (fun e he => (hal e he).imp id .inr) ?_ ?_ ?_
    · rw [hsp]
      exact ⟨rfl, _, _, abs_has.2 ⟨hm, rfl, rfl⟩⟩
    · intro u hu
      exact ⟨filter_snoc_other _ hu _, rfl, rfl⟩
    · show (s.log ++ [(t, _, _)]).filter _ = s.rets.filter _ ++ [(t, _, _)]
      rw [filter_snoc_self, h.pend t, hp]; simp [TopicConc.pend]
    · show (s.calls.filter _).map Prod.snd = ((s.log ++ [(t, _, _)]).filter _).map _ ++ []
      rw [filter_snoc_self, h.calls t, hp]; simp [TcPc.open]
  · rename_i hl
    refine h.upd t .out ⟨Nat.le_refl _, fun p _ => rfl, fun h' => ⟨rfl, rfl⟩⟩ rfl
      (hist_snoc (s := s) h.hist rfl ?_) h.keys h.ptrs h.lt (iff_of_false hno (by simp [TcPc.inside?])) (fun u _ => Iff.rfl)
      trivial (fun e he => (hal e he).imp id .inr) ?_ ?_ ?_
    · rw [hsp]
      exact ⟨rfl, abs_free.2 hl⟩
    · intro u hu
      exact ⟨filter_snoc_other _ hu _, filter_snoc_other _ hu _, rfl⟩
    · show (s.log ++ [(t, _, _)]).filter _ = (s.rets ++ [(t, _, _)]).filter _ ++ []
      rw [filter_snoc_self, filter_snoc_self, h.pend t, hp]; simp [TopicConc.pend]
    · show (s.calls.filter _).map Prod.snd = ((s.log ++ [(t, _, _)]).filter _).map _ ++ []
      rw [filter_snoc_self, h.calls t, hp]; simp [TcPc.open]

theorem inv_find {s : TcSt α} (h : Inv s) (t : Nat) (c : TcCall α) (hp : s.pc t = .find c) : Inv (s.findStep t c) := by
  have hkil : ∀ p, (s.pc t).kills s.map p = false := fun p => by rw [hp]; rfl
  have hpos := h.pos t
  cases c with
  | create k ty sz =>
    have hi : (s.pc t).inside? = true := by rw [hp]; rfl
    have ho := (h.own t).2 hi
    have hall := h.all hi hkil
    simp only [findStep]
    split
    · rename_i p hl
      refine h.move t _ rfl rfl rfl rfl rfl rfl rfl rfl (iff_of_true ho rfl) (fun u _ => Iff.rfl)
        ⟨hl, hall _ ((lookup_some h.keys).1 hl)⟩ (fun p h => by rw [hkil] at h; simp at h) (by rw [hp]; rfl) (by rw [hp]; rfl)
    · rename_i hl
      exact h.move t _ rfl rfl rfl rfl rfl rfl rfl rfl (iff_of_true ho rfl) (fun u _ => Iff.rfl)
        hl (fun p h => by rw [hkil] at h; simp at h) (by rw [hp]; rfl) (by rw [hp]; rfl)
  | remove k =>
    have hi : (s.pc t).inside? = true := by rw [hp]; rfl
    have ho := (h.own t).2 hi
    have hall := h.all hi hkil
    simp only [findStep]
    split
    · rename_i p hl
      exact h.move t _ rfl rfl rfl rfl rfl rfl rfl rfl (iff_of_true ho rfl) (fun u _ => Iff.rfl)
        hl (fun p h => by rw [hkil] at h; simp at h) (by rw [hp]; rfl) (by rw [hp]; rfl)
    · rename_i hl
      exact h.leave s.map rfl hi (by rw [hp]; rfl) (by rw [hp]; rfl) h.keys h.ptrs h.lt ⟨abs_free.2 hl, rfl⟩ hall
  | clear =>
    have hi : (s.pc t).inside? = true := by rw [hp]; rfl
    have ho := (h.own t).2 hi
    exact h.move t _ rfl rfl rfl rfl rfl rfl rfl rfl (iff_of_true ho rfl) (fun u _ => Iff.rfl)
        ⟨fun p hp => (by simpa using hp : ∃ k, (k, p) ∈ s.map), h.ptrs⟩ (fun p h => by rw [hkil] at h; simp at h) (by rw [hp]; rfl) (by rw [hp]; rfl)
  | send k v st => exact inv_use h t _ k hp rfl
  | recv k => exact inv_use h t _ k hp rfl

theorem Inv.touch {s s' : TcSt α} (h : Inv s) (p : Nat) (h' : s.live p = true → Inv s') : Inv (s.touch p s') := by
  unfold TcSt.touch
  split
  · rename_i hl; exact h' hl
  · exact h.same rfl rfl rfl rfl rfl rfl rfl rfl rfl

theorem Inv.inQueue {n : Nat} {s : TcSt α} (h : Inv s) {t p : Nat} {c : TcCall α} (hp : s.pc t = .enter c p ∨ s.pc t = .inside c p)
    (a : ChAct α) : Inv (s.inQueue n t c p a) := by
  have hpos := h.pos t
  have hi : (s.pc t).inside? = false := by rcases hp with hp | hp <;> rw [hp] <;> rfl
  have hno : s.owner ≠ some t := fun h' => by have := (h.own t).1 h'; rw [hi] at this; simp at this
  unfold TcSt.inQueue
  split
  · refine h.touch p fun _ => ?_
    exact h.move t _ rfl rfl rfl rfl rfl rfl rfl rfl (iff_of_false hno (by simp [TcPc.inside?])) (fun u _ => Iff.rfl)
      (by rcases hp with hp | hp <;> rw [hp] at hpos <;> exact hpos)
      (fun p h => by rcases hp with hp | hp <;> rw [hp] at h <;> simp [TcPc.kills] at h)
      (by rcases hp with hp | hp <;> rw [hp] <;> rfl) (by rcases hp with hp | hp <;> rw [hp] <;> rfl)
  · exact h

theorem inv_go {n : Nat} {s : TcSt α} (h : Inv s) (t j : Nat) : Inv (s.go n t j) := by
  have hpos := h.pos t
  unfold go
  split
  · exact h
  · rename_i c hp
    rw [hp] at hpos
    split
    · rename_i ho
      refine h.move t (.find c) rfl rfl rfl rfl rfl rfl rfl rfl (iff_of_true rfl ?_) (fun u hu => ?_)
        trivial (fun p h => by rw [hp] at h; simp [TcPc.kills] at h) (by rw [hp]; rfl) (by rw [hp]; rfl)
      · cases c <;> first | rfl | simp [Pos, TcCall.first] at hpos
      · rw [ho]; simp [Ne.symm hu]
    · exact h
  · rename_i c hp; exact inv_find h t c hp
  · -- comp
    rename_i k ty sz p hp
    rw [hp] at hpos
    have hi : (s.pc t).inside? = true := by rw [hp]; rfl
    refine h.touch p fun _ => ?_
    refine h.leave s.map rfl hi (by rw [hp]; rfl) (by rw [hp]; rfl) h.keys h.ptrs h.lt ?_
      (h.all hi (fun p => by rw [hp]; rfl))
    have hm := (lookup_some h.keys).1 hpos.1
    by_cases ht : (s.obj p).ty = ty ∧ (s.obj p).size = sz
    · simp only [ht, and_self, decide_true]
      exact .inl ⟨rfl, p, abs_has.2 ⟨hm, ht⟩⟩
    · simp only [ht, decide_false]
      exact ⟨rfl, _, _, p, ht, abs_has.2 ⟨hm, rfl, rfl⟩⟩
  · -- alloc
    rename_i k ty sz hp
    rw [hp] at hpos
    have hi : (s.pc t).inside? = true := by rw [hp]; rfl
    have ho := (h.own t).2 hi
    have hall := h.all hi (fun p => by rw [hp]; rfl)
    have hne : ∀ e ∈ s.map, e.2 ≠ s.next := fun e he => Nat.ne_of_lt (h.lt e he).1
    refine h.upd t (.insert k ty sz s.next) ⟨Nat.le_succ _, fun p hp => ?_,
      fun h' => absurd ho h'⟩ rfl ?_ h.keys h.ptrs (fun e he => ⟨Nat.lt_succ_of_lt (h.lt e he).1, ?_⟩) (iff_of_true ho rfl)
      (fun u _ => Iff.rfl) ⟨hpos, Nat.lt_succ_self _, hne, by simp, by simp⟩ (fun e he => .inl ?_) (fun u _ => ⟨rfl, rfl, rfl⟩) ?_ ?_
    · simp [Nat.ne_of_lt hp]
    · have : ∀ s' : TcSt α, s'.log = s.log → s'.map = s.map → (∀ e ∈ s.map, s'.obj e.2 = s.obj e.2) → TdHist [] s'.hist s'.abs := by
        intro s' h1 h2 h3
        have e1 : s'.hist = s.hist := by simp [hist, h1]
        have e2 : s'.abs = s.abs := by
          simp only [abs, h2]
          exact List.map_congr_left fun e he => by rw [h3 e he]
        rw [e1, e2]; exact h.hist
      exact this _ rfl rfl (fun e he => by simp [hne e he])
    · simp only [hne e he, if_false]; exact (h.lt e he).2
    · simp only [hne e he, if_false]; exact hall e he
    · exact (h.pend t).trans (by rw [hp]; rfl)
    · exact (h.calls t).trans (by rw [hp]; rfl)
  · -- insert
    rename_i k ty sz p hp
    rw [hp] at hpos
    obtain ⟨h1, h2, h3, h4, h5⟩ := hpos
    have hi : (s.pc t).inside? = true := by rw [hp]; rfl
    have hall := h.all hi (fun p => by rw [hp]; rfl)
    refine h.leave (s.map ++ [(k, p)]) rfl hi (by rw [hp]; rfl) (by rw [hp]; rfl) ?_ ?_ ?_ ?_ ?_
    · rw [List.map_append, List.nodup_append]
      refine ⟨h.keys, by simp, ?_⟩
      intro a ha b hb
      simp only [List.map_cons, List.map_nil, List.mem_singleton] at hb
      subst hb
      rintro rfl
      obtain ⟨⟨k', p'⟩, h6, rfl⟩ := List.mem_map.1 ha
      exact lookup_none.1 h1 p' h6
    · rw [List.map_append, List.nodup_append]
      refine ⟨h.ptrs, by simp, ?_⟩
      intro a ha b hb
      simp only [List.map_cons, List.map_nil, List.mem_singleton] at hb
      subst hb
      rintro rfl
      obtain ⟨e, h6, h7⟩ := List.mem_map.1 ha
      exact h3 e h6 h7
    · intro e he
      simp only [List.mem_append, List.mem_singleton] at he
      rcases he with he | rfl
      · exact h.lt e he
      · exact ⟨h2, by rw [h4]⟩
    · refine .inr ⟨abs_free.2 h1, p, ?_, ?_⟩
      · intro e he
        obtain ⟨e', h6, rfl⟩ := List.mem_map.1 he
        exact h3 e' h6
      · show (s.map ++ [(k, p)]).map _ = s.map.map _ ++ _
        rw [List.map_append]
        simp only [List.map_cons, List.map_nil, TcSt.leave, effect, setPc, h4]
    · intro e he
      simp only [List.mem_append, List.mem_singleton] at he
      rcases he with he | rfl
      · exact hall e he
      · exact h5
  · -- del
    rename_i k p hp
    rw [hp] at hpos
    have hi : (s.pc t).inside? = true := by rw [hp]; rfl
    have ho := (h.own t).2 hi
    have hall := h.all hi (fun p => by rw [hp]; rfl)
    refine h.upd t (.erase k) ⟨Nat.le_refl _, fun p _ => rfl, fun h' => absurd ho h'⟩ rfl
      h.hist h.keys h.ptrs h.lt (iff_of_true ho rfl) (fun u _ => Iff.rfl) ?_ ?_ (fun u _ => ⟨rfl, rfl, rfl⟩) ?_ ?_
    · show s.map.lookup k ≠ none
      rw [show s.map.lookup k = some p from hpos]; simp
    · intro e he
      by_cases hep : e.2 = p
      · right; left
        show (s.map.lookup k == some e.2) = true
        rw [show s.map.lookup k = some p from hpos, hep]; simp
      · left
        simp only [hep, if_false]; exact hall e he
    · exact (h.pend t).trans (by rw [hp]; rfl)
    · exact (h.calls t).trans (by rw [hp]; rfl)
  · -- erase
    rename_i k hp
    rw [hp] at hpos
    have hi : (s.pc t).inside? = true := by rw [hp]; rfl
    have hsub : (s.map.filter (fun e => e.1 ≠ k)).Sublist s.map := List.filter_sublist
    refine h.leave (s.map.filter (fun e => e.1 ≠ k)) rfl hi (by rw [hp]; rfl) (by rw [hp]; rfl)
      (h.keys.sublist (hsub.map _)) (h.ptrs.sublist (hsub.map _)) (fun e he => h.lt e (hsub.subset he)) ?_ ?_
    · refine ⟨fun h' => hpos (abs_free.1 h'), ?_⟩
      show (s.map.filter _).map _ = (s.map.map _).filter _
      rw [List.filter_map]
      rfl
    · intro e he
      obtain ⟨h1, h2⟩ := List.mem_filter.1 he
      rcases h.alive e h1 with h3 | ⟨u, h3⟩
      · exact h3
      · exfalso
        have := h.killer hi h3
        subst this
        rw [hp] at h3
        simp only [TcPc.kills, beq_iff_eq] at h3
        have h4 := (lookup_some h.keys).1 h3
        have h5 : e = (k, e.2) := snd_inj h.ptrs h1 h4 rfl
        rw [h5] at h2; simp at h2
  · -- wipe cons
    rename_i p ps hp
    rw [hp] at hpos
    have hi : (s.pc t).inside? = true := by rw [hp]; rfl
    have ho := (h.own t).2 hi
    refine h.upd t (.wipe ps) ⟨Nat.le_refl _, fun p _ => rfl, fun h' => absurd ho h'⟩ rfl
      h.hist h.keys h.ptrs h.lt (iff_of_true ho rfl) (fun u _ => Iff.rfl) ⟨fun p' h' => hpos.1 p' (by simp [h']), (List.nodup_cons.1 hpos.2).2⟩ ?_
      (fun u _ => ⟨rfl, rfl, rfl⟩) ?_ ?_
    · intro e he
      by_cases hin : e.2 ∈ ps
      · left
        have hne : e.2 ≠ p := fun h' => (List.nodup_cons.1 hpos.2).1 (h' ▸ hin)
        simp only [hne, if_false]
        rcases h.alive e he with h3 | ⟨u, h3⟩
        · exact h3
        · exfalso
          have := h.killer hi h3
          subst this
          rw [hp] at h3
          simp [TcPc.kills, hin] at h3
      · right; left
        simpa [TcPc.kills] using hin
    · exact (h.pend t).trans (by rw [hp]; rfl)
    · exact (h.calls t).trans (by rw [hp]; rfl)
  · -- wipe nil
    rename_i hp
    have hi : (s.pc t).inside? = true := by rw [hp]; rfl
    exact h.leave [] rfl hi (by rw [hp]; rfl) (by rw [hp]; rfl) (by simp) (by simp) (by simp) rfl (by simp)
  · -- unlock
    rename_i c r hp
    have hi : (s.pc t).inside? = true := by rw [hp]; rfl
    have ho := (h.own t).2 hi
    have hall := h.all hi (fun p => by rw [hp]; rfl)
    refine h.upd t .out ⟨Nat.le_refl _, fun p _ => rfl, fun h' => absurd ho h'⟩ rfl
      h.hist h.keys h.ptrs h.lt (by simp [TcPc.inside?]) (fun u hu => by rw [ho]; simp [Ne.symm hu]) trivial
      (fun e he => .inl (hall e he)) (fun u hu => ⟨rfl, filter_snoc_other _ hu _, rfl⟩) ?_ ?_
    · show s.log.filter _ = (s.rets ++ [(t, c, r)]).filter _ ++ []
      rw [filter_snoc_self, h.pend t, hp]; simp [TopicConc.pend]
    · exact (h.calls t).trans (by rw [hp]; rfl)
  · -- enter
    rename_i c p hp
    split
    · exact h.inQueue (.inl hp) _
    · exact h
  · -- inside
    rename_i c p hp
    split
    · exact h.ret rfl (by rw [hp]; rfl) (by rw [hp]; rfl) (by rw [hp]; rfl)
    · exact h.inQueue (.inr hp) _

theorem inv_step {n : Nat} {s : TcSt α} (h : Inv s) (a : TcAct α) : Inv (s.step n a) := by
  unfold step
  split
  · exact h
  · split
    · split
      · rename_i hc; exact inv_call h _ _ (out_of hc.2)
      · exact h
    · exact inv_go h _ _
    · split
      · rename_i hp; exact h.inQueue (.inr hp) _
      · exact h

theorem run_snoc (n : Nat) (l : List (TcAct α)) (a : TcAct α) : run n (l ++ [a]) = (run n l).step n a := by simp [run]

theorem run_ind {n : Nat} {P : TcSt α → Prop} (h0 : P init) (hs : ∀ s a, Inv s → P s → P (s.step n a)) (l : List (TcAct α)) :
    Inv (run n l) ∧ P (run n l) := by
  have gen : ∀ (l : List (TcAct α)) (s : TcSt α), Inv s → P s → Inv (l.foldl (step n) s) ∧ P (l.foldl (step n) s) := by
    intro l
    induction l with
    | nil => intro s h1 h2; exact ⟨h1, h2⟩
    | cons a l ih => intro s h1 h2; exact ih _ (inv_step h1 a) (hs s a h1 h2)
  exact gen l init inv_init h0

theorem inv_run (n : Nat) (l : List (TcAct α)) : Inv (run n l) := (run_ind (P := fun _ => True) trivial (fun _ _ _ _ => trivial) l).1

end CGraph.TopicConc
