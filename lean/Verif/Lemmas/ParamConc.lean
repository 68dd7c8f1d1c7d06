import Verif.Model.ParamConc
import Verif.Spec.ParamConc

namespace CGraph.ParamConc
open Spec PmSt

set_option maxHeartbeats 1000000

/-- The call in the words of the specification. -/
def PmCall.spec : PmCall → TsCall
  | .create ty k _ => .make ty k
  | .remove k => .drop k
  | .keys => .keys
  | .clear => .clear
  | .get _ ty k => .look ty k

/-- The result in the words of the specification. -/
def PmRes.spec : PmRes → TsRes
  | .done b => .done b
  | .keys l => .keys l
  | .ptr p => .obj p

/-- The history in the words of the specification. -/
def PmSt.hist (s : PmSt) : List (Nat × TsCall × TsRes) := s.log.map fun e => (e.1, e.2.1.spec, e.2.2.spec)

/-- The store in the words of the specification. -/
def PmSt.abs (s : PmSt) : List (String × Nat × Nat) := s.map.map fun e => (e.1, (s.obj e.2).ty, e.2)

/-- The thread possesses the mutex. -/
def PmPc.inside : PmPc → Bool
  | .find (.get ..) => false
  | .find _ => true
  | .type .. => true
  | .alloc .. => true
  | .insert .. => true
  | .del .. => true
  | .erase .. => true
  | .wipe .. => true
  | .unlock .. => true
  | _ => false

/-- What has taken effect but has not returned. -/
def pend (s : PmSt) (t : Nat) : PmPc → List (Nat × PmCall × PmRes)
  | .unlock c r => [(t, c, r)]
  | .gType n ty k p => [(t, .get n ty k, .ptr (if (s.obj p).ty = ty then some p else none))]
  | .gFlag n ty k p => [(t, .get n ty k, .ptr (some p))]
  | .gSpin n ty k p => [(t, .get n ty k, .ptr (some p))]
  | .gAdd n ty k p => [(t, .get n ty k, .ptr (some p))]
  | .gFree n ty k p => [(t, .get n ty k, .ptr (some p))]
  | _ => []

/-- The call that has not taken effect. -/
def PmPc.open : PmPc → List PmCall
  | .lock c => [c]
  | .find c => [c]
  | .type ty k b _ => [.create ty k b]
  | .alloc ty k b => [.create ty k b]
  | .insert ty k b _ => [.create ty k b]
  | .del k _ => [.remove k]
  | .erase k => [.remove k]
  | .wipe _ => [.clear]
  | _ => []

/-- The thread has deleted objects that are still in the map. -/
def PmPc.kills (m : List (String × Nat)) (p : Nat) : PmPc → Bool
  | .erase k => m.lookup k == some p
  | .wipe ps => !ps.contains p
  | _ => false

/-- What is known of a thread at a place. -/
def Pos (s : PmSt) (t : Nat) : PmPc → Prop
  | .idle => True
  | .lock c => c.first = .lock c
  | .find _ => True
  | .type _ k _ p => s.map.lookup k = some p ∧ s.live p = true
  | .alloc _ k _ => s.map.lookup k = none
  | .insert ty k _ p => s.map.lookup k = none ∧ p < s.next ∧ (∀ e ∈ s.map, e.2 ≠ p) ∧ (s.obj p).ty = ty ∧ s.live p = true
  | .del k p => s.map.lookup k = some p
  | .erase k => s.map.lookup k ≠ none
  | .wipe ps => (∀ p ∈ ps, ∃ k, (k, p) ∈ s.map) ∧ ps.Nodup
  | .unlock _ _ => True
  | .gType _ _ _ p => p < s.next
  | .gFlag _ ty _ p => p < s.next ∧ (s.obj p).ty = ty
  | .gSpin _ ty _ p => p < s.next ∧ (s.obj p).ty = ty
  | .gAdd _ ty _ p => p < s.next ∧ (s.obj p).ty = ty ∧ s.spin p = some t
  | .gFree n ty _ p => p < s.next ∧ (s.obj p).ty = ty ∧ s.spin p = some t ∧ n ∈ (s.obj p).bt.arr

/-- The invariant. -/
structure Inv (s : PmSt) : Prop where
  hist : TsHist [] s.hist s.abs
  keys : (s.map.map Prod.fst).Nodup
  ptrs : (s.map.map Prod.snd).Nodup
  lt : ∀ e ∈ s.map, e.2 < s.next
  own : ∀ t, s.owner = some t ↔ (s.pc t).inside = true
  pos : ∀ t, Pos s t (s.pc t)
  alive : ∀ e ∈ s.map, s.live e.2 = true ∨ ∃ t, (s.pc t).kills s.map e.2 = true
  pend : ∀ t, s.log.filter (fun e => e.1 = t) = s.rets.filter (fun e => e.1 = t) ++ pend s t (s.pc t)
  calls : ∀ t, (s.calls.filter (fun e => e.1 = t)).map Prod.snd =
    (s.log.filter (fun e => e.1 = t)).map (fun e => e.2.1) ++ (s.pc t).open

/-! ### the map -/

theorem lookup_some {m : List (String × Nat)} (nd : (m.map Prod.fst).Nodup) {k : String} {p : Nat} :
    m.lookup k = some p ↔ (k, p) ∈ m := by
  induction m with
  | nil => simp
  | cons e m ih =>
    obtain ⟨k', p'⟩ := e
    simp only [List.map_cons, List.nodup_cons, List.mem_map, Prod.exists, exists_and_right, exists_eq_right,
      not_exists] at nd
    rw [List.lookup_cons]
    by_cases h : k = k'
    · subst h
      have := nd.1 p
      simp only [BEq.rfl, Option.some.injEq, List.mem_cons, Prod.mk.injEq, true_and]
      constructor
      · intro h; exact .inl h.symm
      · rintro (h | h)
        · exact h.symm
        · exact absurd h this
    · have hb : (k == k') = false := by simpa using h
      rw [hb]
      simp only [List.mem_cons, Prod.mk.injEq, h, false_and, false_or]
      exact ih nd.2

theorem lookup_none {m : List (String × Nat)} {k : String} : m.lookup k = none ↔ ∀ p, (k, p) ∉ m := by
  induction m with
  | nil => simp
  | cons e m ih =>
    obtain ⟨k', p'⟩ := e
    rw [List.lookup_cons]
    by_cases h : k = k'
    · subst h
      simp only [BEq.rfl, reduceCtorEq, List.mem_cons, Prod.mk.injEq, true_and, false_iff]
      exact fun h => h p' (.inl rfl)
    · have hb : (k == k') = false := by simpa using h
      rw [hb]
      simp only [List.mem_cons, Prod.mk.injEq, h, false_and, false_or]
      exact ih

theorem abs_has {s : PmSt} {k : String} {ty p : Nat} : TsHas s.abs k ty p ↔ (k, p) ∈ s.map ∧ (s.obj p).ty = ty := by
  simp only [TsHas, abs, List.mem_map, Prod.mk.injEq, Prod.exists]
  constructor
  · rintro ⟨a, b, h, rfl, h2, rfl⟩; exact ⟨h, h2⟩
  · rintro ⟨h, h2⟩; exact ⟨k, p, h, rfl, h2, rfl⟩

theorem abs_free {s : PmSt} {k : String} : TsFree s.abs k ↔ s.map.lookup k = none := by
  rw [lookup_none]
  constructor
  · intro h p hp; exact h _ p (abs_has.2 ⟨hp, rfl⟩)
  · intro h ty p hp; exact h p (abs_has.1 hp).1

theorem snd_inj {m : List (String × Nat)} (nd : (m.map Prod.snd).Nodup) {e f : String × Nat} (he : e ∈ m) (hf : f ∈ m)
    (h : e.2 = f.2) : e = f := by
  induction m with
  | nil => simp at he
  | cons x m ih =>
    simp only [List.map_cons, List.nodup_cons, List.mem_map, not_exists, not_and] at nd
    rcases List.mem_cons.1 he with he' | he' <;> rcases List.mem_cons.1 hf with hf' | hf'
    · rw [he', hf']
    · exact absurd (he' ▸ h.symm) (nd.1 f hf')
    · exact absurd (hf' ▸ h) (nd.1 e he')
    · exact ih nd.2 he' hf'

/-! ### how the threads fit together -/

/-- What other threads notice of a step. -/
structure Frame (s s' : PmSt) (t : Nat) : Prop where
  next : s.next ≤ s'.next
  ty : ∀ p, p < s.next → (s'.obj p).ty = (s.obj p).ty
  bt : ∀ p n, p < s.next → n ∈ (s.obj p).bt.arr → n ∈ (s'.obj p).bt.arr
  spin : ∀ p u, u ≠ t → s.spin p = some u → s'.spin p = some u
  stay : s.owner ≠ some t → s'.map = s.map ∧ s'.live = s.live

theorem pos_other {s s' : PmSt} {t u : Nat} (h : Frame s s' t) (hu : u ≠ t) {p : PmPc}
    (hi : p.inside = true → s.owner = some u) (hp : Pos s u p) : Pos s' u p := by
  have hst : p.inside = true → s'.map = s.map ∧ s'.live = s.live := fun hp => h.stay (by
    rw [hi hp]; intro h'; exact hu (Option.some.inj h'))
  have h1 := h.next
  cases p with
  | idle => trivial
  | lock c => exact hp
  | find c => trivial
  | unlock => trivial
  | type ty k b p => obtain ⟨e1, e2⟩ := hst rfl; simpa only [Pos, e1, e2] using hp
  | alloc => obtain ⟨e1, e2⟩ := hst rfl; simpa only [Pos, e1] using hp
  | insert ty k b p =>
    obtain ⟨e1, e2⟩ := hst rfl
    obtain ⟨a, b, c, d, e⟩ := hp
    simp only [Pos, e1, e2]
    exact ⟨a, by omega, c, by rw [h.ty p b]; exact d, e⟩
  | del k p => obtain ⟨e1, e2⟩ := hst rfl; simpa only [Pos, e1, e2] using hp
  | erase k => obtain ⟨e1, e2⟩ := hst rfl; simpa only [Pos, e1] using hp
  | wipe ps => obtain ⟨e1, e2⟩ := hst rfl; simpa only [Pos, e1] using hp
  | gType n ty k p => exact Nat.lt_of_lt_of_le hp h1
  | gFlag n ty k p => exact ⟨Nat.lt_of_lt_of_le hp.1 h1, by rw [h.ty p hp.1]; exact hp.2⟩
  | gSpin n ty k p => exact ⟨Nat.lt_of_lt_of_le hp.1 h1, by rw [h.ty p hp.1]; exact hp.2⟩
  | gAdd n ty k p =>
    exact ⟨Nat.lt_of_lt_of_le hp.1 h1, by rw [h.ty p hp.1]; exact hp.2.1, h.spin p u hu hp.2.2⟩
  | gFree n ty k p =>
    exact ⟨Nat.lt_of_lt_of_le hp.1 h1, by rw [h.ty p hp.1]; exact hp.2.1, h.spin p u hu hp.2.2.1,
      h.bt p n hp.1 hp.2.2.2⟩

theorem pend_other {s s' : PmSt} {t u : Nat} (h : Frame s s' t) {p : PmPc} (hp : Pos s u p) :
    pend s' u p = pend s u p := by
  cases p with
  | gType n ty k p => simp only [pend, h.ty p hp]
  | _ => rfl

theorem kills_inside {m : List (String × Nat)} {p : Nat} {q : PmPc} (h : q.kills m p = true) : q.inside = true := by
  cases q <;> first | rfl | simp [PmPc.kills] at h

/-- Thread `t` moves to `q`. -/
theorem Inv.upd {s s' : PmSt} (h : Inv s) (t : Nat) (q : PmPc) (f : Frame s s' t)
    (hpc : s'.pc = fun k => if k = t then q else s.pc k)
    (hhist : TsHist [] s'.hist s'.abs) (hkeys : (s'.map.map Prod.fst).Nodup) (hptrs : (s'.map.map Prod.snd).Nodup)
    (hlt : ∀ e ∈ s'.map, e.2 < s'.next)
    (ht : s'.owner = some t ↔ q.inside = true) (ho : ∀ u, u ≠ t → (s'.owner = some u ↔ s.owner = some u))
    (hp : Pos s' t q)
    (hal : ∀ e ∈ s'.map, s'.live e.2 = true ∨ q.kills s'.map e.2 = true ∨ ∃ u, u ≠ t ∧ (s.pc u).kills s'.map e.2 = true)
    (hlog : ∀ u, u ≠ t → s'.log.filter (fun e => e.1 = u) = s.log.filter (fun e => e.1 = u) ∧
      s'.rets.filter (fun e => e.1 = u) = s.rets.filter (fun e => e.1 = u) ∧
      s'.calls.filter (fun e => e.1 = u) = s.calls.filter (fun e => e.1 = u))
    (hpend : s'.log.filter (fun e => e.1 = t) = s'.rets.filter (fun e => e.1 = t) ++ ParamConc.pend s' t q)
    (hcalls : (s'.calls.filter (fun e => e.1 = t)).map Prod.snd =
      (s'.log.filter (fun e => e.1 = t)).map (fun e => e.2.1) ++ q.open) : Inv s' := by
  have hpcu : ∀ u, u ≠ t → s'.pc u = s.pc u := fun u hu => by rw [hpc]; simp [hu]
  have hpct : s'.pc t = q := by rw [hpc]; simp
  refine ⟨hhist, hkeys, hptrs, hlt, ?_, ?_, ?_, ?_, ?_⟩
  · intro u
    by_cases hu : u = t
    · subst hu; rw [hpct]; exact ht
    · rw [hpcu u hu, ho u hu]; exact h.own u
  · intro u
    by_cases hu : u = t
    · subst hu; rw [hpct]; exact hp
    · rw [hpcu u hu]; exact pos_other f hu (fun hi => (h.own u).2 hi) (h.pos u)
  · intro e he
    rcases hal e he with h1 | h1 | ⟨u, hu, h1⟩
    · exact .inl h1
    · exact .inr ⟨t, by rw [hpct]; exact h1⟩
    · exact .inr ⟨u, by rw [hpcu u hu]; exact h1⟩
  · intro u
    by_cases hu : u = t
    · subst hu; rw [hpct]; exact hpend
    · obtain ⟨e1, e2, _⟩ := hlog u hu
      rw [hpcu u hu, e1, e2, pend_other f (h.pos u)]; exact h.pend u
  · intro u
    by_cases hu : u = t
    · subst hu; rw [hpct]; exact hcalls
    · obtain ⟨e1, _, e3⟩ := hlog u hu
      rw [hpcu u hu, e1, e3]; exact h.calls u

/-- A thread that changes neither the map nor the objects nor the log, and stays inside or outside. -/
theorem Inv.move {s s' : PmSt} (h : Inv s) (t : Nat) (q : PmPc) (hpc : s'.pc = fun k => if k = t then q else s.pc k)
    (hmap : s'.map = s.map) (hobj : s'.obj = s.obj) (hlive : s'.live = s.live) (hnext : s'.next = s.next)
    (hspin : ∀ p u, u ≠ t → s.spin p = some u → s'.spin p = some u)
    (hlog : s'.log = s.log) (hrets : s'.rets = s.rets) (hcalls : s'.calls = s.calls)
    (ht : s'.owner = some t ↔ q.inside = true) (ho : ∀ u, u ≠ t → (s'.owner = some u ↔ s.owner = some u))
    (hp : Pos s' t q) (hk : ∀ p, (s.pc t).kills s.map p = true → q.kills s.map p = true)
    (hpend : ParamConc.pend s' t q = ParamConc.pend s t (s.pc t)) (hopen : q.open = (s.pc t).open) : Inv s' := by
  have habs : s'.abs = s.abs := by simp only [abs, hmap, hobj]
  have hh : s'.hist = s.hist := by simp only [PmSt.hist, hlog]
  refine h.upd t q ⟨by omega, fun p _ => by rw [hobj], fun p n _ h => by rw [hobj]; exact h, hspin, fun _ => ⟨hmap, hlive⟩⟩ hpc
    (by rw [hh, habs]; exact h.hist) (by rw [hmap]; exact h.keys) (by rw [hmap]; exact h.ptrs)
    (by rw [hmap, hnext]; exact h.lt) ht ho hp ?_ (by simp [hlog, hrets, hcalls]) ?_ ?_
  · intro e he
    rw [hmap] at he ⊢
    rw [hlive]
    rcases h.alive e he with h1 | ⟨u, h1⟩
    · exact .inl h1
    · by_cases hu : u = t
      · subst hu; exact .inr (.inl (hk _ h1))
      · exact .inr (.inr ⟨u, hu, h1⟩)
  · rw [hlog, hrets, hpend]; exact h.pend t
  · rw [hlog, hcalls, hopen]; exact h.calls t

theorem hist_snoc {s s' : PmSt} {t c r} (h : TsHist [] s.hist s.abs) (hl : s'.log = s.log ++ [(t, c, r)])
    (hs : TsStep s.abs c.spec r.spec s'.abs) : TsHist [] s'.hist s'.abs := by
  have : s'.hist = s.hist ++ [(t, c.spec, r.spec)] := by simp [hist, hl]
  rw [this]
  exact .snoc t h hs

theorem filter_snoc_self {α : Type} (l : List (Nat × α)) (t : Nat) (x : α) :
    (l ++ [(t, x)]).filter (fun e => e.1 = t) = l.filter (fun e => e.1 = t) ++ [(t, x)] := by simp

theorem filter_snoc_other {α : Type} (l : List (Nat × α)) {t u : Nat} (h : u ≠ t) (x : α) :
    (l ++ [(t, x)]).filter (fun e => e.1 = u) = l.filter (fun e => e.1 = u) := by
  simp [Ne.symm h]

/-- A call takes effect under the mutex. -/
theorem Inv.leave {s s' : PmSt} (h : Inv s) {t : Nat} {c : PmCall} {r : PmRes} (m' : List (String × Nat))
    (hs' : s' = { s.leave t c r with map := m' }) (hi : (s.pc t).inside = true) (hop : (s.pc t).open = [c])
    (hpd : ParamConc.pend s t (s.pc t) = []) (hkeys : (m'.map Prod.fst).Nodup) (hptrs : (m'.map Prod.snd).Nodup)
    (hlt : ∀ e ∈ m', e.2 < s.next) (hst : TsStep s.abs c.spec r.spec s'.abs)
    (hal : ∀ e ∈ m', s.live e.2 = true) : Inv s' := by
  subst hs'
  have ho := (h.own t).2 hi
  refine h.upd t (.unlock c r) ⟨Nat.le_refl _, fun p _ => rfl, fun p n _ h => h, fun p u _ h => h, fun h' => absurd ho h'⟩ rfl
    (hist_snoc h.hist rfl hst) hkeys hptrs hlt ?_ (fun u _ => Iff.rfl) trivial (fun e he => .inl (hal e he)) ?_ ?_ ?_
  · exact iff_of_true ho rfl
  · intro u hu
    exact ⟨filter_snoc_other _ hu _, rfl, rfl⟩
  · show (s.log ++ [(t, c, r)]).filter _ = s.rets.filter _ ++ [(t, c, r)]
    rw [filter_snoc_self, h.pend t, hpd]; simp
  · show (s.calls.filter _).map Prod.snd = ((s.log ++ [(t, c, r)]).filter _).map _ ++ []
    rw [filter_snoc_self, h.calls t, hop]; simp

theorem Inv.killer {s : PmSt} (h : Inv s) {t u : Nat} (hi : (s.pc t).inside = true) {p : Nat}
    (hk : (s.pc u).kills s.map p = true) : u = t := by
  have h1 := (h.own t).2 hi
  have h2 := (h.own u).2 (kills_inside hk)
  rw [h1] at h2
  exact (Option.some.inj h2).symm

/-- All objects in the map are alive unless the possessor of the mutex is deleting. -/
theorem Inv.all {s : PmSt} (h : Inv s) {t : Nat} (hi : (s.pc t).inside = true)
    (hk : ∀ p, (s.pc t).kills s.map p = false) : ∀ e ∈ s.map, s.live e.2 = true := by
  intro e he
  rcases h.alive e he with h1 | ⟨u, h1⟩
  · exact h1
  · have := h.killer hi h1
    subst this
    rw [hk] at h1; simp at h1

theorem Inv.bad {s : PmSt} (h : Inv s) : Inv { s with bad := true } := ⟨h.hist, h.keys, h.ptrs, h.lt, h.own, h.pos, h.alive, h.pend, h.calls⟩

/-- A `get` returns. -/
theorem Inv.ret {s s' : PmSt} (h : Inv s) {t : Nat} {c : PmCall} {r : PmRes}
    (hs' : s' = s.ret t c r) (hi : (s.pc t).inside = false) (hop : (s.pc t).open = [])
    (hpd : ParamConc.pend s t (s.pc t) = [(t, c, r)]) : Inv s' := by
  subst hs'
  refine h.upd t .idle ⟨Nat.le_refl _, fun p _ => rfl, fun p n _ h => h, fun p u _ h => h, fun h' => ⟨rfl, rfl⟩⟩ rfl
    h.hist h.keys h.ptrs h.lt ?_ (fun u _ => Iff.rfl) trivial ?_ ?_ ?_ ?_
  · have := h.own t
    rw [hi] at this
    exact this
  · intro e he
    rcases h.alive e he with h1 | ⟨u, h1⟩
    · exact .inl h1
    · refine .inr (.inr ⟨u, ?_, h1⟩)
      rintro rfl
      rw [kills_inside h1] at hi; simp at hi
  · intro u hu
    exact ⟨rfl, filter_snoc_other _ hu _, rfl⟩
  · show s.log.filter _ = (s.rets ++ [(t, c, r)]).filter _ ++ []
    rw [filter_snoc_self, h.pend t, hpd]; simp
  · show (s.calls.filter _).map Prod.snd = (s.log.filter _).map _ ++ []
    rw [h.calls t, hop]

theorem inv_init : Inv init where
  hist := .nil
  keys := List.nodup_nil
  ptrs := List.nodup_nil
  lt := by simp [init]
  own := by simp [init, PmPc.inside]
  pos := by simp [init, Pos]
  alive := by simp [init]
  pend := by simp [init, ParamConc.pend]
  calls := by simp [init, PmPc.open]

theorem inv_call {s : PmSt} (h : Inv s) (t : Nat) (c : PmCall) (hp : s.pc t = .idle) :
    Inv { s.setPc t c.first with calls := s.calls ++ [(t, c)] } := by
  have hno : s.owner ≠ some t := fun h' => by have := (h.own t).1 h'; rw [hp] at this; simp [PmPc.inside] at this
  refine h.upd t c.first ⟨Nat.le_refl _, fun p _ => rfl, fun p n _ h => h, fun p u _ h => h, fun h' => ⟨rfl, rfl⟩⟩ rfl
    h.hist h.keys h.ptrs h.lt ?_ (fun u _ => Iff.rfl) ?_ ?_ ?_ ?_ ?_
  · refine iff_of_false hno ?_
    cases c <;> simp [PmCall.first, PmPc.inside]
  · cases c <;> simp [PmCall.first, Pos]
  · intro e he
    rcases h.alive e he with h1 | ⟨u, h1⟩
    · exact .inl h1
    · refine .inr (.inr ⟨u, ?_, h1⟩)
      rintro rfl
      rw [hp] at h1; simp [PmPc.kills] at h1
  · intro u hu
    exact ⟨rfl, rfl, filter_snoc_other _ hu _⟩
  · show s.log.filter _ = s.rets.filter _ ++ ParamConc.pend _ t c.first
    rw [h.pend t, hp]
    cases c <;> rfl
  · show ((s.calls ++ [(t, c)]).filter _).map Prod.snd = (s.log.filter _).map _ ++ c.first.open
    rw [filter_snoc_self, List.map_append, h.calls t, hp]
    cases c <;> simp [PmPc.open, PmCall.first]

theorem inv_find {s : PmSt} (h : Inv s) (t : Nat) (c : PmCall) (hp : s.pc t = .find c) : Inv (s.findStep t c) := by
  have hkil : ∀ p, (s.pc t).kills s.map p = false := fun p => by rw [hp]; rfl
  have hpos := h.pos t
  cases c with
  | create ty k b =>
    have hi : (s.pc t).inside = true := by rw [hp]; rfl
    have ho := (h.own t).2 hi
    have hall := h.all hi hkil
    simp only [findStep]
    split
    · rename_i p hl
      refine h.move t _ rfl rfl rfl rfl rfl (fun p u _ h => h) rfl rfl rfl (iff_of_true ho rfl) (fun u _ => Iff.rfl)
        ⟨hl, hall _ ((lookup_some h.keys).1 hl)⟩ (fun p h => by rw [hkil] at h; simp at h) (by rw [hp]; rfl) (by rw [hp]; rfl)
    · rename_i hl
      exact h.move t _ rfl rfl rfl rfl rfl (fun p u _ h => h) rfl rfl rfl (iff_of_true ho rfl) (fun u _ => Iff.rfl)
        hl (fun p h => by rw [hkil] at h; simp at h) (by rw [hp]; rfl) (by rw [hp]; rfl)
  | remove k =>
    have hi : (s.pc t).inside = true := by rw [hp]; rfl
    have ho := (h.own t).2 hi
    have hall := h.all hi hkil
    simp only [findStep]
    split
    · rename_i p hl
      exact h.move t _ rfl rfl rfl rfl rfl (fun p u _ h => h) rfl rfl rfl (iff_of_true ho rfl) (fun u _ => Iff.rfl)
        hl (fun p h => by rw [hkil] at h; simp at h) (by rw [hp]; rfl) (by rw [hp]; rfl)
    · rename_i hl
      exact h.leave s.map rfl hi (by rw [hp]; rfl) (by rw [hp]; rfl) h.keys h.ptrs h.lt ⟨abs_free.2 hl, rfl⟩ hall
  | keys =>
    have hi : (s.pc t).inside = true := by rw [hp]; rfl
    have hall := h.all hi hkil
    refine h.leave s.map rfl hi (by rw [hp]; rfl) (by rw [hp]; rfl) h.keys h.ptrs h.lt ⟨rfl, h.keys, fun k => ?_⟩ hall
    rw [abs_free, lookup_none]
    simp
  | clear =>
    have hi : (s.pc t).inside = true := by rw [hp]; rfl
    have ho := (h.own t).2 hi
    exact h.move t _ rfl rfl rfl rfl rfl (fun p u _ h => h) rfl rfl rfl (iff_of_true ho rfl) (fun u _ => Iff.rfl)
        ⟨fun p hp => (by simpa using hp : ∃ k, (k, p) ∈ s.map), h.ptrs⟩ (fun p h => by rw [hkil] at h; simp at h) (by rw [hp]; rfl) (by rw [hp]; rfl)
  | get n ty k =>
    have hi : (s.pc t).inside = false := by rw [hp]; rfl
    have hno : s.owner ≠ some t := fun h' => by have := (h.own t).1 h'; rw [hi] at this; simp at this
    have hal : ∀ e ∈ s.map, s.live e.2 = true ∨ ∃ u, u ≠ t ∧ (s.pc u).kills s.map e.2 = true := by
      intro e he
      rcases h.alive e he with h1 | ⟨u, h1⟩
      · exact .inl h1
      · refine .inr ⟨u, ?_, h1⟩
        rintro rfl
        rw [kills_inside h1] at hi; simp at hi
    simp only [findStep]
    split
    · rename_i p hl
      have hm := (lookup_some h.keys).1 hl
      refine h.upd t (.gType n ty k p) ⟨Nat.le_refl _, fun p _ => rfl, fun p n _ h => h, fun p u _ h => h, fun h' => ⟨rfl, rfl⟩⟩ rfl
        (hist_snoc (s := s) h.hist rfl ?_) h.keys h.ptrs h.lt (iff_of_false hno (by simp [PmPc.inside])) (fun u _ => Iff.rfl)
        (h.lt _ hm) (fun e he => (hal e he).imp id .inr) ?_ ?_ ?_
      · by_cases ht : (s.obj p).ty = ty
        · simp only [ht, if_true]
          exact ⟨rfl, abs_has.2 ⟨hm, ht⟩⟩
        · simp only [ht, if_false]
          refine ⟨rfl, fun p' hp' => ?_⟩
          obtain ⟨h1, h2⟩ := abs_has.1 hp'
          rw [(lookup_some h.keys).2 h1] at hl
          cases hl; exact ht h2
      · intro u hu
        exact ⟨filter_snoc_other _ hu _, rfl, rfl⟩
      · show (s.log ++ [(t, _, _)]).filter _ = s.rets.filter _ ++ [(t, _, _)]
        rw [filter_snoc_self, h.pend t, hp]; simp [ParamConc.pend]; rfl
      · show (s.calls.filter _).map Prod.snd = ((s.log ++ [(t, _, _)]).filter _).map _ ++ []
        rw [filter_snoc_self, h.calls t, hp]; simp [PmPc.open]
    · rename_i hl
      refine h.upd t .idle ⟨Nat.le_refl _, fun p _ => rfl, fun p n _ h => h, fun p u _ h => h, fun h' => ⟨rfl, rfl⟩⟩ rfl
        (hist_snoc (s := s) h.hist rfl ?_) h.keys h.ptrs h.lt (iff_of_false hno (by simp [PmPc.inside])) (fun u _ => Iff.rfl)
        trivial (fun e he => (hal e he).imp id .inr) ?_ ?_ ?_
      · exact ⟨rfl, fun p' hp' => lookup_none.1 hl p' (abs_has.1 hp').1⟩
      · intro u hu
        exact ⟨filter_snoc_other _ hu _, filter_snoc_other _ hu _, rfl⟩
      · show (s.log ++ [(t, _, _)]).filter _ = (s.rets ++ [(t, _, _)]).filter _ ++ []
        rw [filter_snoc_self, filter_snoc_self, h.pend t, hp]; simp [ParamConc.pend]
      · show (s.calls.filter _).map Prod.snd = ((s.log ++ [(t, _, _)]).filter _).map _ ++ []
        rw [filter_snoc_self, h.calls t, hp]; simp [PmPc.open]

theorem Inv.touch {s s' : PmSt} (h : Inv s) (p : Nat) (h' : s.live p = true → Inv s') : Inv (s.touch p s') := by
  unfold PmSt.touch
  split
  · rename_i hl; exact h' hl
  · exact h.bad

theorem mem_add {u : UniqueArr String} (n x : String) (h : x ∈ u.arr) : x ∈ (u.add n).arr := by
  unfold UniqueArr.add
  split
  · exact h
  · simp [h]

/-- The set and the array of a `UniqueArr` agree. -/
def Fit (o : PObj) : Prop := ∀ x, x ∈ o.bt.set ↔ x ∈ o.bt.arr

theorem fit_add {o : PObj} (h : Fit o) (n : String) : Fit { o with bt := o.bt.add n } ∧ n ∈ (o.bt.add n).arr := by
  unfold Fit UniqueArr.add at *
  simp only
  split
  · rename_i hn; exact ⟨h, (h n).1 hn⟩
  · refine ⟨fun x => ?_, by simp⟩
    simp [h x, or_comm]

theorem go_fit {s : PmSt} (h : ∀ p, Fit (s.obj p)) (t : Nat) : ∀ p, Fit ((s.go t).obj p) := by
  intro p
  have hf : ∀ c, (s.findStep t c).obj = s.obj := by
    intro c
    cases c <;> simp only [findStep] <;> first | rfl | (split <;> rfl)
  unfold go
  split <;> try exact h p
  · split <;> exact h p
  · rw [hf]; exact h p
  · unfold PmSt.touch; split <;> exact h p
  · simp only
    split
    · simp [Fit, UniqueArr.empty]
    · exact h p
  · unfold PmSt.touch; split <;> (try split) <;> exact h p
  · unfold PmSt.touch; split <;> (try split) <;> exact h p
  · unfold PmSt.touch; split <;> (try split) <;> exact h p
  · unfold PmSt.touch
    split
    · simp only
      split
      · exact (fit_add (h _) _).1
      · exact h p
    · exact h p
  · unfold PmSt.touch; split <;> exact h p

theorem inv_go {s : PmSt} (h : Inv s) (hfit : ∀ p, Fit (s.obj p)) (t : Nat) : Inv (s.go t) := by
  have hpos := h.pos t
  unfold go
  split
  · exact h
  · rename_i c hp
    rw [hp] at hpos
    split
    · rename_i ho
      refine h.move t (.find c) rfl rfl rfl rfl rfl (fun p u _ h => h) rfl rfl rfl (iff_of_true rfl ?_) (fun u hu => ?_)
        trivial (fun p h => by rw [hp] at h; simp [PmPc.kills] at h) (by rw [hp]; rfl) (by rw [hp]; rfl)
      · cases c <;> first | rfl | simp [Pos, PmCall.first] at hpos
      · rw [ho]; simp [Ne.symm hu]
    · exact h
  · rename_i c hp; exact inv_find h t c hp
  · -- type
    rename_i ty k b p hp
    rw [hp] at hpos
    have hi : (s.pc t).inside = true := by rw [hp]; rfl
    refine h.touch p fun _ => ?_
    refine h.leave s.map rfl hi (by rw [hp]; rfl) (by rw [hp]; rfl) h.keys h.ptrs h.lt ?_
      (h.all hi (fun p => by rw [hp]; rfl))
    have hm := (lookup_some h.keys).1 hpos.1
    by_cases ht : (s.obj p).ty = ty
    · simp only [ht, decide_true]
      exact .inl ⟨rfl, p, abs_has.2 ⟨hm, ht⟩⟩
    · simp only [ht, decide_false]
      exact ⟨rfl, _, p, ht, abs_has.2 ⟨hm, rfl⟩⟩
  · -- alloc
    rename_i ty k b hp
    rw [hp] at hpos
    have hi : (s.pc t).inside = true := by rw [hp]; rfl
    have ho := (h.own t).2 hi
    have hall := h.all hi (fun p => by rw [hp]; rfl)
    have hne : ∀ e ∈ s.map, e.2 ≠ s.next := fun e he => Nat.ne_of_lt (h.lt e he)
    refine h.upd t (.insert ty k b s.next) ⟨Nat.le_succ _, fun p hp => ?_, fun p n hp hn => ?_, fun p u _ h => h,
      fun h' => absurd ho h'⟩ rfl ?_ h.keys h.ptrs (fun e he => Nat.lt_succ_of_lt (h.lt e he)) (iff_of_true ho rfl)
      (fun u _ => Iff.rfl) ⟨hpos, Nat.lt_succ_self _, hne, by simp, by simp⟩ (fun e he => .inl ?_) (fun u _ => ⟨rfl, rfl, rfl⟩) ?_ ?_
    · simp [Nat.ne_of_lt hp]
    · simpa [Nat.ne_of_lt hp] using hn
    · have : ∀ s' : PmSt, s'.log = s.log → s'.map = s.map → (∀ e ∈ s.map, s'.obj e.2 = s.obj e.2) → TsHist [] s'.hist s'.abs := by
        intro s' h1 h2 h3
        have e1 : s'.hist = s.hist := by simp [hist, h1]
        have e2 : s'.abs = s.abs := by
          simp only [abs, h2]
          exact List.map_congr_left fun e he => by rw [h3 e he]
        rw [e1, e2]; exact h.hist
      exact this _ rfl rfl (fun e he => by simp [hne e he])
    · simp only [hne e he, if_false]; exact hall e he
    · exact (h.pend t).trans (by rw [hp]; rfl)
    · exact (h.calls t).trans (by rw [hp]; rfl)
  · -- insert
    rename_i ty k b p hp
    rw [hp] at hpos
    obtain ⟨h1, h2, h3, h4, h5⟩ := hpos
    have hi : (s.pc t).inside = true := by rw [hp]; rfl
    have hall := h.all hi (fun p => by rw [hp]; rfl)
    refine h.leave (s.map ++ [(k, p)]) rfl hi (by rw [hp]; rfl) (by rw [hp]; rfl) ?_ ?_ ?_ ?_ ?_
    · rw [List.map_append, List.nodup_append]
      refine ⟨h.keys, by simp, ?_⟩
      intro a ha b hb
      simp only [List.map_cons, List.map_nil, List.mem_singleton] at hb
      subst hb
      rintro rfl
      obtain ⟨⟨k', p'⟩, h6, rfl⟩ := List.mem_map.1 ha
      exact lookup_none.1 h1 p' h6
    · rw [List.map_append, List.nodup_append]
      refine ⟨h.ptrs, by simp, ?_⟩
      intro a ha b hb
      simp only [List.map_cons, List.map_nil, List.mem_singleton] at hb
      subst hb
      rintro rfl
      obtain ⟨e, h6, h7⟩ := List.mem_map.1 ha
      exact h3 e h6 h7
    · intro e he
      simp only [List.mem_append, List.mem_singleton] at he
      rcases he with he | rfl
      · exact h.lt e he
      · exact h2
    · refine .inr ⟨abs_free.2 h1, p, ?_, ?_⟩
      · intro e he
        obtain ⟨e', h6, rfl⟩ := List.mem_map.1 he
        exact h3 e' h6
      · show (s.map ++ [(k, p)]).map _ = s.map.map _ ++ _
        rw [List.map_append]
        simp only [List.map_cons, List.map_nil]
        rw [show ty = (s.obj p).ty from h4.symm]; rfl
    · intro e he
      simp only [List.mem_append, List.mem_singleton] at he
      rcases he with he | rfl
      · exact hall e he
      · exact h5
  · -- del
    rename_i k p hp
    rw [hp] at hpos
    have hi : (s.pc t).inside = true := by rw [hp]; rfl
    have ho := (h.own t).2 hi
    have hall := h.all hi (fun p => by rw [hp]; rfl)
    refine h.upd t (.erase k) ⟨Nat.le_refl _, fun p _ => rfl, fun p n _ h => h, fun p u _ h => h, fun h' => absurd ho h'⟩ rfl
      h.hist h.keys h.ptrs h.lt (iff_of_true ho rfl) (fun u _ => Iff.rfl) ?_ ?_ (fun u _ => ⟨rfl, rfl, rfl⟩) ?_ ?_
    · show s.map.lookup k ≠ none
      rw [show s.map.lookup k = some p from hpos]; simp
    · intro e he
      by_cases hep : e.2 = p
      · right; left
        show (s.map.lookup k == some e.2) = true
        rw [show s.map.lookup k = some p from hpos, hep]; simp
      · left
        simp only [hep, if_false]; exact hall e he
    · exact (h.pend t).trans (by rw [hp]; rfl)
    · exact (h.calls t).trans (by rw [hp]; rfl)
  · -- erase
    rename_i k hp
    rw [hp] at hpos
    have hi : (s.pc t).inside = true := by rw [hp]; rfl
    have hsub : (s.map.filter (fun e => e.1 ≠ k)).Sublist s.map := List.filter_sublist
    refine h.leave (s.map.filter (fun e => e.1 ≠ k)) rfl hi (by rw [hp]; rfl) (by rw [hp]; rfl)
      (h.keys.sublist (hsub.map _)) (h.ptrs.sublist (hsub.map _)) (fun e he => h.lt e (hsub.subset he)) ?_ ?_
    · refine ⟨fun h' => hpos (abs_free.1 h'), ?_⟩
      show (s.map.filter _).map _ = (s.map.map _).filter _
      rw [List.filter_map]
      rfl
    · intro e he
      obtain ⟨h1, h2⟩ := List.mem_filter.1 he
      rcases h.alive e h1 with h3 | ⟨u, h3⟩
      · exact h3
      · exfalso
        have := h.killer hi h3
        subst this
        rw [hp] at h3
        simp only [PmPc.kills, beq_iff_eq] at h3
        have h4 := (lookup_some h.keys).1 h3
        have h5 : e = (k, e.2) := snd_inj h.ptrs h1 h4 rfl
        rw [h5] at h2; simp at h2
  · -- wipe cons
    rename_i p ps hp
    rw [hp] at hpos
    have hi : (s.pc t).inside = true := by rw [hp]; rfl
    have ho := (h.own t).2 hi
    refine h.upd t (.wipe ps) ⟨Nat.le_refl _, fun p _ => rfl, fun p n _ h => h, fun p u _ h => h, fun h' => absurd ho h'⟩ rfl
      h.hist h.keys h.ptrs h.lt (iff_of_true ho rfl) (fun u _ => Iff.rfl) ⟨fun p' h' => hpos.1 p' (by simp [h']), (List.nodup_cons.1 hpos.2).2⟩ ?_
      (fun u _ => ⟨rfl, rfl, rfl⟩) ?_ ?_
    · intro e he
      by_cases hin : e.2 ∈ ps
      · left
        have hne : e.2 ≠ p := fun h' => (List.nodup_cons.1 hpos.2).1 (h' ▸ hin)
        simp only [hne, if_false]
        rcases h.alive e he with h3 | ⟨u, h3⟩
        · exact h3
        · exfalso
          have := h.killer hi h3
          subst this
          rw [hp] at h3
          simp [PmPc.kills, hin] at h3
      · right; left
        simpa [PmPc.kills] using hin
    · exact (h.pend t).trans (by rw [hp]; rfl)
    · exact (h.calls t).trans (by rw [hp]; rfl)
  · -- wipe nil
    rename_i hp
    have hi : (s.pc t).inside = true := by rw [hp]; rfl
    exact h.leave [] rfl hi (by rw [hp]; rfl) (by rw [hp]; rfl) (by simp) (by simp) (by simp) rfl (by simp)
  · -- unlock
    rename_i c r hp
    have hi : (s.pc t).inside = true := by rw [hp]; rfl
    have ho := (h.own t).2 hi
    have hall := h.all hi (fun p => by rw [hp]; rfl)
    refine h.upd t .idle ⟨Nat.le_refl _, fun p _ => rfl, fun p n _ h => h, fun p u _ h => h, fun h' => absurd ho h'⟩ rfl
      h.hist h.keys h.ptrs h.lt (by simp [PmPc.inside]) (fun u hu => by rw [ho]; simp [Ne.symm hu]) trivial
      (fun e he => .inl (hall e he)) (fun u hu => ⟨rfl, filter_snoc_other _ hu _, rfl⟩) ?_ ?_
    · show s.log.filter _ = (s.rets ++ [(t, c, r)]).filter _ ++ []
      rw [filter_snoc_self, h.pend t, hp]; simp [ParamConc.pend]
    · exact (h.calls t).trans (by rw [hp]; rfl)
  · -- gType
    rename_i n ty k p hp
    rw [hp] at hpos
    have hi : (s.pc t).inside = false := by rw [hp]; rfl
    have hno : s.owner ≠ some t := fun h' => by have := (h.own t).1 h'; rw [hi] at this; simp at this
    refine h.touch p fun _ => ?_
    split
    · rename_i ht
      exact h.move t _ rfl rfl rfl rfl rfl (fun p u _ h => h) rfl rfl rfl (iff_of_false hno (by simp [PmPc.inside]))
        (fun u _ => Iff.rfl) ⟨hpos, ht⟩ (fun p h => by rw [hp] at h; simp [PmPc.kills] at h)
        (by rw [hp]; simp [ParamConc.pend, ht]) (by rw [hp]; rfl)
    · rename_i ht
      exact h.ret rfl hi (by rw [hp]; rfl) (by rw [hp]; simp [ParamConc.pend, ht])
  · -- gFlag
    rename_i n ty k p hp
    rw [hp] at hpos
    have hi : (s.pc t).inside = false := by rw [hp]; rfl
    have hno : s.owner ≠ some t := fun h' => by have := (h.own t).1 h'; rw [hi] at this; simp at this
    refine h.touch p fun _ => ?_
    split
    · exact h.move t _ rfl rfl rfl rfl rfl (fun p u _ h => h) rfl rfl rfl (iff_of_false hno (by simp [PmPc.inside]))
        (fun u _ => Iff.rfl) hpos (fun p h => by rw [hp] at h; simp [PmPc.kills] at h) (by rw [hp]; rfl) (by rw [hp]; rfl)
    · exact h.ret rfl hi (by rw [hp]; rfl) (by rw [hp]; rfl)
  · -- gSpin
    rename_i n ty k p hp
    rw [hp] at hpos
    have hi : (s.pc t).inside = false := by rw [hp]; rfl
    have hno : s.owner ≠ some t := fun h' => by have := (h.own t).1 h'; rw [hi] at this; simp at this
    refine h.touch p fun _ => ?_
    split
    · rename_i hsp
      refine h.move t (.gAdd n ty k p) rfl rfl rfl rfl rfl (fun q u _ h => ?_) rfl rfl rfl (iff_of_false hno (by simp [PmPc.inside]))
        (fun u _ => Iff.rfl) ⟨hpos.1, hpos.2, by simp⟩ (fun p h => by rw [hp] at h; simp [PmPc.kills] at h)
        (by rw [hp]; rfl) (by rw [hp]; rfl)
      by_cases hq : q = p
      · subst hq; rw [hsp] at h; simp at h
      · simp only [hq, if_false]; exact h
    · exact h
  · -- gAdd
    rename_i n ty k p hp
    rw [hp] at hpos
    have hi : (s.pc t).inside = false := by rw [hp]; rfl
    have hno : s.owner ≠ some t := fun h' => by have := (h.own t).1 h'; rw [hi] at this; simp at this
    refine h.touch p fun _ => ?_
    have hty : ∀ q, (if q = p then { s.obj p with bt := (s.obj p).bt.add n } else s.obj q).ty = (s.obj q).ty := by
      intro q; split
      · rename_i h; rw [h]
      · rfl
    refine h.upd t (.gFree n ty k p) ⟨Nat.le_refl _, fun q _ => hty q, fun q x _ h => ?_, fun p u _ h => h, fun h' => ⟨rfl, rfl⟩⟩ rfl
      ?_ h.keys h.ptrs h.lt (iff_of_false hno (by simp [PmPc.inside])) (fun u _ => Iff.rfl)
      ⟨hpos.1, (hty p).trans hpos.2.1, hpos.2.2, ?_⟩ ?_ (fun u _ => ⟨rfl, rfl, rfl⟩) ?_ ?_
    · simp only
      split
      · rename_i hq; subst hq; exact mem_add n x h
      · exact h
    · have : ∀ s' : PmSt, s'.log = s.log → s'.map = s.map → (∀ q, (s'.obj q).ty = (s.obj q).ty) → TsHist [] s'.hist s'.abs := by
        intro s' h1 h2 h3
        have e1 : s'.hist = s.hist := by simp [hist, h1]
        have e2 : s'.abs = s.abs := by simp only [abs, h2, h3]
        rw [e1, e2]; exact h.hist
      exact this _ rfl rfl hty
    · simp only [if_true]; exact (fit_add (hfit p) n).2
    · intro e he
      rcases h.alive e he with h1 | ⟨u, h1⟩
      · exact .inl h1
      · refine .inr (.inr ⟨u, ?_, h1⟩)
        rintro rfl
        rw [kills_inside h1] at hi; simp at hi
    · exact (h.pend t).trans (by rw [hp]; rfl)
    · exact (h.calls t).trans (by rw [hp]; rfl)
  · -- gFree
    rename_i n ty k p hp
    rw [hp] at hpos
    have hi : (s.pc t).inside = false := by rw [hp]; rfl
    have hno : s.owner ≠ some t := fun h' => by have := (h.own t).1 h'; rw [hi] at this; simp at this
    refine h.touch p fun _ => ?_
    refine h.upd t .idle ⟨Nat.le_refl _, fun p _ => rfl, fun p n _ h => h, fun q u hu h => ?_, fun h' => ⟨rfl, rfl⟩⟩ rfl
      h.hist h.keys h.ptrs h.lt (iff_of_false hno (by simp [PmPc.inside])) (fun u _ => Iff.rfl) trivial ?_
      (fun u hu => ⟨rfl, filter_snoc_other _ hu _, rfl⟩) ?_ ?_
    · by_cases hq : q = p
      · subst hq; rw [hpos.2.2.1] at h; exact absurd (Option.some.inj h).symm hu
      · simp only [hq, if_false]; exact h
    · intro e he
      rcases h.alive e he with h1 | ⟨u, h1⟩
      · exact .inl h1
      · refine .inr (.inr ⟨u, ?_, h1⟩)
        rintro rfl
        rw [kills_inside h1] at hi; simp at hi
    · show s.log.filter _ = (s.rets ++ [(t, _, _)]).filter _ ++ []
      rw [filter_snoc_self, h.pend t, hp]; simp [ParamConc.pend]
    · exact (h.calls t).trans (by rw [hp]; rfl)

theorem inv_run (l : List PmAct) : Inv (run l) ∧ ∀ p, Fit ((run l).obj p) := by
  have gen : ∀ (l : List PmAct) (s : PmSt), Inv s → (∀ p, Fit (s.obj p)) →
      Inv (l.foldl step s) ∧ ∀ p, Fit ((l.foldl step s).obj p) := by
    intro l
    induction l with
    | nil => intro s h1 h2; exact ⟨h1, h2⟩
    | cons a l ih =>
      intro s h1 h2
      refine ih _ ?_ ?_
      · unfold step
        split
        · exact h1
        · split
          · split
            · exact inv_call h1 _ _ (by assumption)
            · exact h1
          · exact inv_go h1 h2 _
      · unfold step
        split
        · exact h2
        · split
          · split <;> exact h2
          · exact go_fit h2 _
  exact gen l init inv_init (fun p => by simp [init, Fit, UniqueArr.empty])

end CGraph.ParamConc
