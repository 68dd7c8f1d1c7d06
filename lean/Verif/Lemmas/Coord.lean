import Verif.Model.Coord
import Mathlib.Data.List.Basic

/-! Lemmas for C97. -/
namespace CGraph
namespace Coord
open St

/-! ### lists of threads -/

theorem get_set {l : List Th} {i : Nat} {th : Th} (h : l[i]? = some th) (x : Th) (k : Nat) :
    (l.set i x)[k]? = if k = i then some x else l[k]? := by
  rw [List.getElem?_set]
  have hi : i < l.length := by
    by_contra hc
    rw [List.getElem?_eq_none (by omega)] at h
    simp at h
  by_cases hk : k = i
  · subst hk; simp [hi]
  · simp [hk, Ne.symm hk]

/-- `unset` changes `go` only. -/
theorem unset_get (s : St) (t k : Nat) :
    ∃ f : Bool → Bool, (s.unset t).ths[k]? = (s.ths[k]?).map (fun th => { th with go := f th.go }) ∧ (f true = false → k = t) ∧ f false = false := by
  unfold unset
  cases h : s.ths[t]? with
  | none => exact ⟨id, by simp, by simp, rfl⟩
  | some th =>
    simp only [setTh]
    by_cases hk : k = t
    · subst hk
      exact ⟨fun _ => false, by rw [get_set h]; simp [h], by simp, rfl⟩
    · exact ⟨id, by rw [get_set h]; simp [hk], by simp, rfl⟩

theorem unset_frame (s : St) (t : Nat) : (s.unset t).secs = s.secs ∧ (s.unset t).holder = s.holder ∧ (s.unset t).queue = s.queue ∧
    (s.unset t).crash = s.crash ∧ (s.unset t).refused = s.refused := by
  unfold unset; split <;> simp [setTh]

/-- The threads of `s'` are those of `s` but for `go`, which may have been cleared. -/
def SameTh (s s' : St) : Prop :=
  s'.secs = s.secs ∧ s'.holder = s.holder ∧ s'.queue = s.queue ∧ s'.crash = s.crash ∧ s'.refused = s.refused ∧
  ∀ k : Nat, (s.ths[k]? = none → s'.ths[k]? = none) ∧
    ∀ th : Th, s.ths[k]? = some th → ∃ g : Bool, s'.ths[k]? = some { th with go := g } ∧ (th.go = false → g = false)

theorem SameTh.refl (s : St) : SameTh s s :=
  ⟨rfl, rfl, rfl, rfl, rfl, fun _ => ⟨id, fun th h => ⟨th.go, h, id⟩⟩⟩

theorem SameTh.trans {a b d : St} (h : SameTh a b) (g : SameTh b d) : SameTh a d := by
  obtain ⟨h1, h2, h3, h4, h5, h6⟩ := h
  obtain ⟨g1, g2, g3, g4, g5, g6⟩ := g
  refine ⟨g1.trans h1, g2.trans h2, g3.trans h3, g4.trans h4, g5.trans h5, fun k => ⟨fun hn => (g6 k).1 ((h6 k).1 hn), fun th hk => ?_⟩⟩
  obtain ⟨x, hx, hx2⟩ := (h6 k).2 th hk
  obtain ⟨y, hy, hy2⟩ := (g6 k).2 _ hx
  exact ⟨y, hy, fun h => hy2 (hx2 h)⟩

theorem sameTh_unset (s : St) (t : Nat) : SameTh s (s.unset t) := by
  obtain ⟨h1, h2, h3, h4, h5⟩ := unset_frame s t
  refine ⟨h1, h2, h3, h4, h5, fun k => ?_⟩
  obtain ⟨f, hf, -, hff⟩ := unset_get s t k
  rw [hf]
  refine ⟨fun h => by simp [h], fun th h => ⟨f th.go, by simp [h], fun hg => by rw [hg, hff]⟩⟩

theorem sameTh_mark (s : St) (ts : List Nat) (n : Int) : SameTh s (s.mark ts n) := by
  induction ts generalizing s n with
  | nil => exact SameTh.refl s
  | cons t ts ih =>
    simp only [mark]
    split
    · exact (sameTh_unset s t).trans (ih _ _)
    · exact SameTh.refl s

/-! ### the mutex -/

/-- The thread holds `st_mutex_`. -/
def Pc.holds : Pc → Bool
  | .purge .. => true
  | .pjoin .. => true
  | .freeze _ => true
  | .frz .. => true
  | .fjoin .. => true
  | _ => false

def Lk (s : St) : Prop := ∀ (i : Nat) (th : Th), s.ths[i]? = some th → th.pc.holds = true → s.holder = some i

/-- The steps of a thread, one by one. -/
inductive Move (c : PoolCfg) (s : St) (i : Nat) : Th → St → Prop
  | take {g todo'} (k : Nat) (hq : s.queue[k]? = some todo') (hg : g = true) :
    Move c s i ⟨true, g, .ready, []⟩ ({ s with queue := s.queue.eraseIdx k }.setTh i ⟨true, g, .ready, todo'⟩)
  | leave {g} (hg : g = false) : Move c s i ⟨true, g, .ready, []⟩ (s.setTh i ⟨true, g, .ended, []⟩)
  | work {b g rest} : Move c s i ⟨b, g, .ready, .work :: rest⟩ (s.setTh i ⟨b, g, .ready, rest⟩)
  | size {b g n rest} : Move c s i ⟨b, g, .ready, .create n :: rest⟩ (s.setTh i ⟨b, g, .adding (PoolMgr.realSize c n s.secs.length), rest⟩)
  | release {b g n rest} (hh : s.holder = none) :
    Move c s i ⟨b, g, .ready, .release n :: rest⟩ ({ s with holder := some i }.setTh i ⟨b, g, .purge n s.secs, rest⟩)
  | pass {b g rest} (hh : s.holder = none) :
    Move c s i ⟨b, g, .ready, .pass :: rest⟩ ({ s with holder := some i }.setTh i ⟨b, g, .freeze s.secs, rest⟩)
  | add {b g r todo} (hh : s.holder = none) : Move c s i ⟨b, g, .adding r, todo⟩ ((s.setTh i ⟨b, g, .ready, todo⟩).grow r.toNat)
  | refuse {b g n todo} (hn : n > (s.secs.length : Int)) :
    Move c s i ⟨b, g, .purge n [], todo⟩ { s.setTh i ⟨b, g, .ready, todo⟩ with holder := none, refused := s.refused + 1 }
  | mark {b g n todo} (hn : ¬ n > (s.secs.length : Int)) :
    Move c s i ⟨b, g, .purge n [], todo⟩ { (s.setTh i ⟨b, g, .ready, todo⟩).mark s.secs n with holder := none }
  | keep {b g n t rest todo} (hg : s.goes t = true) : Move c s i ⟨b, g, .purge n (t :: rest), todo⟩ (s.setTh i ⟨b, g, .purge n rest, todo⟩)
  | self {b g n t rest todo} (hg : s.goes t = false) (hi : t = i) : Move c s i ⟨b, g, .purge n (t :: rest), todo⟩ { s with crash := true }
  | drop {b g n t rest todo} (hg : s.goes t = false) (hi : t ≠ i) :
    Move c s i ⟨b, g, .purge n (t :: rest), todo⟩ (s.setTh i ⟨b, g, .pjoin n t rest, todo⟩)
  | pjoined {b g n t rest todo} (he : s.isEnded t = true) :
    Move c s i ⟨b, g, .pjoin n t rest, todo⟩ { s.setTh i ⟨b, g, .purge n rest, todo⟩ with secs := s.secs.erase t }
  | passed {b g todo} : Move c s i ⟨b, g, .freeze [], todo⟩ { s.setTh i ⟨b, g, .ready, todo⟩ with holder := none }
  | old {b g t rest todo} (hg : s.goes t = true) (hi : s.idle t = true) :
    Move c s i ⟨b, g, .freeze (t :: rest), todo⟩ (s.setTh i ⟨b, g, .frz t rest, todo⟩)
  | young {b g t rest todo} : Move c s i ⟨b, g, .freeze (t :: rest), todo⟩ (s.setTh i ⟨b, g, .freeze rest, todo⟩)
  | retire {b g t rest todo} : Move c s i ⟨b, g, .frz t rest, todo⟩ ((s.setTh i ⟨b, g, .fjoin t rest, todo⟩).unset t)
  | fjoined {b g t rest todo} (he : s.isEnded t = true) :
    Move c s i ⟨b, g, .fjoin t rest, todo⟩ { s.setTh i ⟨b, g, .freeze rest, todo⟩ with secs := s.secs.erase t }

theorem step_move {c : PoolCfg} {s s' : St} {a : Act} (hs : s.step c a = some s') :
    s.crash = false ∧ ∃ th, s.ths[a.i]? = some th ∧ Move c s a.i th s' := by
  unfold step at hs
  split at hs
  · simp at hs
  rename_i hc
  refine ⟨by simpa using hc, ?_⟩
  cases hi : s.ths[a.i]? with
  | none => rw [hi] at hs; simp at hs
  | some ti =>
    rw [hi] at hs
    obtain ⟨b, g, pc, todo⟩ := ti
    refine ⟨_, rfl, ?_⟩
    cases pc with
    | ready =>
      cases todo with
      | nil =>
        simp only at hs
        split at hs
        · rename_i hb
          subst hb
          split at hs
          · rename_i hg
            subst hg
            split at hs <;> simp only [Option.some.injEq, reduceCtorEq] at hs
            rename_i task hq
            subst hs
            exact .take a.k hq rfl
          · rename_i hg
            simp only [Option.some.injEq] at hs; subst hs
            exact .leave (by simpa using hg)
        · simp at hs
      | cons x rest =>
        cases x with
        | work => simp only [Option.some.injEq] at hs; subst hs; exact .work
        | create n => simp only [Option.some.injEq] at hs; subst hs; exact .size
        | release n =>
          simp only at hs
          split at hs <;> simp only [Option.some.injEq, reduceCtorEq] at hs
          subst hs; exact .release (by assumption)
        | pass =>
          simp only at hs
          split at hs <;> simp only [Option.some.injEq, reduceCtorEq] at hs
          subst hs; exact .pass (by assumption)
    | adding r =>
      simp only at hs
      split at hs <;> simp only [Option.some.injEq, reduceCtorEq] at hs
      subst hs; exact .add (by assumption)
    | purge n rest =>
      cases rest with
      | nil =>
        simp only at hs
        split at hs <;> simp only [Option.some.injEq, reduceCtorEq] at hs <;> subst hs
        · exact .refuse (by assumption)
        · exact .mark (by assumption)
      | cons t rest =>
        simp only at hs
        split at hs
        · simp only [Option.some.injEq] at hs; subst hs; exact .keep (by assumption)
        · rename_i hg
          split at hs <;> simp only [Option.some.injEq, reduceCtorEq] at hs <;> subst hs
          · exact .self (by simpa using hg) (by assumption)
          · exact .drop (by simpa using hg) (by assumption)
    | pjoin n t rest =>
      simp only at hs
      split at hs <;> simp only [Option.some.injEq, reduceCtorEq] at hs
      subst hs; exact .pjoined (by assumption)
    | freeze rest =>
      cases rest with
      | nil => simp only [Option.some.injEq] at hs; subst hs; exact .passed
      | cons t rest =>
        simp only at hs
        split at hs <;> simp only [Option.some.injEq, reduceCtorEq] at hs <;> subst hs
        · rename_i h; simp only [Bool.and_eq_true] at h; exact .old h.1.2 h.2
        · exact .young
    | frz t rest => simp only [Option.some.injEq] at hs; subst hs; exact .retire
    | fjoin t rest =>
      simp only at hs
      split at hs <;> simp only [Option.some.injEq, reduceCtorEq] at hs
      subst hs; exact .fjoined (by assumption)
    | ended => simp at hs

/-- What a step does to the threads: its own gets a new place and script; the others may lose `go`; new ones have nothing to do. -/
theorem move_ths {c : PoolCfg} {s s' : St} {i : Nat} {th : Th} (hi : s.ths[i]? = some th) (h : Move c s i th s') :
    (∀ (k : Nat) (tk : Th), k ≠ i → s.ths[k]? = some tk → ∃ g : Bool, s'.ths[k]? = some { tk with go := g } ∧ (tk.go = false → g = false)) ∧
    (∀ (k : Nat) (tk : Th), s.ths[k]? = none → s'.ths[k]? = some tk → tk = ⟨true, true, .ready, []⟩ ∧ k ∈ s'.secs) := by
  have base : ∀ (q : St) (x : Th), q.ths = s.ths →
      (∀ (k : Nat) (tk : Th), k ≠ i → s.ths[k]? = some tk → (q.setTh i x).ths[k]? = some tk) ∧
      (∀ k : Nat, s.ths[k]? = none → (q.setTh i x).ths[k]? = none) := by
    intro q x hq
    simp only [setTh, hq]
    refine ⟨fun k tk hk h => by rw [get_set hi, if_neg hk, h], fun k h0 => ?_⟩
    rw [get_set hi, if_neg (by rintro rfl; rw [hi] at h0; simp at h0), h0]
  have easy : ∀ (q : St) (x : Th), q.ths = s.ths → ∀ s' : St, s'.ths = (q.setTh i x).ths →
      (∀ (k : Nat) (tk : Th), k ≠ i → s.ths[k]? = some tk → ∃ g : Bool, s'.ths[k]? = some { tk with go := g } ∧ (tk.go = false → g = false)) ∧
      (∀ (k : Nat) (tk : Th), s.ths[k]? = none → s'.ths[k]? = some tk → tk = ⟨true, true, .ready, []⟩ ∧ k ∈ s'.secs) := by
    intro q x hq s' hs'
    rw [hs']
    refine ⟨fun k tk hk h => ⟨tk.go, (base q x hq).1 k tk hk h, id⟩, fun k tk h h' => ?_⟩
    rw [(base q x hq).2 k h] at h'; simp at h'
  have same : ∀ (x : Th) (s1 s' : St), SameTh (s.setTh i x) s1 → s'.ths = s1.ths →
      (∀ (k : Nat) (tk : Th), k ≠ i → s.ths[k]? = some tk → ∃ g : Bool, s'.ths[k]? = some { tk with go := g } ∧ (tk.go = false → g = false)) ∧
      (∀ (k : Nat) (tk : Th), s.ths[k]? = none → s'.ths[k]? = some tk → tk = ⟨true, true, .ready, []⟩ ∧ k ∈ s'.secs) := by
    intro x s1 s' hs1 hs'
    obtain ⟨-, -, -, -, -, h6⟩ := hs1
    rw [hs']
    refine ⟨fun k tk hk h => (h6 k).2 tk ((base s x rfl).1 k tk hk h), fun k tk h h' => ?_⟩
    rw [(h6 k).1 ((base s x rfl).2 k h)] at h'; simp at h'
  cases h with
  | take k hq => exact easy { s with queue := s.queue.eraseIdx k } _ rfl _ rfl
  | leave => exact easy s _ rfl _ rfl
  | work => exact easy s _ rfl _ rfl
  | size => exact easy s _ rfl _ rfl
  | release => exact easy { s with holder := some i } _ rfl _ rfl
  | pass => exact easy { s with holder := some i } _ rfl _ rfl
  | @add b g r todo hh =>
    refine ⟨fun k tk hk h => ⟨tk.go, ?_, id⟩, fun k tk h h' => ?_⟩
    · have := (base s ⟨b, g, .ready, todo⟩ rfl).1 k tk hk h
      simp only [grow]
      rw [List.getElem?_append_left (List.getElem?_eq_some_iff.1 this).1, this]
    · simp only [grow] at h' ⊢
      have h1 := List.getElem?_eq_none_iff.1 ((base s ⟨b, g, .ready, todo⟩ rfl).2 k h)
      rw [List.getElem?_append_right h1] at h'
      obtain ⟨h2, h3⟩ := List.getElem?_eq_some_iff.1 h'
      simp only [List.length_replicate] at h2
      refine ⟨by rw [← h3]; simp, ?_⟩
      simp only [List.mem_append, List.mem_range'_1]
      omega
  | refuse => exact easy s _ rfl _ rfl
  | @mark b g n todo => exact same ⟨b, g, .ready, todo⟩ _ _ (sameTh_mark _ s.secs n) rfl
  | keep => exact easy s _ rfl _ rfl
  | self =>
    exact ⟨fun k tk _ h => ⟨tk.go, h, id⟩, fun k tk h h' => by simp only at h'; rw [h] at h'; simp at h'⟩
  | drop => exact easy s _ rfl _ rfl
  | pjoined => exact easy s _ rfl _ rfl
  | passed => exact easy s _ rfl _ rfl
  | old => exact easy s _ rfl _ rfl
  | young => exact easy s _ rfl _ rfl
  | @retire b g t rest todo => exact same ⟨b, g, .fjoin t rest, todo⟩ _ _ (sameTh_unset _ t) rfl
  | fjoined => exact easy s _ rfl _ rfl

/-- Where the thread itself is after its step, up to `go`. -/
theorem move_own {c : PoolCfg} {s s' : St} {i : Nat} {th : Th} (hi : s.ths[i]? = some th) (h : Move c s i th s') :
    ∃ ti : Th, s'.ths[i]? = some ti ∧ ti.sec = th.sec ∧ (th.go = false → ti.go = false) ∧
      (ti.pc.holds = true → s'.holder = some i ∨ s'.holder = s.holder ∧ th.pc.holds = true) ∧
      (th.pc.holds = true → ti.pc.holds = false → s'.holder = none) ∧
      (th.pc.holds = false → s'.holder = s.holder ∨ s.holder = none ∧ s'.holder = some i ∧ ti.pc.holds = true) ∧
      (th.pc.holds = true → s'.holder = s.holder ∨ s'.holder = none ∧ ti.pc.holds = false) := by
  have base : ∀ (q : St) (x : Th), q.ths = s.ths → (q.setTh i x).ths[i]? = some x := by
    intro q x hq
    simp only [setTh, hq]
    rw [get_set hi, if_pos rfl]
  cases h with
  | take k hq hg => exact ⟨_, base { s with queue := s.queue.eraseIdx k } _ rfl, rfl, id, by simp [Pc.holds], by simp [Pc.holds], by simp [setTh],
      by simp [Pc.holds]⟩
  | leave => exact ⟨_, base s _ rfl, rfl, id, by simp [Pc.holds], by simp [Pc.holds], by simp [setTh], by simp [Pc.holds]⟩
  | work => exact ⟨_, base s _ rfl, rfl, id, by simp [Pc.holds], by simp [Pc.holds], by simp [setTh], by simp [Pc.holds]⟩
  | size => exact ⟨_, base s _ rfl, rfl, id, by simp [Pc.holds], by simp [Pc.holds], by simp [setTh], by simp [Pc.holds]⟩
  | release hh => exact ⟨_, base { s with holder := some i } _ rfl, rfl, id, by simp [setTh], by simp [Pc.holds], by simp [setTh, hh, Pc.holds],
      by simp [Pc.holds]⟩
  | pass hh => exact ⟨_, base { s with holder := some i } _ rfl, rfl, id, by simp [setTh], by simp [Pc.holds], by simp [setTh, hh, Pc.holds],
      by simp [Pc.holds]⟩
  | @add b g r todo hh =>
    have := base s ⟨b, g, .ready, todo⟩ rfl
    refine ⟨⟨b, g, .ready, todo⟩, ?_, rfl, id, by simp [Pc.holds], by simp [Pc.holds], by simp [setTh, grow], by simp [Pc.holds]⟩
    simp only [grow]
    rw [List.getElem?_append_left (List.getElem?_eq_some_iff.1 this).1, this]
  | refuse => exact ⟨_, base s _ rfl, rfl, id, by simp [Pc.holds], by simp, by simp [Pc.holds], by simp [Pc.holds]⟩
  | @mark b g n todo =>
    obtain ⟨-, -, -, -, -, h6⟩ := sameTh_mark (s.setTh i ⟨b, g, .ready, todo⟩) s.secs n
    obtain ⟨g', h1, h2⟩ := (h6 i).2 _ (base s ⟨b, g, .ready, todo⟩ rfl)
    exact ⟨_, h1, rfl, h2, by simp [Pc.holds], by simp, by simp [Pc.holds], by simp [Pc.holds]⟩
  | keep => exact ⟨_, base s _ rfl, rfl, id, by simp [setTh, Pc.holds], by simp [Pc.holds], by simp [Pc.holds], by simp [setTh]⟩
  | self => exact ⟨_, hi, rfl, id, by simp [Pc.holds], by simp [Pc.holds], by simp, by simp⟩
  | drop => exact ⟨_, base s _ rfl, rfl, id, by simp [setTh, Pc.holds], by simp [Pc.holds], by simp [Pc.holds], by simp [setTh]⟩
  | pjoined => exact ⟨_, base s _ rfl, rfl, id, by simp [setTh, Pc.holds], by simp [Pc.holds], by simp [Pc.holds], by simp [setTh]⟩
  | passed => exact ⟨_, base s _ rfl, rfl, id, by simp [Pc.holds], by simp, by simp [Pc.holds], by simp [Pc.holds]⟩
  | old => exact ⟨_, base s _ rfl, rfl, id, by simp [setTh, Pc.holds], by simp [Pc.holds], by simp [Pc.holds], by simp [setTh]⟩
  | young => exact ⟨_, base s _ rfl, rfl, id, by simp [setTh, Pc.holds], by simp [Pc.holds], by simp [Pc.holds], by simp [setTh]⟩
  | @retire b g t rest todo =>
    obtain ⟨-, h2, -, -, -, h6⟩ := sameTh_unset (s.setTh i ⟨b, g, .fjoin t rest, todo⟩) t
    obtain ⟨g', h1, h3⟩ := (h6 i).2 _ (base s ⟨b, g, .fjoin t rest, todo⟩ rfl)
    exact ⟨_, h1, rfl, h3, by rw [h2]; simp [setTh, Pc.holds], by simp [Pc.holds], by simp [Pc.holds], by rw [h2]; simp [setTh]⟩
  | fjoined => exact ⟨_, base s _ rfl, rfl, id, by simp [setTh, Pc.holds], by simp [Pc.holds], by simp [Pc.holds], by simp [setTh]⟩

theorem lk_init (cs q : List (List Call)) : Lk (St.init cs q) := by
  intro i th h hh
  simp only [St.init, List.getElem?_map, Option.map_eq_some_iff] at h
  obtain ⟨x, -, rfl⟩ := h
  simp [Pc.holds] at hh

theorem lk_step {c : PoolCfg} {s s' : St} {a : Act} (h : Lk s) (hs : s.step c a = some s') : Lk s' := by
  obtain ⟨-, th, hi, hm⟩ := step_move hs
  obtain ⟨h1, h2⟩ := move_ths hi hm
  obtain ⟨ti, g1, -, -, g3, -, g5, g6⟩ := move_own hi hm
  intro k tk hk hh
  by_cases hka : k = a.i
  · subst hka
    rw [g1, Option.some.injEq] at hk
    subst hk
    rcases g3 hh with h' | ⟨h', h''⟩
    · exact h'
    · rw [h']; exact h _ _ hi h''
  · cases hsk : s.ths[k]? with
    | none =>
      obtain ⟨rfl, -⟩ := h2 k tk hsk hk
      simp [Pc.holds] at hh
    | some t0 =>
      obtain ⟨g, hg, -⟩ := h1 k t0 hka hsk
      rw [hk, Option.some.injEq] at hg
      subst hg
      have hk0 := h k t0 hsk hh
      by_cases hth : th.pc.holds = true
      · have := h _ _ hi hth
        rw [hk0, Option.some.injEq] at this
        exact absurd this hka
      · rcases g5 (by simpa using hth) with h' | ⟨h', -, -⟩
        · rw [h']; exact hk0
        · rw [hk0] at h'; simp at h'

/-! ### every step uses something up -/

/-- Weight of a call; `K` bounds the number of secondary threads. -/
def wCall (K : Nat) : Call → Nat
  | .work => 1
  | .create n => 2 + n.toNat
  | .release _ => 2 * K + 2
  | .pass => 3 * K + 2

def wPc : Pc → Nat
  | .ready => 0
  | .adding r => 1 + r.toNat
  | .purge _ rest => 1 + 2 * rest.length
  | .pjoin _ _ rest => 2 + 2 * rest.length
  | .freeze rest => 1 + 3 * rest.length
  | .frz _ rest => 3 + 3 * rest.length
  | .fjoin _ rest => 2 + 3 * rest.length
  | .ended => 0

def wTodo (K : Nat) (l : List Call) : Nat := (l.map (wCall K)).sum

def wTh (K : Nat) (th : Th) : Nat := wPc th.pc + wTodo K th.todo + if th.sec = true ∧ th.pc ≠ .ended then 1 else 0

/-- What is left to do. -/
def left (K : Nat) (s : St) : Nat :=
  (if s.crash then 0 else 1) + (s.ths.map (wTh K)).sum + (s.queue.map (fun q => 1 + wTodo K q)).sum

/-- Threads that `create` may still add. -/
def pCall : Call → Nat
  | .create n => n.toNat
  | _ => 0

def pTodo (l : List Call) : Nat := (l.map pCall).sum

def pPc : Pc → Nat
  | .adding r => r.toNat
  | _ => 0

def pTh (th : Th) : Nat := pPc th.pc + pTodo th.todo

/-- Bound of the number of secondary threads from now on. -/
def room (s : St) : Nat := s.secs.length + (s.ths.map pTh).sum + (s.queue.map pTodo).sum

theorem sum_set {f : Th → Nat} {l : List Th} {i : Nat} {th : Th} (h : l[i]? = some th) (x : Th) :
    ((l.set i x).map f).sum + f th = (l.map f).sum + f x := by
  induction l generalizing i with
  | nil => simp at h
  | cons a l ih =>
    cases i with
    | zero => simp only [List.getElem?_cons_zero, Option.some.injEq] at h; subst h; simp; omega
    | succ i =>
      simp only [List.getElem?_cons_succ] at h
      have := ih h
      simp only [List.set_cons_succ, List.map_cons, List.sum_cons]
      omega

theorem sum_rep (n x : Nat) : (List.replicate n x).sum = n * x := by
  induction n with
  | zero => simp
  | succ n ih => rw [List.replicate_succ, List.sum_cons, ih, Nat.succ_mul]; omega

theorem sum_erase {f : List Call → Nat} {l : List (List Call)} {i : Nat} {x : List Call} (h : l[i]? = some x) :
    ((l.eraseIdx i).map f).sum + f x = (l.map f).sum := by
  induction l generalizing i with
  | nil => simp at h
  | cons a l ih =>
    cases i with
    | zero => simp only [List.getElem?_cons_zero, Option.some.injEq] at h; subst h; simp; omega
    | succ i =>
      simp only [List.getElem?_cons_succ] at h
      have := ih h
      simp only [List.eraseIdx_cons_succ, List.map_cons, List.sum_cons]
      omega

/-- Sums that do not look at `go`. -/
theorem sum_unset {f : Th → Nat} (hf : ∀ th g, f { th with go := g } = f th) (s : St) (t : Nat) :
    ((s.unset t).ths.map f).sum = (s.ths.map f).sum := by
  unfold unset
  cases h : s.ths[t]? with
  | none => rfl
  | some th =>
    simp only [setTh]
    have := sum_set (f := f) h { th with go := false }
    have h2 := hf th false
    omega

theorem sum_mark {f : Th → Nat} (hf : ∀ th g, f { th with go := g } = f th) (s : St) (ts : List Nat) (n : Int) :
    ((s.mark ts n).ths.map f).sum = (s.ths.map f).sum := by
  induction ts generalizing s n with
  | nil => rfl
  | cons t ts ih =>
    simp only [mark]
    split
    · rw [ih, sum_unset hf]
    · rfl

theorem move_left {c : PoolCfg} {s s' : St} {i : Nat} {th : Th} {K : Nat} (hc : s.crash = false) (hK : room s ≤ K) (hi : s.ths[i]? = some th)
    (h : Move c s i th s') : left K s' < left K s ∧ room s' ≤ room s := by
  have hw : ∀ th g, wTh K { th with go := g } = wTh K th := fun _ _ => rfl
  have hp : ∀ th g, pTh { th with go := g } = pTh th := fun _ _ => rfl
  have hsec : s.secs.length ≤ K := by unfold room at hK; omega
  cases h with
  | @take g todo' k hq hg =>
    have h1 := sum_set (f := wTh K) hi ⟨true, g, .ready, todo'⟩
    have h2 := sum_set (f := pTh) hi ⟨true, g, .ready, todo'⟩
    have h3 := sum_erase (f := fun q => 1 + wTodo K q) hq
    have h4 := sum_erase (f := pTodo) hq
    simp only [left, room, setTh, hc, wTh, wPc, pTh, pPc, wTodo, pTodo, List.map_nil, List.sum_nil] at *
    constructor <;> omega
  | @leave g hg =>
    have h1 := sum_set (f := wTh K) hi ⟨true, g, .ended, []⟩
    have h2 := sum_set (f := pTh) hi ⟨true, g, .ended, []⟩
    simp only [left, room, setTh, hc, wTh, wPc, pTh, pPc, wTodo, pTodo, List.map_nil, List.sum_nil, ne_eq, reduceCtorEq,
      not_false_eq_true, not_true_eq_false, and_true, and_false, if_true, if_false] at *
    constructor <;> omega
  | @work b g rest =>
    have h1 := sum_set (f := wTh K) hi ⟨b, g, .ready, rest⟩
    have h2 := sum_set (f := pTh) hi ⟨b, g, .ready, rest⟩
    simp only [left, room, setTh, hc, wTh, wPc, pTh, pPc, wTodo, pTodo, List.map_cons, List.sum_cons, wCall, pCall] at *
    constructor <;> omega
  | @size b g n rest =>
    have hr : (PoolMgr.realSize c n s.secs.length).toNat ≤ n.toNat := by unfold PoolMgr.realSize; omega
    have h1 := sum_set (f := wTh K) hi ⟨b, g, .adding (PoolMgr.realSize c n s.secs.length), rest⟩
    have h2 := sum_set (f := pTh) hi ⟨b, g, .adding (PoolMgr.realSize c n s.secs.length), rest⟩
    simp only [left, room, setTh, hc, wTh, wPc, pTh, pPc, wTodo, pTodo, List.map_cons, List.sum_cons, wCall, pCall] at *
    have : ((b = true ∧ Pc.ready ≠ .ended) ↔ (b = true ∧ Pc.adding (PoolMgr.realSize c n s.secs.length) ≠ .ended)) := by simp
    simp only [this] at *
    constructor <;> omega
  | @release b g n rest hh =>
    have h1 := sum_set (f := wTh K) hi ⟨b, g, .purge n s.secs, rest⟩
    have h2 := sum_set (f := pTh) hi ⟨b, g, .purge n s.secs, rest⟩
    simp only [left, room, setTh, hc, wTh, wPc, pTh, pPc, wTodo, pTodo, List.map_cons, List.sum_cons, wCall, pCall, ne_eq, reduceCtorEq,
      not_false_eq_true, and_true] at *
    constructor <;> omega
  | @pass b g rest hh =>
    have h1 := sum_set (f := wTh K) hi ⟨b, g, .freeze s.secs, rest⟩
    have h2 := sum_set (f := pTh) hi ⟨b, g, .freeze s.secs, rest⟩
    simp only [left, room, setTh, hc, wTh, wPc, pTh, pPc, wTodo, pTodo, List.map_cons, List.sum_cons, wCall, pCall, ne_eq, reduceCtorEq,
      not_false_eq_true, and_true] at *
    constructor <;> omega
  | @add b g r todo hh =>
    have h1 := sum_set (f := wTh K) hi ⟨b, g, .ready, todo⟩
    have h2 := sum_set (f := pTh) hi ⟨b, g, .ready, todo⟩
    simp only [left, room, setTh, grow, hc, wTh, wPc, pTh, pPc, wTodo, pTodo, List.map_append, List.sum_append, List.map_replicate,
      List.length_append, List.length_range', List.map_nil, List.sum_nil, sum_rep, ne_eq, reduceCtorEq, not_false_eq_true, and_true,
      if_true] at *
    constructor <;> omega
  | @refuse b g n todo hn =>
    have h1 := sum_set (f := wTh K) hi ⟨b, g, .ready, todo⟩
    have h2 := sum_set (f := pTh) hi ⟨b, g, .ready, todo⟩
    simp only [left, room, setTh, hc, wTh, wPc, pTh, pPc, ne_eq, reduceCtorEq, not_false_eq_true, and_true] at *
    constructor <;> omega
  | @mark b g n todo hn =>
    have h1 := sum_set (f := wTh K) hi ⟨b, g, .ready, todo⟩
    have h2 := sum_set (f := pTh) hi ⟨b, g, .ready, todo⟩
    have h3 := sum_mark hw (s.setTh i ⟨b, g, .ready, todo⟩) s.secs n
    have h4 := sum_mark hp (s.setTh i ⟨b, g, .ready, todo⟩) s.secs n
    obtain ⟨e1, e2, e3, e4, -, -⟩ := sameTh_mark (s.setTh i ⟨b, g, .ready, todo⟩) s.secs n
    simp only [left, room, e1, e3, e4, h3, h4]
    simp only [setTh, hc, wTh, wPc, pTh, pPc, ne_eq, reduceCtorEq, not_false_eq_true, and_true] at *
    constructor <;> omega
  | @keep b g n t rest todo hg =>
    have h1 := sum_set (f := wTh K) hi ⟨b, g, .purge n rest, todo⟩
    have h2 := sum_set (f := pTh) hi ⟨b, g, .purge n rest, todo⟩
    simp only [left, room, setTh, hc, wTh, wPc, pTh, pPc, ne_eq, reduceCtorEq, not_false_eq_true, and_true, List.length_cons] at *
    constructor <;> omega
  | self => simp only [left, room, hc]; constructor <;> simp
  | @drop b g n t rest todo hg hne =>
    have h1 := sum_set (f := wTh K) hi ⟨b, g, .pjoin n t rest, todo⟩
    have h2 := sum_set (f := pTh) hi ⟨b, g, .pjoin n t rest, todo⟩
    simp only [left, room, setTh, hc, wTh, wPc, pTh, pPc, ne_eq, reduceCtorEq, not_false_eq_true, and_true, List.length_cons] at *
    constructor <;> omega
  | @pjoined b g n t rest todo he =>
    have h1 := sum_set (f := wTh K) hi ⟨b, g, .purge n rest, todo⟩
    have h2 := sum_set (f := pTh) hi ⟨b, g, .purge n rest, todo⟩
    have h3 := List.length_erase_le (a := t) (l := s.secs)
    simp only [left, room, setTh, hc, wTh, wPc, pTh, pPc, ne_eq, reduceCtorEq, not_false_eq_true, and_true, List.length_cons] at *
    constructor <;> omega
  | @passed b g todo =>
    have h1 := sum_set (f := wTh K) hi ⟨b, g, .ready, todo⟩
    have h2 := sum_set (f := pTh) hi ⟨b, g, .ready, todo⟩
    simp only [left, room, setTh, hc, wTh, wPc, pTh, pPc, ne_eq, reduceCtorEq, not_false_eq_true, and_true] at *
    constructor <;> omega
  | @old b g t rest todo hg hid =>
    have h1 := sum_set (f := wTh K) hi ⟨b, g, .frz t rest, todo⟩
    have h2 := sum_set (f := pTh) hi ⟨b, g, .frz t rest, todo⟩
    simp only [left, room, setTh, hc, wTh, wPc, pTh, pPc, ne_eq, reduceCtorEq, not_false_eq_true, and_true, List.length_cons] at *
    constructor <;> omega
  | @young b g t rest todo =>
    have h1 := sum_set (f := wTh K) hi ⟨b, g, .freeze rest, todo⟩
    have h2 := sum_set (f := pTh) hi ⟨b, g, .freeze rest, todo⟩
    simp only [left, room, setTh, hc, wTh, wPc, pTh, pPc, ne_eq, reduceCtorEq, not_false_eq_true, and_true, List.length_cons] at *
    constructor <;> omega
  | @retire b g t rest todo =>
    have h1 := sum_set (f := wTh K) hi ⟨b, g, .fjoin t rest, todo⟩
    have h2 := sum_set (f := pTh) hi ⟨b, g, .fjoin t rest, todo⟩
    have h3 := sum_unset hw (s.setTh i ⟨b, g, .fjoin t rest, todo⟩) t
    have h4 := sum_unset hp (s.setTh i ⟨b, g, .fjoin t rest, todo⟩) t
    obtain ⟨e1, e2, e3, e4, -⟩ := unset_frame (s.setTh i ⟨b, g, .fjoin t rest, todo⟩) t
    simp only [left, room, e1, e3, e4, h3, h4]
    simp only [setTh, hc, wTh, wPc, pTh, pPc, ne_eq, reduceCtorEq, not_false_eq_true, and_true, List.length_cons] at *
    constructor <;> omega
  | @fjoined b g t rest todo he =>
    have h1 := sum_set (f := wTh K) hi ⟨b, g, .freeze rest, todo⟩
    have h2 := sum_set (f := pTh) hi ⟨b, g, .freeze rest, todo⟩
    have h3 := List.length_erase_le (a := t) (l := s.secs)
    simp only [left, room, setTh, hc, wTh, wPc, pTh, pPc, ne_eq, reduceCtorEq, not_false_eq_true, and_true, List.length_cons] at *
    constructor <;> omega

/-! ### no thread waits for one that waits for it -/

def IsSec (s : St) (t : Nat) : Prop := ∃ th : Th, s.ths[t]? = some th ∧ th.sec = true

/-- Threads that the loop has still to visit. -/
def refs : Pc → List Nat
  | .purge _ rest => rest
  | .pjoin _ t rest => t :: rest
  | .freeze rest => rest
  | .frz t rest => t :: rest
  | .fjoin t rest => t :: rest
  | _ => []

/-- The thread that is waited for. -/
def joinOf : Pc → Option Nat
  | .pjoin _ t _ => some t
  | .fjoin t _ => some t
  | _ => none

theorem isSec_mono {c : PoolCfg} {s s' : St} {i : Nat} {th : Th} (hi : s.ths[i]? = some th) (h : Move c s i th s') {t : Nat} (ht : IsSec s t) :
    IsSec s' t := by
  obtain ⟨x, hx, hs⟩ := ht
  by_cases hti : t = i
  · subst hti
    rw [hi, Option.some.injEq] at hx
    subst hx
    obtain ⟨ti, g1, g2, -⟩ := move_own hi h
    exact ⟨ti, g1, by rw [g2]; exact hs⟩
  · obtain ⟨g, hg, -⟩ := (move_ths hi h).1 t x hti hx
    exact ⟨_, hg, hs⟩

theorem goes_mono {c : PoolCfg} {s s' : St} {i : Nat} {th : Th} (hi : s.ths[i]? = some th) (h : Move c s i th s') {t : Nat} (ht : IsSec s t)
    (hg : s.goes t = false) : s'.goes t = false := by
  obtain ⟨x, hx, -⟩ := ht
  unfold goes at hg ⊢
  rw [hx] at hg
  by_cases hti : t = i
  · subst hti
    rw [hi, Option.some.injEq] at hx
    subst hx
    obtain ⟨ti, g1, -, g3, -⟩ := move_own hi h
    rw [g1]; exact g3 hg
  · obtain ⟨g, hg', hgo⟩ := (move_ths hi h).1 t x hti hx
    rw [hg']; exact hgo hg

/-- Secondary threads only work; what the thread is about to visit are secondary threads; the one that it waits for has been told to end. -/
structure ThOk (s : St) (th : Th) : Prop where
  secT : th.sec = true → (∀ x ∈ th.todo, x = .work) ∧ (th.pc = .ready ∨ th.pc = .ended)
  oth : th.sec = false → th.pc ≠ .ended
  ref : ∀ t ∈ refs th.pc, IsSec s t
  jn : ∀ t, joinOf th.pc = some t → s.goes t = false

/-- Tasks of secondary threads do not touch the list. -/
structure Good (s : St) : Prop where
  ok : ∀ (i : Nat) (th : Th), s.ths[i]? = some th → ThOk s th
  sc : ∀ t ∈ s.secs, IsSec s t
  q : ∀ task ∈ s.queue, ∀ x ∈ task, x = Call.work
  lk : Lk s
  h : ∀ j, s.holder = some j → ∃ th : Th, s.ths[j]? = some th ∧ th.pc.holds = true
  cr : s.crash = false

theorem unset_goes {s : St} {t : Nat} (h : IsSec s t) : (s.unset t).goes t = false := by
  obtain ⟨x, hx, -⟩ := h
  unfold unset
  rw [hx]
  simp only [goes, setTh]
  rw [get_set hx, if_pos rfl]

theorem good_step {c : PoolCfg} {s s' : St} {a : Act} (h : Good s) (hs : s.step c a = some s') : Good s' := by
  have hlk := lk_step h.lk hs
  obtain ⟨-, th, hi, hm⟩ := step_move hs
  obtain ⟨ti, g1, g2, g2', g3, g4, g5, g6⟩ := move_own hi hm
  obtain ⟨o1, o2⟩ := move_ths hi hm
  have hok := h.ok a.i th hi
  have sec' : ∀ {t}, IsSec s t → IsSec s' t := fun ht => isSec_mono hi hm ht
  have goes' : ∀ {t}, IsSec s t → s.goes t = false → s'.goes t = false := fun ht hg => goes_mono hi hm ht hg
  have hown : ThOk s' ti := by
    have base : ∀ (q : St) (x : Th), q.ths = s.ths → (q.setTh a.i x).ths[a.i]? = some x := by
      intro q x hq
      simp only [setTh, hq]
      rw [get_set hi, if_pos rfl]
    cases hm with
    | take k hq hg =>
      rw [base { s with queue := s.queue.eraseIdx k } _ rfl, Option.some.injEq] at g1; subst g1
      exact ⟨fun _ => ⟨h.q _ (List.mem_of_getElem? hq), .inl rfl⟩, by simp, by simp [refs], by simp [joinOf]⟩
    | leave =>
      rw [base s _ rfl, Option.some.injEq] at g1; subst g1
      exact ⟨fun _ => ⟨by simp, .inr rfl⟩, by simp, by simp [refs], by simp [joinOf]⟩
    | work =>
      rw [base s _ rfl, Option.some.injEq] at g1; subst g1
      exact ⟨fun hb => ⟨fun x hx => (hok.secT hb).1 x (by simp [hx]), .inl rfl⟩, by simp, by simp [refs], by simp [joinOf]⟩
    | size =>
      rw [base s _ rfl, Option.some.injEq] at g1; subst g1
      exact ⟨fun hb => absurd ((hok.secT hb).1 _ (List.mem_cons_self ..)) (by simp), by simp, by simp [refs], by simp [joinOf]⟩
    | release hh =>
      rw [base { s with holder := some a.i } _ rfl, Option.some.injEq] at g1; subst g1
      exact ⟨fun hb => absurd ((hok.secT hb).1 _ (List.mem_cons_self ..)) (by simp), by simp, fun t ht => sec' (h.sc t ht), by simp [joinOf]⟩
    | pass hh =>
      rw [base { s with holder := some a.i } _ rfl, Option.some.injEq] at g1; subst g1
      exact ⟨fun hb => absurd ((hok.secT hb).1 _ (List.mem_cons_self ..)) (by simp), by simp, fun t ht => sec' (h.sc t ht), by simp [joinOf]⟩
    | @add b g r todo hh =>
      have h1 := base s ⟨b, g, .ready, todo⟩ rfl
      have h2 : ((s.setTh a.i ⟨b, g, .ready, todo⟩).grow r.toNat).ths[a.i]? = some ⟨b, g, .ready, todo⟩ := by
        simp only [grow]
        rw [List.getElem?_append_left (List.getElem?_eq_some_iff.1 h1).1, h1]
      rw [h2, Option.some.injEq] at g1; subst g1
      exact ⟨fun hb => absurd (hok.secT hb).2 (by simp), by simp, by simp [refs], by simp [joinOf]⟩
    | refuse =>
      have g1' := g1
      simp only at g1'
      rw [base s _ rfl, Option.some.injEq] at g1'; subst g1'
      exact ⟨fun hb => absurd (hok.secT hb).2 (by simp), by simp, by simp [refs], by simp [joinOf]⟩
    | @mark b g n todo =>
      obtain ⟨-, -, -, -, -, h6⟩ := sameTh_mark (s.setTh a.i ⟨b, g, .ready, todo⟩) s.secs n
      obtain ⟨g', e1, -⟩ := (h6 a.i).2 _ (base s ⟨b, g, .ready, todo⟩ rfl)
      have g1' := g1
      simp only at g1'
      rw [e1, Option.some.injEq] at g1'; subst g1'
      exact ⟨fun hb => absurd (hok.secT hb).2 (by simp), by simp, by simp [refs], by simp [joinOf]⟩
    | keep =>
      rw [base s _ rfl, Option.some.injEq] at g1; subst g1
      exact ⟨fun hb => absurd (hok.secT hb).2 (by simp), by simp, fun t ht => sec' (hok.ref t (by simp [refs] at ht ⊢; exact .inr ht)),
        by simp [joinOf]⟩
    | self hg hti =>
      subst hti
      obtain ⟨x, hx, hxs⟩ := hok.ref a.i (by simp [refs])
      rw [hi, Option.some.injEq] at hx; subst hx
      exact absurd (hok.secT hxs).2 (by simp)
    | drop hg hne =>
      rw [base s _ rfl, Option.some.injEq] at g1; subst g1
      refine ⟨fun hb => absurd (hok.secT hb).2 (by simp), by simp, fun t ht => sec' (hok.ref t ht), fun t ht => ?_⟩
      simp only [joinOf, Option.some.injEq] at ht; subst ht
      exact goes' (hok.ref _ (by simp [refs])) hg
    | pjoined he =>
      have g1' := g1
      simp only at g1'
      rw [base s _ rfl, Option.some.injEq] at g1'; subst g1'
      exact ⟨fun hb => absurd (hok.secT hb).2 (by simp), by simp, fun t ht => sec' (hok.ref t (by simp [refs] at ht ⊢; exact .inr ht)),
        by simp [joinOf]⟩
    | passed =>
      have g1' := g1
      simp only at g1'
      rw [base s _ rfl, Option.some.injEq] at g1'; subst g1'
      exact ⟨fun hb => absurd (hok.secT hb).2 (by simp), by simp, by simp [refs], by simp [joinOf]⟩
    | old hg hid =>
      rw [base s _ rfl, Option.some.injEq] at g1; subst g1
      exact ⟨fun hb => absurd (hok.secT hb).2 (by simp), by simp, fun t ht => sec' (hok.ref t ht), by simp [joinOf]⟩
    | young =>
      rw [base s _ rfl, Option.some.injEq] at g1; subst g1
      exact ⟨fun hb => absurd (hok.secT hb).2 (by simp), by simp, fun t ht => sec' (hok.ref t (by simp [refs] at ht ⊢; exact .inr ht)),
        by simp [joinOf]⟩
    | @retire b g t rest todo =>
      obtain ⟨-, -, -, -, -, h6⟩ := sameTh_unset (s.setTh a.i ⟨b, g, .fjoin t rest, todo⟩) t
      obtain ⟨g', e1, -⟩ := (h6 a.i).2 _ (base s ⟨b, g, .fjoin t rest, todo⟩ rfl)
      rw [e1, Option.some.injEq] at g1; subst g1
      refine ⟨fun hb => absurd (hok.secT hb).2 (by simp), by simp, fun u hu => sec' (hok.ref u hu), fun u hu => ?_⟩
      simp only [joinOf, Option.some.injEq] at hu; subst hu
      refine unset_goes ?_
      obtain ⟨x, hx, hxs⟩ := hok.ref t (by simp [refs])
      by_cases ht : t = a.i
      · subst ht
        rw [hi, Option.some.injEq] at hx; subst hx
        exact ⟨_, base s _ rfl, hxs⟩
      · exact ⟨x, by simp only [setTh]; rw [get_set hi, if_neg ht, hx], hxs⟩
    | fjoined he =>
      have g1' := g1
      simp only at g1'
      rw [base s _ rfl, Option.some.injEq] at g1'; subst g1'
      exact ⟨fun hb => absurd (hok.secT hb).2 (by simp), by simp, fun t ht => sec' (hok.ref t (by simp [refs] at ht ⊢; exact .inr ht)),
        by simp [joinOf]⟩
  refine ⟨?_, ?_, ?_, hlk, ?_, ?_⟩
  · intro k tk hk
    by_cases hka : k = a.i
    · subst hka; rw [g1, Option.some.injEq] at hk; subst hk; exact hown
    · cases hsk : s.ths[k]? with
      | none =>
        obtain ⟨rfl, -⟩ := o2 k tk hsk hk
        exact ⟨by simp, by simp, by simp [refs], by simp [joinOf]⟩
      | some t0 =>
        obtain ⟨g, hg, -⟩ := o1 k t0 hka hsk
        rw [hk, Option.some.injEq] at hg; subst hg
        have h0 := h.ok k t0 hsk
        exact ⟨h0.secT, h0.oth, fun t ht => sec' (h0.ref t ht), fun t ht => goes' (h0.ref t (by
          revert ht; simp only; cases t0.pc <;> simp [joinOf, refs] <;> (intro h; simp [h]))) (h0.jn t ht)⟩
  · intro t ht
    have old : t ∈ s.secs → IsSec s' t := fun h' => sec' (h.sc t h')
    cases hm with
    | @add b g r todo hh =>
      simp only [grow, setTh, List.mem_append, List.mem_range'_1] at ht
      rcases ht with ht | ht
      · exact old ht
      · refine ⟨⟨true, true, .ready, []⟩, ?_, rfl⟩
        simp only [grow, setTh]
        rw [List.getElem?_append_right ht.1, List.getElem?_replicate, if_pos (by omega)]
    | mark => exact old (by simpa only [(sameTh_mark _ _ _).1, setTh] using ht)
    | retire => exact old (by simpa only [(sameTh_unset _ _).1, setTh] using ht)
    | pjoined => exact old (List.mem_of_mem_erase ht)
    | fjoined => exact old (List.mem_of_mem_erase ht)
    | _ => exact old ht
  · cases hm with
    | take k hq hg => exact fun task ht => h.q task (List.mem_of_mem_eraseIdx ht)
    | mark => simpa only [(sameTh_mark _ _ _).2.2.1, setTh] using h.q
    | retire => simpa only [(sameTh_unset _ _).2.2.1, setTh] using h.q
    | _ => exact h.q
  · intro j hj
    by_cases hth : th.pc.holds = true
    · rcases g6 hth with e | ⟨e, -⟩
      · have hji : j = a.i := by
          have := h.lk _ _ hi hth
          rw [e, this, Option.some.injEq] at hj
          exact hj.symm
        subst hji
        refine ⟨ti, g1, ?_⟩
        by_contra hc
        rw [g4 hth (by simpa using hc)] at hj
        simp at hj
      · rw [e] at hj; simp at hj
    · rcases g5 (by simpa using hth) with e | ⟨-, e2, e3⟩
      · rw [e] at hj
        obtain ⟨x, hx, hxh⟩ := h.h j hj
        have hji : j ≠ a.i := by
          rintro rfl
          rw [hi, Option.some.injEq] at hx; subst hx
          exact hth hxh
        obtain ⟨g, hg, -⟩ := o1 j x hji hx
        exact ⟨_, hg, hxh⟩
      · rw [e2, Option.some.injEq] at hj
        subst hj
        exact ⟨ti, g1, e3⟩
  · cases hm with
    | self hg hti =>
      subst hti
      obtain ⟨x, hx, hxs⟩ := hok.ref a.i (by simp [refs])
      rw [hi, Option.some.injEq] at hx; subst hx
      exact absurd (hok.secT hxs).2 (by simp)
    | mark => simpa only [(sameTh_mark _ _ _).2.2.2.1, setTh] using h.cr
    | retire => simpa only [(sameTh_unset _ _).2.2.2.1, setTh] using h.cr
    | _ => exact h.cr

/-- A thread that is not secondary and has something to do: somebody can make a step. -/
theorem good_progress {c : PoolCfg} {s : St} (h : Good s) {i : Nat} {th : Th} (hi : s.ths[i]? = some th) (hs : th.sec = false)
    (hu : th.pc ≠ .ready ∨ th.todo ≠ []) : ∃ a, (s.step c a).isSome = true := by
  cases hh : s.holder with
  | none =>
    refine ⟨⟨i, false, 0⟩, ?_⟩
    have hnh : th.pc.holds = false := by
      by_contra hc
      have := h.lk i th hi (by simpa using hc)
      rw [hh] at this; simp at this
    obtain ⟨b, g, pc, todo⟩ := th
    unfold step
    rw [h.cr]
    simp only [hi, hh]
    cases pc with
    | ready =>
      cases todo with
      | nil => simp at hu
      | cons x rest => cases x <;> simp
    | adding r => simp
    | ended => exact absurd rfl ((h.ok i _ hi).oth hs)
    | _ => simp [Pc.holds] at hnh
  | some j =>
    obtain ⟨tj, hj, hjh⟩ := h.h j hh
    have hok := h.ok j tj hj
    -- the thread that is waited for
    have wait : ∀ t, joinOf tj.pc = some t → IsSec s t → s.isEnded t = true ∨ ∃ a, (s.step c a).isSome = true := by
      intro t ht hsec
      obtain ⟨x, hx, hxs⟩ := hsec
      have hgo := hok.jn t ht
      unfold goes at hgo
      rw [hx] at hgo
      obtain ⟨hw, hp⟩ := (h.ok t x hx).secT hxs
      rcases hp with hp | hp
      · refine .inr ⟨⟨t, false, 0⟩, ?_⟩
        obtain ⟨b, g, pc, todo⟩ := x
        simp only at hp hxs hw hgo
        subst hp hxs hgo
        unfold step
        rw [h.cr]
        simp only [hx]
        cases todo with
        | nil => simp
        | cons y rest =>
          have := hw y (List.mem_cons_self ..)
          subst this
          simp
      · exact .inl (by unfold isEnded; rw [hx]; simp [hp])
    obtain ⟨b, g, pc, todo⟩ := tj
    cases pc with
    | purge n rest =>
      refine ⟨⟨j, false, 0⟩, ?_⟩
      unfold step; rw [h.cr]; simp only [hj]
      cases rest with
      | nil => simp only [Bool.false_eq_true, if_false]; split <;> rfl
      | cons t rest =>
        simp only [Bool.false_eq_true, if_false]
        split
        · rfl
        · split <;> rfl
    | pjoin n t rest =>
      rcases wait t rfl (hok.ref t (by simp [refs])) with he | he
      · refine ⟨⟨j, false, 0⟩, ?_⟩
        unfold step; rw [h.cr]; simp only [hj]
        simp [he]
      · exact he
    | freeze rest =>
      refine ⟨⟨j, false, 0⟩, ?_⟩
      unfold step; rw [h.cr]; simp only [hj]
      cases rest <;> simp
    | frz t rest =>
      refine ⟨⟨j, false, 0⟩, ?_⟩
      unfold step; rw [h.cr]; simp only [hj]
      simp
    | fjoin t rest =>
      rcases wait t rfl (hok.ref t (by simp [refs])) with he | he
      · refine ⟨⟨j, false, 0⟩, ?_⟩
        unfold step; rw [h.cr]; simp only [hj]
        simp [he]
      · exact he
    | _ => simp [Pc.holds] at hjh

end Coord
end CGraph
