import Verif.Lemmas.NestFail
import Verif.Lemmas.NestEnd

/-! # Progress of nested groups with failures -/
namespace CGraph
open Spec
namespace FailSt
open NestSt (upd upd_self upd_ne mem_fronts mem_succs)

/-- The frame is about a member of `b`. -/
def Above (c : NestCfg) : Frame → Nat → Prop
  | .call a, b => 1 ≤ a ∧ c.parent a = b
  | .hold a, b => 1 ≤ a ∧ c.parent a = b
  | .hand p _, b => p = b

/-- Below a frame lies the frame of its group. -/
def Over (c : NestCfg) (F G : Frame) : Prop := ∃ b, G = .hold b ∧ Above c F b

/-- The element should be in the hands of a thread. -/
def Due (c : NestCfg) (st : Nat → FStat) (err : Nat → Bool) (a : Nat) : Prop :=
  1 ≤ a ∧ a ≤ c.n ∧ st a = .wait ∧ st (c.parent a) = .launched ∧ err (c.parent a) = false ∧ ∀ d ∈ c.deps a, st d = .done

structure PInv (c : NestCfg) (s : FailSt) : Prop where
  act : ∀ e, s.st e = .entered → ∃ w, w ≤ c.W ∧ Frame.call e ∈ s.stk w
  lau : ∀ e, s.st e = .launched → ∃ w, w ≤ c.W ∧ Frame.hold e ∈ s.stk w
  held : ∀ a, Due c s.st s.err a → ∃ w, w ≤ c.W ∧ ∃ l, Frame.hand (c.parent a) l ∈ s.stk w ∧ a ∈ l
  chain : ∀ w, (s.stk w).IsChain (Over c)
  sq : ∀ e p, 1 ≤ e → s.st e = .queued p → c.serial (c.parent e) = false
  sh : ∀ w p l, Frame.hand p l ∈ s.stk w → c.serial p = true → l.length ≤ 1
  sb : ∀ w F, (s.stk w).getLast? = some F → ∀ x ∈ own F, 1 ≤ x → c.serial (c.parent x) = false
  main : ∀ w, 0 ∈ owned s.stk w → w = c.W
  out : ∀ w, c.W < w → s.stk w = []
  placed : ∀ e i, s.st e = .queued (some i) → i < c.W

theorem PInv.core {c : NestCfg} {s : FailSt} (h : PInv c s) {w e : Nat} {v : FStat} {old fs r : List Frame}
    {err' : Nat → Bool} {starts' : List Nat} (hs : s.stk w = old ++ r) (hwW : w ≤ c.W)
    (hact : v = .entered → Frame.call e ∈ fs ∨ (s.st e = .entered ∧ Frame.call e ∉ old))
    (hlau : v = .launched → Frame.hold e ∈ fs ∨ (s.st e = .launched ∧ Frame.hold e ∉ old))
    (hold : ∀ F ∈ old, own F = [e] ∨ ∃ p l, F = Frame.hand p l)
    (hheld : ∀ a, Due c (upd s.st e v) err' a → (∃ l, Frame.hand (c.parent a) l ∈ fs ∧ a ∈ l) ∨
      (Due c s.st s.err a ∧ ∀ l, Frame.hand (c.parent a) l ∈ old → a ∉ l))
    (hchain : (fs ++ r).IsChain (Over c))
    (hsq : ∀ p, v = .queued p → 1 ≤ e → c.serial (c.parent e) = false)
    (hsh : ∀ p l, Frame.hand p l ∈ fs → c.serial p = true → l.length ≤ 1)
    (hsb : ∀ F, (fs ++ r).getLast? = some F → ∀ x ∈ own F, 1 ≤ x → c.serial (c.parent x) = false)
    (hmain : 0 ∈ fs.flatMap own → w = c.W)
    (hpl : ∀ i, v = .queued (some i) → i < c.W) :
    PInv c ⟨upd s.st e v, upd s.stk w (fs ++ r), err', starts'⟩ := by
  have hkeep : ∀ u F, F ∈ s.stk u → F ∉ old → F ∈ upd s.stk w (fs ++ r) u := by
    intro u F hF hno
    by_cases hu : u = w
    · subst hu
      rw [upd_self]
      rw [hs] at hF
      rcases List.mem_append.mp hF with h | h
      · exact absurd h hno
      · exact List.mem_append_right _ h
    · rw [upd_ne _ _ hu]; exact hF
  have hnew : ∀ F ∈ fs, F ∈ upd s.stk w (fs ++ r) w := by
    intro F hF; rw [upd_self]; exact List.mem_append_left _ hF
  refine ⟨?_, ?_, ?_, ?_, ?_, ?_, ?_, ?_, ?_, ?_⟩
  · intro a ha
    by_cases hae : a = e
    · subst hae
      simp only [upd_self] at ha
      rcases hact ha with h1 | ⟨h1, h2⟩
      · exact ⟨w, hwW, hnew _ h1⟩
      · obtain ⟨u, hu, hF⟩ := h.act a h1
        exact ⟨u, hu, hkeep u _ hF h2⟩
    · simp only [upd_ne _ _ hae] at ha
      obtain ⟨u, hu, hF⟩ := h.act a ha
      refine ⟨u, hu, hkeep u _ hF ?_⟩
      intro hmem
      rcases hold _ hmem with h1 | ⟨p, l, h1⟩
      · simp [own] at h1; exact hae h1
      · cases h1
  · intro a ha
    by_cases hae : a = e
    · subst hae
      simp only [upd_self] at ha
      rcases hlau ha with h1 | ⟨h1, h2⟩
      · exact ⟨w, hwW, hnew _ h1⟩
      · obtain ⟨u, hu, hF⟩ := h.lau a h1
        exact ⟨u, hu, hkeep u _ hF h2⟩
    · simp only [upd_ne _ _ hae] at ha
      obtain ⟨u, hu, hF⟩ := h.lau a ha
      refine ⟨u, hu, hkeep u _ hF ?_⟩
      intro hmem
      rcases hold _ hmem with h1 | ⟨p, l, h1⟩
      · simp [own] at h1; exact hae h1
      · cases h1
  · intro a ha
    rcases hheld a ha with ⟨l, h1, h2⟩ | ⟨h1, h2⟩
    · exact ⟨w, hwW, l, hnew _ h1, h2⟩
    · obtain ⟨u, hu, l, hF, hal⟩ := h.held a h1
      exact ⟨u, hu, l, hkeep u _ hF (fun hm => h2 l hm hal), hal⟩
  · intro u
    by_cases hu : u = w
    · subst hu; simp only [upd_self]; exact hchain
    · simp only [upd_ne _ _ hu]; exact h.chain u
  · intro a p ha hq
    by_cases hae : a = e
    · subst hae
      simp only [upd_self] at hq
      exact hsq p hq ha
    · simp only [upd_ne _ _ hae] at hq
      exact h.sq a p ha hq
  · intro u p l hF hser
    rcases mem_upd_stk hF with ⟨-, h1⟩ | ⟨-, h1⟩ | ⟨rfl, h1⟩
    · exact hsh p l h1 hser
    · exact h.sh u p l h1 hser
    · exact h.sh u p l (by rw [hs]; exact List.mem_append_right _ h1) hser
  · intro u F hF
    by_cases hu : u = w
    · subst hu; simp only [upd_self] at hF; exact hsb F hF
    · simp only [upd_ne _ _ hu] at hF; exact h.sb u F hF
  · intro u hu
    obtain ⟨F, hF, h0⟩ := mem_owned.mp hu
    rcases mem_upd_stk hF with ⟨h1, h2⟩ | ⟨-, h1⟩ | ⟨rfl, h1⟩
    · rw [h1]; exact hmain (List.mem_flatMap.mpr ⟨F, h2, h0⟩)
    · exact h.main u (mem_owned.mpr ⟨F, h1, h0⟩)
    · exact h.main u (mem_owned.mpr ⟨F, by rw [hs]; exact List.mem_append_right _ h1, h0⟩)
  · intro u hu
    simp only [upd_ne _ _ (show u ≠ w by omega)]
    exact h.out u hu
  · intro a i hq
    by_cases hae : a = e
    · subst hae
      simp only [upd_self] at hq
      exact hpl i hq
    · simp only [upd_ne _ _ hae] at hq
      exact h.placed a i hq

theorem PInv.le {c : NestCfg} {s : FailSt} (h : PInv c s) {w : Nat} {F : Frame} {r : List Frame} (hs : s.stk w = F :: r) :
    w ≤ c.W := by
  by_contra hw
  rw [h.out w (by omega)] at hs
  cases hs

theorem PInv.top {c : NestCfg} {s : FailSt} (h : PInv c s) {w : Nat} {F : Frame} {r : List Frame} (hs : s.stk w = F :: r) :
    (F :: r).IsChain (Over c) := by
  rw [← hs]; exact h.chain w

theorem PInv.start {c : NestCfg} (hw : NestWF c) : PInv c (start c) := by
  have hst : ∀ e, (FailSt.start c).st e = if e = 0 then .entered else .wait := fun _ => rfl
  have hstk : ∀ w, (FailSt.start c).stk w = if w = c.W then [.call 0] else [] := fun _ => rfl
  refine ⟨?_, ?_, ?_, ?_, ?_, ?_, ?_, ?_, ?_, ?_⟩
  · intro e he
    rw [hst] at he
    split at he
    · rename_i h0; subst h0; exact ⟨c.W, Nat.le_refl _, by simp [hstk]⟩
    · cases he
  · intro e he; rw [hst] at he; split at he <;> cases he
  · rintro a ⟨-, -, -, h, -⟩; rw [hst] at h; split at h <;> cases h
  · intro w; rw [hstk]; split <;> simp
  · intro e p _ h; rw [hst] at h; split at h <;> cases h
  · intro w p l h; rw [hstk] at h; split at h <;> simp at h
  · intro w F h x hx h1
    rw [hstk] at h
    split at h
    · simp at h; subst h; simp [own] at hx; omega
    · cases h
  · intro w h
    obtain ⟨F, h1, -⟩ := mem_owned.mp h
    rw [hstk] at h1
    split at h1
    · assumption
    · cases h1
  · intro w hw; rw [hstk, if_neg (by omega)]
  · intro e i h; rw [hst] at h; split at h <;> cases h

/-- In a group executed serially every element has at most one dependant. -/
theorem serial_succs {c : NestCfg} (hw : NestWF c) {e : Nat} (h1 : 1 ≤ e) (h2 : e ≤ c.n) (hs : c.serial (c.parent e) = true) :
    (c.succs e).length ≤ 1 := by
  have hek : e ∈ c.kids (c.parent e) := (hw.kid_iff _ e).mpr ⟨h1, h2, rfl⟩
  by_cases hl : c.linkable e = true
  · unfold NestCfg.linkable at hl
    split at hl
    · rename_i hk; simp [hk]
    · cases hl
  · by_contra hlen
    have hex : ∃ m ∈ c.kids (c.parent e), ∀ x ∈ c.kids (c.parent e), x ≤ m := by
      have : ∀ L : List Nat, L ≠ [] → ∃ m ∈ L, ∀ x ∈ L, x ≤ m := by
        intro L
        induction L with
        | nil => intro h; exact absurd rfl h
        | cons a L ih =>
          intro _
          by_cases hL : L = []
          · subst hL; exact ⟨a, by simp, by simp⟩
          · obtain ⟨m, hm, hx⟩ := ih hL
            by_cases ham : a ≤ m
            · exact ⟨m, by simp [hm], fun x hx' => by
                rcases List.mem_cons.mp hx' with rfl | h
                · exact ham
                · exact hx x h⟩
            · exact ⟨a, by simp, fun x hx' => by
                rcases List.mem_cons.mp hx' with rfl | h
                · exact Nat.le_refl _
                · have := hx x h; omega⟩
      exact this _ (List.ne_nil_of_mem hek)
    obtain ⟨m, hm, hmax⟩ := hex
    have hmp := ((hw.kid_iff _ m).mp hm).2.2
    have hms : c.succs m = [] := by
      rw [List.eq_nil_iff_forall_not_mem]
      intro k hk
      have := mem_succs.mp hk
      have hd := hw.deps_of k m this.2
      have := hmax k (by rw [← hmp]; exact this.1)
      omega
    have hml : c.linkable m = false := by unfold NestCfg.linkable; rw [hms]
    have hne : e ≠ m := by
      rintro rfl
      rw [hms] at hlen
      simp at hlen
    unfold NestCfg.serial at hs
    simp only [Bool.or_eq_true, Bool.and_eq_true, beq_iff_eq, List.isEmpty_iff] at hs
    rcases hs with h0 | ⟨-, h3⟩
    · rw [h0] at hek; cases hek
    · have hsub : [e, m] ⊆ (c.kids (c.parent e)).filter (fun x => !c.linkable x) := by
        intro x hx
        simp only [List.mem_cons, List.not_mem_nil, or_false] at hx
        rcases hx with rfl | rfl
        · exact List.mem_filter.mpr ⟨hek, by simpa using hl⟩
        · exact List.mem_filter.mpr ⟨hm, by simp [hml]⟩
      have := (List.subperm_of_subset (by simp [hne]) hsub).length_le
      rw [h3] at this
      simp at this

theorem serial_fronts {c : NestCfg} {g : Nat} (hs : c.serial g = true) : (c.fronts g).length ≤ 1 := by
  unfold NestCfg.serial at hs
  simp only [Bool.or_eq_true, Bool.and_eq_true, beq_iff_eq, List.isEmpty_iff] at hs
  rcases hs with h0 | ⟨h3, -⟩
  · simp [NestCfg.fronts, h0]
  · omega

theorem over_above {c : NestCfg} {F F' : Frame} (h : ∀ b, Above c F b → Above c F' b) {r : List Frame}
    (hc : (F :: r).IsChain (Over c)) : (F' :: r).IsChain (Over c) := by
  cases r with
  | nil => simp
  | cons G r =>
    rw [List.isChain_cons_cons] at hc ⊢
    obtain ⟨⟨b, h1, h2⟩, h3⟩ := hc
    exact ⟨⟨b, h1, h b h2⟩, h3⟩

theorem chain_tail {c : NestCfg} {F : Frame} {r : List Frame} (hc : (F :: r).IsChain (Over c)) : r.IsChain (Over c) := by
  cases r with
  | nil => simp
  | cons G r => exact (List.isChain_cons_cons.mp hc).2

/-- Replacing the uppermost frame. -/
theorem bottom {c : NestCfg} {s : FailSt} (h : PInv c s) {w : Nat} {F : Frame} {r : List Frame} (hs : s.stk w = F :: r)
    {F' : Frame} (hF : (∀ x ∈ own F, 1 ≤ x → c.serial (c.parent x) = false) →
      ∀ x ∈ own F', 1 ≤ x → c.serial (c.parent x) = false) :
    ∀ G, (F' :: r).getLast? = some G → ∀ x ∈ own G, 1 ≤ x → c.serial (c.parent x) = false := by
  intro G hG
  cases r with
  | nil =>
    simp at hG
    subst hG
    exact hF (h.sb w F (by rw [hs]; rfl))
  | cons H r =>
    rw [List.getLast?_cons_cons] at hG
    exact h.sb w G (by rw [hs, List.getLast?_cons_cons]; exact hG)

theorem bottom_tail {c : NestCfg} {s : FailSt} (h : PInv c s) {w : Nat} {F : Frame} {r : List Frame} (hs : s.stk w = F :: r) :
    ∀ G, r.getLast? = some G → ∀ x ∈ own G, 1 ≤ x → c.serial (c.parent x) = false := by
  intro G hG
  cases r with
  | nil => cases hG
  | cons H r => exact h.sb w G (by rw [hs, List.getLast?_cons_cons]; exact hG)

theorem Due.of_upd {c : NestCfg} {st : Nat → FStat} {err err' : Nat → Bool} {e : Nat} {v : FStat} {a : Nat}
    (h : Due c (upd st e v) err' a) (herr : ∀ p, err p = true → err' p = true) (hd : v = .done → e ∉ c.deps a)
    (hv1 : v = .wait → st e = .wait) (hv2 : v = .launched → st e = .launched ∨ c.parent a ≠ e) : Due c st err a := by
  obtain ⟨h1, h2, h3, h4, h5, h6⟩ := h
  refine ⟨h1, h2, ?_, ?_, ?_, ?_⟩
  · by_cases hae : a = e
    · subst hae; rw [upd_self] at h3; exact hv1 h3
    · rw [upd_ne _ _ hae] at h3; exact h3
  · by_cases hpe : c.parent a = e
    · rw [hpe, upd_self] at h4
      rcases hv2 h4 with h | h
      · rw [hpe]; exact h
      · exact absurd hpe h
    · rw [upd_ne _ _ hpe] at h4; exact h4
  · by_contra hne
    rw [herr _ (by simpa using hne)] at h5
    cases h5
  · intro d hda
    have := h6 d hda
    by_cases hde : d = e
    · subst hde
      rw [upd_self] at this
      exact absurd hda (hd this)
    · rw [upd_ne _ _ hde] at this; exact this

theorem upd_same {α : Type} (f : Nat → α) (i : Nat) : upd f i (f i) = f := by
  funext k
  by_cases h : k = i
  · subst h; rw [upd_self]
  · rw [upd_ne _ _ h]

theorem PInv.endOk {c : NestCfg} {s : FailSt} (hw : NestWF c) (hi : FInv c s) (h : PInv c s) {w e : Nat} {F : Frame}
    {r : List Frame} (hs : s.stk w = F :: r) (hF : F = .call e ∨ F = .hold e)
    (ha : s.st e = .entered ∨ s.st e = .launched) : PInv c (endOk c s w e r) := by
  have hown : own F = [e] := by rcases hF with rfl | rfl <;> rfl
  have hne : s.st e ≠ .wait := by rcases ha with h | h <;> simp [h]
  have hd : s.st e ≠ .done := by rcases ha with h | h <;> simp [h]
  have hen := (hi.rel e hne).1
  have hnohand : ∀ p l, Frame.hand p l ∈ [F] → False := by
    intro p l hm
    rw [List.mem_singleton] at hm
    rcases hF with h | h <;> rw [h] at hm <;> cases hm
  unfold FailSt.endOk
  simp only
  set l := handOrder c e (ready c { s with st := upd s.st e .done } e) with hl
  have hmem : ∀ x, x ∈ l ↔ x ∈ c.kids (c.parent e) ∧ e ∈ c.deps x ∧ ∀ d ∈ c.deps x, upd s.st e .done d = .done := by
    intro x
    rw [hl, (handOrder_perm c e _).mem_iff, mem_ready]
  have hdue : ∀ a, Due c (upd s.st e .done) s.err a →
      (s.err (c.parent e) = false ∧ c.parent a = c.parent e ∧ a ∈ l) ∨ Due c s.st s.err a := by
    intro a hda
    by_cases hea : e ∈ c.deps a
    · left
      have hdo := hw.deps_of a e hea
      obtain ⟨h1, h2, -, -, h5, h6⟩ := hda
      refine ⟨by rw [hdo.2.2.2.2]; exact h5, hdo.2.2.2.2.symm, (hmem a).mpr ⟨?_, hea, h6⟩⟩
      exact (hw.kid_iff _ a).mpr ⟨h1, h2, hdo.2.2.2.2.symm⟩
    · right
      exact hda.of_upd (fun _ h => h) (fun _ => hea) (by simp) (by simp)
  by_cases herr : s.err (c.parent e) = true
  · rw [if_pos herr]
    refine h.core (fs := []) (old := [F]) hs (h.le hs) (by simp) (by simp)
      (fun G hG => .inl (by rw [List.mem_singleton.mp hG]; exact hown)) ?_
      (show r.IsChain (Over c) from chain_tail (h.top hs)) (by simp) (by simp) (bottom_tail h hs) (by simp) (by simp)
    intro a hda
    rcases hdue a hda with ⟨h1, -⟩ | h1
    · rw [herr] at h1; cases h1
    · exact .inr ⟨h1, fun l hm => (hnohand _ l hm).elim⟩
  · rw [if_neg herr]
    refine h.core (fs := [.hand (c.parent e) l]) (old := [F]) hs (h.le hs) (by simp) (by simp)
      (fun G hG => .inl (by rw [List.mem_singleton.mp hG]; exact hown)) ?_ ?_ (by simp) ?_ ?_ ?_ (by simp)
    · intro a hda
      rcases hdue a hda with ⟨-, h1, h2⟩ | h1
      · exact .inl ⟨l, by simp [h1], h2⟩
      · exact .inr ⟨h1, fun l hm => (hnohand _ l hm).elim⟩
    · refine over_above (F := F) (F' := .hand (c.parent e) l) (r := r) ?_ (h.top hs)
      intro b hb
      rcases hF with rfl | rfl <;> exact hb.2
    · intro p l' hm hser
      simp only [List.mem_singleton, Frame.hand.injEq] at hm
      obtain ⟨rfl, rfl⟩ := hm
      rw [hl, (handOrder_perm c e _).length_eq]
      by_cases h0 : 1 ≤ e
      · exact Nat.le_trans (List.length_filter_le _ _) (serial_succs hw h0 hen hser)
      · have : ready c { s with st := upd s.st e .done } e = [] := by
          rw [List.eq_nil_iff_forall_not_mem]
          intro x hx
          have := (hw.deps_of x e (mem_ready.mp hx).2.1).2.2.1
          omega
        rw [this]; simp
    · refine bottom h hs ?_
      intro h1 x hx _
      have hx' := (hmem x).mp hx
      have hdo := hw.deps_of x e hx'.2.1
      rw [← hdo.2.2.2.2]
      exact h1 e (by rw [hown]; simp) hdo.2.2.1
    · intro h0
      simp only [List.flatMap_cons, List.flatMap_nil, own, List.append_nil] at h0
      have := (hw.kid_iff _ 0).mp ((hmem 0).mp h0).1
      omega

theorem PInv.endErr {c : NestCfg} {s : FailSt} (h : PInv c s) {w e : Nat} {F : Frame}
    {r : List Frame} (hs : s.stk w = F :: r) (hF : F = .call e ∨ F = .hold e) : PInv c (endErr c s w e r) := by
  have hown : own F = [e] := by rcases hF with rfl | rfl <;> rfl
  refine h.core (fs := []) (old := [F]) hs (h.le hs) (by simp) (by simp)
    (fun G hG => .inl (by rw [List.mem_singleton.mp hG]; exact hown)) ?_
    (show r.IsChain (Over c) from chain_tail (h.top hs)) (by simp) (by simp) (bottom_tail h hs) (by simp) (by simp)
  intro a hda
  right
  refine ⟨hda.of_upd ?_ (by simp) (by simp) (by simp), ?_⟩
  · intro p hp
    by_cases h1 : p = c.parent e
    · subst h1; rw [upd_self]
    · rw [upd_ne _ _ h1]; exact hp
  · intro l hm
    rw [List.mem_singleton] at hm
    rcases hF with h | h <;> rw [h] at hm <;> cases hm

theorem PInv.step {c : NestCfg} {s s' : FailSt} (hw : NestWF c) (hi : FInv c s) (h : PInv c s) {a : FAct}
    (hs : s.step c a = some s') : PInv c s' := by
  cases a with
  | take w e =>
    simp only [FailSt.step] at hs
    split at hs
    · rename_i p hp
      have h0 : e ≠ 0 := by
        rintro rfl
        have := hi.zero
        rw [hp] at this
        cases this
      split at hs
      · rename_i hc
        split at hs
        · cases hs
          have := h.core (w := w) (e := e) (v := .dropped) (old := []) (fs := []) (r := s.stk w) (err' := s.err)
            (starts' := s.starts) rfl (by omega) (by simp) (by simp) (by simp)
            (fun a ha => .inr ⟨ha.of_upd (fun _ h => h) (by simp) (by simp) (by simp), by simp⟩) (h.chain w) (by simp)
            (by simp) (h.sb w) (by simp) (by simp)
          rw [show upd s.stk w ([] ++ s.stk w) = s.stk from upd_same s.stk w] at this
          exact this
        · cases hs
          have := h.core (w := w) (e := e) (v := .entered) (old := []) (fs := [.call e]) (r := []) (err' := s.err)
            (starts' := s.starts ++ [e]) (by simpa using hc.2.1) (by omega) (by simp) (by simp) (by simp)
            (fun a ha => .inr ⟨ha.of_upd (fun _ h => h) (by simp) (by simp) (by simp), by simp⟩) (by simp) (by simp)
            (by simp) ?_ ?_ (by simp)
          · exact this
          · intro F hF x hx h1
            simp at hF
            subst hF
            simp only [own, List.mem_singleton] at hx
            subst hx
            exact h.sq x p h1 hp
          · intro hx
            simp [own] at hx
            exact absurd hx.symm h0
      · cases hs
    · cases hs
  | go w pl ok =>
    simp only [FailSt.step] at hs
    split at hs
    · cases hs
    · rename_i e r hst
      have hent : s.st e = .entered := hi.frame w (.call e) (by rw [hst]; simp)
      split at hs
      · rename_i hg
        cases hs
        refine h.core (fs := [.hand e (c.fronts e), .hold e]) (old := [.call e]) (r := r) hst (h.le hst) (by simp) (by simp)
          (by simp [own]) ?_ ?_ (by simp) ?_ ?_ ?_ (by simp)
        · intro a ha
          by_cases hpa : c.parent a = e
          · left
            refine ⟨c.fronts e, by simp [hpa], ?_⟩
            obtain ⟨h1, h2, h3, h4, h5, h6⟩ := ha
            refine mem_fronts.mpr ⟨(hw.kid_iff e a).mpr ⟨h1, h2, hpa⟩, ?_⟩
            rw [List.eq_nil_iff_forall_not_mem]
            intro d hd
            have hdo := hw.deps_of a d hd
            have hdd := h6 d hd
            have hde : d ≠ e := by
              have := hw.parent_lt d hdo.2.2.1 (by omega)
              omega
            rw [upd_ne _ _ hde] at hdd
            have := (hi.rel d (by simp [hdd])).2.2 hdo.2.2.1
            rw [hdo.2.2.2.2, hpa, hent] at this
            cases this
          · exact .inr ⟨ha.of_upd (fun _ h => h) (by simp) (by simp) (fun _ => .inr hpa), by simp⟩
        · show (Frame.hand e (c.fronts e) :: Frame.hold e :: r).IsChain (Over c)
          rw [List.isChain_cons_cons]
          exact ⟨⟨e, rfl, rfl⟩, over_above (F := .call e) (F' := .hold e) (r := r) (fun b hb => hb) (h.top hst)⟩
        · intro p l hm hser
          simp at hm
          obtain ⟨rfl, rfl⟩ := hm
          exact serial_fronts hser
        · intro F hF
          rw [show [Frame.hand e (c.fronts e), .hold e] ++ r = Frame.hand e (c.fronts e) :: (Frame.hold e :: r) from rfl,
            List.getLast?_cons_cons] at hF
          exact bottom (F' := .hold e) h hst (fun h1 => h1) F hF
        · intro h0
          simp only [List.flatMap_cons, List.flatMap_nil, own, List.append_nil, List.mem_append, List.mem_singleton] at h0
          rcases h0 with h0 | h0
          · have := (hw.kid_iff _ 0).mp (mem_fronts.mp h0).1
            omega
          · exact h.main w (mem_owned.mpr ⟨.call e, by rw [hst]; simp, by simp [own, h0]⟩)
      · split at hs
        · cases hs
          exact h.endOk hw hi hst (.inl rfl) (.inl hent)
        · cases hs
          exact h.endErr hst (.inl rfl)
    · rename_i p r hst
      cases hs
      have := h.core (w := w) (e := 0) (v := s.st 0) (fs := []) (old := [.hand p []]) (r := r) (err' := s.err)
        (starts' := s.starts) hst (h.le hst) (by simp) (by simp) (by simp [own])
        (fun a ha => .inr ⟨by rw [upd_same] at ha; exact ha, by simp⟩) (show r.IsChain (Over c) from chain_tail (h.top hst))
        (by simp) (by simp) (bottom_tail h hst) (by simp) (fun i hi => h.placed 0 i hi)
      rw [upd_same] at this
      exact this
    · rename_i p x l r hst
      have hok := hi.frame w (.hand p (x :: l)) (by rw [hst]; simp)
      obtain ⟨hxk, hxw, hxd⟩ := hok.2 x (by simp)
      have hxk' := (hw.kid_iff p x).mp hxk
      have hlk : ∀ y ∈ l, y ∈ c.kids p := fun y hy => (hok.2 y (by simp [hy])).1
      have hown1 : ∀ G ∈ [Frame.hand p (x :: l)], own G = [x] ∨ ∃ p l, G = Frame.hand p l :=
        fun G hG => .inr ⟨p, x :: l, List.mem_singleton.mp hG⟩
      have hsh : ∀ q m, Frame.hand q m ∈ [Frame.hand p l] → c.serial q = true → m.length ≤ 1 := by
        intro q m hm hser
        simp only [List.mem_singleton, Frame.hand.injEq] at hm
        obtain ⟨rfl, rfl⟩ := hm
        have := h.sh w q (x :: m) (by rw [hst]; simp) hser
        simp at this; simp [this]
      have hbot : ∀ G, (Frame.hand p l :: r).getLast? = some G → ∀ x ∈ own G, 1 ≤ x → c.serial (c.parent x) = false :=
        bottom h hst (fun h1 y hy => h1 y (by simp [own] at hy ⊢; exact .inr hy))
      have h00 : ¬ 0 ∈ ([Frame.hand p l] : List Frame).flatMap own := by
        intro h0
        simp only [List.flatMap_cons, List.flatMap_nil, own, List.append_nil] at h0
        have := (hw.kid_iff _ 0).mp (hlk 0 h0)
        omega
      split at hs
      · rename_i hcond
        simp only [Bool.and_eq_true] at hcond
        cases hs
        have := h.core (w := w) (e := x) (v := s.st x) (fs := [.hand p l]) (old := [.hand p (x :: l)]) (r := r) (err' := s.err)
          (starts' := s.starts) hst (h.le hst) (by simp [hxw]) (by simp [hxw]) hown1 ?_
          (over_above (F := .hand p (x :: l)) (F' := .hand p l) (r := r) (fun b hb => hb) (h.top hst))
          (by simp [hxw]) hsh hbot (fun h0 => absurd h0 h00) (by simp [hxw])
        · rw [upd_same] at this
          exact this
        · intro a ha
          rw [upd_same] at ha
          by_cases hal : c.parent a = p ∧ a ∈ l
          · exact .inl ⟨l, by simp [hal.1], hal.2⟩
          · refine .inr ⟨ha, ?_⟩
            intro m hm ham
            simp only [List.mem_singleton, Frame.hand.injEq] at hm
            obtain ⟨h1, rfl⟩ := hm
            rcases List.mem_cons.mp ham with h2 | h2
            · have := ha.2.2.2.2.1
              rw [h1, hcond.1] at this
              cases this
            · exact hal ⟨h1, h2⟩
      · split at hs
        · rename_i hcond
          simp only [Bool.and_eq_true, List.isEmpty_iff] at hcond
          cases hs
          refine h.core (fs := [.call x]) (old := [.hand p (x :: l)]) hst (h.le hst) (by simp) (by simp) hown1 ?_
            (over_above (F := .hand p (x :: l)) (F' := .call x) (r := r) (fun b hb => ⟨hxk'.1, by rw [hxk'.2.2]; exact hb⟩) (h.top hst))
            (by simp) (by simp) (bottom h hst (fun h1 y hy => h1 y (by simp [own] at hy ⊢; exact .inl hy))) ?_ (by simp)
          · intro a ha
            have hax : a ≠ x := by
              rintro rfl
              have := ha.2.2.1
              rw [upd_self] at this
              cases this
            refine .inr ⟨ha.of_upd (fun _ h => h) (by simp) (by simp) (by simp), ?_⟩
            intro m hm ham
            simp only [List.mem_singleton, Frame.hand.injEq] at hm
            obtain ⟨h1, rfl⟩ := hm
            rw [hcond.1] at ham
            exact hax (List.mem_singleton.mp ham)
          · intro h0
            simp [own] at h0
            omega
        · rename_i hcond
          split at hs
          · rename_i hpl
            cases hs
            refine h.core (fs := [.hand p l]) (old := [.hand p (x :: l)]) hst (h.le hst) (by simp) (by simp) hown1 ?_
              (over_above (F := .hand p (x :: l)) (F' := .hand p l) (r := r) (fun b hb => hb) (h.top hst))
              ?_ hsh hbot (fun h0 => absurd h0 h00) ?_
            · intro a ha
              have hax : a ≠ x := by
                rintro rfl
                have := ha.2.2.1
                rw [upd_self] at this
                cases this
              by_cases hal : c.parent a = p ∧ a ∈ l
              · exact .inl ⟨l, by simp [hal.1], hal.2⟩
              · refine .inr ⟨ha.of_upd (fun _ h => h) (by simp) (by simp) (by simp), ?_⟩
                intro m hm ham
                simp only [List.mem_singleton, Frame.hand.injEq] at hm
                obtain ⟨h1, rfl⟩ := hm
                rcases List.mem_cons.mp ham with h2 | h2
                · exact hax h2
                · exact hal ⟨h1, h2⟩
            · intro q _ _
              by_contra hser
              have hser' : c.serial p = true := by rw [hxk'.2.2] at hser; simpa using hser
              have hlen := h.sh w p (x :: l) (by rw [hst]; simp) hser'
              have hl : l = [] := by
                cases l with
                | nil => rfl
                | cons => simp at hlen
              exact hcond (by simp [hl, inl, hser'])
            · intro i hi
              cases hi
              exact NestSt.place_lt (by rw [hxk'.2.2]; exact hxk) hpl
          · cases hs
    · rename_i g r hst
      have hok := hi.frame w (.hold g) (by rw [hst]; simp)
      split at hs
      · cases hs
        exact h.endErr hst (.inr rfl)
      · split at hs
        · cases hs
          exact h.endOk hw hi hst (.inr rfl) (.inr hok.1)
        · cases hs

theorem PInv.exec {c : NestCfg} (hw : NestWF c) (as : List FAct) {s : FailSt} (hi : FInv c s) (h : PInv c s) :
    PInv c (s.exec c as) := by
  induction as generalizing s with
  | nil => exact h
  | cons a as ih =>
    simp only [FailSt.exec]
    cases hs : s.step c a with
    | none => exact ih hi h
    | some s' => exact ih (hi.step hw hs) (h.step hw hi hs)

end FailSt
end CGraph
