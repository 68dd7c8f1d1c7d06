import Verif.Spec.NestFail
import Verif.Lemmas.NestRun

/-! # Invariant of nested groups with failures -/
namespace CGraph
open Spec
namespace FailSt
open NestSt (upd upd_self upd_ne mem_fronts mem_succs)

/-- The elements a frame is about. -/
def own : Frame → List Nat
  | .call e => [e]
  | .hand _ l => l
  | .hold g => [g]

/-- A group in this state has handed out its first members. -/
def isOpen : FStat → Bool
  | .launched | .done | .failed => true
  | _ => false

/-- What is known about the elements of a frame. -/
def FrameOk (c : NestCfg) (st : Nat → FStat) : Frame → Prop
  | .call e => st e = .entered
  | .hold g => st g = .launched ∧ c.group g = true
  | .hand p l => isOpen (st p) = true ∧ ∀ x ∈ l, x ∈ c.kids p ∧ st x = .wait ∧ ∀ d ∈ c.deps x, st d = .done

/-- All that threads are about. -/
def owned (stk : Nat → List Frame) (w : Nat) : List Nat := (stk w).flatMap own

structure FInv (c : NestCfg) (s : FailSt) : Prop where
  frame : ∀ w F, F ∈ s.stk w → FrameOk c s.st F
  nodup : ∀ w, (owned s.stk w).Nodup
  one : ∀ w v x, x ∈ owned s.stk w → x ∈ owned s.stk v → w = v
  rel : ∀ e, s.st e ≠ .wait → e ≤ c.n ∧ (∀ d ∈ c.deps e, s.st d = .done) ∧ (1 ≤ e → isOpen (s.st (c.parent e)) = true)
  grp : ∀ g, s.st g = .done → ∀ k ∈ c.kids g, s.st k = .done
  bad : ∀ k, 1 ≤ k → (s.st k = .failed ∨ s.st k = .dropped) → s.err (c.parent k) = true
  cause : ∀ p, s.err p = true → ∃ k ∈ c.kids p, s.st k = .failed
  gfail : ∀ g, s.st g = .failed → c.group g = true → s.err g = true
  snodup : s.starts.Nodup
  smem : ∀ e, e ∈ s.starts ↔ begunF (s.st e) = true
  zero : begunF (s.st 0) = true

theorem mem_owned {stk : Nat → List Frame} {w x : Nat} : x ∈ owned stk w ↔ ∃ F ∈ stk w, x ∈ own F := by
  simp [owned, List.mem_flatMap]

theorem mem_upd_stk {stk : Nat → List Frame} {w v : Nat} {fs r : List Frame} {F : Frame} (h : F ∈ upd stk w (fs ++ r) v) :
    (v = w ∧ F ∈ fs) ∨ (v ≠ w ∧ F ∈ stk v) ∨ (v = w ∧ F ∈ r) := by
  by_cases hv : v = w
  · subst hv
    rw [upd_self] at h
    rcases List.mem_append.mp h with h | h
    · exact .inl ⟨rfl, h⟩
    · exact .inr (.inr ⟨rfl, h⟩)
  · rw [upd_ne _ _ hv] at h
    exact .inr (.inl ⟨hv, h⟩)

theorem rest_not_own {stk : Nat → List Frame} (hn : ∀ w, (owned stk w).Nodup)
    (ho : ∀ w v x, x ∈ owned stk w → x ∈ owned stk v → w = v) {w v x : Nat} {old r : List Frame} (hs : stk w = old ++ r)
    (hx : x ∈ old.flatMap own ∨ ∀ v, x ∉ owned stk v) {F : Frame} (hF : (v ≠ w ∧ F ∈ stk v) ∨ (v = w ∧ F ∈ r)) :
    x ∉ own F := by
  intro hxF
  have hv : x ∈ owned stk v := by
    rcases hF with ⟨-, h⟩ | ⟨rfl, h⟩
    · exact mem_owned.mpr ⟨F, h, hxF⟩
    · exact mem_owned.mpr ⟨F, by rw [hs]; exact List.mem_append_right _ h, hxF⟩
  rcases hx with hx | hx
  · have hw : x ∈ owned stk w := by rw [owned, hs, List.flatMap_append]; exact List.mem_append_left _ hx
    rcases hF with ⟨h1, -⟩ | ⟨-, h2⟩
    · exact h1 (ho v w x hv hw)
    · have := hn w
      rw [owned, hs, List.flatMap_append] at this
      exact (List.nodup_append.mp this).2.2 x hx x (List.mem_flatMap.mpr ⟨F, h2, hxF⟩) rfl
  · exact hx v hv

theorem own_upd {stk : Nat → List Frame} (hn : ∀ w, (owned stk w).Nodup)
    (ho : ∀ w v x, x ∈ owned stk w → x ∈ owned stk v → w = v) {w : Nat} {old fs r : List Frame} (hs : stk w = old ++ r)
    (hf : (fs.flatMap own).Nodup) (hx : ∀ x ∈ fs.flatMap own, x ∈ old.flatMap own ∨ ∀ v, x ∉ owned stk v) :
    (∀ v, (owned (upd stk w (fs ++ r)) v).Nodup) ∧
    ∀ u v x, x ∈ owned (upd stk w (fs ++ r)) u → x ∈ owned (upd stk w (fs ++ r)) v → u = v := by
  have hnew : ∀ v x, x ∈ owned (upd stk w (fs ++ r)) v → (v = w ∧ x ∈ fs.flatMap own) ∨
      ∃ F, ((v ≠ w ∧ F ∈ stk v) ∨ (v = w ∧ F ∈ r)) ∧ x ∈ own F := by
    intro v x h
    obtain ⟨F, hF, hxF⟩ := mem_owned.mp h
    rcases mem_upd_stk hF with ⟨h1, h2⟩ | h2
    · exact .inl ⟨h1, List.mem_flatMap.mpr ⟨F, h2, hxF⟩⟩
    · exact .inr ⟨F, h2, hxF⟩
  have hrest : ∀ v x F, ((v ≠ w ∧ F ∈ stk v) ∨ (v = w ∧ F ∈ r)) → x ∈ own F → x ∈ owned stk v := by
    intro v x F h hxF
    rcases h with ⟨-, h⟩ | ⟨rfl, h⟩
    · exact mem_owned.mpr ⟨F, h, hxF⟩
    · exact mem_owned.mpr ⟨F, by rw [hs]; exact List.mem_append_right _ h, hxF⟩
  constructor
  · intro v
    by_cases hv : v = w
    · subst hv
      rw [owned, upd_self, List.flatMap_append, List.nodup_append]
      refine ⟨hf, ?_, ?_⟩
      · have := hn v
        rw [owned, hs, List.flatMap_append] at this
        exact (List.nodup_append.mp this).2.1
      · intro a ha b hb hab
        subst hab
        obtain ⟨F, hF, haF⟩ := List.mem_flatMap.mp hb
        exact rest_not_own hn ho hs (hx a ha) (.inr ⟨rfl, hF⟩) haF
    · rw [owned, upd_ne _ _ hv]; exact hn v
  · intro u v x hu hv
    rcases hnew u x hu with ⟨h1, h2⟩ | ⟨F, h1, h2⟩ <;> rcases hnew v x hv with ⟨h3, h4⟩ | ⟨G, h3, h4⟩
    · rw [h1, h3]
    · exact absurd h4 (rest_not_own hn ho hs (hx x h2) h3)
    · exact absurd h2 (rest_not_own hn ho hs (hx x h4) h1)
    · exact ho u v x (hrest u x F h1 h2) (hrest v x G h3 h4)

/-- A frame that is not about the changed element stays in order. -/
theorem FrameOk.upd {c : NestCfg} {st : Nat → FStat} {e : Nat} {v : FStat} {F : Frame} (h : FrameOk c st F) (he : e ∉ own F)
    (hd : st e ≠ .done) (ho : isOpen (st e) = true → isOpen v = true) : FrameOk c (upd st e v) F := by
  cases F with
  | call a =>
    simp only [own, List.mem_singleton] at he
    simp only [FrameOk] at h ⊢
    rw [upd_ne _ _ (Ne.symm he)]; exact h
  | hold a =>
    simp only [own, List.mem_singleton] at he
    simp only [FrameOk] at h ⊢
    rw [upd_ne _ _ (Ne.symm he)]; exact h
  | hand p l =>
    simp only [own] at he
    simp only [FrameOk] at h ⊢
    refine ⟨?_, ?_⟩
    · by_cases hp : p = e
      · subst hp; rw [upd_self]; exact ho h.1
      · rw [upd_ne _ _ hp]; exact h.1
    · intro x hx
      obtain ⟨h1, h2, h3⟩ := h.2 x hx
      refine ⟨h1, ?_, ?_⟩
      · rw [upd_ne _ _ (fun h => he (by rw [← h]; exact hx))]; exact h2
      · intro d hdx
        have := h3 d hdx
        rw [upd_ne _ _ (fun h => hd (by rw [← h]; exact this))]; exact this

/-- A step that changes the state of one element and the uppermost frames of one thread. -/
theorem FInv.core {c : NestCfg} {s : FailSt} (h : FInv c s) {w e : Nat} {v : FStat} {old fs r : List Frame}
    {err' : Nat → Bool} {starts' : List Nat} (hs : s.stk w = old ++ r)
    (hd : s.st e ≠ .done) (hfl : s.st e ≠ .failed) (ho : isOpen (s.st e) = true → isOpen v = true)
    (hown : e ∈ old.flatMap own ∨ ∀ v, e ∉ owned s.stk v)
    (hfs : ∀ F ∈ fs, FrameOk c (upd s.st e v) F) (hfn : (fs.flatMap own).Nodup)
    (hfx : ∀ x ∈ fs.flatMap own, x ∈ old.flatMap own ∨ ∀ v, x ∉ owned s.stk v)
    (hrel : v ≠ .wait → e ≤ c.n ∧ (∀ d ∈ c.deps e, s.st d = .done) ∧ (1 ≤ e → isOpen (s.st (c.parent e)) = true))
    (hgrp : v = .done → ∀ k ∈ c.kids e, s.st k = .done)
    (herr : ∀ p, s.err p = true → err' p = true)
    (hbad : v = .failed ∨ v = .dropped → 1 ≤ e → err' (c.parent e) = true)
    (hcause : ∀ p, err' p = true → s.err p = true ∨ (e ∈ c.kids p ∧ v = .failed))
    (hgf : v = .failed → c.group e = true → err' e = true)
    (hst : (begunF v = true ∧ begunF (s.st e) = false ∧ starts' = s.starts ++ [e]) ∨
      (begunF v = begunF (s.st e) ∧ starts' = s.starts))
    (hz : e = 0 → begunF v = true) :
    FInv c ⟨upd s.st e v, upd s.stk w (fs ++ r), err', starts'⟩ := by
  have hkeep : ∀ d, s.st d = .done → upd s.st e v d = .done := by
    intro d h1
    rw [upd_ne _ _ (fun h => hd (by rw [← h]; exact h1))]; exact h1
  have hopen : ∀ p, isOpen (s.st p) = true → isOpen (upd s.st e v p) = true := by
    intro p h1
    by_cases hp : p = e
    · subst hp; rw [upd_self]; exact ho h1
    · rw [upd_ne _ _ hp]; exact h1
  obtain ⟨hn', ho'⟩ := own_upd h.nodup h.one hs hfn hfx
  refine ⟨?_, hn', ho', ?_, ?_, ?_, ?_, ?_, ?_, ?_, ?_⟩
  · intro u F hF
    rcases mem_upd_stk hF with ⟨-, h1⟩ | h1
    · exact hfs F h1
    · refine FrameOk.upd ?_ (rest_not_own h.nodup h.one hs hown h1) hd ho
      rcases h1 with ⟨-, h1⟩ | ⟨rfl, h1⟩
      · exact h.frame u F h1
      · exact h.frame u F (by rw [hs]; exact List.mem_append_right _ h1)
  · intro a ha
    by_cases hae : a = e
    · subst hae
      simp only [upd_self] at ha
      obtain ⟨h1, h2, h3⟩ := hrel ha
      exact ⟨h1, fun d hd => hkeep d (h2 d hd), fun h4 => hopen _ (h3 h4)⟩
    · simp only [upd_ne _ _ hae] at ha
      obtain ⟨h1, h2, h3⟩ := h.rel a ha
      exact ⟨h1, fun d hd => hkeep d (h2 d hd), fun h4 => hopen _ (h3 h4)⟩
  · intro g hg k hk
    by_cases hge : g = e
    · subst hge
      simp only [upd_self] at hg
      exact hkeep k (hgrp hg k hk)
    · simp only [upd_ne _ _ hge] at hg
      exact hkeep k (h.grp g hg k hk)
  · intro k hk hv
    by_cases hke : k = e
    · subst hke
      simp only [upd_self] at hv
      exact hbad hv hk
    · simp only [upd_ne _ _ hke] at hv
      exact herr _ (h.bad k hk hv)
  · intro p hp
    rcases hcause p hp with h1 | ⟨h1, h2⟩
    · obtain ⟨k, h3, h4⟩ := h.cause p h1
      refine ⟨k, h3, ?_⟩
      show upd s.st e v k = .failed
      rw [upd_ne _ _ (fun h => hfl (by rw [← h]; exact h4))]; exact h4
    · exact ⟨e, h1, by show upd s.st e v e = .failed; rw [upd_self, h2]⟩
  · intro g hg hgg
    by_cases hge : g = e
    · subst hge
      simp only [upd_self] at hg
      exact hgf hg hgg
    · simp only [upd_ne _ _ hge] at hg
      exact herr _ (h.gfail g hg hgg)
  · rcases hst with ⟨h1, h2, h3⟩ | ⟨-, h3⟩
    · show starts'.Nodup
      rw [h3, List.nodup_append]
      refine ⟨h.snodup, by simp, ?_⟩
      intro a ha b hb hab
      rw [List.mem_singleton.mp hb] at hab
      rw [hab] at ha
      have := (h.smem e).mp ha
      rw [h2] at this; cases this
    · show starts'.Nodup
      rw [h3]; exact h.snodup
  · intro a
    show a ∈ starts' ↔ begunF (upd s.st e v a) = true
    rcases hst with ⟨h1, h2, h3⟩ | ⟨h1, h3⟩
    · rw [h3, List.mem_append, List.mem_singleton]
      by_cases hae : a = e
      · subst hae; simp [h1]
      · rw [upd_ne _ _ hae, h.smem a]; simp [hae]
    · rw [h3]
      by_cases hae : a = e
      · subst hae; rw [upd_self, h1]; exact h.smem a
      · rw [upd_ne _ _ hae]; exact h.smem a
  · show begunF (upd s.st e v 0) = true
    by_cases h0 : e = 0
    · subst h0; rw [upd_self]; exact hz rfl
    · rw [upd_ne _ _ (Ne.symm h0)]; exact h.zero

/-- A step that changes the frames only. -/
theorem FInv.stack {c : NestCfg} {s : FailSt} (h : FInv c s) {w : Nat} {old fs r : List Frame} (hs : s.stk w = old ++ r)
    (hfs : ∀ F ∈ fs, FrameOk c s.st F) (hfn : (fs.flatMap own).Nodup)
    (hfx : ∀ x ∈ fs.flatMap own, x ∈ old.flatMap own) :
    FInv c { s with stk := upd s.stk w (fs ++ r) } := by
  obtain ⟨hn', ho'⟩ := own_upd h.nodup h.one hs hfn (fun x hx => .inl (hfx x hx))
  refine ⟨?_, hn', ho', h.rel, h.grp, h.bad, h.cause, h.gfail, h.snodup, h.smem, h.zero⟩
  intro u F hF
  rcases mem_upd_stk hF with ⟨-, h1⟩ | ⟨-, h1⟩ | ⟨rfl, h1⟩
  · exact hfs F h1
  · exact h.frame u F h1
  · exact h.frame u F (by rw [hs]; exact List.mem_append_right _ h1)

theorem FInv.start {c : NestCfg} (hw : NestWF c) : FInv c (start c) := by
  have hst : ∀ e, (FailSt.start c).st e = if e = 0 then .entered else .wait := fun _ => rfl
  have hown : ∀ w x, x ∈ owned (FailSt.start c).stk w → w = c.W ∧ x = 0 := by
    intro w x hx
    obtain ⟨F, h1, h2⟩ := mem_owned.mp hx
    simp only [FailSt.start] at h1
    split at h1
    · rw [List.mem_singleton.mp h1] at h2
      exact ⟨by assumption, by simpa [own] using h2⟩
    · cases h1
  refine ⟨?_, ?_, ?_, ?_, ?_, ?_, ?_, ?_, ?_, ?_, ?_⟩
  · intro w F hF
    simp only [FailSt.start] at hF
    split at hF
    · rw [List.mem_singleton.mp hF]; simp [FrameOk, hst]
    · cases hF
  · intro w
    simp only [owned, FailSt.start]
    split <;> simp [own]
  · intro w v x h1 h2
    rw [(hown w x h1).1, (hown v x h2).1]
  · intro e he
    rw [hst] at he
    by_cases h0 : e = 0
    · subst h0
      refine ⟨Nat.zero_le _, ?_, by omega⟩
      intro d hd
      have := (hw.deps_of 0 d hd).1
      omega
    · simp [h0] at he
  · intro g hg; rw [hst] at hg; split at hg <;> cases hg
  · intro k _ hk; rw [hst] at hk; rcases hk with hk | hk <;> split at hk <;> cases hk
  · intro p hp; cases hp
  · intro g hg; rw [hst] at hg; split at hg <;> cases hg
  · simp [FailSt.start]
  · intro e
    rw [hst]
    by_cases h0 : e = 0 <;> simp [h0, FailSt.start, begunF]
  · simp [hst, begunF]

theorem FInv.free {c : NestCfg} {s : FailSt} (h : FInv c s) {x : Nat} (h1 : s.st x ≠ .entered) (h2 : s.st x ≠ .launched)
    (h3 : s.st x ≠ .wait) : ∀ v, x ∉ owned s.stk v := by
  intro v hx
  obtain ⟨F, hF, hxF⟩ := mem_owned.mp hx
  have hok := h.frame v F hF
  cases F with
  | call a => simp only [own, List.mem_singleton] at hxF; subst hxF; exact h1 hok
  | hold a => simp only [own, List.mem_singleton] at hxF; subst hxF; exact h2 hok.1
  | hand p l => exact h3 (hok.2 x hxF).2.1

theorem FInv.free_wait {c : NestCfg} {s : FailSt} (h : FInv c s) {x : Nat} (hx : s.st x = .wait)
    (hne : ∀ v p l, Frame.hand p l ∈ s.stk v → x ∉ l) : ∀ v, x ∉ owned s.stk v := by
  intro v hxv
  obtain ⟨F, hF, hxF⟩ := mem_owned.mp hxv
  have hok := h.frame v F hF
  cases F with
  | call a => simp only [own, List.mem_singleton] at hxF; subst hxF; rw [FrameOk, hx] at hok; cases hok
  | hold a => simp only [own, List.mem_singleton] at hxF; subst hxF; rw [FrameOk, hx] at hok; cases hok.1
  | hand p l => exact hne v p l hF hxF

theorem handOrder_perm (c : NestCfg) (e : Nat) (l : List Nat) : (handOrder c e l).Perm l := by
  unfold handOrder
  split
  · exact List.Perm.refl _
  · cases l with
    | nil => exact List.Perm.refl _
    | cons a l => simpa using (List.perm_append_singleton a l)

theorem succs_nodup {c : NestCfg} (hw : NestWF c) (e : Nat) : (c.succs e).Nodup := (hw.kids_nodup _).filter _

theorem mem_ready {c : NestCfg} {s : FailSt} {e k : Nat} :
    k ∈ ready c s e ↔ k ∈ c.kids (c.parent e) ∧ e ∈ c.deps k ∧ ∀ d ∈ c.deps k, s.st d = .done := by
  simp [ready, mem_succs, and_assoc]

/-- The end of an element that a thread was executing, without error. -/
theorem FInv.endOk {c : NestCfg} {s : FailSt} (hw : NestWF c) (h : FInv c s) {w e : Nat} {F : Frame} {r : List Frame}
    (hs : s.stk w = F :: r) (hF : own F = [e]) (ha : s.st e = .entered ∨ s.st e = .launched)
    (hk : ∀ k ∈ c.kids e, s.st k = .done) : FInv c (endOk c s w e r) := by
  have hd : s.st e ≠ .done := by rcases ha with h | h <;> simp [h]
  have hne : s.st e ≠ .wait := by rcases ha with h | h <;> simp [h]
  obtain ⟨hr1, hr2, hr3⟩ := h.rel e hne
  have hfl : s.st e ≠ .failed := by rcases ha with h | h <;> simp [h]
  have hbeg : begunF (s.st e) = true := by rcases ha with h | h <;> simp [h, begunF]
  have hs' : s.stk w = [F] ++ r := hs
  have main : ∀ fs : List Frame, (∀ G ∈ fs, FrameOk c (upd s.st e .done) G) → (fs.flatMap own).Nodup →
      (∀ x ∈ fs.flatMap own, x ∈ [F].flatMap own ∨ ∀ v, x ∉ owned s.stk v) →
      FInv c ⟨upd s.st e .done, upd s.stk w (fs ++ r), s.err, s.starts⟩ := by
    intro fs h1 h2 h3
    refine h.core hs' hd hfl (fun _ => rfl) (.inl (by simp [hF])) h1 h2 h3 (fun _ => ⟨hr1, hr2, hr3⟩) (fun _ => hk)
      (fun _ h => h) (by simp) (fun p hp => .inl hp) (by simp) (.inr ⟨by rw [hbeg]; rfl, rfl⟩) (fun _ => rfl)
  unfold FailSt.endOk
  simp only
  split
  · exact main [] (by simp) (by simp) (by simp)
  · rename_i herr
    set l := handOrder c e (ready c { s with st := upd s.st e .done } e) with hl
    have hmem : ∀ x, x ∈ l → x ∈ c.kids (c.parent e) ∧ e ∈ c.deps x ∧ ∀ d ∈ c.deps x, upd s.st e .done d = .done := by
      intro x hx
      exact mem_ready.mp ((handOrder_perm c e _).mem_iff.mp hx)
    have hwait : ∀ x ∈ l, s.st x = .wait := by
      intro x hx
      by_contra hxw
      exact hd ((h.rel x hxw).2.1 e (hmem x hx).2.1)
    have hxe : ∀ x ∈ l, x ≠ e := by
      intro x hx hxe
      have := hwait x hx
      rw [hxe] at this
      exact hne this
    refine main [.hand (c.parent e) l] ?_ ?_ ?_
    · intro G hG
      rw [List.mem_singleton.mp hG]
      refine ⟨?_, ?_⟩
      · by_cases h1 : 1 ≤ e
        · rw [upd_ne _ _ (by have := hw.parent_lt e h1 hr1; omega)]
          exact hr3 h1
        · have : e = 0 := by omega
          subst this
          rw [hw.parent_zero, upd_self]; rfl
      · intro x hx
        exact ⟨(hmem x hx).1, by rw [upd_ne _ _ (hxe x hx)]; exact hwait x hx, (hmem x hx).2.2⟩
    · simp only [List.flatMap_cons, List.flatMap_nil, List.append_nil, own]
      exact (handOrder_perm c e _).nodup_iff.mpr ((succs_nodup hw e).filter _)
    · intro x hx
      simp only [List.flatMap_cons, List.flatMap_nil, List.append_nil, own] at hx
      right
      refine h.free_wait (hwait x hx) ?_
      intro v p l' hl' hxl'
      exact hd (((h.frame v _ hl').2 x hxl').2.2 e (hmem x hx).2.1)

/-- The end with an error. -/
theorem FInv.endErr {c : NestCfg} {s : FailSt} (hw : NestWF c) (h : FInv c s) {w e : Nat} {F : Frame} {r : List Frame}
    (hs : s.stk w = F :: r) (hF : own F = [e]) (ha : s.st e = .entered ∨ s.st e = .launched)
    (hg : c.group e = true → s.err e = true) : FInv c (endErr c s w e r) := by
  have hne : s.st e ≠ .wait := by rcases ha with h | h <;> simp [h]
  obtain ⟨hr1, hr2, hr3⟩ := h.rel e hne
  have hbeg : begunF (s.st e) = true := by rcases ha with h | h <;> simp [h, begunF]
  have hmono : ∀ p, s.err p = true → upd s.err (c.parent e) true p = true := by
    intro p hp
    by_cases h1 : p = c.parent e
    · subst h1; rw [upd_self]
    · rw [upd_ne _ _ h1]; exact hp
  refine h.core (fs := []) (old := [F]) hs (by rcases ha with h | h <;> simp [h]) (by rcases ha with h | h <;> simp [h])
    (fun _ => rfl) (.inl (by simp [hF])) (by simp) (by simp) (by simp) (fun _ => ⟨hr1, hr2, hr3⟩) (by simp) hmono
    (fun _ _ => by rw [upd_self]) ?_ (fun _ hgg => hmono e (hg hgg)) (.inr ⟨by rw [hbeg]; rfl, rfl⟩) (fun _ => rfl)
  intro p hp
  by_cases h1 : p = c.parent e
  · by_cases h0 : 1 ≤ e
    · exact .inr ⟨(hw.kid_iff p e).mpr ⟨h0, hr1, h1.symm⟩, rfl⟩
    · have h00 : e = 0 := by omega
      subst h00
      rw [hw.parent_zero] at h1
      subst h1
      exact .inl (hg hw.group_zero)
  · rw [upd_ne _ _ h1] at hp
    exact .inl hp

theorem FInv.step {c : NestCfg} {s s' : FailSt} (hw : NestWF c) (h : FInv c s) {a : FAct} (hs : s.step c a = some s') :
    FInv c s' := by
  cases a with
  | take w e =>
    simp only [FailSt.step] at hs
    split at hs
    · rename_i p hp
      have hrel := h.rel e (by simp [hp])
      have hfree := h.free (x := e) (by simp [hp]) (by simp [hp]) (by simp [hp])
      have h0 : e ≠ 0 := by
        rintro rfl
        have := h.zero
        rw [hp] at this
        cases this
      split at hs
      · rename_i hc
        split at hs
        · rename_i hcond
          simp only [Bool.and_eq_true] at hcond
          cases hs
          have := h.core (w := w) (e := e) (v := .dropped) (old := []) (fs := []) (r := s.stk w) (err' := s.err)
            (starts' := s.starts) rfl (by simp [hp]) (by simp [hp]) (by simp [hp, isOpen]) (.inr hfree) (by simp) (by simp)
            (by simp) (fun _ => hrel) (by simp) (fun _ h => h) (fun _ _ => hcond.2) (fun p hp => .inl hp) (by simp)
            (.inr ⟨by simp [hp, begunF], rfl⟩) (fun h => absurd h h0)
          have hupd : upd s.stk w ([] ++ s.stk w) = s.stk := by
            funext v; by_cases hv : v = w
            · subst hv; simp
            · rw [upd_ne _ _ hv]
          rw [hupd] at this
          exact this
        · cases hs
          have := h.core (w := w) (e := e) (v := .entered) (old := []) (fs := [.call e]) (r := []) (err' := s.err)
            (starts' := s.starts ++ [e]) (by simpa using hc.2.1) (by simp [hp]) (by simp [hp]) (by simp [hp, isOpen])
            (.inr hfree) (by simp [FrameOk]) (by simp [own]) (by simpa [own] using hfree) (fun _ => hrel) (by simp)
            (fun _ h => h) (by simp) (fun p hp => .inl hp) (by simp) (.inl ⟨rfl, by simp [hp, begunF], rfl⟩) (fun _ => rfl)
          exact this
      · cases hs
    · cases hs
  | go w pl ok =>
    simp only [FailSt.step] at hs
    split at hs
    · cases hs
    · rename_i e r hst
      have hent : s.st e = .entered := h.frame w (.call e) (by rw [hst]; simp)
      split at hs
      · rename_i hg
        cases hs
        have hrel := h.rel e (by simp [hent])
        have hfw : ∀ x ∈ c.fronts e, s.st x = .wait ∧ x ≠ e ∧ 1 ≤ x ∧ c.parent x = e := by
          intro x hx
          have hk := (mem_fronts.mp hx).1
          have hk' := (hw.kid_iff e x).mp hk
          refine ⟨?_, ?_, hk'.1, hk'.2.2⟩
          · by_contra hxw
            have := (h.rel x hxw).2.2 hk'.1
            rw [hk'.2.2, hent] at this
            cases this
          · have := hw.parent_lt x hk'.1 hk'.2.1
            omega
        refine h.core (fs := [.hand e (c.fronts e), .hold e]) (old := [.call e]) (r := r) hst (by simp [hent]) (by simp [hent])
          (by simp [isOpen]) (.inl (by simp [own])) ?_ ?_ ?_ (fun _ => hrel) (by simp) (fun _ h => h) (by simp)
          (fun p hp => .inl hp) (by simp) (.inr ⟨by simp [hent, begunF], rfl⟩) (fun _ => rfl)
        · intro G hG
          simp only [List.mem_cons, List.not_mem_nil, or_false] at hG
          rcases hG with rfl | rfl
          · refine ⟨by rw [upd_self]; rfl, ?_⟩
            intro x hx
            refine ⟨(mem_fronts.mp hx).1, by rw [upd_ne _ _ (hfw x hx).2.1]; exact (hfw x hx).1, ?_⟩
            rw [(mem_fronts.mp hx).2]; simp
          · exact ⟨by rw [upd_self], hg⟩
        · simp only [List.flatMap_cons, List.flatMap_nil, own, List.append_nil, List.nodup_append]
          refine ⟨(hw.kids_nodup e).filter _, by simp, ?_⟩
          intro a ha b hb hab
          rw [List.mem_singleton.mp hb] at hab
          exact (hfw a ha).2.1 hab
        · intro x hx
          simp only [List.flatMap_cons, List.flatMap_nil, own, List.append_nil, List.mem_append, List.mem_singleton] at hx
          rcases hx with hx | rfl
          · right
            refine h.free_wait (hfw x hx).1 ?_
            intro v p l hl hxl
            have hok := h.frame v _ hl
            have hp := ((hw.kid_iff p x).mp (hok.2 x hxl).1).2.2
            have h1 := hok.1
            rw [← hp, (hfw x hx).2.2.2, hent] at h1
            cases h1
          · left; simp [own]
      · rename_i hg
        have hkn : c.kids e = [] := by
          by_contra hne
          exact hg (hw.group_of e hne)
        split at hs
        · cases hs
          exact h.endOk hw hst rfl (.inl hent) (by simp [hkn])
        · cases hs
          exact h.endErr hw hst rfl (.inl hent) (fun h => absurd h hg)
    · rename_i p r hst
      cases hs
      exact h.stack (fs := []) (old := [.hand p []]) hst (by simp) (by simp) (by simp)
    · rename_i p x l r hst
      have hok := h.frame w (.hand p (x :: l)) (by rw [hst]; simp)
      have hnd : (x :: l).Nodup := by
        have := h.nodup w
        rw [owned, hst, List.flatMap_cons] at this
        exact (List.nodup_append.mp this).1
      obtain ⟨hxk, hxw, hxd⟩ := hok.2 x (by simp)
      have hxk' := (hw.kid_iff p x).mp hxk
      have hx0 : x ≠ 0 := by omega
      have hrel : x ≤ c.n ∧ (∀ d ∈ c.deps x, s.st d = .done) ∧ (1 ≤ x → isOpen (s.st (c.parent x)) = true) :=
        ⟨hxk'.2.1, hxd, fun _ => by rw [hxk'.2.2]; exact hok.1⟩
      split at hs
      · cases hs
        refine h.stack (fs := [.hand p l]) (old := [.hand p (x :: l)]) hst ?_ ?_ ?_
        · intro G hG
          rw [List.mem_singleton.mp hG]
          exact ⟨hok.1, fun y hy => hok.2 y (by simp [hy])⟩
        · simpa [own] using (List.nodup_cons.mp hnd).2
        · intro y hy
          simp only [List.flatMap_cons, List.flatMap_nil, own, List.append_nil] at hy ⊢
          simp [hy]
      · split at hs
        · cases hs
          refine h.core (fs := [.call x]) (old := [.hand p (x :: l)]) hst (by simp [hxw]) (by simp [hxw])
            (by simp [hxw, isOpen]) (.inl (by simp [own])) ?_ (by simp [own]) (by simp [own]) (fun _ => hrel) (by simp)
            (fun _ h => h) (by simp) (fun p hp => .inl hp) (by simp) (.inl ⟨rfl, by simp [hxw, begunF], rfl⟩) (fun _ => rfl)
          intro G hG
          rw [List.mem_singleton.mp hG]
          simp [FrameOk]
        · split at hs
          · cases hs
            refine h.core (fs := [.hand p l]) (old := [.hand p (x :: l)]) hst (by simp [hxw]) (by simp [hxw])
              (by simp [hxw, isOpen]) (.inl (by simp [own])) ?_ (by simpa [own] using (List.nodup_cons.mp hnd).2) ?_
              (fun _ => hrel) (by simp) (fun _ h => h) (by simp) (fun p hp => .inl hp) (by simp)
              (.inr ⟨by simp [hxw, begunF], rfl⟩) (fun h => absurd h hx0)
            · intro G hG
              rw [List.mem_singleton.mp hG]
              have hold : FrameOk c s.st (.hand p l) := ⟨hok.1, fun y hy => hok.2 y (by simp [hy])⟩
              exact FrameOk.upd hold (List.nodup_cons.mp hnd).1 (by simp [hxw]) (by simp [hxw, isOpen])
            · intro y hy
              left
              simp only [List.flatMap_cons, List.flatMap_nil, own, List.append_nil] at hy ⊢
              simp [hy]
          · cases hs
    · rename_i g r hst
      have hok := h.frame w (.hold g) (by rw [hst]; simp)
      split at hs
      · rename_i herr
        cases hs
        exact h.endErr hw hst rfl (.inr hok.1) (fun _ => herr)
      · split at hs
        · rename_i hk
          cases hs
          exact h.endOk hw hst rfl (.inr hok.1) (by simpa using hk)
        · cases hs

theorem FInv.exec {c : NestCfg} (hw : NestWF c) (as : List FAct) {s : FailSt} (h : FInv c s) : FInv c (s.exec c as) := by
  induction as generalizing s with
  | nil => exact h
  | cons a as ih =>
    simp only [FailSt.exec]
    cases hs : s.step c a with
    | none => exact ih h
    | some s' => exact ih (h.step hw hs)

end FailSt
end CGraph
