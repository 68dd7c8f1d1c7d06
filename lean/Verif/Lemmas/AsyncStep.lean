import Verif.Lemmas.Async

/-! # Every step of the elements with a timeout keeps the invariant -/
namespace CGraph
open Spec
namespace ASt

theorem neutral_not_run {x : AEv} (hx : AEv.neutral x = true) : x ≠ .runBegin := by
  rintro rfl; simp [AEv.neutral] at hx

theorem AInv.emit {c : ACfg} {s : ASt} (h : AInv c s) {x : AEv} (hx : AEv.neutral x = true) : AInv c (s.emit x) := by
  have hr := neutral_not_run hx
  have hm : ∀ y, y ∈ lastRun s.hist → y ∈ lastRun (s.emit x).hist := fun y hy => (mem_lastRun_snoc hr).mpr (.inl hy)
  have hc : ∀ e id, .commit e id ∈ lastRun (s.emit x).hist → .commit e id ∈ lastRun s.hist := by
    intro e id hy
    rcases (mem_lastRun_snoc hr).mp hy with hy | hy
    · exact hy
    · subst hy; simp [AEv.neutral] at hx
  exact {
    futE := h.futE, out := h.out, fout := h.fout, quietE := h.quietE, quietF := h.quietF, wait := h.wait
    getlt := h.getlt, old := h.old, live := h.live, tmo := h.tmo
    this := fun e id hy => h.this e id (hc e id hy)
    rdy := fun e id hp hy => h.rdy e id hp (hc e id hy)
    endF := fun e st hp => by
      obtain ⟨h0, id, r, h1, h2⟩ := h.endF e st hp
      exact ⟨h0, id, r, hm _ h1, h2⟩
    endT := fun e st hp => by
      obtain ⟨h0, ⟨id, h1⟩, h2⟩ := h.endT e st hp
      exact ⟨hm _ h0, ⟨id, hm _ h1⟩, h2⟩
    wt := fun e id hp => hm _ (h.wt e id hp)
    fenA := h.fenA, fenG := h.fenG }

/-- The body `id`, which has not ended, makes progress. -/
theorem AInv.setTask {c : ACfg} {s : ASt} (h : AInv c s) {e id : Nat} {k k' : ATk}
    (ht : s.tasks[id]? = some ⟨e, k⟩) (hk : ∀ r, k ≠ .done r) :
    AInv c { s with tasks := s.tasks.set id ⟨e, k'⟩ } := by
  have hlt : id < s.tasks.length := (List.getElem?_eq_some_iff.mp ht).1
  have hres : ∀ id' r, s.result id' = some r →
      ({ s with tasks := s.tasks.set id ⟨e, k'⟩ } : ASt).result id' = some r := by
    intro id' r hr
    rw [result_eq] at hr ⊢
    obtain ⟨e', he'⟩ := hr
    refine ⟨e', ?_⟩
    have hne : id ≠ id' := by
      rintro rfl
      rw [ht] at he'
      simp at he'
      exact hk r he'.2
    simpa [List.getElem?_set, hne] using he'
  have hex : ∀ (e' id' : Nat), (∃ k, s.tasks[id']? = some (⟨e', k⟩ : ATask)) →
      ∃ k, (s.tasks.set id (⟨e, k'⟩ : ATask))[id']? = some (⟨e', k⟩ : ATask) := by
    rintro e' id' ⟨k2, hk2⟩
    by_cases hi : id = id'
    · subst hi
      rw [ht] at hk2
      simp at hk2
      refine ⟨k', ?_⟩
      simp [List.getElem?_set, hlt, hk2.1]
    · exact ⟨k2, by simpa [List.getElem?_set, hi] using hk2⟩
  exact {
    futE := fun e' id' hf => hex _ _ (h.futE e' id' hf)
    out := h.out, fout := h.fout, quietE := h.quietE, quietF := h.quietF, wait := h.wait
    getlt := fun f e' id' l st hp => by
      have := h.getlt f e' id' l st hp
      simpa using this
    old := fun e' id' k2 hh hk2 hn => by
      by_cases hi : id = id'
      · subst hi
        simp [List.getElem?_set, hlt] at hk2
        obtain ⟨rfl, rfl⟩ := hk2
        exact h.old e id k hh ht hk
      · exact h.old e' id' k2 hh (by simpa [List.getElem?_set, hi] using hk2) hn
    live := h.live, tmo := h.tmo
    this := fun e' id' hy => by
      rcases h.this e' id' hy with h1 | ⟨r, h1, h2⟩
      · exact .inl h1
      · exact .inr ⟨r, hres _ _ h1, h2⟩
    rdy := h.rdy
    endF := fun e' st hp => by
      obtain ⟨h0, id', r, h1, h2, h3⟩ := h.endF e' st hp
      exact ⟨h0, id', r, h1, hres _ _ h2, h3⟩
    endT := h.endT, wt := h.wt, fenA := h.fenA, fenG := h.fenG }

/-- The body of `e` is committed. -/
theorem AInv.commit {c : ACfg} {s : ASt} (h : AInv c s) {e : Nat} (hr : s.run = .engine) (hn : e < c.n)
    (hb : s.pc e = .ready ∨ ∃ st, s.pc e = .ended st false ∧ st.isErr = false)
    (ht : s.tmo e = false) : AInv c (s.commit e) := by
  have hres : ∀ id' r, s.result id' = some r → (s.commit e).result id' = some r := by
    intro id' r hr
    rw [result_eq] at hr ⊢
    obtain ⟨e', he'⟩ := hr
    have := (List.getElem?_eq_some_iff.mp he').1
    exact ⟨e', by simpa [ASt.commit, List.getElem?_append, this] using he'⟩
  have hf0 : c.hold e = true → s.fut e = none := by
    intro hh
    cases hf : s.fut e with
    | none => rfl
    | some id =>
      rcases h.live e id hh hf with ⟨_, h1 | ⟨st', h1⟩ | h1⟩ | ⟨l, h1, _⟩
      · rcases hb with hb | ⟨st, hb, _⟩ <;> simp [hb] at h1
      · rcases hb with hb | ⟨st, hb, _⟩ <;> simp [hb] at h1
      · rcases hb with hb | ⟨st, hb, _⟩ <;> simp [hb] at h1
      · simp [hr] at h1
  have hacc : s.Acc → (s.commit e).Acc := by
    rintro (h1 | ⟨e', st, b, h1, h2⟩ | h1 | h1)
    · exact .inl h1
    · refine .inr (.inl ⟨e', st, b, ?_, h2⟩)
      have hne : e' ≠ e := by
        rintro rfl
        rcases hb with hb | ⟨st', hb, hb'⟩
        · simp [hb] at h1
        · rw [hb] at h1
          cases h1
          simp [hb'] at h2
      simpa [ASt.commit, setAt_ne _ _ hne] using h1
    · exact .inr (.inr (.inl h1))
    · exact .inr (.inr (.inr h1))
  have hm : ∀ y, y ∈ lastRun (s.commit e).hist ↔ y ∈ lastRun s.hist ∨ y = .commit e s.tasks.length := by
    intro y
    exact mem_lastRun_snoc (by simp)
  have hlen : ∀ e' id k, s.tasks[id]? = some ⟨e', k⟩ → id < s.tasks.length :=
    fun e' id k hk => (List.getElem?_eq_some_iff.mp hk).1
  have hfok : ∀ f l st, FOK c s f l st → FOK c (s.commit e) f l st := by
    rintro f l st ⟨h1, h2⟩
    have hne : ∀ e' ∈ c.waits f, e' ≠ e := by
      rintro e' he' rfl
      have := h1 _ he'
      rcases hb with hb | ⟨st', hb, _⟩ <;> simp [hb] at this
    refine ⟨fun e' he' => ?_, fun hst e' he' => ?_⟩
    · simpa [ASt.commit, setAt_ne _ _ (hne e' he')] using h1 e' he'
    · simpa [ASt.commit, setAt_ne _ _ (hne e' he')] using h2 hst e' he'
  constructor
  case futE =>
    intro e' id hf
    by_cases he : e' = e
    · subst he
      simp [ASt.commit] at hf
      subst hf
      exact ⟨.queued, by simp [ASt.commit]⟩
    · simp only [ASt.commit, setAt_ne _ _ he] at hf
      obtain ⟨k, hk⟩ := h.futE e' id hf
      exact ⟨k, by simpa [ASt.commit, List.getElem?_append, hlen _ _ _ hk] using hk⟩
  case out =>
    intro e' he'
    have hne : e' ≠ e := by omega
    simpa [ASt.commit, setAt_ne _ _ hne] using h.out e' he'
  case fout => exact h.fout
  case quietE => exact fun hn => absurd hr hn
  case quietF => exact h.quietF
  case wait =>
    intro e' id hp
    by_cases he : e' = e
    · subst he
      simpa [ASt.commit] using hp
    · simp only [ASt.commit, setAt_ne _ _ he] at hp ⊢
      exact h.wait e' id hp
  case getlt =>
    intro f e' id l st hp
    obtain ⟨h1, h2⟩ := h.getlt f e' id l st hp
    refine ⟨by simp [ASt.commit]; omega, ?_⟩
    by_cases he : e' = e
    · subst he
      simp [ASt.commit]
      omega
    · simpa [ASt.commit, setAt_ne _ _ he] using h2
  case old =>
    intro e' id k hh hk hd
    by_cases hid : id < s.tasks.length
    · have hk' : s.tasks[id]? = some ⟨e', k⟩ := by simpa [ASt.commit, List.getElem?_append, hid] using hk
      have := h.old e' id k hh hk' hd
      by_cases he : e' = e
      · subst he
        rw [hf0 hh] at this
        simp at this
      · simpa [ASt.commit, setAt_ne _ _ he] using this
    · have hl := hlen
      have : id < (s.tasks ++ [(⟨e, .queued⟩ : ATask)]).length := (List.getElem?_eq_some_iff.mp hk).1
      simp at this
      obtain rfl : id = s.tasks.length := by omega
      simp [ASt.commit] at hk
      obtain ⟨rfl, rfl⟩ := hk
      simp [ASt.commit]
  case live =>
    intro e' id hh hf
    by_cases he : e' = e
    · subst he
      simp [ASt.commit] at hf
      subst hf
      exact .inl ⟨hr, .inl (by simp [ASt.commit])⟩
    · simp only [ASt.commit, setAt_ne _ _ he] at hf ⊢
      exact h.live e' id hh hf
  case tmo =>
    intro e' hp
    have he : e' ≠ e := by
      rintro rfl
      simp only [ASt.commit, ht] at hp
      simp at hp
    simp only [ASt.commit, setAt_ne _ _ he] at hp ⊢
    exact h.tmo e' hp
  case this =>
    intro e' id hy
    rcases (hm _).mp hy with hz | hy
    · rcases h.this e' id hz with ⟨h1, h2⟩ | ⟨r, h1, h2⟩
      · have he : e' ≠ e := by
          rintro rfl
          rcases hb with hb | ⟨st, hb, _⟩
          · exact h.rdy _ _ hb hz
          · rw [(h.endF _ _ hb).1] at h1
            simp at h1
        left
        refine ⟨by simpa [ASt.commit, setAt_ne _ _ he] using h1, ?_⟩
        rcases h2 with h2 | h2 | h2
        · exact .inl h2
        · exact .inr (.inl (by simpa [ASt.commit, setAt_ne _ _ he] using h2))
        · exact .inr (.inr (hacc h2))
      · exact .inr ⟨r, hres _ _ h1, h2.imp (fun h => h) hacc⟩
    · cases hy
      exact .inl ⟨by simp [ASt.commit], .inr (.inl (by simp [ASt.commit]))⟩
  case rdy =>
    intro e' id hp hy
    have he : e' ≠ e := by
      rintro rfl
      simp [ASt.commit] at hp
    rcases (hm _).mp hy with hy | hy
    · exact h.rdy e' id (by simpa [ASt.commit, setAt_ne _ _ he] using hp) hy
    · cases hy
      exact he rfl
  case endF =>
    intro e' st hp
    have he : e' ≠ e := by
      rintro rfl
      simp [ASt.commit] at hp
    obtain ⟨h0, id, r, h1, h2, h3⟩ := h.endF e' st (by simpa [ASt.commit, setAt_ne _ _ he] using hp)
    exact ⟨by simpa [ASt.commit, setAt_ne _ _ he] using h0, id, r, (hm _).mpr (.inl h1), hres _ _ h2, h3⟩
  case endT =>
    intro e' st hp
    have he : e' ≠ e := by
      rintro rfl
      simp [ASt.commit] at hp
    obtain ⟨h0, ⟨id, h1⟩, h2⟩ := h.endT e' st (by simpa [ASt.commit, setAt_ne _ _ he] using hp)
    exact ⟨(hm _).mpr (.inl h0), ⟨id, (hm _).mpr (.inl h1)⟩, h2⟩
  case wt =>
    intro e' id hp
    by_cases he : e' = e
    · subst he
      simp [ASt.commit] at hp
      subst hp
      exact (hm _).mpr (.inr rfl)
    · exact (hm _).mpr (.inl (h.wt e' id (by simpa [ASt.commit, setAt_ne _ _ he] using hp)))
  case fenA => exact fun f l st hd hp => hfok _ _ _ (h.fenA f l st hd hp)
  case fenG => exact fun f e' id l st hd hp => hfok _ _ _ (h.fenG f e' id l st hd hp)

/-- The call of `e` returns. -/
theorem AInv.ret {c : ACfg} {s : ASt} (h : AInv c s) {e : Nat} {st : CStatus} {b : Bool} (hp : s.pc e = .ended st b) :
    AInv c { s with pc := setAt s.pc e .back, status := s.status.add st } := by
  have hn : e < c.n := by
    by_cases hn : e < c.n
    · exact hn
    · have := h.out e (by omega)
      simp [hp] at this
  have hr : s.run = .engine := by
    by_cases hr : s.run = .engine
    · exact hr
    · rcases h.quietE hr e with h1 | h1 <;> simp [hp] at h1
  have hacc : s.Acc → ({ s with pc := setAt s.pc e .back, status := s.status.add st } : ASt).Acc := by
    rintro (h1 | ⟨e', st', b', h1, h2⟩ | h1 | h1)
    · exact .inl (by simp [CStatus.add_isErr, h1])
    · by_cases he : e' = e
      · subst he
        rw [hp] at h1
        cases h1
        exact .inl (by simp [CStatus.add_isErr, h2])
      · exact .inr (.inl ⟨e', st', b', by simpa [setAt_ne _ _ he] using h1, h2⟩)
    · exact .inr (.inr (.inl h1))
    · exact .inr (.inr (.inr h1))
  have hfok : ∀ f l st', FOK c s f l st' →
      FOK c { s with pc := setAt s.pc e .back, status := s.status.add st } f l st' := by
    rintro f l st' ⟨h1, h2⟩
    refine ⟨fun e' he' => ?_, h2⟩
    by_cases he : e' = e
    · subst he; simp
    · simpa [setAt_ne _ _ he] using h1 e' he'
  constructor
  case futE => exact h.futE
  case out =>
    intro e' he'
    have hne : e' ≠ e := by omega
    simpa [setAt_ne _ _ hne] using h.out e' he'
  case fout => exact h.fout
  case quietE => exact fun hn => absurd hr hn
  case quietF => exact h.quietF
  case wait =>
    intro e' id hp'
    by_cases he : e' = e
    · subst he; simp at hp'
    · exact h.wait e' id (by simpa [setAt_ne _ _ he] using hp')
  case getlt =>
    intro f e' id l st' hp'
    obtain ⟨h1, h2⟩ := h.getlt f e' id l st' hp'
    refine ⟨h1, ?_⟩
    by_cases he : e' = e
    · subst he; simp
    · simpa [setAt_ne _ _ he] using h2
  case old => exact h.old
  case live =>
    intro e' id hh hf
    by_cases he : e' = e
    · subst he
      exact .inl ⟨hr, .inr (.inr (by simp))⟩
    · simpa [setAt_ne _ _ he] using h.live e' id hh hf
  case tmo =>
    intro e' ht
    by_cases he : e' = e
    · subst he
      exact ⟨(h.tmo _ ht).1, .inl ⟨hr, .inr (by simp)⟩⟩
    · simpa [setAt_ne _ _ he] using h.tmo e' ht
  case this =>
    intro e' id hy
    rcases h.this e' id hy with ⟨h1, h2⟩ | ⟨r, h1, h2⟩
    · refine .inl ⟨h1, ?_⟩
      rcases h2 with h2 | h2 | h2
      · exact .inl h2
      · by_cases he : e' = e
        · subst he; simp [hp] at h2
        · exact .inr (.inl (by simpa [setAt_ne _ _ he] using h2))
      · exact .inr (.inr (hacc h2))
    · exact .inr ⟨r, h1, h2.imp (fun h => h) hacc⟩
  case rdy =>
    intro e' id hp'
    by_cases he : e' = e
    · subst he; simp at hp'
    · exact h.rdy e' id (by simpa [setAt_ne _ _ he] using hp')
  case endF =>
    intro e' st' hp'
    by_cases he : e' = e
    · subst he; simp at hp'
    · exact h.endF e' st' (by simpa [setAt_ne _ _ he] using hp')
  case endT =>
    intro e' st' hp'
    by_cases he : e' = e
    · subst he; simp at hp'
    · exact h.endT e' st' (by simpa [setAt_ne _ _ he] using hp')
  case wt =>
    intro e' id hp'
    by_cases he : e' = e
    · subst he; simp at hp'
    · exact h.wt e' id (by simpa [setAt_ne _ _ he] using hp')
  case fenA => exact fun f l st' hd hp' => hfok _ _ _ (h.fenA f l st' hd hp')
  case fenG => exact fun f e' id l st' hd hp' => hfok _ _ _ (h.fenG f e' id l st' hd hp')

/-- The body of `e` was ready in time. -/
theorem AInv.inTime {c : ACfg} {s : ASt} (h : AInv c s) {e id : Nat} {r : ARes} (hp : s.pc e = .waiting id)
    (hres : s.result id = some r) :
    AInv c { s with fut := setAt s.fut e none, pc := setAt s.pc e (.ended (CStatus.ok.add r.status) false) } := by
  have hn : e < c.n := by
    by_cases hn : e < c.n
    · exact hn
    · have := h.out e (by omega)
      simp [hp] at this
  have hr : s.run = .engine := by
    by_cases hr : s.run = .engine
    · exact hr
    · rcases h.quietE hr e with h1 | h1 <;> simp [hp] at h1
  have hfut := h.wait e id hp
  have hacc : s.Acc → ({ s with fut := setAt s.fut e none, pc := setAt s.pc e (.ended (CStatus.ok.add r.status) false) } : ASt).Acc := by
    rintro (h1 | ⟨e', st', b', h1, h2⟩ | h1 | h1)
    · exact .inl h1
    · by_cases he : e' = e
      · subst he
        simp [hp] at h1
      · exact .inr (.inl ⟨e', st', b', by simpa [setAt_ne _ _ he] using h1, h2⟩)
    · exact .inr (.inr (.inl h1))
    · exact .inr (.inr (.inr h1))
  have hfok : ∀ f l st', FOK c s f l st' →
      FOK c { s with fut := setAt s.fut e none, pc := setAt s.pc e (.ended (CStatus.ok.add r.status) false) } f l st' := by
    rintro f l st' ⟨h1, h2⟩
    have hne : ∀ e' ∈ c.waits f, e' ≠ e := by
      rintro e' he' rfl
      have := h1 _ he'
      simp [hp] at this
    refine ⟨fun e' he' => ?_, fun hst e' he' => ?_⟩
    · simpa [setAt_ne _ _ (hne e' he')] using h1 e' he'
    · simpa [setAt_ne _ _ (hne e' he')] using h2 hst e' he'
  obtain ⟨e0, htask⟩ := result_eq.mp hres
  obtain ⟨k0, hk0⟩ := h.futE e id hfut
  constructor
  case futE =>
    intro e' id' hf
    by_cases he : e' = e
    · subst he; simp at hf
    · exact h.futE e' id' (by simpa [setAt_ne _ _ he] using hf)
  case out =>
    intro e' he'
    have hne : e' ≠ e := by omega
    simpa [setAt_ne _ _ hne] using h.out e' he'
  case fout => exact h.fout
  case quietE => exact fun hn => absurd hr hn
  case quietF => exact h.quietF
  case wait =>
    intro e' id' hp'
    by_cases he : e' = e
    · subst he; simp at hp'
    · simpa [setAt_ne _ _ he] using h.wait e' id' (by simpa [setAt_ne _ _ he] using hp')
  case getlt =>
    intro f e' id' l st' hp'
    obtain ⟨h1, h2⟩ := h.getlt f e' id' l st' hp'
    refine ⟨h1, ?_⟩
    by_cases he : e' = e
    · subst he; simp
    · simpa [setAt_ne _ _ he] using h2
  case old =>
    intro e' id' k hh hk hd
    have h1 := h.old e' id' k hh hk hd
    by_cases he : e' = e
    · subst he
      rw [hfut] at h1
      cases h1
      rw [htask] at hk
      simp at hk
      exact absurd hk.2.symm (hd r)
    · simpa [setAt_ne _ _ he] using h1
  case live =>
    intro e' id' hh hf
    by_cases he : e' = e
    · subst he; simp at hf
    · simpa [setAt_ne _ _ he] using h.live e' id' hh (by simpa [setAt_ne _ _ he] using hf)
  case tmo =>
    intro e' ht
    by_cases he : e' = e
    · subst he
      rcases (h.tmo _ ht).2 with ⟨_, ⟨st, h1⟩ | h1⟩ | ⟨l, h1, _⟩
      · simp [hp] at h1
      · simp [hp] at h1
      · simp [hr] at h1
    · simpa [setAt_ne _ _ he] using h.tmo e' ht
  case this =>
    intro e' id' hy
    rcases h.this e' id' hy with ⟨h1, h2⟩ | ⟨r', h1, h2⟩
    · by_cases he : e' = e
      · subst he
        rw [hfut] at h1
        cases h1
        refine .inr ⟨r, hres, ?_⟩
        cases hs : r.status.isErr with
        | false => exact .inl rfl
        | true => exact .inr (.inr (.inl ⟨e', _, false, by simp; rfl, by simp [CStatus.add_isErr, hs]⟩))
      · refine .inl ⟨by simpa [setAt_ne _ _ he] using h1, ?_⟩
        rcases h2 with h2 | h2 | h2
        · exact .inl h2
        · exact .inr (.inl (by simpa [setAt_ne _ _ he] using h2))
        · exact .inr (.inr (hacc h2))
    · exact .inr ⟨r', h1, h2.imp (fun h => h) hacc⟩
  case rdy =>
    intro e' id' hp'
    by_cases he : e' = e
    · subst he; simp at hp'
    · exact h.rdy e' id' (by simpa [setAt_ne _ _ he] using hp')
  case endF =>
    intro e' st' hp'
    by_cases he : e' = e
    · subst he
      simp at hp'
      subst hp'
      exact ⟨by simp, id, r, h.wt _ _ hp, hres, rfl⟩
    · obtain ⟨h0, h1⟩ := h.endF e' st' (by simpa [setAt_ne _ _ he] using hp')
      exact ⟨by simpa [setAt_ne _ _ he] using h0, h1⟩
  case endT =>
    intro e' st' hp'
    by_cases he : e' = e
    · subst he; simp at hp'
    · exact h.endT e' st' (by simpa [setAt_ne _ _ he] using hp')
  case wt =>
    intro e' id' hp'
    by_cases he : e' = e
    · subst he; simp at hp'
    · exact h.wt e' id' (by simpa [setAt_ne _ _ he] using hp')
  case fenA => exact fun f l st' hd hp' => hfok _ _ _ (h.fenA f l st' hd hp')
  case fenG => exact fun f e' id' l st' hd hp' => hfok _ _ _ (h.fenG f e' id' l st' hd hp')

/-- The waiting time of `e` is over. -/
theorem AInv.late {c : ACfg} {s : ASt} (h : AInv c s) {e id : Nat} (hp : s.pc e = .waiting id) {st : CStatus}
    (hl : .late e ∈ lastRun s.hist) (hst : st.isErr = !c.hold e) {g : Nat → Bool}
    (hg : g = if c.hold e then setAt s.tmo e true else s.tmo) :
    AInv c { s with tmo := g, pc := setAt s.pc e (.ended st true) } := by
  have hn : e < c.n := by
    by_cases hn : e < c.n
    · exact hn
    · have := h.out e (by omega)
      simp [hp] at this
  have hr : s.run = .engine := by
    by_cases hr : s.run = .engine
    · exact hr
    · rcases h.quietE hr e with h1 | h1 <;> simp [hp] at h1
  have hfut := h.wait e id hp
  have hacc : s.Acc → ({ s with tmo := g, pc := setAt s.pc e (.ended st true) } : ASt).Acc := by
    rintro (h1 | ⟨e', st', b', h1, h2⟩ | h1 | h1)
    · exact .inl h1
    · by_cases he : e' = e
      · subst he
        simp [hp] at h1
      · exact .inr (.inl ⟨e', st', b', by simpa [setAt_ne _ _ he] using h1, h2⟩)
    · exact .inr (.inr (.inl h1))
    · exact .inr (.inr (.inr h1))
  have hfok : ∀ f l st', FOK c s f l st' → FOK c { s with tmo := g, pc := setAt s.pc e (.ended st true) } f l st' := by
    rintro f l st' ⟨h1, h2⟩
    have hne : ∀ e' ∈ c.waits f, e' ≠ e := by
      rintro e' he' rfl
      have := h1 _ he'
      simp [hp] at this
    exact ⟨fun e' he' => by simpa [setAt_ne _ _ (hne e' he')] using h1 e' he', h2⟩
  constructor
  case futE => exact h.futE
  case out =>
    intro e' he'
    have hne : e' ≠ e := by omega
    simpa [setAt_ne _ _ hne] using h.out e' he'
  case fout => exact h.fout
  case quietE => exact fun hn => absurd hr hn
  case quietF => exact h.quietF
  case wait =>
    intro e' id' hp'
    by_cases he : e' = e
    · subst he; simp at hp'
    · simpa [setAt_ne _ _ he] using h.wait e' id' (by simpa [setAt_ne _ _ he] using hp')
  case getlt =>
    intro f e' id' l st' hp'
    obtain ⟨h1, h2⟩ := h.getlt f e' id' l st' hp'
    refine ⟨h1, ?_⟩
    by_cases he : e' = e
    · subst he; simp
    · simpa [setAt_ne _ _ he] using h2
  case old => exact h.old
  case live =>
    intro e' id' hh hf
    by_cases he : e' = e
    · subst he
      exact .inl ⟨hr, .inr (.inl ⟨st, by simp⟩)⟩
    · simpa [setAt_ne _ _ he] using h.live e' id' hh hf
  case tmo =>
    intro e' ht
    by_cases he : e' = e
    · subst he
      by_cases hh : c.hold e' = true
      · exact ⟨hh, .inl ⟨hr, .inl ⟨st, by simp⟩⟩⟩
      · simp [hh] at hg
        subst hg
        exact absurd (h.tmo _ ht).1 hh
    · have ht' : s.tmo e' = true := by
        subst hg
        by_cases hh : c.hold e = true
        · simpa [hh, setAt_ne _ _ he] using ht
        · simpa [hh] using ht
      simpa [setAt_ne _ _ he] using h.tmo e' ht'
  case this =>
    intro e' id' hy
    rcases h.this e' id' hy with ⟨h1, h2⟩ | ⟨r', h1, h2⟩
    · refine .inl ⟨h1, ?_⟩
      by_cases he : e' = e
      · subst he
        cases hh : c.hold e' with
        | true => exact .inl rfl
        | false => exact .inr (.inr (.inr (.inl ⟨e', st, true, by simp, by simp [hst, hh]⟩)))
      · rcases h2 with h2 | h2 | h2
        · exact .inl h2
        · exact .inr (.inl (by simpa [setAt_ne _ _ he] using h2))
        · exact .inr (.inr (hacc h2))
    · exact .inr ⟨r', h1, h2.imp (fun h => h) hacc⟩
  case rdy =>
    intro e' id' hp'
    by_cases he : e' = e
    · subst he; simp at hp'
    · exact h.rdy e' id' (by simpa [setAt_ne _ _ he] using hp')
  case endF =>
    intro e' st' hp'
    by_cases he : e' = e
    · subst he; simp at hp'
    · exact h.endF e' st' (by simpa [setAt_ne _ _ he] using hp')
  case endT =>
    intro e' st' hp'
    by_cases he : e' = e
    · subst he
      simp at hp'
      subst hp'
      exact ⟨hl, ⟨id, h.wt _ _ hp⟩, hst⟩
    · exact h.endT e' st' (by simpa [setAt_ne _ _ he] using hp')
  case wt =>
    intro e' id' hp'
    by_cases he : e' = e
    · subst he; simp at hp'
    · exact h.wt e' id' (by simpa [setAt_ne _ _ he] using hp')
  case fenA => exact fun f l st' hd hp' => hfok _ _ _ (h.fenA f l st' hd hp')
  case fenG => exact fun f e' id' l st' hd hp' => hfok _ _ _ (h.fenG f e' id' l st' hd hp')

/-- The state of one fence changes. -/
theorem AInv.fpc {c : ACfg} {s : ASt} (h : AInv c s) {f : Nat} {x : FPc} {w : CStatus} (hm : f < c.m)
    (hr : s.run = .engine)
    (hget : ∀ e id l st, x = .get e id l st → id < s.tasks.length ∧ s.pc e ≠ .waiting id)
    (hacc : s.Acc → ({ s with fpc := setAt s.fpc f x, status := w } : ASt).Acc)
    (hA : ∀ l st, c.deps f = true → x = .at l st → FOK c s f l st)
    (hG : ∀ e id l st, c.deps f = true → x = .get e id l st → FOK c s f (e :: l) st) :
    AInv c { s with fpc := setAt s.fpc f x, status := w } := by
  constructor
  case futE => exact h.futE
  case out => exact h.out
  case fout =>
    intro f' hf'
    have hne : f' ≠ f := by omega
    simpa [setAt_ne _ _ hne] using h.fout f' hf'
  case quietE => exact h.quietE
  case quietF => exact fun hn => absurd hr hn
  case wait => exact h.wait
  case getlt =>
    intro f' e id l st hp
    by_cases hf : f' = f
    · subst hf
      exact hget e id l st (by simpa using hp)
    · exact h.getlt f' e id l st (by simpa [setAt_ne _ _ hf] using hp)
  case old => exact h.old
  case live => exact h.live
  case tmo => exact h.tmo
  case this =>
    intro e id hy
    rcases h.this e id hy with ⟨h1, h2⟩ | ⟨r, h1, h2⟩
    · exact .inl ⟨h1, h2.imp (fun h => h) (fun h => h.imp (fun h => h) hacc)⟩
    · exact .inr ⟨r, h1, h2.imp (fun h => h) hacc⟩
  case rdy => exact h.rdy
  case endF => exact h.endF
  case endT => exact h.endT
  case wt => exact h.wt
  case fenA =>
    intro f' l st hd hp
    by_cases hf : f' = f
    · subst hf
      exact hA l st hd (by simpa using hp)
    · exact h.fenA f' l st hd (by simpa [setAt_ne _ _ hf] using hp)
  case fenG =>
    intro f' e id l st hd hp
    by_cases hf : f' = f
    · subst hf
      exact hG e id l st hd (by simpa using hp)
    · exact h.fenG f' e id l st hd (by simpa [setAt_ne _ _ hf] using hp)

/-- The future of `e`, whose body has ended, is taken out by a thread that is not waiting for it in `asyncRun`; an error
is kept. -/
theorem AInv.dropFut {c : ACfg} {s : ASt} (h : AInv c s) {e id : Nat} {r : ARes} (hf : s.fut e = some id)
    (hp : s.pc e ≠ .waiting id) (hres : s.result id = some r) (herr : r.status.isErr = true → s.Acc) :
    AInv c { s with fut := setAt s.fut e none } := by
  obtain ⟨e0, htask⟩ := result_eq.mp hres
  have hfok : ∀ f l st, FOK c s f l st → FOK c { s with fut := setAt s.fut e none } f l st := by
    rintro f l st ⟨h1, h2⟩
    refine ⟨h1, fun hst e' he' => ?_⟩
    by_cases he : e' = e
    · subst he; simp
    · simpa [setAt_ne _ _ he] using h2 hst e' he'
  constructor
  case futE =>
    intro e' id' hf'
    by_cases he : e' = e
    · subst he; simp at hf'
    · exact h.futE e' id' (by simpa [setAt_ne _ _ he] using hf')
  case out => exact h.out
  case fout => exact h.fout
  case quietE => exact h.quietE
  case quietF => exact h.quietF
  case wait =>
    intro e' id' hp'
    by_cases he : e' = e
    · subst he
      have := h.wait _ _ hp'
      rw [hf] at this
      cases this
      exact absurd hp' hp
    · simpa [setAt_ne _ _ he] using h.wait e' id' hp'
  case getlt => exact h.getlt
  case old =>
    intro e' id' k hh hk hd
    have h1 := h.old e' id' k hh hk hd
    by_cases he : e' = e
    · subst he
      rw [hf] at h1
      cases h1
      rw [htask] at hk
      simp at hk
      exact absurd hk.2.symm (hd r)
    · simpa [setAt_ne _ _ he] using h1
  case live =>
    intro e' id' hh hf'
    by_cases he : e' = e
    · subst he; simp at hf'
    · exact h.live e' id' hh (by simpa [setAt_ne _ _ he] using hf')
  case tmo => exact h.tmo
  case this =>
    intro e' id' hy
    rcases h.this e' id' hy with ⟨h1, h2⟩ | ⟨r', h1, h2⟩
    · by_cases he : e' = e
      · subst he
        rw [hf] at h1
        cases h1
        refine .inr ⟨r, hres, ?_⟩
        cases hs : r.status.isErr with
        | false => exact .inl rfl
        | true => exact .inr (herr hs)
      · exact .inl ⟨by simpa [setAt_ne _ _ he] using h1, h2⟩
    · exact .inr ⟨r', h1, h2⟩
  case rdy => exact h.rdy
  case endF =>
    intro e' st' hp'
    obtain ⟨h0, h1⟩ := h.endF e' st' hp'
    refine ⟨?_, h1⟩
    by_cases he : e' = e
    · subst he; simp
    · simpa [setAt_ne _ _ he] using h0
  case endT => exact h.endT
  case wt => exact h.wt
  case fenA => exact fun f l st' hd hp' => hfok _ _ _ (h.fenA f l st' hd hp')
  case fenG => exact fun f e' id' l st' hd hp' => hfok _ _ _ (h.fenG f e' id' l st' hd hp')

/-- The engine returns. -/
theorem AInv.engineEnd {c : ACfg} {s : ASt} (h : AInv c s) (hr : s.run = .engine) (hq : s.quiet c = true) :
    AInv c { s with run := .reset ((List.range c.n).filter c.hold) } := by
  simp only [quiet, Bool.and_eq_true, List.all_eq_true, List.mem_range, Bool.or_eq_true, decide_eq_true_eq] at hq
  obtain ⟨hq1, hq2⟩ := hq
  have hE : ∀ e, s.pc e = .ready ∨ s.pc e = .back := by
    intro e
    by_cases he : e < c.n
    · exact hq1 e he
    · exact .inl (h.out e (by omega))
  have hF : ∀ f, s.fpc f = .ready ∨ s.fpc f = .back := by
    intro f
    by_cases hf : f < c.m
    · exact hq2 f hf
    · exact .inl (h.fout f (by omega))
  have hlt : ∀ e, s.pc e ≠ .ready → e < c.n := by
    intro e he
    by_cases hn : e < c.n
    · exact hn
    · exact absurd (h.out e (by omega)) he
  constructor
  case futE => exact h.futE
  case out => exact h.out
  case fout => exact h.fout
  case quietE => exact fun _ => hE
  case quietF => exact fun _ => hF
  case wait => exact h.wait
  case getlt => exact h.getlt
  case old => exact h.old
  case live =>
    intro e id hh hf
    refine .inr ⟨_, rfl, ?_⟩
    have hne : s.pc e ≠ .ready := by
      intro hp
      rcases h.live e id hh hf with ⟨_, h1 | ⟨st, h1⟩ | h1⟩ | ⟨l, h1, _⟩
      · simp [hp] at h1
      · simp [hp] at h1
      · simp [hp] at h1
      · simp [hr] at h1
    simp [hlt e hne, hh]
  case tmo =>
    intro e ht
    obtain ⟨hh, h2⟩ := h.tmo e ht
    refine ⟨hh, .inr ⟨_, rfl, ?_⟩⟩
    have hne : s.pc e ≠ .ready := by
      intro hp
      rcases h2 with ⟨_, ⟨st, h1⟩ | h1⟩ | ⟨l, h1, _⟩
      · simp [hp] at h1
      · simp [hp] at h1
      · simp [hr] at h1
    simp [hlt e hne, hh]
  case this => exact h.this
  case rdy => exact h.rdy
  case endF => exact h.endF
  case endT => exact h.endT
  case wt => exact h.wt
  case fenA => exact h.fenA
  case fenG => exact h.fenG

/-- `reset` has treated `e`. -/
theorem AInv.reset {c : ACfg} {s : ASt} (h : AInv c s) {e : Nat} {l : List Nat} (hr : s.run = .reset (e :: l))
    (hf : s.fut e = none) : AInv c { s with tmo := setAt s.tmo e false, run := .reset l } := by
  have hne : s.run ≠ .engine := by simp [hr]
  constructor
  case futE => exact h.futE
  case out => exact h.out
  case fout => exact h.fout
  case quietE => exact fun _ => h.quietE hne
  case quietF => exact fun _ => h.quietF hne
  case wait => exact h.wait
  case getlt => exact h.getlt
  case old => exact h.old
  case live =>
    intro e' id hh hf'
    rcases h.live e' id hh hf' with ⟨h1, _⟩ | ⟨l', h1, h2⟩
    · exact absurd h1 hne
    · rw [hr] at h1
      cases h1
      rcases List.mem_cons.mp h2 with rfl | h2
      · simp [hf] at hf'
      · exact .inr ⟨l, rfl, h2⟩
  case tmo =>
    intro e' ht
    have he : e' ≠ e := by
      rintro rfl
      simp at ht
    obtain ⟨hh, h1⟩ := h.tmo e' (by simpa [setAt_ne _ _ he] using ht)
    refine ⟨hh, ?_⟩
    rcases h1 with ⟨h1, _⟩ | ⟨l', h1, h2⟩
    · exact absurd h1 hne
    · rw [hr] at h1
      cases h1
      rcases List.mem_cons.mp h2 with rfl | h2
      · exact absurd rfl he
      · exact .inr ⟨l, rfl, h2⟩
  case this => exact h.this
  case rdy => exact h.rdy
  case endF => exact h.endF
  case endT => exact h.endT
  case wt => exact h.wt
  case fenA => exact h.fenA
  case fenG => exact h.fenG

/-- An error is added to the status. -/
theorem AInv.status {c : ACfg} {s : ASt} (h : AInv c s) (st : CStatus) : AInv c { s with status := s.status.add st } := by
  have hacc : s.Acc → ({ s with status := s.status.add st } : ASt).Acc := by
    rintro (h1 | h1)
    · exact .inl (by simp [CStatus.add_isErr, h1])
    · exact .inr h1
  constructor
  case this =>
    intro e id hy
    rcases h.this e id hy with ⟨h1, h2⟩ | ⟨r, h1, h2⟩
    · exact .inl ⟨h1, h2.imp (fun h => h) (fun h => h.imp (fun h => h) hacc)⟩
    · exact .inr ⟨r, h1, h2.imp (fun h => h) hacc⟩
  case futE => exact h.futE
  case out => exact h.out
  case fout => exact h.fout
  case quietE => exact h.quietE
  case quietF => exact h.quietF
  case wait => exact h.wait
  case getlt => exact h.getlt
  case old => exact h.old
  case live => exact h.live
  case tmo => exact h.tmo
  case rdy => exact h.rdy
  case endF => exact h.endF
  case endT => exact h.endT
  case wt => exact h.wt
  case fenA => exact h.fenA
  case fenG => exact h.fenG

/-- `run` returns. -/
theorem AInv.idle {c : ACfg} {s : ASt} (h : AInv c s) (hr : s.run = .reset []) : AInv c { s with run := .idle } := by
  have hne : s.run ≠ .engine := by simp [hr]
  constructor
  case quietE => exact fun _ => h.quietE hne
  case quietF => exact fun _ => h.quietF hne
  case live =>
    intro e' id hh hf'
    rcases h.live e' id hh hf' with ⟨h1, _⟩ | ⟨l', h1, h2⟩
    · exact absurd h1 hne
    · rw [hr] at h1
      cases h1
      simp at h2
  case tmo =>
    intro e' ht
    obtain ⟨hh, h1⟩ := h.tmo e' ht
    rcases h1 with ⟨h1, _⟩ | ⟨l', h1, h2⟩
    · exact absurd h1 hne
    · rw [hr] at h1
      cases h1
      simp at h2
  case this => exact h.this
  case futE => exact h.futE
  case out => exact h.out
  case fout => exact h.fout
  case wait => exact h.wait
  case getlt => exact h.getlt
  case old => exact h.old
  case rdy => exact h.rdy
  case endF => exact h.endF
  case endT => exact h.endT
  case wt => exact h.wt
  case fenA => exact h.fenA
  case fenG => exact h.fenG

/-- `run` is called. -/
theorem AInv.begin {c : ACfg} {s : ASt} (h : AInv c s) (hr : s.run = .idle) :
    AInv c { s with run := .engine, status := .ok, pc := fun _ => .ready, fpc := fun _ => .ready,
                    hist := s.hist ++ [.runBegin] } := by
  have hnone : ∀ e, c.hold e = true → s.fut e = none := by
    intro e hh
    cases hf : s.fut e with
    | none => rfl
    | some id =>
      rcases h.live e id hh hf with ⟨h1, _⟩ | ⟨l, h1, _⟩ <;> simp [hr] at h1
  constructor
  case futE => exact h.futE
  case old => exact h.old
  case live =>
    intro e id hh hf
    rw [show s.fut e = none from hnone e hh] at hf
    simp at hf
  case tmo =>
    intro e ht
    obtain ⟨hh, h1⟩ := h.tmo e ht
    rcases h1 with ⟨h1, _⟩ | ⟨l, h1, _⟩ <;> simp [hr] at h1
  all_goals simp [lastRun_snoc]

end ASt
end CGraph
