import Verif.Lemmas.StorageLoad

/-! # C63: a saved pipeline can be loaded -/
namespace CGraph
open Spec

/-! ## A pipeline: a region with two nodes, one after the other, and a node after the region -/

def nodeClz : Bytes := [78]
def regionClz : Bytes := [82]

def demoElem (s clz : Bytes) (ty : Int) : SElem :=
  { session := s, name := s ++ [110], clz := clz, ty := ty, loop := 1, visible := true, binding := -1, level := 0,
    timeout := 0, strategy := 0, isMacro := false, belong := none, deps := [], children := [], aspects := [],
    eparams := [] }

def demoPipe : SPipe :=
  { objs := [{ demoElem [1] nodeClz tyNode with belong := some [3], aspects := [[65]], loop := 4 },
      { demoElem [2] nodeClz tyNode with belong := some [3], deps := [[1]], timeout := 300, strategy := 1,
                                         eparams := [([7], [80])] },
      { demoElem [3] regionClz 0x00020002 with children := [[1], [2]] },
      { demoElem [4] nodeClz tyNode with deps := [[3]], isMacro := true, level := -5 }],
    repo := [[1], [2], [3], [4]], roots := [[3], [4]], events := [([101], [69])], params := [],
    daemons := [(500, [68])], stages := [([115], 2, [83])], cfg := { defaultThreadSize := 3, maxThreadSize := 16 } }

def demoFac : SFac := fun c =>
  if c = nodeClz then some (.elem tyNode)
  else if c = regionClz then some (.elem 0x00020002)
  else if c = [65] then some .aspect
  else if c = [80] then some .passed
  else if c = [69] then some .event
  else if c = [68] then some .daemon
  else if c = [83] then some .stage
  else if c = [71] then some .param
  else none

theorem demo_fits : PipeFits demoPipe := by
  constructor
  · intro e he
    simp only [demoPipe, List.mem_cons, List.not_mem_nil, or_false] at he
    rcases he with rfl | rfl | rfl | rfl <;> constructor <;> first | (unfold FitsI; decide) | decide
  · intro q hq
    simp only [demoPipe, List.mem_cons, List.not_mem_nil, or_false] at hq
    subst hq; unfold FitsI; decide
  · intro q hq
    simp only [demoPipe, List.mem_cons, List.not_mem_nil, or_false] at hq
    subst hq; unfold FitsI; decide
  · constructor <;> (unfold FitsI; decide)

theorem demo_ok : PipeOK demoPipe := by
  refine ⟨⟨by decide, by decide, by decide, by decide, by decide, by decide, by decide, by decide, by decide, ?_,
    by decide⟩, by decide, by decide, by decide⟩
  intro e he s hs
  simp only [demoPipe, List.mem_cons, List.not_mem_nil, or_false] at he
  rcases he with rfl | rfl | rfl | rfl <;> simp only [demoElem, Option.some.injEq, reduceCtorEq] at hs <;> subst hs <;> decide

theorem demo_reg : Registered demoFac demoPipe :=
  ⟨by decide, by decide, by decide, by decide, by decide, by decide, by decide, by decide⟩

/-- The pipeline is saved with few bytes. -/
theorem saved_small (p : SPipe) (f : Nat)
    (h : (!p.repo.any (fun s => (lookE p.objs s).any fun e => tyIsAdaptor e.ty) &&
      (buildPipe f p).any fun st => decide (reflSize stEnv (pipeVal st) (.cls 0) < 2 ^ 64)) = true) :
    ∃ b, savePipe f p = .ok b ∧ b.length < 2 ^ 64 := by
  rw [Bool.and_eq_true] at h
  cases hb : buildPipe f p with
  | none => simp [hb] at h
  | some st =>
    obtain ⟨b, h1, h2⟩ := savePipe_of_build (by simpa using h.1) hb
    refine ⟨b, h1, ?_⟩
    rw [h2]
    simpa [hb] using h.2

/-! ## Saving -/

/-- C63: a pipeline without adapters, whose groups do not contain themselves, is saved. -/
theorem C63_save (p : SPipe) (ho : ElemsOK p) (ha : ∀ e ∈ p.objs, tyIsAdaptor e.ty = false) (rank : Bytes → Nat)
    (hrank : ∀ e ∈ p.objs, ∀ c ∈ e.children, rank c < rank e.session) (f : Nat)
    (hf : ∀ e ∈ p.objs, rank e.session < f) : ∃ b, savePipe f p = .ok b := by
  have hbe : ∀ f e, e ∈ p.objs → rank e.session < f → ∃ st, buildElem p.objs f e = some st := by
    intro f
    induction f with
    | zero => intro e _ h; omega
    | succ f ih =>
      intro e he hr
      have hm : ∀ l : List Bytes, (∀ c ∈ l, c ∈ e.children) →
          ∃ cs, mapO (fun s => (lookE p.objs s).bind (buildElem p.objs f)) l = some cs := by
        intro l
        induction l with
        | nil => intro _; exact ⟨[], rfl⟩
        | cons c l ihl =>
          intro hl
          obtain ⟨cs, hcs⟩ := ihl (fun x hx => hl x (by simp [hx]))
          have hce := hl c (by simp)
          obtain ⟨e', he', hs', _, _⟩ := ho.child e he c hce
          have hlk : lookE p.objs c = some e' := hs' ▸ lookE_mem ho.nodup he'
          obtain ⟨st, hst⟩ := ih e' he' (by have := hrank e he c hce; rw [hs']; omega)
          exact ⟨st :: cs, by simp only [mapO, hlk, Option.bind_some, hst, hcs]⟩
      obtain ⟨cs, hcs⟩ := hm e.children (fun _ h => h)
      rw [buildElem, hcs]
      exact ⟨_, rfl⟩
  have hm : ∀ l : List SElem, (∀ e ∈ l, e ∈ p.objs) →
      ∃ cs, mapO (fun s => (lookE p.objs s).bind (buildElem p.objs f)) (l.map SElem.session) = some cs := by
    intro l
    induction l with
    | nil => intro _; exact ⟨[], rfl⟩
    | cons e l ih =>
      intro hl
      obtain ⟨cs, hcs⟩ := ih (fun x hx => hl x (by simp [hx]))
      obtain ⟨st, hst⟩ := hbe f e (hl e (by simp)) (hf e (hl e (by simp)))
      exact ⟨st :: cs, by
        rw [List.map_cons]
        simp only [mapO, lookE_mem ho.nodup (hl e (by simp)), Option.bind_some, hst, hcs]⟩
  obtain ⟨cs, hcs⟩ := hm p.objs (fun _ h => h)
  have hany : p.repo.any (fun s => (lookE p.objs s).any fun e => tyIsAdaptor e.ty) = false := by
    rw [List.any_eq_false]
    intro s _ h
    cases hl : lookE p.objs s with
    | none => simp [hl] at h
    | some e => simp [hl, ha e (lookE_session hl).1] at h
  have hbp : ∃ st, buildPipe f p = some st := ⟨_, by rw [buildPipe, ho.repo, hcs]; rfl⟩
  obtain ⟨st, hst⟩ := hbp
  obtain ⟨b, hb, _⟩ := savePipe_of_build hany hst
  exact ⟨b, hb⟩

example : ∃ b, savePipe 3 demoPipe = .ok b :=
  C63_save demoPipe demo_ok.elems (by decide) (fun s => if s = [3] then 1 else 0) (by decide) 3 (by decide)

/-! ## Loading -/

/-- C63, the part that holds: a pipeline without parameters, with all its classes registered, that was saved, is loaded,
for every random session; the loaded pipeline has the same elements with the same attributes, dependences, groups, aspects
and local parameter keys, the same events, daemons and stages, and, but for two members, the same thread pool configuration;
the elements without an owner are the registered ones. -/
theorem C63_partial (fac : SFac) (p : SPipe) (hfit : PipeFits p) (hok : PipeOK p) (hreg : Registered fac p)
    (hp : p.params = []) (f : Nat) (b : Bytes) (hs : savePipe f p = .ok b) (hz : b.length < 2 ^ 64) :
    ∃ n, ∀ rnd fuel, n ≤ fuel → ∃ q, loadPipe fac rnd fuel b = .ok q ∧ q.objs = p.objs ∧ q.events = p.events ∧
      q.params = [] ∧ q.daemons = p.daemons ∧ q.stages = p.stages ∧
      q.cfg = { p.cfg with pipelineWaitBusyEpoch := 0, deliverRunningPrimaryThreadEnable := false } ∧
      (∀ s, s ∈ q.roots ↔ ∃ e ∈ p.objs, e.session = s ∧ e.belong = none) := by
  obtain ⟨st, n, hst, hl⟩ := load_saved hfit hs hz
  refine ⟨n, fun rnd fuel hf => ?_⟩
  rw [hl fac rnd fuel hf]
  obtain ⟨k1, _, k3, k4, k5, k6, k7⟩ := buildPipe_elems hok.elems.nodup hok.elems.repo hst
  have hpar : st.params = [] := by rw [k4, hp]; rfl
  have hall : st.lost.events.all (fun q => fac q.2 = some .event) = true ∧
      st.lost.params.all (fun q => fac q.2.2 = some .param) = true ∧
      st.lost.daemons.all (fun q => fac q.2 = some .daemon) = true ∧
      st.lost.stages.all (fun q => fac q.2.2 = some .stage) = true := by
    simp only [StPipe.lost, k3, hpar, k5, k6, List.map_nil, List.all_nil, List.all_eq_true, decide_eq_true_eq]
    exact ⟨hreg.event, trivial, hreg.daemon, hreg.stage⟩
  have hck : st.lost.cfg.check = true := by
    have := hok.cfg
    rw [← k7] at this
    exact this
  rw [loadStorage, show st.lost.elements = st.elements from rfl, loadElems_ok hok.elems hreg k1, LRes.ok_bind,
    if_pos hall, if_pos hck]
  refine ⟨_, rfl, rfl, ?_, ?_, k5, ?_, ?_, fun s => mem_topOf⟩
  · show st.events.foldl insKey [] = p.events
    rw [k3, insKey_foldl _ _ (by simpa using hok.events)]; rfl
  · show (st.params.map _).foldl insKey [] = []
    rw [hpar]; rfl
  · show st.stages.foldl insKey [] = p.stages
    rw [k6, insKey_foldl _ _ (by simpa using hok.stages)]; rfl
  · show st.cfg.lost = _
    rw [k7]; rfl

example : PipeFits demoPipe ∧ PipeOK demoPipe ∧ Registered demoFac demoPipe ∧ demoPipe.params = [] ∧
    (∃ b, savePipe 3 demoPipe = .ok b ∧ b.length < 2 ^ 64) := by
  exact ⟨demo_fits, demo_ok, demo_reg, rfl, saved_small _ _ (by decide +kernel)⟩

/-! ## What does not hold -/

/-- C63 does not hold: no pipeline with a parameter can be loaded, though its classes are all registered and it was saved
without an error. -/
theorem C63_param_violated (fac : SFac) (p : SPipe) (hfit : PipeFits p) (hok : PipeOK p) (hreg : Registered fac p)
    (hp : p.params ≠ []) (f : Nat) (b : Bytes) (hs : savePipe f p = .ok b) (hz : b.length < 2 ^ 64) :
    ∃ n, ∀ rnd fuel, n ≤ fuel → loadPipe fac rnd fuel b = .err := by
  obtain ⟨st, n, hst, hl⟩ := load_saved hfit hs hz
  refine ⟨n, fun rnd fuel hf => ?_⟩
  rw [hl fac rnd fuel hf]
  obtain ⟨k1, _, k3, k4, k5, k6, k7⟩ := buildPipe_elems hok.elems.nodup hok.elems.repo hst
  have hn : ¬ (st.lost.events.all (fun q => fac q.2 = some .event) = true ∧
      st.lost.params.all (fun q => fac q.2.2 = some .param) = true ∧
      st.lost.daemons.all (fun q => fac q.2 = some .daemon) = true ∧
      st.lost.stages.all (fun q => fac q.2.2 = some .stage) = true) := by
    rintro ⟨_, h, _, _⟩
    obtain ⟨q, hq⟩ := List.exists_mem_of_ne_nil _ hp
    simp only [StPipe.lost, k4, List.all_eq_true, decide_eq_true_eq] at h
    have := h (q.1, false, []) (by simp only [List.map_map, List.mem_map]; exact ⟨q, hq, rfl⟩)
    rw [hreg.nonempty] at this
    cases this
  rw [loadStorage, show st.lost.elements = st.elements from rfl, loadElems_ok hok.elems hreg k1, LRes.ok_bind,
    if_neg hn]

def paramPipe : SPipe := { demoPipe with params := [([112], true, [71])] }

example : PipeFits paramPipe ∧ PipeOK paramPipe ∧ Registered demoFac paramPipe ∧ paramPipe.params ≠ [] ∧
    ∃ b, savePipe 3 paramPipe = .ok b ∧ b.length < 2 ^ 64 := by
  have d := demo_ok.elems
  have r := demo_reg
  exact ⟨⟨demo_fits.elems, demo_fits.daemons, demo_fits.stages, demo_fits.cfg⟩,
    ⟨⟨d.nodup, d.repo, d.session, d.name, d.isMacro, d.timeout, d.deps, d.children, d.child, d.belong, d.eparams⟩,
      demo_ok.events, demo_ok.stages, demo_ok.cfg⟩,
    ⟨r.elem, r.aspect, r.passed, r.event, by decide, r.daemon, r.stage, r.nonempty⟩, by simp [paramPipe],
    saved_small _ _ (by decide +kernel)⟩

/-- C63 does not hold for the configuration: if one of the two members has not its default value, the loaded pipeline has
another configuration. -/
theorem C63_config_violated (fac : SFac) (p : SPipe) (hfit : PipeFits p) (hok : PipeOK p) (hreg : Registered fac p)
    (hp : p.params = []) (f : Nat) (b : Bytes) (hs : savePipe f p = .ok b) (hz : b.length < 2 ^ 64)
    (hc : p.cfg.pipelineWaitBusyEpoch ≠ 0 ∨ p.cfg.deliverRunningPrimaryThreadEnable = true) :
    ∃ n, ∀ rnd fuel, n ≤ fuel → ∃ q, loadPipe fac rnd fuel b = .ok q ∧ q.cfg ≠ p.cfg := by
  obtain ⟨n, h⟩ := C63_partial fac p hfit hok hreg hp f b hs hz
  refine ⟨n, fun rnd fuel hf => ?_⟩
  obtain ⟨q, hq, _, _, _, _, _, hcfg, _⟩ := h rnd fuel hf
  refine ⟨q, hq, fun he => ?_⟩
  rw [he] at hcfg
  rcases hc with hc | hc
  · exact hc (by rw [hcfg])
  · rw [hcfg] at hc; simp at hc

/-- C63 does not hold for elements that are created and not registered: they are registered in the loaded pipeline. -/
theorem C63_orphan_violated (fac : SFac) (p : SPipe) (hfit : PipeFits p) (hok : PipeOK p) (hreg : Registered fac p)
    (hp : p.params = []) (f : Nat) (b : Bytes) (hs : savePipe f p = .ok b) (hz : b.length < 2 ^ 64)
    (e : SElem) (he : e ∈ p.objs) (hb : e.belong = none) (hr : e.session ∉ p.roots) :
    ∃ n, ∀ rnd fuel, n ≤ fuel → ∃ q, loadPipe fac rnd fuel b = .ok q ∧ e.session ∈ q.roots ∧ e.session ∉ p.roots := by
  obtain ⟨n, h⟩ := C63_partial fac p hfit hok hreg hp f b hs hz
  refine ⟨n, fun rnd fuel hf => ?_⟩
  obtain ⟨q, hq, _, _, _, _, _, _, hroots⟩ := h rnd fuel hf
  exact ⟨q, hq, (hroots _).2 ⟨e, he, rfl, hb⟩, hr⟩

/-- What is loaded from `demoPipe`. -/
def demoAgain : SPipe :=
  { demoPipe with repo := [[3], [4]], roots := [[3], [4]] }

/-- C63 does not hold for a pipeline that was itself loaded: loaded elements in groups are not in the repository, so
they are not saved again, and the second load gives a group without children. -/
theorem C63_resave_violated :
    ∃ b q b' r n, savePipe 3 demoPipe = .ok b ∧ (∀ fuel, n ≤ fuel → loadPipe demoFac [0] fuel b = .ok q) ∧
      savePipe 3 q = .ok b' ∧ (∀ fuel, n ≤ fuel → loadPipe demoFac [0] fuel b' = .ok r) ∧
      (lookE q.objs [3]).map SElem.children = some [[1], [2]] ∧
      (lookE r.objs [3]).map SElem.children = some [] ∧ r.objs.map SElem.session = [[3], [4]] := by
  obtain ⟨b, hb, hbz⟩ := saved_small demoPipe 3 (by decide +kernel)
  obtain ⟨st, n, hst, hl⟩ := load_saved demo_fits hb hbz
  have hq : loadStorage demoFac [0] st.lost = .ok demoAgain := by
    have : ((buildPipe 3 demoPipe).any fun st => decide (loadStorage demoFac [0] st.lost = .ok demoAgain)) = true := by
      decide +kernel
    rw [hst, Option.any_some] at this
    exact of_decide_eq_true this
  obtain ⟨b', hb', hbz'⟩ := saved_small demoAgain 3 (by decide +kernel)
  obtain ⟨st2, n2, hst2, hl2⟩ := load_saved (p := demoAgain)
    ⟨demo_fits.elems, demo_fits.daemons, demo_fits.stages, demo_fits.cfg⟩ hb' hbz'
  have hload2 : ∃ r, loadStorage demoFac [0] st2.lost = .ok r ∧
      (lookE r.objs [3]).map SElem.children = some [] ∧ r.objs.map SElem.session = [[3], [4]] := by
    have : ((buildPipe 3 demoAgain).any fun st => match loadStorage demoFac [0] st.lost with
        | .ok r => decide ((lookE r.objs [3]).map SElem.children = some [] ∧ r.objs.map SElem.session = [[3], [4]])
        | _ => false) = true := by decide +kernel
    rw [hst2, Option.any_some] at this
    generalize hg : loadStorage demoFac [0] st2.lost = r at this
    cases r with
    | ok q => exact ⟨q, rfl, of_decide_eq_true this⟩
    | err => cases this
    | thrown => cases this
    | crash => cases this
  obtain ⟨r, hr, r1, r2⟩ := hload2
  refine ⟨b, demoAgain, b', r, n + n2, hb, fun fuel hf => ?_, hb', fun fuel hf => ?_, by decide, r1, r2⟩
  · rw [hl demoFac [0] fuel (by omega), hq]
  · rw [hl2 demoFac [0] fuel (by omega), hr]

/-- A node with loop 0 and a timeout: `setLoop(0)`, then `setTimeout(5)` are both accepted. -/
def zeroPipe : SPipe :=
  { objs := [{ demoElem [4] nodeClz tyNode with loop := 0, timeout := 5 }], repo := [[4]], roots := [[4]], events := [],
    params := [], daemons := [], stages := [], cfg := {} }

/-- C63 does not hold for an element with loop 0 and a timeout: an exception leaves `load`. -/
theorem C63_loop_violated : Registered demoFac zeroPipe ∧
    ∃ b n, savePipe 2 zeroPipe = .ok b ∧ ∀ fuel, n ≤ fuel → loadPipe demoFac [0] fuel b = .thrown := by
  refine ⟨⟨by decide, by decide, by decide, by decide, by decide, by decide, by decide, by decide⟩, ?_⟩
  obtain ⟨b, hb, hbz⟩ := saved_small zeroPipe 2 (by decide +kernel)
  have hfit : PipeFits zeroPipe := by
    constructor
    · intro e he
      simp only [zeroPipe, List.mem_cons, List.not_mem_nil, or_false] at he
      subst he
      constructor <;> first | (unfold FitsI; decide) | decide
    · intro q hq; cases hq
    · intro q hq; cases hq
    · constructor <;> (unfold FitsI; decide)
  obtain ⟨st, n, hst, hl⟩ := load_saved hfit hb hbz
  refine ⟨b, n, hb, fun fuel hf => ?_⟩
  rw [hl demoFac [0] fuel hf]
  have : ((buildPipe 2 zeroPipe).any fun st => decide (loadStorage demoFac [0] st.lost = .thrown)) = true := by
    decide +kernel
  rw [hst, Option.any_some] at this
  exact of_decide_eq_true this

end CGraph
