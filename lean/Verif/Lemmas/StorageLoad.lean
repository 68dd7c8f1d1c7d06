import Verif.Lemmas.Storage

/-! # Loading a pipeline: the three passes -/
namespace CGraph
open Spec

theorem LRes.ok_bind {α β : Type} (a : α) (f : α → LRes β) : (LRes.ok a).bind f = f a := rfl

/-- After the first pass. -/
def SElem.bare (e : SElem) : SElem :=
  { e with belong := none, deps := [], children := [], aspects := [], eparams := [] }

/-- After the second pass. -/
def SElem.owned (e : SElem) : SElem := { e with deps := [], children := [] }

/-- The elements without an owner. -/
def topOf (l : List SElem) : List Bytes := (l.filter fun e => e.belong.isNone).map SElem.session

theorem topOf_append (a b : List SElem) : topOf (a ++ b) = topOf a ++ topOf b := by simp [topOf]

theorem mem_topOf {l : List SElem} {s : Bytes} : s ∈ topOf l ↔ ∃ e ∈ l, e.session = s ∧ e.belong = none := by
  simp only [topOf, List.mem_map, List.mem_filter, Option.isNone_iff_eq_none]
  exact ⟨fun ⟨e, h, hs⟩ => ⟨e, h.1, hs, h.2⟩, fun ⟨e, h, hs, hb⟩ => ⟨e, ⟨h, hb⟩, hs⟩⟩

theorem recoverE_ok {rnd : Bytes} {e : SElem} {st : StElem} (h : StOf e st) (hn : e.name ≠ [])
    (hm : e.isMacro = true → e.ty = tyNode) (ht : 0 ≤ e.timeout ∧ (e.timeout = 0 ∨ e.loop = 1)) :
    recoverE rnd st = .ok e.bare := by
  have h1 : ¬ st.timeout < 0 := by rw [h.timeout]; omega
  have h2 : ¬ (1 < st.loop ∧ st.timeout ≠ 0) := by rw [h.timeout, h.loop]; omega
  have h3 : (if st.ty = tyNode then st.isMacro else false) = e.isMacro := by
    rw [h.ty, h.isMacro]
    split
    · rfl
    · cases hb : e.isMacro
      · rfl
      · exact absurd (hm hb) ‹_›
  have h4 : (if st.name = [] then rnd else st.name) = e.name := by rw [h.name, if_neg hn]
  rw [recoverE, if_neg h1, if_neg h2, h3, h4, h.session, h.clz, h.ty, h.loop, h.visible, h.binding, h.level, h.timeout,
    h.strategy]
  rfl

theorem pass1_ok {fac : SFac} {rnd : Bytes} {es : List SElem} {sts : List StElem} (h2 : List.Forall₂ StOf es sts)
    (hfac : ∀ e ∈ es, fac e.clz = some (.elem e.ty)) (hn : ∀ e ∈ es, e.name ≠ [])
    (hm : ∀ e ∈ es, e.isMacro = true → e.ty = tyNode)
    (ht : ∀ e ∈ es, 0 ≤ e.timeout ∧ (e.timeout = 0 ∨ e.loop = 1)) :
    ∀ h : List SElem, ((h ++ es).map SElem.session).Nodup → pass1 fac rnd sts h = .ok (h ++ es.map SElem.bare) := by
  induction h2 with
  | nil => intro h _; simp [pass1]
  | @cons e st es sts hst _ ih =>
    intro h hnd
    have hc : lookE h e.bare.session = none := by
      rw [lookE, List.find?_eq_none]
      intro x hx hs
      have hs : x.session = e.session := by simpa [SElem.bare] using hs
      rw [List.map_append, List.nodup_append] at hnd
      exact hnd.2.2 x.session (List.mem_map_of_mem hx) e.session (by simp) hs
    have h1 : fac st.clz = some (.elem st.ty) := by rw [hst.clz, hst.ty]; exact hfac e (by simp)
    rw [pass1, h1]
    simp only [ne_eq, not_true_eq_false, ↓reduceIte]
    rw [recoverE_ok hst (hn e (by simp)) (hm e (by simp)) (ht e (by simp)), LRes.ok_bind, cacheE, hc]
    simp only [Option.isSome_none, Bool.false_eq_true, ↓reduceIte]
    rw [ih (fun x hx => hfac x (by simp [hx])) (fun x hx => hn x (by simp [hx])) (fun x hx => hm x (by simp [hx]))
      (fun x hx => ht x (by simp [hx])) (h ++ [e.bare])
      (by simpa [SElem.bare] using hnd)]
    simp

theorem nodup_mid {a b : List SElem} {e : SElem} (h : ((a ++ e :: b).map SElem.session).Nodup) :
    (∀ x ∈ a, x.session ≠ e.session) ∧ ∀ x ∈ b, x.session ≠ e.session := by
  rw [List.map_append, List.nodup_append, List.map_cons, List.nodup_cons] at h
  refine ⟨fun x hx => ?_, fun x hx hs => ?_⟩
  · exact h.2.2 x.session (List.mem_map_of_mem hx) e.session (by simp)
  · exact h.2.1.1 (hs ▸ List.mem_map_of_mem hx)

theorem pass2_ok {fac : SFac} {objs : List SElem} (hnd : (objs.map SElem.session).Nodup)
    (hs : ∀ e ∈ objs, e.session ≠ []) (hn : ∀ e ∈ objs, e.name ≠ [])
    (ht : ∀ e ∈ objs, 0 ≤ e.timeout ∧ (e.timeout = 0 ∨ e.loop = 1))
    (hb : ∀ e ∈ objs, ∀ s, e.belong = some s → ∃ g ∈ objs, g.session = s)
    (hep : ∀ e ∈ objs, (e.eparams.map Prod.fst).Nodup)
    (ha : ∀ e ∈ objs, ∀ c ∈ e.aspects, fac c = some .aspect) (hp : ∀ e ∈ objs, ∀ q ∈ e.eparams, fac q.2 = some .passed) :
    ∀ (es : List SElem) (sts : List StElem) (pre : List SElem), List.Forall₂ StOf es sts → objs = pre ++ es →
      pass2 fac sts (pre.map SElem.owned ++ es.map SElem.bare, topOf pre)
        = .ok (objs.map SElem.owned, topOf objs) := by
  intro es sts pre h2
  induction h2 generalizing pre with
  | nil => intro ho; simp [pass2, ho]
  | @cons e st es sts hst _ ih =>
    intro ho
    have he : e ∈ objs := by rw [ho]; simp
    obtain ⟨hA, hB⟩ := nodup_mid (by rw [← ho]; exact hnd)
    have hA' : ∀ x ∈ pre.map SElem.owned, x.session ≠ e.bare.session := by
      intro x hx; obtain ⟨y, hy, rfl⟩ := List.mem_map.1 hx; exact hA y hy
    have hB' : ∀ x ∈ es.map SElem.bare, x.session ≠ e.bare.session := by
      intro x hx; obtain ⟨y, hy, rfl⟩ := List.mem_map.1 hx; exact hB y hy
    have hses : st.session = e.bare.session := hst.session
    -- the owner
    have step1 : (if st.belong = [] then innerReg st (pre.map SElem.owned ++ (e :: es).map SElem.bare, topOf pre)
          else .ok (setBelong st (pre.map SElem.owned ++ (e :: es).map SElem.bare), topOf pre))
        = .ok (pre.map SElem.owned ++ { e.bare with belong := e.belong } :: es.map SElem.bare, topOf (pre ++ [e])) := by
      rw [List.map_cons]
      cases hbe : e.belong with
      | none =>
        have hb0 : st.belong = [] := by rw [hst.belong, hbe]; rfl
        rw [if_pos hb0, innerReg, hses]
        simp only [lookE_mid hA']
        have hto : ¬ (0 < e.bare.timeout ∧ st.loop ≠ 1) := by
          have := ht e he
          show ¬ (0 < e.timeout ∧ st.loop ≠ 1)
          rw [hst.loop]; omega
        have hin : e.bare.session ∉ topOf pre := by
          intro hm
          obtain ⟨x, hx, hxs, _⟩ := mem_topOf.1 hm
          exact hA x hx hxs
        rw [if_neg hto, updE_mid hA' hB', if_neg hin, hst.name, if_neg (hn e he), hst.loop]
        simp [SElem.bare, topOf, hbe]
      | some b =>
        obtain ⟨g, hg, hgs⟩ := hb e he b hbe
        have hbn : b ≠ [] := hgs ▸ hs g hg
        have hb0 : st.belong = b := by rw [hst.belong, hbe]; rfl
        rw [hb0, if_neg hbn, setBelong, hses, hb0]
        have hl : ∃ g', lookE (pre.map SElem.owned ++ e.bare :: es.map SElem.bare) b = some g' := by
          refine lookE_isSome ?_
          rw [ho] at hg
          rcases List.mem_append.1 hg with h | h
          · exact ⟨g.owned, by simp; exact .inl ⟨g, h, rfl⟩, hgs⟩
          · rcases List.mem_cons.1 h with rfl | h
            · exact ⟨g.bare, by simp, hgs⟩
            · exact ⟨g.bare, by simp; exact .inr (.inr ⟨g, h, rfl⟩), hgs⟩
        obtain ⟨g', hg'⟩ := hl
        rw [updE_mid hA' hB', hg', Option.map_some, (lookE_session hg').2]
        simp [topOf, hbe]
    rw [pass2, step1, LRes.ok_bind]
    -- aspects and parameters
    have hB'' : ∀ x ∈ es.map SElem.bare, x.session ≠ ({ e.bare with belong := e.belong } : SElem).session := hB'
    have hA'' : ∀ x ∈ pre.map SElem.owned, x.session ≠ ({ e.bare with belong := e.belong } : SElem).session := hA'
    have hses' : st.session = ({ e.bare with belong := e.belong } : SElem).session := hses
    have hall : st.aspects.all (fun c => fac c = some .aspect) = true ∧
        st.eparams.all (fun p => fac p.2 = some .passed) = true := by
      rw [hst.aspects, hst.eparams]
      simp only [List.all_eq_true, decide_eq_true_eq]
      exact ⟨ha e he, hp e he⟩
    have step2 : loadAE fac st (pre.map SElem.owned ++ { e.bare with belong := e.belong } :: es.map SElem.bare)
        = .ok ((pre ++ [e]).map SElem.owned ++ es.map SElem.bare) := by
      rw [loadAE, if_pos hall, hses', updE_mid hA'' hB'', hst.aspects, hst.eparams]
      have hf : e.eparams.foldl insKey [] = e.eparams := by
        rw [insKey_foldl _ _ (by simpa using hep e he)]; rfl
      have ha0 : (if e.aspects = [] then ([] : List Bytes) else e.aspects) = e.aspects := by
        split
        · simp_all
        · rfl
      simp only [SElem.bare, hf, ha0]
      simp [SElem.owned]
    rw [step2, LRes.ok_bind]
    exact ih (pre ++ [e]) (by simpa using ho)

theorem loadDeps_fold (s : Bytes) (l acc : List Bytes) (hn : (acc ++ l).Nodup) (hs : ∀ d ∈ l, d ≠ s) :
    l.foldl (fun ds d => if d = s ∨ d ∈ ds then ds else ds ++ [d]) acc = acc ++ l := by
  induction l generalizing acc with
  | nil => simp
  | cons d l ih =>
    have h1 : ¬ (d = s ∨ d ∈ acc) := by
      rintro (h | h)
      · exact hs d (by simp) h
      · rw [List.nodup_append] at hn
        exact hn.2.2 d h d (by simp) rfl
    rw [List.foldl_cons, if_neg h1, ih _ (by simpa using hn) (fun x hx => hs x (by simp [hx]))]
    simp

theorem loadKids_ok {st : StElem} {A B : List SElem} :
    ∀ (l : List Bytes) (g : SElem), st.session = g.session → (∀ x ∈ A, x.session ≠ g.session) →
      (∀ x ∈ B, x.session ≠ g.session) →
      (∀ c ∈ l, (∃ x ∈ A ++ g :: B, x.session = c) ∧ ∀ x ∈ A ++ g :: B, x.session = c →
        x.belong = some g.session ∧ (st.ty = tySome → x.timeout ≠ 0)) →
      loadKids st l (A ++ g :: B) = .ok (A ++ { g with children := g.children ++ l } :: B) := by
  intro l
  induction l with
  | nil => intro g _ _ _ _; simp [loadKids]
  | cons c l ih =>
    intro g hst hA hB hc
    obtain ⟨hex, hall⟩ := hc c (by simp)
    obtain ⟨e, he⟩ := lookE_isSome hex
    obtain ⟨hem, hes⟩ := lookE_session he
    rw [loadKids]
    simp only [he]
    have hu : updE (A ++ g :: B) st.session (fun g => { g with children := g.children ++ [c] })
        = A ++ { g with children := g.children ++ [c] } :: B := by
      rw [hst]; exact updE_mid hA hB
    have hu2 : updE (A ++ { g with children := g.children ++ [c] } :: B) c
        (fun e => { e with belong := some st.session }) = A ++ { g with children := g.children ++ [c] } :: B := by
      refine updE_id ?_
      intro x hx hxs
      rw [hst]
      rcases List.mem_append.1 hx with h | h
      · have := (hall x (by simp [h]) hxs).1; rw [← this]
      · rcases List.mem_cons.1 h with rfl | h
        · have := (hall g (by simp) hxs).1; simp only at this ⊢; rw [← this]
        · have := (hall x (by simp [h]) hxs).1; rw [← this]
    rw [hu, hu2, if_neg (fun hh => (hall e hem hes).2 hh.1 hh.2),
      ih { g with children := g.children ++ [c] } hst hA hB ?_]
    · simp
    · intro c' hc'
      obtain ⟨⟨x, hx, hxs⟩, hall'⟩ := hc c' (by simp [hc'])
      refine ⟨?_, ?_⟩
      · rcases List.mem_append.1 hx with h | h
        · exact ⟨x, by simp [h], hxs⟩
        · rcases List.mem_cons.1 h with rfl | h
          · exact ⟨{ x with children := x.children ++ [c] }, by simp, hxs⟩
          · exact ⟨x, by simp [h], hxs⟩
      · intro y hy hys
        rcases List.mem_append.1 hy with h | h
        · exact hall' y (by simp [h]) hys
        · rcases List.mem_cons.1 h with rfl | h
          · exact hall' g (by simp) hys
          · exact hall' y (by simp [h]) hys

theorem pass3_ok {objs : List SElem} (hnd : (objs.map SElem.session).Nodup)
    (hd : ∀ e ∈ objs, e.deps.Nodup ∧ ∀ d ∈ e.deps, d ≠ e.session ∧ ∃ e' ∈ objs, e'.session = d ∧ e'.belong = e.belong)
    (hg : ∀ e ∈ objs, e.children ≠ [] → tyIsGroup e.ty = true)
    (hc : ∀ e ∈ objs, ∀ c ∈ e.children,
      ∃ e' ∈ objs, e'.session = c ∧ e'.belong = some e.session ∧ (e.ty = tySome → e'.timeout ≠ 0)) :
    ∀ (es : List SElem) (sts : List StElem) (pre : List SElem), List.Forall₂ StOf es sts → objs = pre ++ es →
      pass3 sts (pre ++ es.map SElem.owned) = .ok objs := by
  intro es sts pre h2
  induction h2 generalizing pre with
  | nil => intro ho; simp [pass3, ho]
  | @cons e st es sts hst _ ih =>
    intro ho
    have he : e ∈ objs := by rw [ho]; simp
    obtain ⟨hA, hB⟩ := nodup_mid (by rw [← ho]; exact hnd)
    have hB' : ∀ x ∈ es.map SElem.owned, x.session ≠ e.owned.session := by
      intro x hx; obtain ⟨y, hy, rfl⟩ := List.mem_map.1 hx; exact hB y hy
    have hA' : ∀ x ∈ pre, x.session ≠ e.owned.session := hA
    have hses : st.session = e.owned.session := hst.session
    -- every element of the heap stands for an element of the pipeline
    have hcorr : ∀ x ∈ pre ++ e.owned :: es.map SElem.owned, ∃ y ∈ objs, y.session = x.session ∧ y.belong = x.belong ∧
        y.timeout = x.timeout := by
      intro x hx
      rcases List.mem_append.1 hx with h | h
      · exact ⟨x, by rw [ho]; simp [h], rfl, rfl, rfl⟩
      · rcases List.mem_cons.1 h with rfl | h
        · exact ⟨e, he, rfl, rfl, rfl⟩
        · obtain ⟨y, hy, rfl⟩ := List.mem_map.1 h
          exact ⟨y, by rw [ho]; simp [hy], rfl, rfl, rfl⟩
    have hcov : ∀ y ∈ objs, ∃ x ∈ pre ++ e.owned :: es.map SElem.owned, x.session = y.session := by
      intro y hy
      rw [ho] at hy
      rcases List.mem_append.1 hy with h | h
      · exact ⟨y, by simp [h], rfl⟩
      · rcases List.mem_cons.1 h with rfl | h
        · exact ⟨y.owned, by simp, rfl⟩
        · exact ⟨y.owned, by simp; exact .inr (.inr ⟨y, h, rfl⟩), rfl⟩
    have step1 : (if st.deps = [] then .ok (pre ++ (e :: es).map SElem.owned)
          else loadDeps st (pre ++ (e :: es).map SElem.owned))
        = .ok (pre ++ { e.owned with deps := e.deps } :: es.map SElem.owned) := by
      rw [List.map_cons, hst.deps]
      split
      · rename_i h0
        rw [h0]; rfl
      · rw [loadDeps, hses]
        simp only [lookE_mid hA']
        have hall : st.deps.all (fun d => (lookE (pre ++ e.owned :: es.map SElem.owned) d).any
            fun e' => e'.belong = e.owned.belong) = true := by
          rw [List.all_eq_true]
          intro d hdm
          rw [hst.deps] at hdm
          obtain ⟨_, e', he', hs', hb'⟩ := (hd e he).2 d hdm
          obtain ⟨x0, hx0, hx0s⟩ := hcov e' he'
          obtain ⟨x, hx⟩ := lookE_isSome ⟨x0, hx0, hx0s.trans hs'⟩
          obtain ⟨hxm, hxs⟩ := lookE_session hx
          obtain ⟨y, hy, hys, hyb, _⟩ := hcorr x hxm
          have : y = e' := List.inj_on_of_nodup_map hnd hy he' (by rw [hys, hxs, hs'])
          subst this
          rw [hx]
          simp only [Option.any_some, decide_eq_true_eq]
          rw [← hyb, hb']; rfl
        rw [if_pos hall, updE_mid hA' hB', hst.deps,
          loadDeps_fold e.owned.session e.deps e.owned.deps (by simpa [SElem.owned] using (hd e he).1)
            (fun d hdm => ((hd e he).2 d hdm).1)]
        simp [SElem.owned]
    rw [pass3, step1, LRes.ok_bind]
    have step2 : (if st.children = [] then .ok (pre ++ { e.owned with deps := e.deps } :: es.map SElem.owned)
          else if tyIsGroup st.ty then
            loadKids st (st.children.map (·.session)) (pre ++ { e.owned with deps := e.deps } :: es.map SElem.owned)
          else .err) = .ok ((pre ++ [e]) ++ es.map SElem.owned) := by
      by_cases hch : st.children = []
      · have : e.children = [] := by rw [← hst.children, hch]; rfl
        rw [if_pos hch]
        simp [SElem.owned, ← this]
      · have hne : e.children ≠ [] := by
          rw [← hst.children]; simpa using hch
        rw [if_neg hch, hst.ty, hg e he hne, if_pos rfl, hst.children,
          loadKids_ok e.children { e.owned with deps := e.deps } hst.session hA hB' ?_]
        · simp [SElem.owned]
        · intro c hcm
          obtain ⟨e', he', hs', hb', ht'⟩ := hc e he c hcm
          refine ⟨?_, ?_⟩
          · obtain ⟨x, hx, hxs⟩ := hcov e' he'
            rcases List.mem_append.1 hx with h | h
            · exact ⟨x, by simp [h], hxs.trans hs'⟩
            · rcases List.mem_cons.1 h with rfl | h
              · exact ⟨{ e.owned with deps := e.deps }, by simp, hxs.trans hs'⟩
              · exact ⟨x, List.mem_append_right _ (List.mem_cons_of_mem _ h), hxs.trans hs'⟩
          · intro x hx hxs
            have hco : ∃ y ∈ objs, y.session = x.session ∧ y.belong = x.belong ∧ y.timeout = x.timeout := by
              rcases List.mem_append.1 hx with h | h
              · exact hcorr x (by simp [h])
              · rcases List.mem_cons.1 h with rfl | h
                · exact ⟨e, he, rfl, rfl, rfl⟩
                · exact hcorr x (List.mem_append_right _ (List.mem_cons_of_mem _ h))
            obtain ⟨y, hy, hys, hyb, hyt⟩ := hco
            have : y = e' := List.inj_on_of_nodup_map hnd hy he' (by rw [hys, hxs, hs'])
            subst this
            refine ⟨by rw [← hyb, hb']; rfl, fun h => ?_⟩
            rw [hst.ty] at h
            rw [← hyt]; exact ht' h
    rw [step2, LRes.ok_bind]
    exact ih (pre ++ [e]) (by simpa using ho)

theorem loadElems_ok {fac : SFac} {rnd : Bytes} {p : SPipe} {sts : List StElem} (ho : ElemsOK p) (hr : Registered fac p)
    (h2 : List.Forall₂ StOf p.objs sts) : loadElems fac rnd sts = .ok (p.objs, topOf p.objs) := by
  rw [loadElems, pass1_ok h2 hr.elem ho.name ho.isMacro ho.timeout [] (by simpa using ho.nodup), LRes.ok_bind]
  have e2 := pass2_ok ho.nodup ho.session ho.name ho.timeout ho.belong ho.eparams hr.aspect hr.passed p.objs sts [] h2 rfl
  simp only [List.map_nil, List.nil_append] at e2 ⊢
  rw [show topOf [] = [] from rfl] at e2
  rw [e2, LRes.ok_bind]
  have e3 := pass3_ok ho.nodup ho.deps ho.children ho.child p.objs sts [] h2 rfl
  rw [List.nil_append] at e3
  rw [e3, LRes.ok_bind]

/-! ## Saving -/

theorem buildPipe_elems {p : SPipe} {f : Nat} {st : StPipe} (hn : (p.objs.map SElem.session).Nodup)
    (hrepo : p.repo = p.objs.map SElem.session) (h : buildPipe f p = some st) :
    List.Forall₂ StOf p.objs st.elements ∧ (∀ x ∈ st.elements, ∃ e ∈ p.objs, buildElem p.objs f e = some x) ∧
      st.events = p.events ∧ st.params = p.params.map (fun q => (q.1, q.2.1, [])) ∧ st.daemons = p.daemons ∧
      st.stages = p.stages ∧ st.cfg = p.cfg := by
  rw [buildPipe] at h
  cases hm : mapO (fun s => (lookE p.objs s).bind (buildElem p.objs f)) p.repo with
  | none => simp [hm] at h
  | some es =>
    simp only [hm, Option.bind_some, Option.some.injEq] at h
    subst h
    have h2 := mapO_forall₂ hm
    rw [hrepo, List.forall₂_map_left_iff] at h2
    have key : ∀ (l : List SElem) (es : List StElem), (∀ e ∈ l, e ∈ p.objs) →
        List.Forall₂ (fun e b => (lookE p.objs e.session).bind (buildElem p.objs f) = some b) l es →
        List.Forall₂ StOf l es ∧ ∀ x ∈ es, ∃ e ∈ p.objs, buildElem p.objs f e = some x := by
      intro l es hl h2
      induction h2 with
      | nil => exact ⟨.nil, by simp⟩
      | @cons e b l es hb _ ih =>
        obtain ⟨i1, i2⟩ := ih (fun x hx => hl x (by simp [hx]))
        rw [lookE_mem hn (hl e (by simp)), Option.bind_some] at hb
        refine ⟨.cons (buildElem_stOf hb) i1, ?_⟩
        intro x hx
        rcases List.mem_cons.1 hx with rfl | hx
        · exact ⟨e, hl e (by simp), hb⟩
        · exact i2 x hx
    obtain ⟨k1, k2⟩ := key p.objs es (fun _ h => h) h2
    exact ⟨k1, k2, rfl, rfl, rfl, rfl, rfl⟩

theorem buildPipe_mem {p : SPipe} {f : Nat} {st : StPipe} (h : buildPipe f p = some st) :
    (∀ x ∈ st.elements, ∃ e ∈ p.objs, buildElem p.objs f e = some x) ∧ st.daemons = p.daemons ∧ st.stages = p.stages ∧
      st.cfg = p.cfg := by
  rw [buildPipe] at h
  cases hm : mapO (fun s => (lookE p.objs s).bind (buildElem p.objs f)) p.repo with
  | none => simp [hm] at h
  | some es =>
    simp only [hm, Option.bind_some, Option.some.injEq] at h
    subst h
    refine ⟨?_, rfl, rfl, rfl⟩
    have h2 := mapO_forall₂ hm
    clear hm
    generalize p.repo = l at h2
    show ∀ x ∈ es, _
    induction h2 with
    | nil => simp
    | @cons s b l es hb _ ih =>
      intro x hx
      rcases List.mem_cons.1 hx with rfl | hx
      · cases hl : lookE p.objs s with
        | none => simp [hl] at hb
        | some e =>
          simp only [hl, Option.bind_some] at hb
          exact ⟨e, (lookE_session hl).1, hb⟩
      · exact ih x hx

theorem savePipe_of_build {p : SPipe} {f : Nat} {st : StPipe}
    (ha : p.repo.any (fun s => (lookE p.objs s).any fun e => tyIsAdaptor e.ty) = false) (h : buildPipe f p = some st) :
    ∃ b, savePipe f p = .ok b ∧ b.length = reflSize stEnv (pipeVal st) (.cls 0) := by
  have hw := write_at stEnv (pipeVal st) (.cls 0) 0
    ⟨List.replicate (reflSize stEnv (pipeVal st) (.cls 0)) 0, 0, reflSize stEnv (pipeVal st) (.cls 0), 0⟩ []
    (List.replicate (reflSize stEnv (pipeVal st) (.cls 0)) 0) [] (pipeVal_ofTy st) (by simp) (by simp) (by simp)
  refine ⟨enc stEnv (pipeVal st) (.cls 0) 0, ?_, enc_length _ _ _ _ (pipeVal_ofTy st)⟩
  have hs : saveBytes stEnv (pipeVal st) (.cls 0) = some (enc stEnv (pipeVal st) (.cls 0) 0) := by
    simp only [saveBytes, hw]; simp
  rw [savePipe, ha, if_neg (by simp), h, Option.bind_some, hs]

/-- The storage that is read back: the flags of the parameters and two members of the configuration are lost. -/
def StPipe.lost (st : StPipe) : StPipe :=
  { st with params := st.params.map (fun q => (q.1, false, q.2.2)), cfg := st.cfg.lost }

theorem mapO_map' {α β γ : Type} {f : α → β} {g : β → Option γ} {h : α → γ} {l : List α}
    (hh : ∀ a ∈ l, g (f a) = some (h a)) : mapO g (l.map f) = some (l.map h) := by
  induction l with
  | nil => rfl
  | cons a l ih =>
    simp only [List.map_cons, mapO, hh a (by simp), Option.bind_some, ih (fun b hb => hh b (by simp [hb]))]

theorem pipeOf_pipeVal {st : StPipe} (he : ∀ x ∈ st.elements, elemOf (elemVal x) = some x)
    (hd : ∀ q ∈ st.daemons, FitsI q.1 8) (hs : ∀ q ∈ st.stages, FitsI q.2.1 4) (hc : CfgFits st.cfg) :
    pipeOf (pipeVal st) = some st.lost := by
  have e1 : mapO pairOf (st.events.map pairVal) = some st.events := mapO_map (fun a _ => rfl)
  have e2 : mapO prmOf (st.params.map prmVal) = some (st.params.map fun q => (q.1, false, q.2.2)) :=
    mapO_map' (fun a _ => rfl)
  have e3 : mapO dmnOf (st.daemons.map dmnVal) = some st.daemons :=
    mapO_map (fun a ha => by simp [dmnVal, dmnOf, decI_encI _ _ (hd a ha)])
  have e4 : mapO stgOf (st.stages.map stgVal) = some st.stages :=
    mapO_map (fun a ha => by simp [stgVal, stgOf, decI_encI _ _ (hs a ha)])
  simp only [pipeVal, pipeOf, elemsOf_elemVals he, e1, e2, e3, e4, cfgOf_cfgVal _ hc, Option.bind_some, StPipe.lost]

/-- What is read from the bytes of a saved pipeline. -/
theorem load_saved {p : SPipe} {f : Nat} {b : Bytes} (hfit : PipeFits p) (h : savePipe f p = .ok b) (hz : b.length < 2 ^ 64) :
    ∃ st n, buildPipe f p = some st ∧
      ∀ fac rnd fuel, n ≤ fuel → loadPipe fac rnd fuel b = loadStorage fac rnd st.lost := by
  rw [savePipe] at h
  split at h
  · cases h
  · cases hb : buildPipe f p with
    | none => simp [hb] at h
    | some st =>
      obtain ⟨k2, k5, k6, k7⟩ := buildPipe_mem hb
      refine ⟨st, readSteps (pipeVal st), rfl, fun fac rnd fuel hf => ?_⟩
      rw [hb, Option.bind_some] at h
      have hw := write_at stEnv (pipeVal st) (.cls 0) 0
        ⟨List.replicate (reflSize stEnv (pipeVal st) (.cls 0)) 0, 0, reflSize stEnv (pipeVal st) (.cls 0), 0⟩ []
        (List.replicate (reflSize stEnv (pipeVal st) (.cls 0)) 0) [] (pipeVal_ofTy st) (by simp) (by simp) (by simp)
      have hs : saveBytes stEnv (pipeVal st) (.cls 0) = some (enc stEnv (pipeVal st) (.cls 0) 0) := by
        simp only [saveBytes, hw]; simp
      rw [hs] at h
      simp only [SaveRes.ok.injEq] at h
      have hl := enc_length stEnv (pipeVal st) (.cls 0) 0 (pipeVal_ofTy st)
      have hrd : loadBytes stEnv fuel b (.cls 0) = .ok (pipeVal st) := by
        rw [loadBytes, read_at stEnv stEnv_ne (pipeVal st) (.cls 0) 0 fuel _ [] [] (pipeVal_ofTy st)
          (by rw [← hl, h]; simpa using hz) hf (by simp [h]) (by simp)]
        rfl
      have hpo : pipeOf (pipeVal st) = some st.lost :=
        pipeOf_pipeVal
          (fun x hx => by
            obtain ⟨e, he, hbe⟩ := k2 x hx
            exact buildElem_round hfit.elems f e x he hbe)
          (by rw [k5]; exact hfit.daemons) (by rw [k6]; exact hfit.stages) (by rw [k7]; exact hfit.cfg)
      rw [loadPipe, hrd]
      simp only [Except.toOption, Option.bind_some, hpo]

end CGraph
