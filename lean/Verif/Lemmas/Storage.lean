import Verif.Spec.Storage
import Verif.Lemmas.Codec
import Mathlib.Data.List.Forall2
import Mathlib.Data.List.Nodup
import Mathlib.Tactic.Positivity
import Mathlib.Tactic.NormNum

/-! # Saving and loading a pipeline: facts -/
namespace CGraph
open Spec

/-! ## Numbers -/

theorem decI_encI (x : Int) (w : Nat) (h : FitsI x w) : decI (encI x w) = x := by
  obtain ⟨h1, h2⟩ := h
  have hp : (0 : Int) < 256 ^ w := by positivity
  have hc : ((256 ^ w : Nat) : Int) = (256 : Int) ^ w := by push_cast; rfl
  have hm : 0 ≤ x % (256 : Int) ^ w ∧ x % (256 : Int) ^ w < 256 ^ w :=
    ⟨Int.emod_nonneg _ (by omega), Int.emod_lt_of_pos _ hp⟩
  have hu : unle (encI x w) = (x % (256 : Int) ^ w).toNat := by
    rw [encI, unle_le, hc]
    rw [hc]
    have : ((x % (256 : Int) ^ w).toNat : Int) < ((256 ^ w : Nat) : Int) := by rw [hc]; omega
    exact_mod_cast this
  have hl : (encI x w).length = w := by simp [encI, le_length]
  rw [decI, hu, hl, hc]
  have e1 : (((x % (256 : Int) ^ w).toNat : Nat) : Int) = x % 256 ^ w := by omega
  rcases Int.lt_or_le x 0 with hx | hx
  · have : x % (256 : Int) ^ w = x + 256 ^ w := by
      rw [Int.emod_eq_add_self_emod, Int.emod_eq_of_lt] <;> omega
    have hn : ¬ 2 * (x % (256 : Int) ^ w).toNat < 256 ^ w := by
      intro hlt
      have : (2 * (x % (256 : Int) ^ w).toNat : Int) < ((256 ^ w : Nat) : Int) := by exact_mod_cast hlt
      rw [hc] at this; omega
    rw [if_neg hn, e1]; omega
  · have : x % (256 : Int) ^ w = x := Int.emod_eq_of_lt hx (by omega)
    have hn : 2 * (x % (256 : Int) ^ w).toNat < 256 ^ w := by
      have : (2 * (x % (256 : Int) ^ w).toNat : Int) < ((256 ^ w : Nat) : Int) := by rw [hc]; omega
      exact_mod_cast this
    rw [if_pos hn, e1]; omega

theorem decB_encB (b : Bool) : decB (encB b) = b := by cases b <;> decide

theorem encI_length (x : Int) (w : Nat) : (encI x w).length = w := by simp [encI, le_length]

theorem encB_length (b : Bool) : (encB b).length = 1 := by simp [encB]

/-! ## Lists -/

theorem mapO_map {α β : Type} {f : α → β} {g : β → Option α} {l : List α} (h : ∀ a ∈ l, g (f a) = some a) :
    mapO g (l.map f) = some l := by
  induction l with
  | nil => rfl
  | cons a l ih =>
    simp only [List.map_cons, mapO, h a (by simp), Option.bind_some, ih (fun b hb => h b (by simp [hb]))]

theorem mapO_forall₂ {α β : Type} {f : α → Option β} {l : List α} {r : List β} (h : mapO f l = some r) :
    List.Forall₂ (fun a b => f a = some b) l r := by
  induction l generalizing r with
  | nil => simp only [mapO, Option.some.injEq] at h; subst h; exact .nil
  | cons a l ih =>
    simp only [mapO] at h
    cases hb : f a with
    | none => simp [hb] at h
    | some b =>
      cases hr : mapO f l with
      | none => simp [hb, hr] at h
      | some r' =>
        simp only [hb, hr, Option.bind_some, Option.some.injEq] at h
        subst h
        exact .cons hb (ih hr)

theorem insKey_foldl {β : Type} (l acc : List (Bytes × β)) (h : ((acc ++ l).map Prod.fst).Nodup) :
    l.foldl insKey acc = acc ++ l := by
  induction l generalizing acc with
  | nil => simp
  | cons p l ih =>
    have h1 : acc.any (fun q => q.1 = p.1) = false := by
      rw [List.any_eq_false]
      intro q hq hqp
      simp only [decide_eq_true_eq] at hqp
      rw [List.map_append, List.nodup_append] at h
      exact h.2.2 q.1 (List.mem_map_of_mem hq) p.1 (by simp) hqp
    rw [List.foldl_cons, insKey, h1, if_neg (by simp), ih _ (by simpa using h)]
    simp

/-! ## The storages and the codec -/

theorem elemsOf_elemVals {l : List StElem} (h : ∀ e ∈ l, elemOf (elemVal e) = some e) : elemsOf (elemVals l) = some l := by
  induction l with
  | nil => simp [elemVals, elemsOf]
  | cons a l ih =>
    simp only [elemVals, elemsOf, h a (by simp), Option.bind_some, ih (fun b hb => h b (by simp [hb]))]

theorem ofTyAll_map {env : REnv} {α : Type} {f : α → RVal} {t : RTy} {l : List α} (h : ∀ a ∈ l, OfTy env (f a) t) :
    OfTyAll env (l.map f) t := by
  induction l with
  | nil => simp [OfTyAll]
  | cons a l ih => exact ⟨h a (by simp), ih (fun b hb => h b (by simp [hb]))⟩

mutual
theorem elemVal_ofTy : ∀ e : StElem, OfTy stEnv (elemVal e) (.cls 1)
  | ⟨name, loop, session, deps, visible, binding, level, timeout, strategy, isMacro, clz, belong, ty, children, aspects,
      eparams⟩ => by
    have h1 : OfTyAll stEnv (deps.map RVal.str) .str := ofTyAll_map (fun a _ => by simp [OfTy])
    have h2 := elemVals_ofTy children
    have h3 : OfTyAll stEnv (aspects.map aspVal) (.cls 7) :=
      ofTyAll_map (fun a _ => by simp [OfTy, OfTyFields, aspVal, stEnv])
    have h4 : OfTyAll stEnv (eparams.map pairVal) (.cls 8) :=
      ofTyAll_map (fun a _ => by simp [OfTy, OfTyFields, pairVal, stEnv])
    simp only [elemVal, OfTy, stEnv, OfTyFields, encI_length, encB_length, le_length, true_and, and_true]
    exact ⟨h1, h2, h3, h4⟩

theorem elemVals_ofTy : ∀ l : List StElem, OfTyAll stEnv (elemVals l) (.cls 1)
  | [] => by simp [elemVals, OfTyAll]
  | e :: l => by
    simp only [elemVals, OfTyAll]
    exact ⟨elemVal_ofTy e, elemVals_ofTy l⟩
end

theorem pipeVal_ofTy (p : StPipe) : OfTy stEnv (pipeVal p) (.cls 0) := by
  have h1 := elemVals_ofTy p.elements
  have h2 : OfTyAll stEnv (p.events.map pairVal) (.cls 2) :=
    ofTyAll_map (fun a _ => by simp [OfTy, OfTyFields, pairVal, stEnv])
  have h3 : OfTyAll stEnv (p.params.map prmVal) (.cls 3) :=
    ofTyAll_map (fun a _ => by simp [OfTy, OfTyFields, prmVal, stEnv])
  have h4 : OfTyAll stEnv (p.daemons.map dmnVal) (.cls 4) :=
    ofTyAll_map (fun a _ => by simp [OfTy, OfTyFields, dmnVal, stEnv, encI_length])
  have h5 : OfTyAll stEnv (p.stages.map stgVal) (.cls 5) :=
    ofTyAll_map (fun a _ => by simp [OfTy, OfTyFields, stgVal, stEnv, encI_length])
  have h6 : OfTy stEnv (cfgVal p.cfg) (.cls 6) := by
    simp [OfTy, OfTyFields, cfgVal, stEnv, encI_length, encB_length]
  simp only [pipeVal, OfTy, stEnv, OfTyFields]
  exact ⟨h1, h2, h3, h4, h5, by simpa only [OfTy, stEnv] using h6, trivial⟩

theorem stEnv_ne (c : Nat) : stEnv c ≠ [] := by
  unfold stEnv
  split <;> simp

/-- What comes back of a configuration. -/
def SCfg.lost (c : SCfg) : SCfg := { c with pipelineWaitBusyEpoch := 0, deliverRunningPrimaryThreadEnable := false }

theorem cfgOf_cfgVal (c : SCfg) (h : CfgFits c) : cfgOf (cfgVal c) = some c.lost := by
  obtain ⟨h1, h2, h3, h4, h5, h6, h7, h8, h9, h10, h11, h12, h13, h14, h15, h16⟩ := h
  simp [cfgVal, cfgOf, SCfg.lost, decB_encB, decI_encI, *]

/-- The element storage is the one of the element. -/
structure StOf (e : SElem) (st : StElem) : Prop where
  name : st.name = e.name
  loop : st.loop = e.loop
  session : st.session = e.session
  deps : st.deps = e.deps
  visible : st.visible = e.visible
  binding : st.binding = e.binding
  level : st.level = e.level
  timeout : st.timeout = e.timeout
  strategy : st.strategy = e.strategy
  isMacro : st.isMacro = e.isMacro
  clz : st.clz = e.clz
  belong : st.belong = e.belong.getD []
  ty : st.ty = e.ty
  children : st.children.map (·.session) = e.children
  aspects : st.aspects = e.aspects
  eparams : st.eparams = e.eparams

theorem lookE_session {h : List SElem} {s : Bytes} {e : SElem} (hl : lookE h s = some e) : e ∈ h ∧ e.session = s := by
  refine ⟨List.mem_of_find?_eq_some hl, ?_⟩
  have := List.find?_some hl
  simpa using this

theorem buildElem_session {objs : List SElem} {f : Nat} {e : SElem} {st : StElem} (h : buildElem objs f e = some st) :
    st.session = e.session := by
  cases f with
  | zero => simp [buildElem] at h
  | succ f =>
    rw [buildElem] at h
    cases hm : mapO (fun s => (lookE objs s).bind (buildElem objs f)) e.children with
    | none => simp [hm] at h
    | some cs => simp only [hm, Option.bind_some, Option.some.injEq] at h; rw [← h]

theorem buildElem_stOf {objs : List SElem} {f : Nat} {e : SElem} {st : StElem} (h : buildElem objs f e = some st) :
    StOf e st := by
  cases f with
  | zero => simp [buildElem] at h
  | succ f =>
    rw [buildElem] at h
    cases hm : mapO (fun s => (lookE objs s).bind (buildElem objs f)) e.children with
    | none => simp [hm] at h
    | some cs =>
      simp only [hm, Option.bind_some, Option.some.injEq] at h
      have hcs : cs.map (·.session) = e.children := by
        have h2 := mapO_forall₂ hm
        clear hm h
        generalize e.children = l at h2
        induction h2 with
        | nil => rfl
        | @cons s c l cs hc _ ih =>
          rw [List.map_cons, ih]
          congr 1
          cases hl : lookE objs s with
          | none => simp [hl] at hc
          | some e' =>
            simp only [hl, Option.bind_some] at hc
            rw [buildElem_session hc, (lookE_session hl).2]
      subst h
      exact ⟨rfl, rfl, rfl, rfl, rfl, rfl, rfl, rfl, rfl, rfl, rfl, rfl, rfl, hcs, rfl, rfl⟩

theorem buildElem_round {objs : List SElem} (hf : ∀ e ∈ objs, ElemFits e) (f : Nat) :
    ∀ (e : SElem) (st : StElem), e ∈ objs → buildElem objs f e = some st → elemOf (elemVal st) = some st := by
  induction f with
  | zero => intro e st _ h; simp [buildElem] at h
  | succ f ih =>
    intro e st he h
    rw [buildElem] at h
    cases hm : mapO (fun s => (lookE objs s).bind (buildElem objs f)) e.children with
    | none => simp [hm] at h
    | some cs =>
      simp only [hm, Option.bind_some, Option.some.injEq] at h
      subst h
      have hc : ∀ c ∈ cs, elemOf (elemVal c) = some c := by
        have h2 := mapO_forall₂ hm
        clear hm
        generalize e.children = l at h2
        induction h2 with
        | nil => intro c hc; simp at hc
        | @cons s c l cs hsc _ ih2 =>
          intro c' hc'
          rcases List.mem_cons.1 hc' with rfl | hc'
          · cases hl : lookE objs s with
            | none => simp [hl] at hsc
            | some e' =>
              simp only [hl, Option.bind_some] at hsc
              exact ih e' _ (lookE_session hl).1 hsc
          · exact ih2 c' hc'
      have hfe := hf e he
      have e1 : mapO strOf (e.deps.map RVal.str) = some e.deps := mapO_map (fun a _ => rfl)
      have e2 : mapO aspOf (e.aspects.map aspVal) = some e.aspects := mapO_map (fun a _ => rfl)
      have e3 : mapO pairOf (e.eparams.map pairVal) = some e.eparams := mapO_map (fun a _ => rfl)
      have hl : unle (le e.loop 8) = e.loop := unle_le _ _ (by have := hfe.loop; omega)
      simp only [elemVal, elemOf, e1, e2, e3, elemsOf_elemVals hc, Option.bind_some, hl, decB_encB,
        decI_encI _ _ hfe.binding, decI_encI _ _ hfe.level, decI_encI _ _ hfe.timeout, decI_encI _ _ hfe.strategy,
        decI_encI _ _ hfe.ty]

/-! ## The elements of the pipeline -/

theorem lookE_mid {A B : List SElem} {e : SElem} (hA : ∀ x ∈ A, x.session ≠ e.session) :
    lookE (A ++ e :: B) e.session = some e := by
  rw [lookE, List.find?_append, List.find?_eq_none.2 (by intro x hx; simpa using hA x hx)]
  simp

theorem lookE_isSome {h : List SElem} {s : Bytes} (hs : ∃ e ∈ h, e.session = s) : ∃ e, lookE h s = some e := by
  obtain ⟨e, he, rfl⟩ := hs
  cases hl : lookE h e.session with
  | some x => exact ⟨x, rfl⟩
  | none =>
    rw [lookE, List.find?_eq_none] at hl
    exact absurd (hl e he) (by simp)

theorem lookE_mem {h : List SElem} (hn : (h.map SElem.session).Nodup) {e : SElem} (he : e ∈ h) :
    lookE h e.session = some e := by
  obtain ⟨x, hx⟩ := lookE_isSome ⟨e, he, rfl⟩
  obtain ⟨hm, hs⟩ := lookE_session hx
  rw [hx, List.inj_on_of_nodup_map hn hm he hs]

theorem updE_mid {A B : List SElem} {e : SElem} {f : SElem → SElem} (hA : ∀ x ∈ A, x.session ≠ e.session)
    (hB : ∀ x ∈ B, x.session ≠ e.session) : updE (A ++ e :: B) e.session f = A ++ f e :: B := by
  rw [updE, List.map_append, List.map_cons, if_pos rfl]
  congr 1
  · conv => rhs; rw [← List.map_id A]
    exact List.map_congr_left (fun x hx => if_neg (hA x hx))
  · congr 1
    conv => rhs; rw [← List.map_id B]
    exact List.map_congr_left (fun x hx => if_neg (hB x hx))

theorem updE_id {h : List SElem} {s : Bytes} {f : SElem → SElem} (hf : ∀ x ∈ h, x.session = s → f x = x) :
    updE h s f = h := by
  rw [updE]
  conv => rhs; rw [← List.map_id h]
  refine List.map_congr_left (fun x hx => ?_)
  split
  · exact hf x hx ‹_›
  · rfl

end CGraph
