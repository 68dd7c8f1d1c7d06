import Verif.Model.DagType
import Verif.Lemmas.DynRun
import Verif.Spec.Paths
import Mathlib.Data.List.Chain

/-! Serial chains and the partition of the fully parallel case. -/
namespace CGraph
namespace DynCfg
open Spec

/-- The serial condition: every element but the only front is the sole successor of its sole dependency. -/
theorem serial_preds {c : DynCfg} (w : c.g.WF) {f : Eid} (hf : c.fronts = [f])
    (hl : c.g.elems.length - 1 = c.linkedSize) :
    ∀ v ∈ c.g.elems, v ≠ f → ∃ e ∈ c.g.elems, c.g.succs e = [v] ∧ c.g.deps v = [e] := by
  let L := c.g.elems.filter c.isLink
  let nx : Eid → Eid := fun e => (c.g.succs e).headD 0
  have hL : ∀ e ∈ L, e ∈ c.g.elems ∧ c.g.succs e = [nx e] ∧ c.g.deps (nx e) = [e] := by
    intro e he
    have hm := List.mem_filter.1 he
    obtain ⟨x, hx, hl⟩ := isLink_iff hm.2
    have hnx : nx e = x := by simp [nx, hx]
    refine ⟨hm.1, by rw [hnx, hx], ?_⟩
    rw [hnx]
    obtain ⟨y, hy⟩ := List.length_eq_one_iff.1 hl
    have : e ∈ c.g.deps x := (w.sym e x).1 (by simp [hx])
    rw [hy] at this ⊢
    simp at this
    rw [this]
  have hffr : f ∈ c.g.elems ∧ c.g.deps f = [] := by
    have : f ∈ c.fronts := by rw [hf]; simp
    simpa [fronts] using this
  have hnd : (L.map nx).Nodup := by
    apply List.Nodup.map_on
    · intro a ha b hb hab
      have h1 := (hL a ha).2.2
      have h2 := (hL b hb).2.2
      rw [hab, h2] at h1
      simpa using h1.symm
    · exact w.nodup.filter _
  have hsub : ∀ x ∈ L.map nx, x ∈ c.g.elems.erase f := by
    intro x hx
    obtain ⟨e, he, rfl⟩ := List.mem_map.1 hx
    obtain ⟨h1, h2, h3⟩ := hL e he
    have hne : nx e ≠ f := by intro h; rw [h, hffr.2] at h3; simp at h3
    exact (List.mem_erase_of_ne hne).2 (w.closedS e h1 _ (by rw [h2]; simp))
  have hlen : (c.g.elems.erase f).length ≤ (L.map nx).length := by
    rw [List.length_erase_of_mem hffr.1, List.length_map]
    exact hl.le
  intro v hv hne
  have := Graph.subset_of_length_eq hnd hsub hlen v ((List.mem_erase_of_ne hne).2 hv)
  obtain ⟨e, he, rfl⟩ := List.mem_map.1 this
  obtain ⟨h1, h2, h3⟩ := hL e he
  exact ⟨e, h1, h2, h3⟩

/-- Consecutive elements of a chain. -/
def Next (g : Graph) (a b : Eid) : Prop := g.succs a = [b] ∧ g.deps b = [a]

theorem walk_spec {c : DynCfg} (w : c.g.WF) (ha : AcyclicOn c.g.Edge c.g.elems)
    (hp : ∀ v ∈ c.g.elems, ∀ d ∈ c.g.deps v, Next c.g d v) :
    ∀ (n : Nat) (l : List Eid) (cur : Eid), (l ++ [cur]).IsChain (Next c.g) → (∀ v ∈ l ++ [cur], v ∈ c.g.elems) →
      (l ++ [cur]).Nodup → c.g.elems.length + 1 ≤ n + l.length →
      ∃ t, (l ++ cur :: t).IsChain (Next c.g) ∧ (l ++ cur :: t).Nodup ∧ (∀ v ∈ l ++ cur :: t, v ∈ c.g.elems) ∧
        (∀ z, (cur :: t).getLast? = some z → c.g.succs z = []) ∧
        ∀ fp st, serialLoop c.g fp n cur st =
          (((cur :: t).take (((cur :: t).takeWhile (fun e => !(fp e).isErr)).length + 1)),
           (cur :: t).foldl (fun s e => s.add (fp e)) st) ∨ st.isErr = true := by
  intro n
  induction n with
  | zero =>
    intro l cur _ hm hn hlen
    have := Graph.length_le_of_nodup_subset hn hm
    simp at this hlen
    omega
  | succ n ih =>
    intro l cur hc hm hn hlen
    have hcm : cur ∈ c.g.elems := hm cur (by simp)
    cases hs : c.g.succs cur with
    | nil =>
      refine ⟨[], hc, hn, hm, by simp [hs], ?_⟩
      intro fp st
      left
      simp only [serialLoop, hs]
      simp
    | cons x xs =>
      have hx : x ∈ c.g.succs cur := by simp [hs]
      have hxe := w.closedS cur hcm x hx
      have hnx : Next c.g cur x := hp x hxe cur ((w.sym cur x).1 hx)
      have hxs : xs = [] := by have := hnx.1; rw [hs] at this; simpa using this
      have hnotin : x ∉ l ++ [cur] := by
        intro hin
        -- a path from x to cur inside the chain plus the edge back would be a cycle
        obtain ⟨p, q, hpq⟩ := List.append_of_mem hin
        have hchain : (x :: q).IsChain (Next c.g) := by
          rw [hpq] at hc
          exact (List.isChain_append.1 hc).2.1
        have hlast : (x :: q).getLast? = some cur := by
          have h1 : (l ++ [cur]).getLast? = some cur := by simp
          rw [hpq, List.getLast?_append] at h1
          cases h2 : (x :: q).getLast? with
          | none => simp at h2
          | some y => rw [h2] at h1; simpa using h1
        have hpath : ∀ (q : List Eid) (x : Eid), (x :: q).IsChain (Next c.g) →
            (x :: q).getLast? = some cur → Relation.ReflTransGen c.g.Edge x cur := by
          intro q
          induction q with
          | nil => intro x _ h; simp at h; rw [h]
          | cons y q ihq =>
            intro x h1 h2
            rw [List.isChain_cons_cons] at h1
            have h3 := ihq y h1.2 (by simpa [List.getLast?_cons_cons] using h2)
            exact Relation.ReflTransGen.head (by show x ∈ c.g.deps y; rw [h1.1.2]; simp) h3
        exact ha cur hcm (Relation.TransGen.tail' (hpath q x hchain hlast)
          ((w.sym cur x).1 hx) |> fun h => by
            have h4 := hpath q x hchain hlast
            exact Relation.TransGen.head' ((w.sym cur x).1 hx) h4)
      have hc' : ((l ++ [cur]) ++ [x]).IsChain (Next c.g) := by
        rw [List.isChain_append]
        refine ⟨hc, by simp, ?_⟩
        intro a ha' b hb
        simp at ha' hb
        subst ha'; subst hb; exact hnx
      obtain ⟨t, t1, t2, t3, t4, t5⟩ := ih (l ++ [cur]) x hc' (by
          intro v hv; rcases List.mem_append.1 hv with h | h
          · exact hm v h
          · simp at h; subst h; exact hxe)
        (by rw [List.nodup_append]; refine ⟨hn, by simp, ?_⟩; intro a ha' b hb hab; simp at hb; subst hb; subst hab; exact hnotin ha')
        (by simp at hlen ⊢; omega)
      refine ⟨x :: t, by simpa using t1, by simpa using t2, by simpa using t3, ?_, ?_⟩
      · intro z hz; exact t4 z (by simpa [List.getLast?_cons_cons] using hz)
      · intro fp st
        by_cases hste : st.isErr = true
        · exact Or.inr hste
        left
        simp only [serialLoop, hs]
        cases hfe : (fp cur).isErr with
        | true =>
          have h1 : (st.add (fp cur)).isErr = true := by rw [CStatus.add_isErr, hfe]; simp
          have h2 : ∀ l : List Eid, l.foldl (fun s e => s.add (fp e)) (st.add (fp cur)) = st.add (fp cur) := by
            intro l
            induction l with
            | nil => rfl
            | cons a l ihl => simp only [List.foldl_cons]; rw [CStatus.add_of_err _ h1]; exact ihl
          simp [h1, hfe, h2]
        | false =>
          have h1 : (st.add (fp cur)).isErr = false := by rw [CStatus.add_isErr, hfe]; simpa using hste
          rcases t5 fp (st.add (fp cur)) with t5 | t5
          · simp only [h1, t5]
            simp [hfe]
          · rw [h1] at t5; simp at t5

/-- If every element but `f` is the sole successor of its sole dependency the elements form one chain. -/
theorem chain_of_preds {c : DynCfg} (w : c.g.WF) (ha : AcyclicOn c.g.Edge c.g.elems) {f : Eid}
    (hf1 : f ∈ c.g.elems) (hf2 : c.g.deps f = [])
    (hpred : ∀ v ∈ c.g.elems, v ≠ f → ∃ e ∈ c.g.elems, c.g.succs e = [v] ∧ c.g.deps v = [e]) :
    ∃ t, (f :: t).Perm c.g.elems ∧ IsOneChain c.g.deps c.g.succs (f :: t) ∧
      ∀ fp st, serialLoop c.g fp (c.g.elems.length + 1) f st =
          (((f :: t).take (((f :: t).takeWhile (fun e => !(fp e).isErr)).length + 1)),
           (f :: t).foldl (fun s e => s.add (fp e)) st) ∨ st.isErr = true := by
  have hffr : f ∈ c.g.elems ∧ c.g.deps f = [] := ⟨hf1, hf2⟩
  have hp : ∀ v ∈ c.g.elems, ∀ d ∈ c.g.deps v, Next c.g d v := by
    intro v hv d hdv
    have hvf : v ≠ f := by intro h; rw [h, hffr.2] at hdv; simp at hdv
    obtain ⟨e, he, h1, h2⟩ := hpred v hv hvf
    rw [h2] at hdv
    simp at hdv
    subst hdv
    exact ⟨h1, h2⟩
  obtain ⟨t, t1, t2, t3, t4, t5⟩ := walk_spec w ha hp (c.g.elems.length + 1) [] f (by simp)
    (by simpa using hffr.1) (by simp) (by simp)
  simp only [List.nil_append] at t1 t2 t3
  have hall : ∀ v ∈ c.g.elems, v ∈ f :: t := by
    let R := c.g.elems.filter (fun v => v ∉ f :: t)
    have hR : R = [] := by
      apply Graph.no_deadlock R
      · intro v hv; exact ha v (List.mem_of_mem_filter hv)
      · intro v hv
        simp only [R, List.mem_filter, decide_eq_true_eq] at hv
        have hvf : v ≠ f := fun h => hv.2 (by simp [h])
        obtain ⟨e, he, h1, h2⟩ := hpred v hv.1 hvf
        refine ⟨e, ?_, by show e ∈ c.g.deps v; rw [h2]; simp⟩
        simp only [R, List.mem_filter, decide_eq_true_eq]
        refine ⟨he, fun hin => hv.2 ?_⟩
        obtain ⟨p, q, hpq⟩ := List.append_of_mem hin
        cases q with
        | nil =>
          have := t4 e (by rw [hpq]; simp)
          rw [h1] at this; simp at this
        | cons y q =>
          rw [hpq] at t1
          have h3 := (List.isChain_append.1 t1).2.1
          rw [List.isChain_cons_cons] at h3
          have h4 := h3.1.1
          rw [h1] at h4
          simp at h4
          rw [hpq, h4]; simp
    intro v hv
    by_contra hn
    have : v ∈ R := by simp only [R, List.mem_filter, decide_eq_true_eq]; exact ⟨hv, hn⟩
    rw [hR] at this; simp at this
  refine ⟨t, ?_, ⟨t1, ?_, t4⟩, t5⟩
  · rw [List.perm_ext_iff_of_nodup t2 w.nodup]
    intro v; exact ⟨t3 v, hall v⟩
  · intro x hx; simp at hx; subst hx; exact hffr.2

theorem parLoop_spec (elems : List Eid) (per : Nat) (hper : 0 < per) :
    ∀ (fuel cur : Nat), elems.length + 1 ≤ fuel + cur →
      (parLoop elems elems.length per fuel cur).flatten = elems.drop cur ∧
      (∀ row ∈ parLoop elems elems.length per fuel cur, row ≠ [] ∧ row.length ≤ per) ∧
      (parLoop elems elems.length per fuel cur).length * per < (elems.length - cur) + per ∧
      (elems.length ≤ cur → (parLoop elems elems.length per fuel cur).length = 0) := by
  intro fuel
  induction fuel with
  | zero =>
    intro cur h
    have : elems.length ≤ cur := by omega
    simp [parLoop, List.drop_eq_nil_of_le this]
    omega
  | succ fuel ih =>
    intro cur h
    simp only [parLoop]
    by_cases hc : cur < elems.length
    · simp only [hc, if_true]
      obtain ⟨i1, i2, i3, i4⟩ := ih (cur + per) (by omega)
      refine ⟨?_, ?_, ?_, fun h => absurd hc (by omega)⟩
      · rw [List.flatten_cons, i1]
        by_cases h2 : cur + per < elems.length
        · simp only [h2, if_true]
          rw [show cur + per - cur = per by omega, ← List.drop_drop]
          exact List.take_append_drop per (elems.drop cur)
        · simp only [h2, if_false]
          rw [List.drop_eq_nil_of_le (by omega : elems.length ≤ cur + per), List.append_nil]
          rw [List.take_of_length_le (by simp)]
      · intro row hr
        rcases List.mem_cons.1 hr with rfl | hr
        · constructor
          · intro h0
            have := congrArg List.length h0
            simp at this
            split at this <;> omega
          · simp
            split <;> omega
        · exact i2 row hr
      · simp only [List.length_cons, Nat.add_mul, Nat.one_mul]
        by_cases h5 : elems.length ≤ cur + per
        · rw [i4 h5]; omega
        · omega
    · simp [hc, List.drop_eq_nil_of_le (by omega : elems.length ≤ cur)]
      omega

end DynCfg
end CGraph
