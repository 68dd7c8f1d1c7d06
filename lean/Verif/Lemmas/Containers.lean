import Verif.Model.Containers
import Verif.Spec.Containers

set_option linter.unusedSectionVars false

namespace CGraph
namespace SmallVec
variable {α : Type} [DecidableEq α]

theorem hasFrom_iff (d : List α) (val : α) (i n : Nat) :
    hasFrom d val i n = true ↔ ∃ k, i ≤ k ∧ k < i + n ∧ d[k]? = some val := by
  induction n generalizing i with
  | zero => simp [hasFrom]; intro k h1 h2; omega
  | succ n ih =>
    unfold hasFrom
    split
    · rename_i h
      simp only [true_iff]
      exact ⟨i, by omega, by omega, h⟩
    · rename_i h
      rw [ih]
      constructor
      · rintro ⟨k, h1, h2, h3⟩; exact ⟨k, by omega, by omega, h3⟩
      · rintro ⟨k, h1, h2, h3⟩
        refine ⟨k, ?_, by omega, h3⟩
        rcases Nat.lt_or_ge i k with hlt | hge
        · omega
        · have : k = i := by omega
          subst this; exact absurd h3 h

theorem mem_take_iff (d : List α) (val : α) (n : Nat) :
    val ∈ d.take n ↔ ∃ k, k < n ∧ d[k]? = some val := by
  rw [List.mem_iff_getElem?]
  constructor
  · rintro ⟨k, hk⟩
    rw [List.getElem?_take] at hk
    split at hk
    · exact ⟨k, by assumption, hk⟩
    · cases hk
  · rintro ⟨k, hk, h⟩
    exact ⟨k, by rw [List.getElem?_take, if_pos hk]; exact h⟩

theorem hasValue_iff (v : SmallVec α) (val : α) : v.hasValue val = true ↔ val ∈ v.toList := by
  unfold hasValue toList
  rw [hasFrom_iff, mem_take_iff]
  constructor
  · rintro ⟨k, _, h2, h3⟩; exact ⟨k, by omega, h3⟩
  · rintro ⟨k, h2, h3⟩; exact ⟨k, by omega, by omega, h3⟩

theorem shift_length (d : List α) (j n : Nat) : (shift d j n).length = d.length := by
  induction n generalizing d j with
  | zero => rfl
  | succ n ih => unfold shift; rw [ih]; split <;> simp

theorem shift_getElem? (d : List α) (j n k : Nat) (h : j + n < d.length) :
    (shift d j n)[k]? = if j ≤ k ∧ k < j + n then d[k + 1]? else d[k]? := by
  induction n generalizing d j with
  | zero => simp [shift]; intro h1 h2; omega
  | succ n ih =>
    unfold shift
    have hx : d[j + 1]? = some d[j + 1] := List.getElem?_eq_getElem (by omega)
    rw [hx]
    dsimp only
    rw [ih (d.set j d[j + 1]) (j + 1) (by simp; omega)]
    by_cases hk : k = j
    · subst hk
      have h1 : ¬ (k + 1 ≤ k ∧ k < k + 1 + n) := by omega
      have h2 : (k ≤ k ∧ k < k + (n + 1)) := by omega
      rw [if_neg h1, if_pos h2, List.getElem?_set, if_pos rfl, if_pos (by omega), hx]
    · have hset : ∀ m, m ≠ j → (d.set j d[j + 1])[m]? = d[m]? := by
        intro m hm; rw [List.getElem?_set, if_neg (by omega)]
      rw [hset k hk]
      by_cases h3 : j ≤ k ∧ k < j + (n + 1)
      · rw [if_pos h3, if_pos (by omega), hset (k + 1) (by omega)]
      · rw [if_neg h3, if_neg (by omega)]

/-- Representation invariant. -/
def WF (v : SmallVec α) : Prop := v.cur ≤ v.data.length

theorem toList_length {v : SmallVec α} (h : v.WF) : v.toList.length = v.cur := by
  unfold toList WF at *; rw [List.length_take]; omega

theorem removeFrom_spec (v : SmallVec α) (val : α) (hw : v.WF) (i n : Nat) (hn : i + n = v.cur)
    (hpre : ∀ k, k < i → v.data[k]? ≠ some val) :
    (removeFrom v val i n).1.WF ∧
    (removeFrom v val i n).1.toList = v.toList.erase val ∧
    (removeFrom v val i n).2 = decide (val ∈ v.toList) := by
  induction n generalizing i with
  | zero =>
    have hnot : val ∉ v.toList := by
      unfold toList; rw [mem_take_iff]; rintro ⟨k, hk, h⟩; exact hpre k (by omega) h
    simp [removeFrom, hw, hnot, List.erase_of_not_mem hnot]
  | succ n ih =>
    unfold removeFrom
    split
    · rename_i h
      have hmem : val ∈ v.toList := by
        unfold toList; rw [mem_take_iff]; exact ⟨i, by omega, h⟩
      unfold WF at hw
      refine ⟨?_, ?_, by simp [hmem]⟩
      · unfold WF; simp only [shift_length]; omega
      · have hidx : v.toList.idxOf val = i := by
          have hlt : v.toList.idxOf val < v.toList.length := List.idxOf_lt_length_of_mem hmem
          have hget := List.getElem_idxOf hlt
          have hlen := toList_length (v := v) hw
          have hle : v.toList.idxOf val ≤ i := by
            have hi : i < v.toList.length := by omega
            have : v.toList[i] = val := by
              have : v.toList[i]? = some val := by
                unfold toList; rw [List.getElem?_take, if_pos (by omega)]; exact h
              rw [List.getElem?_eq_getElem hi] at this; exact Option.some.inj this
            rcases Nat.lt_or_ge i (v.toList.idxOf val) with hc | hc
            · exfalso
              have := List.not_of_lt_findIdx (p := (· == val)) (xs := v.toList) (i := i) hc
              simp_all
            · exact hc
          rcases Nat.lt_or_ge (v.toList.idxOf val) i with hc | hc
          · exfalso
            apply hpre _ hc
            have h2 : v.toList[v.toList.idxOf val]? = some val := by
              rw [List.getElem?_eq_getElem hlt, hget]
            unfold toList at h2 hc ⊢
            rw [List.getElem?_take] at h2
            split at h2
            · exact h2
            · cases h2
          · omega
        rw [List.erase_eq_eraseIdx_of_idxOf hidx]
        apply List.ext_getElem?
        intro k
        unfold toList
        dsimp only
        rw [List.getElem?_eraseIdx, List.getElem?_take, List.getElem?_take, List.getElem?_take,
          shift_getElem? _ _ _ _ (by omega)]
        by_cases h1 : k < i
        · rw [if_pos (by omega), if_neg (by omega), if_pos h1, if_pos (by omega)]
        · rw [if_neg h1]
          by_cases h2 : k < v.cur - 1
          · rw [if_pos h2, if_pos (by omega), if_pos (by omega)]
          · rw [if_neg h2, if_neg (by omega)]
    · rename_i h
      exact ih (i + 1) (by omega) (by
        intro k hk
        rcases Nat.lt_or_ge k i with hlt | hge
        · exact hpre k hlt
        · have : k = i := by omega
          subst this; exact h)

theorem remove_spec (v : SmallVec α) (val : α) (hw : v.WF) :
    (v.remove val).1.WF ∧ (v.remove val).1.toList = v.toList.erase val ∧
      (v.remove val).2 = decide (val ∈ v.toList) :=
  removeFrom_spec v val hw 0 v.cur (by omega) (by intro k hk; omega)

theorem insert_spec (step : Nat) (hstep : 0 < step) (dflt : α) (v : SmallVec α) (hw : v.WF) (val : α)
    (u : Bool) :
    ∃ v', v.insert step dflt val u = some v' ∧ v'.WF ∧
      v'.toList = if u = true ∧ val ∈ v.toList then v.toList else v.toList ++ [val] := by
  unfold insert
  by_cases hc : u = true ∧ val ∈ v.toList
  · have : (u && v.hasValue val) = true := by
      rw [Bool.and_eq_true, hasValue_iff]; exact hc
    rw [if_pos this, if_pos hc]
    exact ⟨v, rfl, hw, rfl⟩
  · have : ¬ ((u && v.hasValue val) = true) := by
      rw [Bool.and_eq_true, hasValue_iff]; exact hc
    rw [if_neg this, if_neg hc]
    dsimp only
    have key : ∀ d : List α, v.cur < d.length → d.take v.cur = v.toList →
        (SmallVec.mk (d.set v.cur val) (v.cur + 1)).WF ∧
        (SmallVec.mk (d.set v.cur val) (v.cur + 1)).toList = v.toList ++ [val] := by
      intro d hd ht
      constructor
      · unfold WF; simp only [List.length_set]; omega
      · rw [← ht]
        unfold toList
        dsimp only
        rw [List.take_add_one, List.take_set_of_le (by omega), List.getElem?_set, if_pos rfl, if_pos hd]
        rfl
    unfold WF at hw
    by_cases hcap : v.cur ≥ v.data.length
    · rw [if_pos hcap]
      have hlen : v.cur < (v.data ++ List.replicate step dflt).length := by simp; omega
      rw [if_pos hlen]
      have hd : (v.data ++ List.replicate step dflt).take v.cur = v.toList := by
        unfold toList; rw [List.take_append_of_le_length hw]
      exact ⟨_, rfl, (key _ hlen hd).1, (key _ hlen hd).2⟩
    · rw [if_neg hcap, if_pos (by omega)]
      exact ⟨_, rfl, (key _ (by omega) rfl).1, (key _ (by omega) rfl).2⟩

theorem clear_spec (dflt : α) (v : SmallVec α) : (v.clear dflt).WF ∧ (v.clear dflt).toList = [] := by
  simp [clear, WF, toList]

end SmallVec
end CGraph

namespace CGraph
namespace Lru
open Spec
variable {K V : Type} [DecidableEq K]

/-- Representation invariant of the cache. -/
structure WF (c : Lru K V) : Prop where
  size : c.curSize = c.nodes.length
  ids : (c.nodes.map (·.1)).Nodup
  fresh : ∀ n ∈ c.nodes, n.1 < c.next
  keys : (c.nodes.map (·.2.1)).Nodup
  link : ∀ k it, c.cache.lookup k = some it ↔ ∃ v, (it, k, v) ∈ c.nodes
  bound : c.nodes.length ≤ c.capacity

/-- Contents, most recent first. -/
def view (c : Lru K V) : List (K × V) := c.nodes.map (·.2)

theorem lookup_eraseKey (m : List (K × Nat)) (k k' : K) :
    (eraseKey m k).lookup k' = if k' = k then none else m.lookup k' := by
  induction m with
  | nil => simp [eraseKey]
  | cons e m ih =>
    obtain ⟨a, b⟩ := e
    unfold eraseKey at ih ⊢
    by_cases ha : a = k
    · subst ha
      simp only [List.filter_cons]
      rw [if_neg (by simp)]
      rw [ih]
      by_cases hk : k' = a
      · simp [hk]
      · have : (k' == a) = false := by simpa using hk
        simp [hk, List.lookup_cons, this]
    · simp only [List.filter_cons]
      rw [if_pos (by simpa using ha)]
      simp only [List.lookup_cons]
      by_cases hk : k' = a
      · subst hk; simp [ha]
      · have : (k' == a) = false := by simpa using hk
        rw [this]; exact ih

/-- Adding in front of a well-formed cache with room and without the key. -/
theorem pushFront_wf {c : Lru K V} (k : K) (v : V)
    (size : c.curSize = c.nodes.length) (ids : (c.nodes.map (·.1)).Nodup)
    (fresh : ∀ n ∈ c.nodes, n.1 < c.next) (keys : (c.nodes.map (·.2.1)).Nodup)
    (link : ∀ k' it, k' ≠ k → (c.cache.lookup k' = some it ↔ ∃ v, (it, k', v) ∈ c.nodes))
    (hk : ∀ n ∈ c.nodes, n.2.1 ≠ k)
    (bound : c.nodes.length < c.capacity) : (pushFront c k v).WF := by
  constructor
  · simp [pushFront, size]
  · simp only [pushFront, List.map_cons, List.nodup_cons]
    refine ⟨?_, ids⟩
    intro h
    obtain ⟨n, hn, he⟩ := List.mem_map.1 h
    have := fresh n hn; omega
  · intro n hn
    simp only [pushFront, List.mem_cons] at hn ⊢
    rcases hn with rfl | hn
    · exact Nat.lt_succ_self _
    · exact Nat.lt_succ_of_lt (fresh n hn)
  · simp only [pushFront, List.map_cons, List.nodup_cons]
    refine ⟨?_, keys⟩
    intro h
    obtain ⟨n, hn, he⟩ := List.mem_map.1 h
    exact hk n hn he
  · intro k' it
    simp only [pushFront, List.lookup_cons, List.mem_cons]
    by_cases hkk : k' = k
    · subst hkk
      simp only [beq_self_eq_true]
      constructor
      · intro h; exact ⟨v, Or.inl (by rw [Option.some.inj h])⟩
      · rintro ⟨w, h | h⟩
        · injection h with h1 h2; rw [h1]
        · exact absurd rfl (hk _ h)
    · have hb : (k' == k) = false := by simpa using hkk
      rw [hb]
      dsimp only
      rw [lookup_eraseKey, if_neg hkk, link k' it hkk]
      constructor
      · rintro ⟨w, h⟩; exact ⟨w, Or.inr h⟩
      · rintro ⟨w, h | h⟩
        · injection h with h1 h2; injection h2 with h3 h4; exact absurd h3 hkk
        · exact ⟨w, h⟩
  · simp only [pushFront, List.length_cons]; omega

theorem find_some_iff {c : Lru K V} (hw : c.WF) (k : K) :
    (∃ it, c.find k = some it) ↔ k ∈ c.view.map (·.1) := by
  unfold find view
  constructor
  · rintro ⟨it, h⟩
    obtain ⟨v, hv⟩ := (hw.link k it).1 h
    simp only [List.map_map, List.mem_map]
    exact ⟨_, hv, rfl⟩
  · intro h
    simp only [List.map_map, List.mem_map] at h
    obtain ⟨⟨it, k', v⟩, hn, he⟩ := h
    simp only [Function.comp] at he
    subst he
    exact ⟨it, (hw.link k' it).2 ⟨v, hn⟩⟩

theorem filter_map_snd (l : List (Nat × K × V)) (it : Nat) (k : K)
    (h : ∀ n ∈ l, n.1 = it ↔ n.2.1 = k) :
    (l.filter (fun n => n.1 ≠ it)).map (·.2) = (l.map (·.2)).filter (fun e => e.1 ≠ k) := by
  induction l with
  | nil => rfl
  | cons n l ih =>
    have hn := h n (List.mem_cons_self)
    have ih' := ih (fun m hm => h m (List.mem_cons_of_mem _ hm))
    by_cases hc : n.1 = it
    · have hk := hn.1 hc
      simp only [List.filter_cons, List.map_cons, hc, hk, ne_eq, not_true_eq_false, decide_false]
      exact ih'
    · have hk : ¬ n.2.1 = k := fun e => hc (hn.2 e)
      simp only [List.filter_cons, List.map_cons, hc, hk, ne_eq, not_false_eq_true, decide_true,
        if_true, List.map_cons]
      rw [← ih']

theorem filter_no_key (l : List (K × V)) (k : K) (h : k ∉ l.map (·.1)) :
    l.filter (fun e => e.1 ≠ k) = l := by
  apply List.filter_eq_self.2
  intro e he
  simp only [ne_eq, decide_eq_true_eq]
  intro hk
  exact h (List.mem_map.2 ⟨e, he, hk⟩)

theorem nodup_inj {l : List (Nat × K × V)} {f : Nat × K × V → β}
    (h : (l.map f).Nodup) {a b : Nat × K × V} (ha : a ∈ l) (hb : b ∈ l) (he : f a = f b) : a = b := by
  induction l with
  | nil => cases ha
  | cons c l ih =>
    simp only [List.map_cons, List.nodup_cons] at h
    rcases List.mem_cons.1 ha with ha1 | ha1 <;> rcases List.mem_cons.1 hb with hb1 | hb1
    · rw [ha1, hb1]
    · subst ha1; exact absurd (List.mem_map.2 ⟨b, hb1, he.symm⟩) h.1
    · subst hb1; exact absurd (List.mem_map.2 ⟨a, ha1, he⟩) h.1
    · exact ih h.2 ha1 hb1

theorem filter_length {l : List (Nat × K × V)} {it : Nat} {kv : K × V} (hnd : (l.map (·.1)).Nodup)
    (hm : (it, kv) ∈ l) : (l.filter (fun n => n.1 ≠ it)).length + 1 = l.length := by
  induction l with
  | nil => cases hm
  | cons a l ih =>
    simp only [List.map_cons, List.nodup_cons] at hnd
    by_cases ha : a.1 = it
    · have : l.filter (fun n => decide (n.1 ≠ it)) = l := by
        apply List.filter_eq_self.2
        intro n hn
        simp only [ne_eq, decide_eq_true_eq]
        intro h; exact hnd.1 (List.mem_map.2 ⟨n, hn, by rw [h, ha]⟩)
      rw [List.filter_cons, if_neg (by simp [ha]), this, List.length_cons]
    · rcases List.mem_cons.1 hm with h | h
      · exact absurd (by rw [← h]) ha
      · rw [List.filter_cons, if_pos (by simp [ha]), List.length_cons, List.length_cons]
        have := ih hnd.2 h
        omega

theorem put_spec {c : Lru K V} (hw : c.WF) (hcap : 1 ≤ c.capacity) (k : K) (v : V) :
    ∃ c', c.put k v = some c' ∧ c'.WF ∧ c'.capacity = c.capacity ∧
      c'.view = ((k, v) :: c.view.filter (fun e => e.1 ≠ k)).take c.capacity := by
  unfold put
  cases hf : c.find k with
  | some it =>
    dsimp only
    obtain ⟨w, hmem⟩ := (hw.link k it).1 hf
    have hany : c.nodes.any (fun n => n.1 == it) = true := by
      rw [List.any_eq_true]; exact ⟨_, hmem, by simp⟩
    rw [if_pos hany]
    have hiff : ∀ n ∈ c.nodes, n.1 = it ↔ n.2.1 = k := by
      intro n hn
      constructor
      · intro h
        have := nodup_inj hw.ids hn hmem h
        rw [this]
      · intro h
        have := nodup_inj hw.keys hn hmem h
        rw [this]
    have hlen : (c.nodes.filter (fun n => n.1 ≠ it)).length + 1 = c.nodes.length :=
      filter_length hw.ids hmem
    refine ⟨_, rfl, ?_, rfl, ?_⟩
    · apply pushFront_wf
      · show c.curSize - 1 = _
        have := hw.size; simp only; omega
      · exact (List.filter_sublist.map _).nodup hw.ids
      · intro n hn; exact hw.fresh n ((List.mem_filter.1 hn).1)
      · exact (List.filter_sublist.map _).nodup hw.keys
      · intro k' it' hne
        dsimp only
        rw [lookup_eraseKey, if_neg hne, hw.link]
        constructor
        · rintro ⟨u, hu⟩
          refine ⟨u, List.mem_filter.2 ⟨hu, ?_⟩⟩
          simp only [ne_eq, decide_eq_true_eq]
          intro h; exact hne ((hiff _ hu).1 h)
        · rintro ⟨u, hu⟩; exact ⟨u, (List.mem_filter.1 hu).1⟩
      · intro n hn h
        have := List.mem_filter.1 hn
        have h2 := (hiff n this.1).2 h
        simp [h2] at this
      · dsimp only; have := hw.bound; omega
    · unfold view pushFront
      dsimp only
      rw [List.map_cons, filter_map_snd _ _ _ hiff, List.take_of_length_le]
      have h2 := filter_map_snd _ _ _ hiff
      have h3 := congrArg List.length h2
      rw [List.length_map] at h3
      have := hw.bound
      rw [List.length_cons, ← h3]; omega
  | none =>
    dsimp only
    have hnk : k ∉ c.view.map (·.1) := by
      rw [← find_some_iff hw, hf]; simp
    have hnk' : ∀ n ∈ c.nodes, n.2.1 ≠ k := by
      intro n hn h
      apply hnk
      simp only [view, List.map_map, List.mem_map]
      exact ⟨n, hn, h⟩
    rw [filter_no_key _ _ hnk]
    by_cases hfull : c.curSize ≥ c.capacity
    · rw [if_pos hfull]
      have hs := hw.size
      have hb := hw.bound
      have hne : c.nodes ≠ [] := by
        intro h; rw [h] at hs; simp at hs; omega
      have hl : c.nodes.getLast? = some (c.nodes.getLast hne) := List.getLast?_eq_some_getLast hne
      rw [hl]
      dsimp only
      have hsplit : c.nodes = c.nodes.dropLast ++ [c.nodes.getLast hne] :=
        (List.dropLast_concat_getLast hne).symm
      refine ⟨_, rfl, ?_, rfl, ?_⟩
      · apply pushFront_wf
        · simp only [List.length_dropLast]; omega
        · exact ((List.dropLast_sublist _).map _).nodup hw.ids
        · intro n hn; exact hw.fresh n (List.dropLast_subset _ hn)
        · exact ((List.dropLast_sublist _).map _).nodup hw.keys
        · intro k' it' _
          dsimp only
          rw [lookup_eraseKey]
          by_cases hkb : k' = (c.nodes.getLast hne).2.1
          · rw [if_pos hkb]
            constructor
            · intro h; cases h
            · rintro ⟨u, hu⟩
              exfalso
              have hkeys := hw.keys
              rw [hsplit, List.map_append, List.nodup_append] at hkeys
              exact hkeys.2.2 k' (List.mem_map.2 ⟨_, hu, rfl⟩) _ (by simp) hkb
          · rw [if_neg hkb, hw.link]
            constructor
            · rintro ⟨u, hu⟩
              refine ⟨u, ?_⟩
              rw [hsplit] at hu
              rcases List.mem_append.1 hu with h | h
              · exact h
              · simp only [List.mem_singleton] at h
                exact absurd (by rw [← h]) hkb
            · rintro ⟨u, hu⟩; exact ⟨u, List.dropLast_subset _ hu⟩
        · intro n hn; exact hnk' n (List.dropLast_subset _ hn)
        · simp only [List.length_dropLast]; omega
      · unfold view pushFront
        dsimp only
        have hcap' : c.nodes.length = c.capacity := by omega
        rw [List.map_cons, ← hcap']
        cases hn : c.nodes.length with
        | zero => omega
        | succ m =>
          rw [List.take_succ_cons, ← List.map_take, List.dropLast_eq_take, hn]
          rfl
    · rw [if_neg hfull]
      have hs := hw.size
      refine ⟨_, rfl, ?_, rfl, ?_⟩
      · exact pushFront_wf k v hw.size hw.ids hw.fresh hw.keys (fun k' it _ => hw.link k' it) hnk'
          (by omega)
      · unfold view pushFront
        dsimp only
        rw [List.take_of_length_le]
        · rfl
        · simp; omega

theorem lookup_of_mem_nodup (l : List (K × V)) (h : (l.map (·.1)).Nodup) {k : K} {v : V}
    (hm : (k, v) ∈ l) : l.lookup k = some v := by
  induction l with
  | nil => cases hm
  | cons e l ih =>
    obtain ⟨a, b⟩ := e
    simp only [List.map_cons, List.nodup_cons] at h
    rcases List.mem_cons.1 hm with he | he
    · injection he with h1 h2; subst h1; subst h2; simp [List.lookup_cons]
    · have hne : k ≠ a := by
        intro hka; subst hka; exact h.1 (List.mem_map.2 ⟨_, he, rfl⟩)
      have hb : (k == a) = false := by simpa using hne
      rw [List.lookup_cons, hb]; exact ih h.2 he

theorem get_spec {c : Lru K V} (hw : c.WF) (hcap : 1 ≤ c.capacity) (k : K) :
    (k ∉ c.view.map (·.1) ∧ c.get k = some (c, none)) ∨
    (∃ v c', (k, v) ∈ c.view ∧ c.get k = some (c', some v) ∧ c.put k v = some c') := by
  unfold get
  cases hf : c.find k with
  | none =>
    left
    refine ⟨?_, rfl⟩
    rw [← find_some_iff hw, hf]; simp
  | some it =>
    right
    dsimp only
    obtain ⟨w, hmem⟩ := (hw.link k it).1 hf
    have hfind : c.nodes.find? (fun n => n.1 == it) = some (it, k, w) := by
      cases hfi : c.nodes.find? (fun n => n.1 == it) with
      | none =>
        rw [List.find?_eq_none] at hfi
        exact absurd (by simp) (hfi _ hmem)
      | some n =>
        have h1 := List.find?_some hfi
        have h2 := List.mem_of_find?_eq_some hfi
        have h3 : n.1 = it := by simpa using h1
        exact congrArg some (nodup_inj hw.ids h2 hmem h3)
    rw [hfind]
    obtain ⟨c', hp, _⟩ := put_spec hw hcap k w
    refine ⟨w, c', ?_, ?_, hp⟩
    · exact List.mem_map.2 ⟨_, hmem, rfl⟩
    · dsimp only; rw [hp]; rfl

theorem empty_wf (cap : Nat) : (Lru.empty cap : Lru K V).WF := by
  constructor <;> simp [Lru.empty]

theorem clear_wf {c : Lru K V} : c.clear.WF := by
  constructor <;> simp [Lru.clear]

/-! ### relation with the history specification -/

theorem recent_nodup (l : List K) : (recent l).Nodup := by
  induction l with
  | nil => simp [recent]
  | cons k l ih =>
    simp only [recent, List.nodup_cons]
    refine ⟨by simp, List.Sublist.nodup List.filter_sublist ih⟩

theorem take_filter_take (U : List K) (k : K) (n : Nat) (h : U.Nodup) :
    ((U.take (n + 1)).filter (fun x => x ≠ k)).take n = (U.filter (fun x => x ≠ k)).take n := by
  induction U generalizing n with
  | nil => simp
  | cons a U ih =>
    rw [List.nodup_cons] at h
    by_cases ha : a = k
    · subst ha
      have hfil : ∀ l : List K, (∀ x ∈ l, x ∈ U) → l.filter (fun x => decide (x ≠ a)) = l := by
        intro l hl
        apply List.filter_eq_self.2
        intro x hx
        simp only [ne_eq, decide_eq_true_eq]
        intro e; subst e; exact h.1 (hl _ hx)
      rw [List.take_succ_cons, List.filter_cons, List.filter_cons]
      simp only [ne_eq, not_true_eq_false, decide_false]
      have h1 := hfil (U.take n) (fun x hx => List.mem_of_mem_take hx)
      have h2 := hfil U (fun x hx => hx)
      simp only [ne_eq] at h1 h2
      rw [h1, h2, if_neg (by simp), if_neg (by simp), List.take_take, Nat.min_self]
    · cases n with
      | zero => simp
      | succ m =>
        rw [List.take_succ_cons, List.filter_cons, List.filter_cons]
        simp only [ne_eq, ha, not_false_eq_true, decide_true, if_true, List.take_succ_cons]
        have := ih m h.2
        simp only [ne_eq] at this
        rw [this]

/-- The concrete cache represents the past `h`. -/
structure Rel (cap : Nat) (c : Lru K V) (h : LruHist K V) : Prop where
  wf : c.WF
  capEq : c.capacity = cap
  keys : c.view.map (·.1) = (recent h.uses).take cap
  vals : ∀ k v, (k, v) ∈ c.view → h.puts.lookup k = some v

theorem map_fst_filter (l : List (K × V)) (k : K) :
    (l.filter (fun e => e.1 ≠ k)).map (·.1) = (l.map (·.1)).filter (fun x => x ≠ k) := by
  induction l with
  | nil => rfl
  | cons a l ih => by_cases h : a.1 = k <;> simp_all [List.filter_cons]

theorem rel_put {cap : Nat} {c : Lru K V} {h : LruHist K V} (hr : Rel cap c h) (hcap : 1 ≤ cap)
    (k : K) (v : V) (puts : List (K × V)) (hk : puts.lookup k = some v)
    (ho : ∀ k', k' ≠ k → puts.lookup k' = h.puts.lookup k') :
    ∃ c', c.put k v = some c' ∧ Rel cap c' ⟨k :: h.uses, puts⟩ := by
  obtain ⟨c', hp, hw', hcp, hv⟩ := put_spec hr.wf (by rw [hr.capEq]; exact hcap) k v
  refine ⟨c', hp, hw', by rw [hcp, hr.capEq], ?_, ?_⟩
  · rw [hv, hr.capEq, List.map_take, List.map_cons, map_fst_filter, hr.keys]
    obtain ⟨m, rfl⟩ : ∃ m, cap = m + 1 := ⟨cap - 1, by omega⟩
    simp only [recent, List.take_succ_cons]
    rw [take_filter_take _ _ _ (recent_nodup _)]
  · intro k' v' hm
    rw [hv] at hm
    have hm' := List.mem_of_mem_take hm
    rcases List.mem_cons.1 hm' with he | he
    · injection he with h1 h2; subst h1; subst h2; exact hk
    · have := List.mem_filter.1 he
      have hne : k' ≠ k := by simpa using this.2
      show puts.lookup k' = some v'
      rw [ho k' hne]; exact hr.vals k' v' this.1

/-- One concrete operation: new cache and answer; `none` = undefined behaviour. -/
def step (c : Lru K V) : LruOp K V → Option (Lru K V × Option V)
  | .put k v => (c.put k v).map (fun c' => (c', none))
  | .get k => c.get k
  | .clear => some (c.clear, none)

theorem rel_step {cap : Nat} (hcap : 1 ≤ cap) {c : Lru K V} {h : LruHist K V} (hr : Rel cap c h)
    (op : LruOp K V) :
    ∃ c', c.step op = some (c', (lruStep cap h op).2) ∧ Rel cap c' (lruStep cap h op).1 := by
  cases op with
  | put k v =>
    obtain ⟨c', hp, hr'⟩ := rel_put hr hcap k v ((k, v) :: h.puts) (by simp [List.lookup_cons])
      (by
        intro k' hne
        have hb : (k' == k) = false := by simpa using hne
        rw [List.lookup_cons, hb])
    exact ⟨c', by simp [step, hp, lruStep], hr'⟩
  | get k =>
    rcases get_spec hr.wf (by rw [hr.capEq]; exact hcap) k with ⟨hn, hg⟩ | ⟨v, c', hm, hg, hp⟩
    · have hnh : ¬ hit cap h k := by unfold hit; rw [← hr.keys]; exact hn
      exact ⟨c, by simp [step, hg, lruStep, hnh], by simp [lruStep, hnh, hr]⟩
    · have hh : hit cap h k := by
        unfold hit; rw [← hr.keys]; exact List.mem_map.2 ⟨_, hm, rfl⟩
      have hl := hr.vals k v hm
      obtain ⟨c'', hp', hr'⟩ := rel_put hr hcap k v h.puts hl (fun _ _ => rfl)
      rw [hp] at hp'
      have := Option.some.inj hp'
      subst this
      refine ⟨c', ?_, ?_⟩
      · simp [step, hg, lruStep, hh, hl]
      · simp only [lruStep, hh, if_true]; exact hr'
  | clear =>
    refine ⟨c.clear, rfl, clear_wf, hr.capEq, ?_, ?_⟩
    · simp [Lru.clear, view, lruStep, recent]
    · intro k v hm; simp [Lru.clear, view] at hm

end Lru
end CGraph
