import Verif.Spec.Memory
import Mathlib.Tactic.SplitIfs
import Mathlib.Algebra.BigOperators.Group.List.Basic

/-! # Lemmas for ownership: every object is counted once -/
namespace CGraph
open Spec

theorem upd_self {α : Type} (f : Nat → α) (i : Nat) (v : α) : upd f i v i = v := by simp [upd]

theorem upd_ne {α : Type} (f : Nat → α) {i x : Nat} (v : α) (h : x ≠ i) : upd f i v x = f x := by simp [upd, h]

theorem sum_change {f g : Nat → Nat} {p : Nat} : ∀ {l : List Nat}, l.Nodup → p ∈ l → (∀ q ∈ l, q ≠ p → g q = f q) →
    (l.map g).sum + f p = (l.map f).sum + g p
  | a :: l, hn, hp, h => by
    rw [List.nodup_cons] at hn
    simp only [List.map_cons, List.sum_cons]
    rcases List.mem_cons.mp hp with rfl | hp
    · have : l.map g = l.map f := List.map_congr_left (fun q hq => h q (List.mem_cons_of_mem _ hq) (by rintro rfl; exact hn.1 hq))
      rw [this]; omega
    · have hne : a ≠ p := by rintro rfl; exact hn.1 hp
      have := sum_change hn.2 hp (fun q hq => h q (List.mem_cons_of_mem _ hq))
      rw [h a (by simp) hne]; omega

theorem count_flatMap' (x : Nat) (l : List Nat) (f : Nat → List Nat) :
    (l.flatMap f).count x = (l.map (fun a => (f a).count x)).sum := by
  induction l with
  | nil => rfl
  | cons a l ih => simp [List.count_append, ih]

theorem count_keyDel (l : List (Nat × Nat)) (k x : Nat) :
    ((keyDel l k).map (·.2)).count x + (keyGet l k).toList.count x = (l.map (·.2)).count x := by
  induction l with
  | nil => rfl
  | cons a l ih =>
    by_cases h : a.1 = k
    · simp only [keyDel, keyGet, List.eraseP_cons, List.find?_cons, h, beq_self_eq_true, cond_true, Option.map_some,
        Option.toList_some, List.map_cons, List.count_cons, List.count_nil]
      omega
    · have hb : (a.1 == k) = false := by simpa using h
      simp only [keyDel, keyGet, List.eraseP_cons, List.find?_cons, hb, cond_false, List.map_cons, List.count_cons] at ih ⊢
      omega

theorem count_dropLast {l : List Nat} {a : Nat} (h : l.getLast? = some a) (x : Nat) :
    l.dropLast.count x + [a].count x = l.count x := by
  have : l = l.dropLast ++ [a] := (List.dropLast_append_getLast? a h).symm
  conv => rhs; rw [this]
  rw [List.count_append]

theorem mem_setIns {l : List Nat} {x y : Nat} : y ∈ setIns l x ↔ y = x ∨ y ∈ l := by
  unfold setIns; split_ifs with h
  · exact ⟨.inr, fun h' => h'.elim (fun e => e ▸ h) id⟩
  · simp [or_comm]

theorem foldl_setIns_of_sub : ∀ {xs l : List Nat}, (∀ x ∈ xs, x ∈ l) → xs.foldl setIns l = l
  | [], _, _ => rfl
  | x :: xs, l, h => by
    have : setIns l x = l := by simp [setIns, h x (by simp)]
    rw [List.foldl_cons, this]
    exact foldl_setIns_of_sub (fun y hy => h y (List.mem_cons_of_mem _ hy))

namespace MemSt

/-- How often an object is held by pipelines of the factory. -/
def held (s : MemSt) (x : Nat) : Nat := (s.live.map (fun p => (s.pObjs p).count x)).sum

/-- How often an object is held by an element. -/
theorem count_eObjs (s : MemSt) (e x : Nat) :
    (s.eObjs e).count x = [e].count x + (s.aspects e).count x + ((s.eparams e).map (·.2)).count x := by
  simp only [eObjs, List.count_cons, List.count_append, List.count_nil]; omega

theorem count_pObjs (s : MemSt) (p x : Nat) :
    (s.pObjs p).count x = [p].count x + (s.daemons p).count x + ((s.params p).map (·.2)).count x +
      ((s.events p).map (·.2)).count x + ((s.stages p).map (·.2)).count x +
      ((s.repo p).map (fun e => (s.eObjs e).count x)).sum := by
  simp only [pObjs, List.count_cons, List.count_append, List.count_nil, count_flatMap']; omega

/-- What a call loses: objects that nobody refers to. -/
def loses (s : MemSt) (o : MemOp) : List Nat :=
  match o with
  | .regNew _ _ | .mkNode _ _ | .mkGroup _ _ _ => if (s.step o).2 then [] else List.range' s.next ((s.step o).1.next - s.next)
  | .stage p k => if s.up p then [] else if (keyGet (s.stages p) k).isSome then [s.next] else []
  | _ => []

/-- The invariant: every object made so far is deleted, lost, or held, and only one of these, once. -/
structure Inv (made : List (Nat × Nat)) (lost : List Nat) (s : MemSt) : Prop where
  once : ∀ x, s.freed.count x + lost.count x + s.held x = if x < s.next then 1 else 0
  live_nodup : s.live.Nodup
  live_lt : ∀ p ∈ s.live, p < s.next
  repo_made : ∀ p ∈ s.live, ∀ e, e ∈ s.repo p ↔ (p, e) ∈ made
  repo_nodup : ∀ p ∈ s.live, (s.repo p).Nodup
  made_lt : ∀ p e, (p, e) ∈ made → e < s.next ∧ p < s.next
  made_once : ∀ p q e, (p, e) ∈ made → (q, e) ∈ made → p = q
  top_sub : ∀ p ∈ s.live, ∀ e ∈ s.top p, e ∈ s.repo p
  kids_sub : ∀ p ∈ s.live, ∀ e ∈ s.repo p, ∀ c ∈ s.children e, c ∈ s.repo p

theorem inv_start : Inv [] [] start := by
  constructor <;> simp [start, held]

namespace Inv
variable {made : List (Nat × Nat)} {lost : List Nat} {s : MemSt}

/-- One pipeline is changed. -/
theorem held_pipe {t : MemSt} (h : Inv made lost s) {p : Nat} (hp : p ∈ s.live) (hl : t.live = s.live)
    (ho : ∀ q ∈ s.live, q ≠ p → t.pObjs q = s.pObjs q) (x : Nat) :
    t.held x + (s.pObjs p).count x = s.held x + (t.pObjs p).count x := by
  unfold held
  rw [hl]
  exact sum_change (f := fun p => (s.pObjs p).count x) (g := fun p => (t.pObjs p).count x) h.live_nodup hp
    (fun q hq hne => by simp only [ho q hq hne])

/-- One element is changed. -/
theorem held_elem {t : MemSt} (h : Inv made lost s) {p e : Nat} (hp : p ∈ s.live) (he : (p, e) ∈ made)
    (hl : t.live = s.live) (hr : t.repo = s.repo) (hd : t.daemons = s.daemons) (hpa : t.params = s.params)
    (hev : t.events = s.events) (hst : t.stages = s.stages) (ho : ∀ c, c ≠ e → t.eObjs c = s.eObjs c) (x : Nat) :
    t.held x + (s.eObjs e).count x = s.held x + (t.eObjs e).count x := by
  have her : e ∈ s.repo p := (h.repo_made p hp e).mpr he
  have h1 := h.held_pipe (t := t) hp hl (fun q hq hne => by
    have heq : e ∉ s.repo q := fun hc => hne (h.made_once q p e ((h.repo_made q hq e).mp hc) he)
    simp only [pObjs, hr, hd, hpa, hev, hst]
    congr 2
    simp only [List.flatMap]
    congr 1
    exact List.map_congr_left (fun c hc => ho c (by rintro rfl; exact heq hc))) x
  have h2 := sum_change (f := fun c => (s.eObjs c).count x) (g := fun c => (t.eObjs c).count x) (h.repo_nodup p hp) her
    (fun c _ hne => by simp only [ho c hne])
  rw [count_pObjs, count_pObjs, hr, hd, hpa, hev, hst] at h1
  omega

/-- Nothing that is held is changed. -/
theorem held_same {t : MemSt} (hl : t.live = s.live) (ho : ∀ q ∈ s.live, t.pObjs q = s.pObjs q) (x : Nat) :
    t.held x = s.held x := by
  unfold held
  rw [hl]
  congr 1
  exact List.map_congr_left (fun q hq => by simp only [ho q hq])

theorem next_fresh (h : Inv made lost s) : s.held s.next = 0 ∧ s.freed.count s.next = 0 ∧ lost.count s.next = 0 := by
  have := h.once s.next
  simp only [Nat.lt_irrefl, if_false] at this
  omega

/-- `below` stays inside the pipeline. -/
theorem below_sub (h : Inv made lost s) {p : Nat} (hp : p ∈ s.live) : ∀ (n e : Nat), e ∈ s.repo p →
    ∀ x ∈ s.below n e, x ∈ s.repo p
  | 0, e, he, x, hx => by
    rw [below, List.mem_singleton] at hx; exact hx ▸ he
  | n + 1, e, he, x, hx => by
    rw [below, List.mem_cons, List.mem_flatMap] at hx
    rcases hx with rfl | ⟨c, hc, hx⟩
    · exact he
    · exact below_sub h hp n c (h.kids_sub p hp e he c hc) x hx

theorem fetchAll_eq (h : Inv made lost s) {p : Nat} (hp : p ∈ s.live) : s.fetchAll p = s := by
  have : ((s.top p).flatMap (s.below s.next)).foldl setIns (s.repo p) = s.repo p := by
    apply foldl_setIns_of_sub
    intro x hx
    rw [List.mem_flatMap] at hx
    obtain ⟨e, he, hx⟩ := hx
    exact h.below_sub hp _ e (h.top_sub p hp e he) x hx
  unfold fetchAll
  rw [this]
  have : upd s.repo p (s.repo p) = s.repo := by
    funext q; by_cases hq : q = p
    · rw [hq, upd_self]
    · rw [upd_ne _ _ hq]
  rw [this]


theorem made_next (h : Inv made lost s) (q : Nat) : (q, s.next) ∉ made :=
  fun hm => absurd (h.made_lt q s.next hm).1 (Nat.lt_irrefl _)

theorem repo_lt (h : Inv made lost s) {p : Nat} (hp : p ∈ s.live) {e : Nat} (he : e ∈ s.repo p) : e < s.next :=
  (h.made_lt p e ((h.repo_made p hp e).mp he)).1

/-- A new element that belongs to nobody yet. -/
theorem new_elt (h : Inv made lost s) (els : List Nat) : Inv made (lost ++ [s.next]) (s.newElt els) where
  once := by
    intro x
    have hh : (s.newElt els).held x = s.held x := held_same (s := s) (t := s.newElt els) rfl (fun q hq => by
      have : ∀ c ∈ s.repo q, (s.newElt els).eObjs c = s.eObjs c := fun c hc => by
        have hne : c ≠ s.next := Nat.ne_of_lt (h.repo_lt hq hc)
        simp only [eObjs, newElt, upd_ne _ _ hne]
      simp only [pObjs]
      show _ :: (_ ++ (s.repo q).flatMap (s.newElt els).eObjs) = _
      simp only [List.flatMap, List.map_congr_left this]
      rfl) x
    have h1 := h.once x
    rw [hh, List.count_append]
    show s.freed.count x + _ + _ = if x < s.next + 1 then 1 else 0
    by_cases hx : x = s.next
    · subst hx
      obtain ⟨a, b, c⟩ := h.next_fresh
      simp [a, b, c]
    · have : [s.next].count x = 0 := List.count_eq_zero.mpr (by simpa using hx)
      rw [this]
      split_ifs at h1 ⊢ <;> omega
  live_nodup := h.live_nodup
  live_lt := fun p hp => Nat.lt_succ_of_lt (h.live_lt p hp)
  repo_made := h.repo_made
  repo_nodup := h.repo_nodup
  made_lt := fun p e hm => ⟨Nat.lt_succ_of_lt (h.made_lt p e hm).1, Nat.lt_succ_of_lt (h.made_lt p e hm).2⟩
  made_once := h.made_once
  top_sub := h.top_sub
  kids_sub := by
    intro p hp e he c hc
    have hne : e ≠ s.next := Nat.ne_of_lt (h.repo_lt hp he)
    have : (s.newElt els).children e = s.children e := upd_ne _ _ hne
    rw [this] at hc
    exact h.kids_sub p hp e he c hc

/-- An element that belongs to nobody enters a repository. -/
theorem adopt {n p : Nat} (h : Inv made (lost ++ [n]) s) (hp : p ∈ s.live) (hn : ∀ q, (q, n) ∉ made) (hlt : n < s.next)
    (ha : s.aspects n = []) (he : s.eparams n = []) (hk : ∀ c ∈ s.children n, c ∈ s.repo p) :
    Inv (made ++ [(p, n)]) lost { s with repo := upd s.repo p (setIns (s.repo p) n) } := by
  have hnr : n ∉ s.repo p := fun hc => hn p ((h.repo_made p hp n).mp hc)
  have hset : setIns (s.repo p) n = s.repo p ++ [n] := by simp [setIns, hnr]
  constructor
  · intro x
    have h1 := h.once x
    have h2 := h.held_pipe (t := { s with repo := upd s.repo p (setIns (s.repo p) n) }) hp rfl (fun q _ hne => by
      simp only [pObjs, upd_ne _ _ hne]; rfl) x
    rw [count_pObjs, count_pObjs] at h2
    simp only [upd_self, hset, List.map_append, List.sum_append, List.map_cons, List.map_nil, List.sum_cons,
      List.sum_nil] at h2
    have h3 : ∀ c, ({ s with repo := upd s.repo p (s.repo p ++ [n]) } : MemSt).eObjs c = s.eObjs c := fun _ => rfl
    simp only [h3] at h2
    rw [count_eObjs s n, ha, he] at h2
    rw [List.count_append] at h1
    simp only [List.count_nil, List.map_nil, hset] at h2 ⊢
    omega
  · exact h.live_nodup
  · exact h.live_lt
  · intro q hq e
    show e ∈ upd s.repo p _ q ↔ _
    by_cases hqp : q = p
    · subst hqp
      rw [upd_self, mem_setIns, List.mem_append, List.mem_singleton, h.repo_made q hq e]
      simp only [Prod.mk.injEq, true_and]
      exact or_comm
    · rw [upd_ne _ _ hqp, h.repo_made q hq e]
      simp [hqp]
  · intro q hq
    show (upd s.repo p _ q).Nodup
    by_cases hqp : q = p
    · subst hqp
      rw [upd_self, hset]
      exact List.nodup_append.mpr ⟨h.repo_nodup q hq, by simp, fun a ha b hb => by
        rw [List.mem_singleton] at hb; rintro rfl; exact hnr (hb ▸ ha)⟩
    · rw [upd_ne _ _ hqp]; exact h.repo_nodup q hq
  · intro q e hm
    rcases List.mem_append.mp hm with hm | hm
    · exact h.made_lt q e hm
    · simp only [List.mem_singleton, Prod.mk.injEq] at hm
      obtain ⟨rfl, rfl⟩ := hm
      exact ⟨hlt, h.live_lt q hp⟩
  · intro q r e h1 h2
    rcases List.mem_append.mp h1 with h1 | h1 <;> rcases List.mem_append.mp h2 with h2 | h2
    · exact h.made_once q r e h1 h2
    · simp only [List.mem_singleton, Prod.mk.injEq] at h2; exact absurd h1 (h2.2 ▸ hn q)
    · simp only [List.mem_singleton, Prod.mk.injEq] at h1; exact absurd h2 (h1.2 ▸ hn r)
    · simp only [List.mem_singleton, Prod.mk.injEq] at h1 h2; exact h1.1.trans h2.1.symm
  · intro q hq e hqe
    show e ∈ upd s.repo p _ q
    have := h.top_sub q hq e hqe
    by_cases hqp : q = p
    · subst hqp; rw [upd_self, mem_setIns]; exact .inr this
    · rw [upd_ne _ _ hqp]; exact this
  · intro q hq e hqe c hc
    show c ∈ upd s.repo p _ q
    have hqe' : e ∈ upd s.repo p (setIns (s.repo p) n) q := hqe
    by_cases hqp : q = p
    · subst hqp
      rw [upd_self, mem_setIns] at hqe' ⊢
      rcases hqe' with rfl | hqe'
      · exact .inr (hk c hc)
      · exact .inr (h.kids_sub q hq e hqe' c hc)
    · rw [upd_ne _ _ hqp] at hqe' ⊢
      exact h.kids_sub q hq e hqe' c hc

/-- An element of the repository is registered. -/
theorem to_top {p e : Nat} (h : Inv made lost s) (hp : p ∈ s.live) (he : e ∈ s.repo p) (r : Nat → Bool) :
    Inv made lost { s with registered := r, top := upd s.top p (setIns (s.top p) e) } where
  once := h.once
  live_nodup := h.live_nodup
  live_lt := h.live_lt
  repo_made := h.repo_made
  repo_nodup := h.repo_nodup
  made_lt := h.made_lt
  made_once := h.made_once
  top_sub := by
    have _ := hp
    intro q hq c hc
    have hc' : c ∈ upd s.top p (setIns (s.top p) e) q := hc
    show c ∈ s.repo q
    by_cases hqp : q = p
    · subst hqp
      rw [upd_self, mem_setIns] at hc'
      exact hc'.elim (fun h => h ▸ he) (h.top_sub q hq c)
    · rw [upd_ne _ _ hqp] at hc'
      exact h.top_sub q hq c hc'
  kids_sub := h.kids_sub

/-- A change of what is held and deleted, with `k` new objects, that leaves pipelines and elements alone. -/
theorem replace (h : Inv made lost s) {t : MemSt} {lost' : List Nat} (hn : s.next ≤ t.next) (hl : t.live = s.live)
    (hr : t.repo = s.repo) (ht : t.top = s.top) (hk : t.children = s.children)
    (ho : ∀ x, t.freed.count x + lost'.count x + t.held x = (s.freed.count x + lost.count x + s.held x) +
      if s.next ≤ x ∧ x < t.next then 1 else 0) : Inv made lost' t where
  once := by
    intro x
    rw [ho x, h.once x]
    split_ifs <;> omega
  live_nodup := by rw [hl]; exact h.live_nodup
  live_lt := by rw [hl]; exact fun p hp => Nat.lt_of_lt_of_le (h.live_lt p hp) hn
  repo_made := by rw [hl, hr]; exact h.repo_made
  repo_nodup := by rw [hl, hr]; exact h.repo_nodup
  made_lt := fun p e hm => ⟨Nat.lt_of_lt_of_le (h.made_lt p e hm).1 hn, Nat.lt_of_lt_of_le (h.made_lt p e hm).2 hn⟩
  made_once := h.made_once
  top_sub := by rw [hl, hr, ht]; exact h.top_sub
  kids_sub := by rw [hl, hr, hk]; exact h.kids_sub

theorem count_one (n x : Nat) : [n].count x = if n ≤ x ∧ x < n + 1 then 1 else 0 := by
  by_cases h : x = n
  · subst h; simp
  · rw [if_neg (by omega)]
    exact List.count_eq_zero.mpr (by simpa using h)

theorem filter_ne_sum {f : Nat → Nat} {p : Nat} : ∀ {l : List Nat}, l.Nodup → p ∈ l →
    ((l.filter (· != p)).map f).sum + f p = (l.map f).sum
  | a :: l, hn, hp => by
    rw [List.nodup_cons] at hn
    by_cases ha : a = p
    · subst ha
      have : l.filter (· != a) = l := List.filter_eq_self.mpr (fun q hq => by
        simpa using fun e : q = a => hn.1 (e ▸ hq))
      simp [this, Nat.add_comm]
    · have hp' : p ∈ l := by
        rcases List.mem_cons.mp hp with h | h
        · exact absurd h.symm ha
        · exact h
      have := filter_ne_sum (f := f) hn.2 hp'
      have hb : (a != p) = true := by simpa using ha
      simp only [List.filter_cons, hb, if_true, List.map_cons, List.sum_cons]
      omega

/-- Pipelines go. -/
theorem drop (h : Inv made lost s) {l : List Nat} {f : List Nat} (hl : l.Sublist s.live)
    (ho : ∀ x, f.count x + (l.map (fun p => (s.pObjs p).count x)).sum = s.held x) :
    Inv made lost { s with live := l, freed := s.freed ++ f } where
  once := by
    intro x
    rw [← h.once x, ← ho x]
    show (s.freed ++ f).count x + _ + (l.map (fun p => (s.pObjs p).count x)).sum = _
    rw [List.count_append]; omega
  live_nodup := hl.nodup h.live_nodup
  live_lt := fun p hp => h.live_lt p (hl.subset hp)
  repo_made := fun p hp => h.repo_made p (hl.subset hp)
  repo_nodup := fun p hp => h.repo_nodup p (hl.subset hp)
  made_lt := h.made_lt
  made_once := h.made_once
  top_sub := fun p hp => h.top_sub p (hl.subset hp)
  kids_sub := fun p hp => h.kids_sub p (hl.subset hp)

/-- One call. -/
theorem step (h : Inv made lost s) {o : MemOp} (hc : LegalCall made s o) :
    Inv (made ++ makes s o) (lost ++ s.loses o) (s.step o).1 := by
  have same : Inv (made ++ []) (lost ++ []) s := by simpa using h
  cases o with
  | create =>
    have hm : makes s .create = [] := by simp [makes]
    rw [hm, List.append_nil, show s.loses .create = [] from rfl, List.append_nil]
    have hp : ∀ q ∈ s.live, (s.step .create).1.pObjs q = s.pObjs q := fun q hq => by
      have hne : q ≠ s.next := Nat.ne_of_lt (h.live_lt q hq)
      simp only [pObjs, MemSt.step, upd_ne _ _ hne]; rfl
    have hnil : s.next ∉ s.live := fun hc => absurd (h.live_lt _ hc) (Nat.lt_irrefl _)
    have hcase : ∀ q ∈ (s.step .create).1.live, q = s.next ∨ (q ∈ s.live ∧ q ≠ s.next) := fun q hq => by
      have hq' : q ∈ s.live ++ [s.next] := hq
      rcases List.mem_append.mp hq' with hq | hq
      · exact .inr ⟨hq, fun e => hnil (e ▸ hq)⟩
      · exact .inl (List.mem_singleton.mp hq)
    constructor
    · intro x
      have h1 := h.once x
      have h2 : (s.step .create).1.held x = s.held x + [s.next].count x := by
        unfold held
        show ((s.live ++ [s.next]).map _).sum = _
        rw [List.map_append, List.sum_append, List.map_congr_left (fun q hq => by rw [hp q hq])]
        congr 1
        simp [pObjs, MemSt.step, upd_self]
      rw [h2, count_one]
      show s.freed.count x + lost.count x + _ = if x < s.next + 1 then 1 else 0
      split_ifs at h1 ⊢ <;> omega
    · show (s.live ++ [s.next]).Nodup
      exact List.nodup_append.mpr ⟨h.live_nodup, by simp, fun a ha b hb => by
        rw [List.mem_singleton] at hb; rintro rfl; exact hnil (hb ▸ ha)⟩
    · intro q hq
      show q < s.next + 1
      rcases hcase q hq with rfl | hq
      · omega
      · exact Nat.lt_succ_of_lt (h.live_lt q hq.1)
    · intro q hq e
      show e ∈ upd s.repo s.next [] q ↔ _
      rcases hcase q hq with rfl | hq
      · rw [upd_self]
        exact ⟨fun h => absurd h (by simp), fun hm => absurd (h.made_lt _ _ hm).2 (Nat.lt_irrefl _)⟩
      · rw [upd_ne _ _ hq.2]; exact h.repo_made q hq.1 e
    · intro q hq
      show (upd s.repo s.next [] q).Nodup
      rcases hcase q hq with rfl | hq
      · rw [upd_self]; exact List.nodup_nil
      · rw [upd_ne _ _ hq.2]; exact h.repo_nodup q hq.1
    · exact fun p e hm => ⟨Nat.lt_succ_of_lt (h.made_lt p e hm).1, Nat.lt_succ_of_lt (h.made_lt p e hm).2⟩
    · exact h.made_once
    · intro q hq e he
      have he' : e ∈ upd s.top s.next [] q := he
      show e ∈ upd s.repo s.next [] q
      rcases hcase q hq with rfl | hq
      · rw [upd_self] at he'; exact absurd he' (by simp)
      · rw [upd_ne _ _ hq.2] at he' ⊢; exact h.top_sub q hq.1 e he'
    · intro q hq e he c hc
      have he' : e ∈ upd s.repo s.next [] q := he
      show c ∈ upd s.repo s.next [] q
      rcases hcase q hq with rfl | hq
      · rw [upd_self] at he'; exact absurd he' (by simp)
      · rw [upd_ne _ _ hq.2] at he' ⊢; exact h.kids_sub q hq.1 e he' c hc
  | remove p =>
    have hp : p ∈ s.live := hc
    have hm : makes s (.remove p) = [] := by simp [makes]
    rw [hm, List.append_nil, show s.loses (.remove p) = [] from rfl, List.append_nil]
    exact h.drop List.filter_sublist (fun x => by
      have := filter_ne_sum (f := fun p => (s.pObjs p).count x) h.live_nodup hp
      unfold held; omega)
  | clear =>
    have hm : makes s .clear = [] := by simp [makes]
    rw [hm, List.append_nil, show s.loses .clear = [] from rfl, List.append_nil]
    exact h.drop (List.nil_sublist _) (fun x => by
      rw [count_flatMap']; simp [held])
  | regNew p deps =>
    have hp : p ∈ s.live := hc
    by_cases hu : s.up p = true
    · have hs : s.step (.regNew p deps) = (s, false) := by simp [MemSt.step, hu]
      simpa [makes, loses, hs] using h
    · by_cases hd : (s.newElt []).depsOk s.next deps = true
      · have hs : s.step (.regNew p deps) = ((s.newElt []).enter p s.next, true) := by
          simp only [MemSt.step, if_neg hu, if_pos hd]
        simp only [makes, loses, hs, if_true, List.append_nil]
        have h1 := (h.new_elt []).adopt (p := p) hp h.made_next (Nat.lt_succ_self _)
          (by simp [newElt, upd_self]) (by simp [newElt, upd_self]) (by simp [newElt, upd_self])
        exact h1.to_top hp (e := s.next) (by
          show s.next ∈ upd s.repo p (setIns (s.repo p) s.next) p
          rw [upd_self, mem_setIns]; exact .inl rfl) _
      · have hs : s.step (.regNew p deps) = (s.newElt [], false) := by
          simp only [MemSt.step, if_neg hu, if_neg hd]
        simp only [makes, loses, hs, Bool.false_eq_true, if_false, List.append_nil]
        have : List.range' s.next ((s.newElt []).next - s.next) = [s.next] := by
          show List.range' s.next (s.next + 1 - s.next) = _
          rw [Nat.add_sub_cancel_left]; rfl
        rw [this]; exact h.new_elt []
  | mkNode p deps =>
    have hp : p ∈ s.live := hc
    by_cases hu : s.up p = true
    · have hs : s.step (.mkNode p deps) = (s, false) := by simp [MemSt.step, hu]
      simpa [makes, loses, hs] using h
    · by_cases hd : (s.newElt []).depsOk s.next deps = true
      · have hs : s.step (.mkNode p deps) =
            ({ s.newElt [] with repo := upd s.repo p (setIns (s.repo p) s.next) }, true) := by
          simp only [MemSt.step, if_neg hu, if_pos hd]
        simp only [makes, loses, hs, if_true, List.append_nil]
        exact (h.new_elt []).adopt (p := p) hp h.made_next (Nat.lt_succ_self _)
          (by simp [newElt, upd_self]) (by simp [newElt, upd_self]) (by simp [newElt, upd_self])
      · have hs : s.step (.mkNode p deps) = (s.newElt [], false) := by
          simp only [MemSt.step, if_neg hu, if_neg hd]
        simp only [makes, loses, hs, Bool.false_eq_true, if_false, List.append_nil]
        have : List.range' s.next ((s.newElt []).next - s.next) = [s.next] := by
          show List.range' s.next (s.next + 1 - s.next) = _
          rw [Nat.add_sub_cancel_left]; rfl
        rw [this]; exact h.new_elt []
  | mkGroup p els deps =>
    obtain ⟨hp, hel⟩ : p ∈ s.live ∧ ∀ e ∈ els, (p, e) ∈ made := hc
    by_cases hu : s.up p = true
    · have hs : s.step (.mkGroup p els deps) = (s, false) := by simp [MemSt.step, hu]
      simpa [makes, loses, hs] using h
    · by_cases hno : deps.any (·.isNone) = true
      · have hs : s.step (.mkGroup p els deps) = (s, false) := by simp only [MemSt.step, if_neg hu, if_pos hno]
        simpa [makes, loses, hs] using h
      · by_cases hd : (s.newElt els).depsOk s.next deps = true
        · have hs : s.step (.mkGroup p els deps) =
              ({ s.newElt els with repo := upd s.repo p (setIns (s.repo p) s.next) }, true) := by
            simp only [MemSt.step, if_neg hu, if_neg hno, if_pos hd]
          simp only [makes, loses, hs, if_true, List.append_nil]
          exact (h.new_elt els).adopt (p := p) hp h.made_next (Nat.lt_succ_self _)
            (by simp [newElt, upd_self]) (by simp [newElt, upd_self]) (by
              simp only [newElt, upd_self]
              exact fun c hc => (h.repo_made p hp c).mpr (hel c hc))
        · have hs : s.step (.mkGroup p els deps) = (s.newElt els, false) := by
            simp only [MemSt.step, if_neg hu, if_neg hno, if_neg hd]
          simp only [makes, loses, hs, Bool.false_eq_true, if_false, List.append_nil]
          have : List.range' s.next ((s.newElt els).next - s.next) = [s.next] := by
            show List.range' s.next (s.next + 1 - s.next) = _
            rw [Nat.add_sub_cancel_left]; rfl
          rw [this]; exact h.new_elt els
  | reg p e deps =>
    obtain ⟨hp, he⟩ : p ∈ s.live ∧ (p, e) ∈ made := hc
    have hm : makes s (.reg p e deps) = [] := by simp [makes]
    rw [hm, List.append_nil, show s.loses (.reg p e deps) = [] from rfl, List.append_nil]
    have her : e ∈ s.repo p := (h.repo_made p hp e).mpr he
    have hen : s.enter p e = { s with registered := upd s.registered e true, top := upd s.top p (setIns (s.top p) e) } := by
      have h1 : setIns (s.repo p) e = s.repo p := by simp [setIns, her]
      have h2 : upd s.repo p (s.repo p) = s.repo := by
        funext q; by_cases hq : q = p
        · rw [hq, upd_self]
        · rw [upd_ne _ _ hq]
      simp only [enter, h1, h2]
    simp only [MemSt.step]
    split_ifs
    · exact h
    · exact h
    · exact h
    · rw [hen]; exact h.to_top hp her _
    · exact h
  | init p ok =>
    have hp : p ∈ s.live := hc
    have hm : makes s (.init p ok) = [] := by simp [makes]
    rw [hm, List.append_nil, show s.loses (.init p ok) = [] from rfl, List.append_nil]
    simp only [MemSt.step]
    split_ifs
    · exact h
    · rw [h.fetchAll_eq hp]
      exact h.replace (Nat.le_refl _) rfl rfl rfl rfl (fun x => by
        rw [if_neg (by simp only; omega)]; rfl)
  | destroy p =>
    have hm : makes s (.destroy p) = [] := by simp [makes]
    rw [hm, List.append_nil, show s.loses (.destroy p) = [] from rfl, List.append_nil]
    simp only [MemSt.step]
    split_ifs
    · exact h.replace (Nat.le_refl _) rfl rfl rfl rfl (fun x => by
        rw [if_neg (by simp only; omega)]; rfl)
    · exact h
  | aspect e =>
    obtain ⟨p, hp, he⟩ : ∃ p, p ∈ s.live ∧ (p, e) ∈ made := hc
    have hm : makes s (.aspect e) = [] := by simp [makes]
    rw [hm, List.append_nil, show s.loses (.aspect e) = [] from rfl, List.append_nil]
    have hs : (s.step (.aspect e)).1 =
        { s with next := s.next + 1, aspects := upd s.aspects e (s.aspects e ++ [s.next]) } := rfl
    rw [hs]
    refine h.replace (Nat.le_succ _) rfl rfl rfl rfl (fun x => ?_)
    have h2 := h.held_elem (t := (s.step (.aspect e)).1) hp he rfl rfl rfl rfl rfl rfl (fun c hne => by
      simp only [eObjs, hs, upd_ne _ _ hne]) x
    rw [hs] at h2
    rw [count_eObjs, count_eObjs] at h2
    simp only [upd_self, List.count_append, count_one s.next] at h2 ⊢
    omega
  | pop e =>
    obtain ⟨p, hp, he⟩ : ∃ p, p ∈ s.live ∧ (p, e) ∈ made := hc
    have hm : makes s (.pop e) = [] := by simp [makes]
    rw [hm, List.append_nil, show s.loses (.pop e) = [] from rfl, List.append_nil]
    cases hl : (s.aspects e).getLast? with
    | none => simp only [MemSt.step, hl]; exact h
    | some a =>
      have hs : (s.step (.pop e)).1 =
          { s with freed := s.freed ++ [a], aspects := upd s.aspects e (s.aspects e).dropLast } := by
        simp only [MemSt.step, hl]
      rw [hs]
      refine h.replace (Nat.le_refl _) rfl rfl rfl rfl (fun x => ?_)
      have h2 := h.held_elem
        (t := { s with freed := s.freed ++ [a], aspects := upd s.aspects e (s.aspects e).dropLast })
        hp he rfl rfl rfl rfl rfl rfl (fun c hne => by simp only [eObjs, upd_ne _ _ hne]) x
      have h3 := count_dropLast hl x
      rw [count_eObjs, count_eObjs] at h2
      simp only [upd_self, List.count_append] at h2 ⊢
      rw [if_neg (by omega)]
      omega
  | eparam e k =>
    obtain ⟨p, hp, he⟩ : ∃ p, p ∈ s.live ∧ (p, e) ∈ made := hc
    have hm : makes s (.eparam e k) = [] := by simp [makes]
    rw [hm, List.append_nil, show s.loses (.eparam e k) = [] from rfl, List.append_nil]
    have hs : (s.step (.eparam e k)).1 =
        { s with next := s.next + 1, freed := s.freed ++ (keyGet (s.eparams e) k).toList,
                 eparams := upd s.eparams e (keyDel (s.eparams e) k ++ [(k, s.next)]) } := rfl
    rw [hs]
    refine h.replace (Nat.le_succ _) rfl rfl rfl rfl (fun x => ?_)
    have h2 := h.held_elem (t := (s.step (.eparam e k)).1) hp he rfl rfl rfl rfl rfl rfl (fun c hne => by
      simp only [eObjs, hs, upd_ne _ _ hne]) x
    rw [hs] at h2
    have h3 := count_keyDel (s.eparams e) k x
    rw [count_eObjs, count_eObjs] at h2
    simp only [upd_self, List.count_append, List.map_append, List.map_cons, List.map_nil,
      count_one s.next] at h2 ⊢
    omega
  | param p k =>
    have hp : p ∈ s.live := hc
    have hm : makes s (.param p k) = [] := by simp [makes]
    rw [hm, List.append_nil, show s.loses (.param p k) = [] from rfl, List.append_nil]
    cases hl : keyGet (s.params p) k with
    | some _ => simp only [MemSt.step, hl]; exact h
    | none =>
      have hs : (s.step (.param p k)).1 =
          { s with next := s.next + 1, params := upd s.params p (s.params p ++ [(k, s.next)]) } := by
        simp only [MemSt.step, hl]
      rw [hs]
      refine h.replace (Nat.le_succ _) rfl rfl rfl rfl (fun x => ?_)
      have h2 := h.held_pipe
        (t := { s with next := s.next + 1, params := upd s.params p (s.params p ++ [(k, s.next)]) }) hp rfl
        (fun q _ hne => by simp only [pObjs, upd_ne _ _ hne]; rfl) x
      rw [count_pObjs, count_pObjs] at h2
      simp only [upd_self, List.map_append, List.map_cons, List.map_nil, List.count_append, count_one s.next] at h2 ⊢
      change _ = _ + (_ + (List.map (fun e => (s.eObjs e).count x) (s.repo p)).sum) at h2
      omega
  | rmParam p k =>
    have hp : p ∈ s.live := hc
    have hm : makes s (.rmParam p k) = [] := by simp [makes]
    rw [hm, List.append_nil, show s.loses (.rmParam p k) = [] from rfl, List.append_nil]
    cases hl : keyGet (s.params p) k with
    | none => simp only [MemSt.step, hl]; exact h
    | some y =>
      have hs : (s.step (.rmParam p k)).1 =
          { s with freed := s.freed ++ [y], params := upd s.params p (keyDel (s.params p) k) } := by
        simp only [MemSt.step, hl]
      rw [hs]
      refine h.replace (Nat.le_refl _) rfl rfl rfl rfl (fun x => ?_)
      have h2 := h.held_pipe
        (t := { s with freed := s.freed ++ [y], params := upd s.params p (keyDel (s.params p) k) }) hp rfl
        (fun q _ hne => by simp only [pObjs, upd_ne _ _ hne]; rfl) x
      have h3 := count_keyDel (s.params p) k x
      rw [hl] at h3
      rw [count_pObjs, count_pObjs] at h2
      simp only [upd_self, List.count_append, Option.toList_some] at h2 h3 ⊢
      change _ = _ + (_ + (List.map (fun e => (s.eObjs e).count x) (s.repo p)).sum) at h2
      rw [if_neg (by omega)]
      omega
  | daemon p =>
    have hp : p ∈ s.live := hc
    have hm : makes s (.daemon p) = [] := by simp [makes]
    rw [hm, List.append_nil, show s.loses (.daemon p) = [] from rfl, List.append_nil]
    simp only [MemSt.step]
    split_ifs
    · exact h
    · refine h.replace (Nat.le_succ _) rfl rfl rfl rfl (fun x => ?_)
      have h2 := h.held_pipe
        (t := { s with next := s.next + 1, daemons := upd s.daemons p (s.daemons p ++ [s.next]) }) hp rfl
        (fun q _ hne => by simp only [pObjs, upd_ne _ _ hne]; rfl) x
      rw [count_pObjs, count_pObjs] at h2
      simp only [upd_self, List.count_append, count_one s.next] at h2 ⊢
      change _ = _ + (_ + (List.map (fun e => (s.eObjs e).count x) (s.repo p)).sum) at h2
      omega
  | event p k =>
    have hp : p ∈ s.live := hc
    have hm : makes s (.event p k) = [] := by simp [makes]
    rw [hm, List.append_nil, show s.loses (.event p k) = [] from rfl, List.append_nil]
    by_cases hu : s.up p = true
    · simp only [MemSt.step, hu, if_true]; exact h
    · cases hl : keyGet (s.events p) k with
      | some _ => simp only [MemSt.step, if_neg hu, hl]; exact h
      | none =>
        have hs : (s.step (.event p k)).1 =
            { s with next := s.next + 1, events := upd s.events p (s.events p ++ [(k, s.next)]) } := by
          simp only [MemSt.step, if_neg hu, hl]
        rw [hs]
        refine h.replace (Nat.le_succ _) rfl rfl rfl rfl (fun x => ?_)
        have h2 := h.held_pipe
          (t := { s with next := s.next + 1, events := upd s.events p (s.events p ++ [(k, s.next)]) }) hp rfl
          (fun q _ hne => by simp only [pObjs, upd_ne _ _ hne]; rfl) x
        rw [count_pObjs, count_pObjs] at h2
        simp only [upd_self, List.map_append, List.map_cons, List.map_nil, List.count_append, count_one s.next] at h2 ⊢
        change _ = _ + (_ + (List.map (fun e => (s.eObjs e).count x) (s.repo p)).sum) at h2
        omega
  | stage p k =>
    have hp : p ∈ s.live := hc
    have hm : makes s (.stage p k) = [] := by simp [makes]
    rw [hm, List.append_nil]
    by_cases hu : s.up p = true
    · simp only [MemSt.step, loses, hu, if_true, List.append_nil]; exact h
    · cases hl : keyGet (s.stages p) k with
      | some y =>
        have hs : (s.step (.stage p k)).1 = { s with next := s.next + 1 } := by
          simp only [MemSt.step, if_neg hu, hl]
        have hlo : s.loses (.stage p k) = [s.next] := by simp only [loses, if_neg hu, hl, Option.isSome_some, if_true]
        rw [hs, hlo]
        refine h.replace (Nat.le_succ _) rfl rfl rfl rfl (fun x => ?_)
        rw [List.count_append, count_one s.next]
        show s.freed.count x + _ + s.held x = _
        simp only
        omega
      | none =>
        have hs : (s.step (.stage p k)).1 =
            { s with next := s.next + 1, stages := upd s.stages p (s.stages p ++ [(k, s.next)]) } := by
          simp only [MemSt.step, if_neg hu, hl]
        have hlo : s.loses (.stage p k) = [] := by
          simp only [loses, if_neg hu, hl, Option.isSome_none, Bool.false_eq_true, if_false]
        rw [hs, hlo, List.append_nil]
        refine h.replace (Nat.le_succ _) rfl rfl rfl rfl (fun x => ?_)
        have h2 := h.held_pipe
          (t := { s with next := s.next + 1, stages := upd s.stages p (s.stages p ++ [(k, s.next)]) }) hp rfl
          (fun q _ hne => by simp only [pObjs, upd_ne _ _ hne]; rfl) x
        rw [count_pObjs, count_pObjs] at h2
        simp only [upd_self, List.map_append, List.map_cons, List.map_nil, List.count_append, count_one s.next] at h2 ⊢
        change _ = _ + (_ + (List.map (fun e => (s.eObjs e).count x) (s.repo p)).sum) at h2
        omega

end Inv
end MemSt
end CGraph
