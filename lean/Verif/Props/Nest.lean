import Verif.Lemmas.NestEnd
import Mathlib.Tactic.ByContra
import Mathlib.Tactic.SplitIfs

/-! # Groups that wait inside one thread pool: C80 -/
namespace CGraph
namespace NestSt
open Spec

/-- **C80** (termination).  However threads are scheduled, a run makes at most `4 (n + 1)` steps: it cannot go on for
ever. -/
theorem C80_finite (c : NestCfg) (hw : NestWF c) (as : List NAct) : effective c (start c) as ≤ 4 * (c.n + 1) :=
  Nat.le_trans (effective_le hw as (NInv.start hw)) (total_start c)

/-- **C80** (what is left when nothing can go on).  Workers may take from all queues.  If a run can make no further step it
has returned, with all elements ended, or every worker of the pool waits inside a group of its own for a member that has
not ended. -/
theorem C80_stuck (c : NestCfg) (hw : NestWF c) (hc : Covers c) (as : List NAct)
    (hst : ∀ a, ((start c).exec c as).step c a = none) :
    (((start c).exec c as).returned ∧ ∀ e, e ≤ c.n → ((start c).exec c as).st e = .done) ∨
    ∃ g : Nat → Nat, (∀ w v, w < c.W → v < c.W → g w = g v → w = v) ∧
      ∀ w, w < c.W → waits c (g w) = true ∧ ((start c).exec c as).st (g w) = .launched ∧
        ∃ k ∈ c.kids (g w), ((start c).exec c as).st k ≠ .done := by
  have h := (NInv.start hw).exec hw as
  have hp := (Placed.start c).exec hw as
  by_cases hr : ((start c).exec c as).returned
  · exact .inl ⟨hr, fun e he => h.all_done hw hr e he⟩
  · right
    have hb := fun w hwW => Stuck.blocked hw hc h hp hst hr w hwW
    refine ⟨fun w => (((start c).exec c as).stk w).headD 0, ?_, ?_⟩
    · intro w v h1 h2 he
      obtain ⟨a, r, ha, -⟩ := hb w h1
      obtain ⟨b, r', hb', -⟩ := hb v h2
      simp only [ha, hb'] at he
      have : a = b := he
      subst this
      exact h.one w v a (by rw [ha]; simp) (by rw [hb']; simp)
    · intro w h1
      obtain ⟨a, r, ha, h2, -, -, h3, h4⟩ := hb w h1
      simp only [ha]
      exact ⟨h3, h2, h4⟩

/-- **C80** (progress).  If the pool has more threads than there are groups that wait, and workers may take from all queues,
then at any moment of any execution the run has returned or some thread can go on; so with `C80_finite` every run returns.
Missing for the full property: pools with as many or fewer threads, and smaller steal ranges (`C80_violated`,
`C80_range_violated`). -/
theorem C80_partial (c : NestCfg) (hw : NestWF c) (hc : Covers c) (hn : waiting c < c.W) (as : List NAct) :
    ((start c).exec c as).returned ∧ (∀ e, e ≤ c.n → ((start c).exec c as).st e = .done) ∨
    ∃ a s', ((start c).exec c as).step c a = some s' := by
  have h := (NInv.start hw).exec hw as
  have hp := (Placed.start c).exec hw as
  by_cases hr : ((start c).exec c as).returned
  · exact .inl ⟨hr, fun e he => h.all_done hw hr e he⟩
  · right
    by_contra hcon
    have hst : Stuck c ((start c).exec c as) := by
      intro a
      cases hs : ((start c).exec c as).step c a with
      | none => rfl
      | some s' => exact absurd ⟨a, s', hs⟩ hcon
    have := blocked_le h (fun w hwW => by
      obtain ⟨g, r, h1, h2, h3, h4, h5, -⟩ := Stuck.blocked hw hc h hp hst hr w hwW
      exact ⟨g, r, h1, h3, h4, h5⟩)
    omega

/-! ## Pipelines that never return

`G` independent regions, each with `K` independent nodes. -/

/-- Regions 1..G, and the nodes of region `g` are `G + (g-1) K + 1 .. G + g K`. -/
def grid (W range G K : Nat) : NestCfg where
  W := W
  range := range
  n := G + G * K
  parent := fun e => if e ≤ G ∨ G + G * K < e then 0 else (e - G - 1) / K + 1
  kids := fun g => if g = 0 then (List.range G).map (· + 1)
    else if g ≤ G then (List.range K).map (fun j => j + (G + (g - 1) * K + 1)) else []
  deps := fun _ => []
  group := fun e => decide (e ≤ G)
  bind := fun e => if e ≤ G then .all else .dflt

theorem grid_mem {W range G K g e : Nat} (hK : 1 ≤ K) :
    e ∈ (grid W range G K).kids g ↔ 1 ≤ e ∧ e ≤ (grid W range G K).n ∧ (grid W range G K).parent e = g := by
  simp only [grid]
  by_cases hg0 : g = 0
  · subst hg0
    simp only [if_true, List.mem_map]
    constructor
    · rintro ⟨j, hj, rfl⟩
      have hj' := List.mem_range.mp hj
      refine ⟨by omega, by omega, by rw [if_pos (by omega)]⟩
    · rintro ⟨h1, h2, h3⟩
      refine ⟨e - 1, ?_, by omega⟩
      by_contra hh
      have hh' : ¬ (e ≤ G ∨ G + G * K < e) := by rw [List.mem_range] at hh; omega
      rw [if_neg hh'] at h3
      exact absurd h3 (Nat.succ_ne_zero _)
  · rw [if_neg hg0]
    by_cases hgG : g ≤ G
    · rw [if_pos hgG]
      simp only [List.mem_map, List.mem_range]
      constructor
      · rintro ⟨j, hj, rfl⟩
        have h1 : (g - 1) * K + K ≤ G * K := by
          have : (g - 1) * K + K = g * K := by
            rw [show (g - 1) * K + K = ((g - 1) + 1) * K by rw [Nat.succ_mul], show g - 1 + 1 = g by omega]
          rw [this]; exact Nat.mul_le_mul_right _ hgG
        refine ⟨by omega, by omega, ?_⟩
        rw [if_neg (by omega)]
        rw [show j + (G + (g - 1) * K + 1) - G - 1 = j + (g - 1) * K by omega, Nat.add_mul_div_right _ _ (by omega),
          Nat.div_eq_of_lt hj]
        omega
      · rintro ⟨h1, h2, h3⟩
        have hlt : ¬ (e ≤ G ∨ G + G * K < e) := by
          intro hh; rw [if_pos hh] at h3; omega
        rw [if_neg hlt] at h3
        refine ⟨(e - G - 1) % K, Nat.mod_lt _ (by omega), ?_⟩
        have hd := Nat.div_add_mod (e - G - 1) K
        rw [show (e - G - 1) / K = g - 1 by omega, Nat.mul_comm] at hd
        omega
    · rw [if_neg hgG]
      simp only [List.not_mem_nil, false_iff, not_and]
      intro h1 h2 h3
      by_cases hlt : e ≤ G ∨ G + G * K < e
      · rw [if_pos hlt] at h3; omega
      · rw [if_neg hlt] at h3
        have hlt' : e - G - 1 < G * K := by omega
        have : (e - G - 1) / K < G := (Nat.div_lt_iff_lt_mul (by omega)).mpr hlt'
        omega

theorem grid_wf {W range G K : Nat} (hK : 1 ≤ K) : NestWF (grid W range G K) where
  kid_iff := fun g e => grid_mem hK
  kids_nodup := by
    intro g
    simp only [grid]
    split_ifs
    · exact List.Nodup.map_on (fun a _ b _ h => by omega) List.nodup_range
    · exact List.Nodup.map_on (fun a _ b _ h => by omega) List.nodup_range
    · exact List.nodup_nil
  parent_lt := by
    intro e h1 h2
    simp only [grid] at h2 ⊢
    split_ifs with h
    · omega
    · have : (e - G - 1) / K ≤ e - G - 1 := Nat.div_le_self _ _
      by_cases hG : G = 0
      · subst hG; simp at h2; omega
      · omega
  parent_zero := by simp [grid]
  group_of := by
    intro g hg
    simp only [grid, decide_eq_true_eq] at hg ⊢
    split_ifs at hg
    · omega
    · assumption
    · exact absurd rfl hg
  group_zero := by simp [grid]
  deps_of := by intro e d hd; simp [grid] at hd

theorem grid_kids_len {W range G K g : Nat} (h1 : 1 ≤ g) (h2 : g ≤ G) : ((grid W range G K).kids g).length = K := by
  simp [grid, h2, show g ≠ 0 by omega]

theorem grid_fronts (W range G K g : Nat) : (grid W range G K).fronts g = (grid W range G K).kids g := by
  simp [NestCfg.fronts, grid]

theorem not_serial {c : NestCfg} {g : Nat} (h : 2 ≤ (c.fronts g).length) (hf : c.fronts g = c.kids g) :
    c.serial g = false := by
  unfold NestCfg.serial
  have h1 : (c.kids g).isEmpty = false := by
    rw [← hf]
    cases hl : c.fronts g with
    | nil => rw [hl] at h; simp at h
    | cons a l => rfl
  have h2 : ((c.fronts g).length == 1) = false := by simp; omega
  rw [h1, h2]; rfl

theorem grid_serial {W range G K g : Nat} (h1 : 1 ≤ g) (h2 : g ≤ G) (hK : 2 ≤ K) : (grid W range G K).serial g = false :=
  not_serial (by rw [grid_fronts, grid_kids_len h1 h2]; exact hK) (grid_fronts _ _ _ _ _)

theorem grid_kids_zero (W range G K : Nat) : (grid W range G K).kids 0 = (List.range G).map (· + 1) := by
  simp [grid]

theorem grid_serial_zero {W range G K : Nat} (hG : 2 ≤ G) : (grid W range G K).serial 0 = false :=
  not_serial (by rw [grid_fronts, grid_kids_zero]; simpa using hG) (grid_fronts _ _ _ _ _)

theorem grid_parallel {W range G K g : Nat} (h : (grid W range G K).serial g = false) :
    (grid W range G K).parallel g = true := by
  unfold NestCfg.parallel
  rw [h]
  simp [grid]

theorem grid_pick {W range G K g : Nat} (h : (grid W range G K).serial g = false) :
    (grid W range G K).launchPick g = none := by
  unfold NestCfg.launchPick
  rw [h, grid_parallel h]
  simp

/-- Where the nodes are put. -/
def gridPl (W G K : Nat) (e : Nat) : Option Nat :=
  if 1 < K / W + (if K % W = 0 then 0 else 1) then some ((e - G - 1) % K / (K / W + (if K % W = 0 then 0 else 1))) else none

theorem idxOf_shift (K a j : Nat) (h : j < K) : ((List.range K).map (fun j => j + a)).idxOf (j + a) = j := by
  have hn : ((List.range K).map (fun j => j + a)).Nodup := List.Nodup.map_on (fun a _ b _ h => by omega) List.nodup_range
  have hl : j < ((List.range K).map (fun j => j + a)).length := by simpa using h
  have := hn.idxOf_getElem j hl
  simpa using this

theorem grid_place_node {W range G K g e : Nat} (hG : 1 ≤ g) (hgG : g ≤ G) (hK : 2 ≤ K)
    (he : e ∈ (grid W range G K).kids g) : (grid W range G K).mayPlace e (gridPl W G K e) = true := by
  have hmem := (grid_mem (by omega)).mp he
  unfold NestCfg.mayPlace
  rw [hmem.2.2, grid_parallel (grid_serial hG hgG hK), Bool.true_and]
  have hper : (grid W range G K).perThread g = K / W + (if K % W = 0 then 0 else 1) := by
    unfold NestCfg.perThread; rw [grid_kids_len hG hgG]; rfl
  rw [hper]
  unfold gridPl
  by_cases hp : 1 < K / W + (if K % W = 0 then 0 else 1)
  · rw [if_pos (by simpa using hp), if_pos hp]
    have hk : (grid W range G K).kids g = (List.range K).map (fun j => j + (G + (g - 1) * K + 1)) := by
      simp [grid, hgG, show g ≠ 0 by omega]
    rw [hk] at he ⊢
    obtain ⟨j, hj, rfl⟩ := List.mem_map.mp he
    rw [idxOf_shift K _ j (List.mem_range.mp hj)]
    rw [show j + (G + (g - 1) * K + 1) - G - 1 = j + (g - 1) * K by omega, Nat.add_mul_mod_self_right,
      Nat.mod_eq_of_lt (List.mem_range.mp hj)]
    simp
  · rw [if_neg (by simpa using hp), if_neg hp]
    have hb : (grid W range G K).bind e = .dflt ∨ (grid W range G K).bind e = .all := by
      simp only [grid]; split_ifs <;> simp
    rcases hb with hb | hb <;> rw [hb] <;> rfl

theorem grid_place_group {W range G K e : Nat} (hG : 2 ≤ G) (hGW : G ≤ W) (he : e ∈ (grid W range G K).kids 0) :
    (grid W range G K).mayPlace e none = true := by
  rw [grid_kids_zero] at he
  obtain ⟨j, hj, rfl⟩ := List.mem_map.mp he
  have hj' := List.mem_range.mp hj
  have hpar : (grid W range G K).parent (j + 1) = 0 := by simp only [grid]; rw [if_pos (by omega)]
  unfold NestCfg.mayPlace
  rw [hpar, grid_parallel (grid_serial_zero hG), Bool.true_and]
  have hper : ¬ 1 < (grid W range G K).perThread 0 := by
    unfold NestCfg.perThread
    rw [grid_kids_zero]
    simp only [List.length_map, List.length_range]
    show ¬ 1 < G / W + if G % W = 0 then 0 else 1
    rcases Nat.lt_or_ge G W with h | h
    · rw [Nat.div_eq_of_lt h]; split_ifs <;> omega
    · have : G = W := by omega
      subst this
      rw [Nat.div_self (by omega), Nat.mod_self]; simp
  rw [if_neg (by simpa using hper)]
  have : (grid W range G K).bind (j + 1) = .all := by simp only [grid]; rw [if_pos (by omega)]
  rw [this]
  rfl

/-- `k` regions have been taken by `k` workers and have handed out their nodes. -/
def gridSt (W G K k : Nat) : NestSt where
  st := fun e => if e = 0 then .launched else if e ≤ k then .launched else if e ≤ G then .queued none
    else if e ≤ G + k * K then .queued (gridPl W G K e) else .wait
  stk := fun w => if w = W then [0] else if w < k then [w + 1] else []

/-- The schedule that leads there. -/
def gridActs (W G K : Nat) : Nat → List NAct
  | 0 => [.launch W (fun _ => none)]
  | k + 1 => gridActs W G K k ++ [.take k (k + 1), .launch k (gridPl W G K)]

theorem grid_exec {W range G K : Nat} (hG : 2 ≤ G) (hGW : G ≤ W) (hK : 2 ≤ K) (k : Nat) (hk : k ≤ G) :
    (start (grid W range G K)).exec (grid W range G K) (gridActs W G K k) = gridSt W G K k := by
  induction k with
  | zero =>
    have hs : (start (grid W range G K)).step (grid W range G K) (.launch W (fun _ => none)) = some (gridSt W G K 0) := by
      have hstk : (start (grid W range G K)).stk W = [0] := by simp [start, grid]
      simp only [step, hstk]
      rw [if_pos ⟨by simp [start], by simp [grid], fun e he => grid_place_group hG hGW (by rw [grid_fronts] at he; exact he)⟩]
      congr 1
      rw [grid_pick (grid_serial_zero hG), grid_fronts, grid_kids_zero]
      simp only [release, gridSt, NestSt.mk.injEq]
      constructor
      · funext e
        by_cases h0 : e = 0
        · subst h0; simp [upd, start]
        · by_cases hG' : e ≤ G
          · rw [if_neg (by simp), if_pos (by simp; exact ⟨e - 1, by omega, by omega⟩)]
            simp [h0, hG']
          · rw [if_neg (by simp), if_neg (by simp; intro x hx; omega)]
            simp [upd, start, h0, hG']
      · funext w
        by_cases hw : w = W
        · subst hw; simp [start, grid]
        · simp [start, grid, hw]
    simp only [gridActs, exec, hs, Option.getD_some]
  | succ k ih =>
    simp only [gridActs]
    rw [exec_append, ih (by omega)]
    have h1 : (gridSt W G K k).step (grid W range G K) (.take k (k + 1)) =
        some ⟨upd (gridSt W G K k).st (k + 1) .entered, upd (gridSt W G K k).stk k [k + 1]⟩ := by
      have hq : (gridSt W G K k).st (k + 1) = .queued none := by
        simp [gridSt]; omega
      simp only [step, hq]
      rw [if_pos ⟨by show k < W; omega, by simp [gridSt]; omega, rfl⟩]
    have h2 : (⟨upd (gridSt W G K k).st (k + 1) .entered, upd (gridSt W G K k).stk k [k + 1]⟩ : NestSt).step
        (grid W range G K) (.launch k (gridPl W G K)) = some (gridSt W G K (k + 1)) := by
      simp only [step, upd_self]
      rw [if_pos ⟨trivial, by simp [grid]; omega, fun e he => grid_place_node (by omega) hk hK
        (by rw [grid_fronts] at he; exact he)⟩]
      congr 1
      rw [grid_pick (grid_serial (by omega) hk hK), grid_fronts]
      have hkids : (grid W range G K).kids (k + 1) = (List.range K).map (fun j => j + (G + k * K + 1)) := by
        simp [grid, hk]
      rw [hkids]
      simp only [release, gridSt, NestSt.mk.injEq]
      constructor
      · funext e
        by_cases hm : e ∈ (List.range K).map (fun j => j + (G + k * K + 1))
        · rw [if_neg (by simp), if_pos hm]
          obtain ⟨j, hj, rfl⟩ := List.mem_map.mp hm
          have hj' := List.mem_range.mp hj
          have hkK : (k + 1) * K = k * K + K := Nat.succ_mul _ _
          rw [if_neg (by omega), if_neg (by omega), if_neg (by omega), if_pos (by omega)]
        · rw [if_neg (by simp), if_neg hm]
          have hkK : (k + 1) * K = k * K + K := Nat.succ_mul _ _
          have hm' : e ≤ G + k * K ∨ G + (k + 1) * K < e := by
            by_contra hcon
            refine hm (List.mem_map.mpr ⟨e - (G + k * K + 1), List.mem_range.mpr (by omega), by omega⟩)
          by_cases he : e = k + 1
          · subst he; simp
          · rw [upd_ne _ _ he, upd_ne _ _ he]
            split_ifs <;> first | rfl | omega
      · funext w
        by_cases hw : w = k
        · subst hw
          simp
          omega
        · rw [if_neg hw, upd_ne _ _ hw]
          split_ifs <;> first | rfl | omega
    simp only [exec, h1, h2, Option.getD_some]

theorem grid_waiting {W range G K : Nat} (hK : 2 ≤ K) : waiting (grid W range G K) = G := by
  have h1 : ∀ i, waits (grid W range G K) (i + 1) = decide (i < G) := by
    intro i
    unfold waits
    by_cases hi : i < G
    · rw [grid_serial (by omega) (by omega) hK, show (grid W range G K).group (i + 1) = decide (i + 1 ≤ G) from rfl,
        decide_eq_true (show i + 1 ≤ G by omega), decide_eq_true hi]
      rfl
    · rw [show (grid W range G K).group (i + 1) = decide (i + 1 ≤ G) from rfl,
        decide_eq_false (show ¬ i + 1 ≤ G by omega), decide_eq_false hi]
      rfl
  have h2 : ∀ n, ((List.range n).filter (fun i => decide (i < G))).length = min n G := by
    intro n
    induction n with
    | zero => simp
    | succ n ih =>
      rw [List.range_succ, List.filter_append, List.length_append, ih]
      by_cases hn : n < G
      · simp [hn]; omega
      · simp [hn]; omega
  unfold waiting
  have hfun : (fun i => waits (grid W range G K) (i + 1)) = (fun i => decide (i < G)) := funext h1
  rw [hfun, h2]
  show min (G + G * K) G = G
  omega

/-- **C80 is false of the code.**  For every pool of at least two threads, whatever the steal range, there is a pipeline
with as many regions as threads whose run never returns, although all elements are independent and none of them waits for
another: after some steps no continuation returns. -/
theorem C80_violated (W range : Nat) (hW : 2 ≤ W) :
    ∃ c : NestCfg, NestWF c ∧ c.W = W ∧ c.range = range ∧ waiting c = W ∧ (∀ e, c.deps e = []) ∧
      ∃ as : List NAct, ∀ bs, ¬ ((start c).exec c (as ++ bs)).returned := by
  refine ⟨grid W range W 2, grid_wf (by omega), rfl, rfl, grid_waiting (by omega), fun _ => rfl, gridActs W W 2 W, ?_⟩
  intro bs
  have hx := grid_exec (range := range) hW (Nat.le_refl W) (Nat.le_refl 2) W (Nat.le_refl W)
  have hi := (NInv.start (c := grid W range W 2) (grid_wf (by omega))).exec (grid_wf (by omega)) (gridActs W W 2 W)
  rw [exec_append]
  refine Trap.never (B := fun w => w < W) (grid_wf (by omega)) ⟨0, by omega⟩ bs hi ?_
  rw [hx]
  intro w hwW
  replace hwW : w < W := hwW
  refine ⟨w + 1, w * 2 + (W + 1), gridPl W W 2 (w * 2 + (W + 1)), ?_, ?_, ?_, ?_, fun v hv _ => hv⟩
  · simp only [gridSt]; rw [if_neg (by omega), if_pos (by omega)]
  · simp only [gridSt]; rw [if_neg (by omega), if_pos (by omega)]
  · rw [grid_mem (by omega)]
    simp only [grid]
    refine ⟨by omega, by omega, ?_⟩
    rw [if_neg (by omega), show w * 2 + (W + 1) - W - 1 = w * 2 by omega]
    omega
  · simp only [gridSt]
    rw [if_neg (by omega), if_neg (by omega), if_neg (by omega), if_pos (by omega)]

/-- **C80 is false of the code** when workers may not take from all queues: with steal range `r`, `r + 1` regions whose
nodes outnumber the threads are enough, however many threads there are. -/
theorem C80_range_violated (W r : Nat) (hr : 1 ≤ r) (hW : r + 1 < W) :
    ∃ c : NestCfg, NestWF c ∧ c.W = W ∧ c.range = r ∧ waiting c = r + 1 ∧ (∀ e, c.deps e = []) ∧
      ∃ as : List NAct, ∀ bs, ¬ ((start c).exec c (as ++ bs)).returned := by
  have hK : 2 ≤ 2 * W := by omega
  refine ⟨grid W r (r + 1) (2 * W), grid_wf (by omega), rfl, rfl, grid_waiting hK, fun _ => rfl,
    gridActs W (r + 1) (2 * W) (r + 1), ?_⟩
  intro bs
  have hx := grid_exec (range := r) (show 2 ≤ r + 1 by omega) (show r + 1 ≤ W by omega) hK (r + 1) (Nat.le_refl _)
  have hi := (NInv.start (c := grid W r (r + 1) (2 * W)) (grid_wf (by omega))).exec (grid_wf (by omega))
    (gridActs W (r + 1) (2 * W) (r + 1))
  rw [exec_append]
  refine Trap.never (B := fun w => w < r + 1) (grid_wf (by omega)) ⟨0, by omega⟩ bs hi ?_
  rw [hx]
  intro w hw
  replace hw : w < r + 1 := hw
  have hper : 2 * W / W + (if 2 * W % W = 0 then 0 else 1) = 2 := by
    rw [Nat.mul_div_cancel _ (by omega), Nat.mul_mod_left]; simp
  have hle : w * (2 * W) + 2 * W ≤ (r + 1) * (2 * W) := by
    have : w * (2 * W) + 2 * W = (w + 1) * (2 * W) := (Nat.succ_mul _ _).symm
    rw [this]; exact Nat.mul_le_mul_right _ hw
  have hpl : gridPl W (r + 1) (2 * W) (2 * r + w * (2 * W) + (r + 1 + 1)) = some r := by
    unfold gridPl
    rw [hper, if_pos (by omega), show 2 * r + w * (2 * W) + (r + 1 + 1) - (r + 1) - 1 = 2 * r + w * (2 * W) by omega,
      Nat.add_mul_mod_self_right, Nat.mod_eq_of_lt (by omega)]
    congr 1
    omega
  refine ⟨w + 1, 2 * r + w * (2 * W) + (r + 1 + 1), some r, ?_, ?_, ?_, ?_, ?_⟩
  · simp [gridSt, hw]; omega
  · simp only [gridSt]; rw [if_neg (by omega), if_pos (by omega)]
  · rw [grid_mem (by omega)]
    simp only [grid]
    refine ⟨by omega, by omega, ?_⟩
    rw [if_neg (by omega), show 2 * r + w * (2 * W) + (r + 1 + 1) - (r + 1) - 1 = 2 * r + w * (2 * W) by omega,
      Nat.add_mul_div_right _ _ (by omega), Nat.div_eq_of_lt (by omega)]
    omega
  · simp only [gridSt]
    rw [if_neg (by omega), if_neg (by omega), if_neg (by omega), if_pos (by omega), hpl]
  · intro v hv hct
    simp only [NestCfg.canTake, Bool.or_eq_true, beq_iff_eq, List.any_eq_true, List.mem_range] at hct
    rcases hct with h | ⟨k, hk, hm⟩
    · omega
    · have hv' : v < W := hv
      have hk' : k < r := by
        have : k < min r (W - 1) := hk
        omega
      have hm' : (v + k + 1) % W = r := hm
      rcases Nat.lt_or_ge (v + k + 1) W with h | h
      · rw [Nat.mod_eq_of_lt h] at hm'; omega
      · rw [Nat.mod_eq_sub_mod h, Nat.mod_eq_of_lt (by omega)] at hm'
        omega

/-- The pool of the default configuration: 8 threads, steal range 7, eight regions. -/
example : ∃ c : NestCfg, NestWF c ∧ c.W = 8 ∧ c.range = 7 ∧ waiting c = 8 ∧ (∀ e, c.deps e = []) ∧
    ∃ as : List NAct, ∀ bs, ¬ ((start c).exec c (as ++ bs)).returned := C80_violated 8 7 (by omega)

/-- The hypotheses of `C80_partial`: seven regions with nine nodes each on eight threads. -/
example : NestWF (grid 8 7 7 9) ∧ Covers (grid 8 7 7 9) ∧ waiting (grid 8 7 7 9) < (grid 8 7 7 9).W := by
  refine ⟨grid_wf (by omega), ?_, ?_⟩
  · show 8 ≤ 7 + 1; omega
  · rw [grid_waiting (by omega)]; show 7 < 8; omega

/-- A region between two nodes, a region inside a region, a chain: element 1 and then region 2 (3 → 4, 5 after both; region
6 with 7 and 8), then 9. -/
def nestDemo : NestCfg where
  W := 3
  range := 2
  n := 9
  parent := fun e => if e ≤ 2 ∨ e = 9 then 0 else if e ≤ 6 then 2 else if e ≤ 8 then 6 else 0
  kids := fun g => if g = 0 then [9, 1, 2] else if g = 2 then [5, 4, 3, 6] else if g = 6 then [7, 8] else []
  deps := fun e => if e = 2 then [1] else if e = 9 then [2] else if e = 4 then [3] else if e = 5 then [4, 3] else []
  group := fun e => decide (e = 0 ∨ e = 2 ∨ e = 6)
  bind := fun e => if e = 2 ∨ e = 6 then .all else .dflt

theorem nestDemo_wf : NestWF nestDemo where
  kid_iff := by
    intro g e
    simp only [nestDemo]
    split_ifs <;> simp <;> omega
  kids_nodup := by intro g; simp only [nestDemo]; split_ifs <;> decide
  parent_lt := by intro e h1 h2; simp only [nestDemo] at h2 ⊢; split_ifs <;> omega
  parent_zero := rfl
  group_of := by
    intro g hg
    simp only [nestDemo, decide_eq_true_eq] at hg ⊢
    split_ifs at hg <;> first | omega | exact absurd rfl hg
  group_zero := rfl
  deps_of := by
    intro e d hd
    simp only [nestDemo] at hd ⊢
    split_ifs at hd <;> simp at hd
    all_goals try rcases hd with rfl | rfl
    all_goals subst_vars; decide

/-- A whole run of it: the caller executes node 1, worker 0 region 2 and node 9, worker 1 region 6, worker 2 the
others. -/
def nestActs : List NAct :=
  let d : Nat → Option Nat := fun _ => none
  [.launch 3 d, .finish 3 d, .take 0 2, .launch 0 (fun e => if e = 3 then some 1 else none), .take 1 6, .take 2 3,
   .finish 2 d, .finish 2 d, .finish 2 d, .launch 1 d, .take 2 8, .finish 2 d, .take 2 7, .finish 2 d, .finish 1 d,
   .finish 0 d, .finish 0 d, .finish 3 d]

example : waiting nestDemo = 2 ∧ Covers nestDemo := ⟨by decide +kernel, by show 3 ≤ 2 + 1; omega⟩

example : ((start nestDemo).exec nestDemo nestActs).st 0 = .done ∧
    (start nestDemo).effective nestDemo nestActs = 18 := by decide +kernel

end NestSt
end CGraph
