import Verif.Model.Distance
import Verif.Spec.Distance

/-! Lemmas for C93: the loops compute the sums of Mathlib's Euclidean space. -/
namespace CGraph
namespace Distance
open Spec (coords Sized)

theorem sqLoop_eq : ∀ (v1 v2 : List ℝ) (r : ℝ), v1.length = v2.length →
    sqLoop v1 v2 r = some (r + ((v1.zip v2).map (fun p => (p.1 - p.2) ^ 2)).sum) := by
  intro v1
  induction v1 with
  | nil => intro v2 r _; simp [sqLoop]
  | cons x xs ih =>
    intro v2 r h
    cases v2 with
    | nil => simp at h
    | cons y ys =>
      rw [sqLoop, ih ys _ (by simpa using h)]
      simp [add_assoc]

theorem cosLoop_eq : ∀ (v1 v2 : List ℝ) (r a b : ℝ), v1.length = v2.length →
    cosLoop v1 v2 r a b = some (r + ((v1.zip v2).map (fun p => p.1 * p.2)).sum,
      a + (v1.map (fun x => x * x)).sum, b + (v2.map (fun x => x * x)).sum) := by
  intro v1
  induction v1 with
  | nil => intro v2 r a b h; cases v2 <;> simp_all [cosLoop]
  | cons x xs ih =>
    intro v2 r a b h
    cases v2 with
    | nil => simp at h
    | cons y ys =>
      rw [cosLoop, ih ys _ _ _ (by simpa using h)]
      simp [add_assoc]

theorem lenLoop_eq : ∀ (v : List ℝ) (r : ℝ), lenLoop v r = r + (v.map (fun x => x * x)).sum := by
  intro v
  induction v with
  | nil => intro r; simp [lenLoop]
  | cons x xs ih => intro r; rw [lenLoop, ih]; simp [add_assoc]

theorem zip_sum {n : Nat} (a b : Fin n → ℝ) (f : ℝ → ℝ → ℝ) :
    (((List.ofFn a).zip (List.ofFn b)).map (fun p => f p.1 p.2)).sum = ∑ i, f (a i) (b i) := by
  induction n with
  | zero => simp
  | succ n ih =>
    rw [List.ofFn_succ, List.ofFn_succ, List.zip_cons_cons, List.map_cons, List.sum_cons, ih, Fin.sum_univ_succ]

theorem map_sum {n : Nat} (a : Fin n → ℝ) (f : ℝ → ℝ) : ((List.ofFn a).map f).sum = ∑ i, f (a i) := by
  rw [List.map_ofFn, List.sum_ofFn]; rfl

theorem coords_length {n : Nat} (a : EuclideanSpace ℝ (Fin n)) : (coords a).length = n := by simp [coords]

theorem coords_inj {n : Nat} {a b : EuclideanSpace ℝ (Fin n)} (h : coords a = coords b) : a = b := by
  have := List.ofFn_injective h
  ext i
  exact congrFun this i

theorem sq_coords {n : Nat} (a b : EuclideanSpace ℝ (Fin n)) : sqLoop (coords a) (coords b) 0 = some (dist a b ^ 2) := by
  rw [sqLoop_eq _ _ _ (by simp [coords_length]), zero_add]
  unfold coords
  rw [zip_sum (fun i => a i) (fun i => b i) (fun x y => (x - y) ^ 2), EuclideanSpace.dist_eq,
    Real.sq_sqrt (Finset.sum_nonneg fun i _ => sq_nonneg _)]
  simp [Real.dist_eq, sq_abs]

theorem len_coords {n : Nat} (a : EuclideanSpace ℝ (Fin n)) : ((coords a).map (fun x => x * x)).sum = ‖a‖ ^ 2 := by
  unfold coords
  rw [map_sum (fun i => a i) (fun x => x * x), EuclideanSpace.norm_eq,
    Real.sq_sqrt (Finset.sum_nonneg fun i _ => sq_nonneg _)]
  simp [sq_abs, sq]

theorem cos_coords {n : Nat} (a b : EuclideanSpace ℝ (Fin n)) :
    cosLoop (coords a) (coords b) 0 0 0 = some (inner ℝ a b, ‖a‖ ^ 2, ‖b‖ ^ 2) := by
  rw [cosLoop_eq _ _ _ _ _ (by simp [coords_length]), len_coords, len_coords]
  unfold coords
  rw [zip_sum (fun i => a i) (fun i => b i) (fun x y => x * y)]
  simp [PiLp.inner_apply, mul_comm]

theorem calculate_ok {k : Kind} {needCheck : Bool} {v1 v2 : List ℝ} {r : DOut}
    (h : v1.length = v2.length) (hs : Sized needCheck v2.length) :
    calculate k needCheck v1 v2 r = (.ok, calcDist k v1 v2) := by
  unfold calculate
  cases needCheck with
  | false => rfl
  | true =>
    have hs := hs rfl
    have : check k v1.length v2.length = .ok := by
      rw [h]
      cases k
      · exact if_neg (by rintro (e | e); exacts [e rfl, hs e])
      · exact if_neg hs
    simp only [if_true, this]
    rfl

theorem normalize_ok {k : Kind} {needCheck : Bool} {v : List ℝ} (hs : Sized needCheck v.length) :
    normalize k needCheck v = (.ok, normalizeDist v) := by
  unfold normalize
  cases needCheck with
  | false => rfl
  | true =>
    have hs := hs rfl
    have : check k v.length v.length = .ok := by
      cases k
      · exact if_neg (by rintro (e | e); exacts [e rfl, hs e])
      · exact if_neg hs
    simp only [if_true, this]
    rfl

theorem batchLoop_spec (k : Kind) (needCheck : Bool) (query : List ℝ) : ∀ (nodes : List (List ℝ)) (st : CStatus)
    (rs : List DOut),
    (batchLoop k needCheck query nodes st rs).2 = rs ++ nodes.map (fun v => (calculate k needCheck query v (.num 0)).2) ∧
    (batchLoop k needCheck query nodes st rs).1 = if st.isErr then st else
      ((nodes.map (fun v => (calculate k needCheck query v (.num 0)).1)).find? CStatus.isErr).getD st := by
  intro nodes
  induction nodes with
  | nil => intro st rs; simp [batchLoop]
  | cons v nodes ih =>
    intro st rs
    simp only [batchLoop]
    obtain ⟨h1, h2⟩ := ih (st.add (calculate k needCheck query v (.num 0)).1)
      (rs ++ [(calculate k needCheck query v (.num 0)).2])
    refine ⟨by rw [h1]; simp, ?_⟩
    rw [h2, List.map_cons]
    generalize (calculate k needCheck query v (.num 0)).1 = c
    unfold CStatus.add
    by_cases hs : st.isErr = true
    · simp [hs]
    · by_cases hc : c.isErr = true
      · have hc' : (CStatus.mk c.code c.info).isErr = true := hc
        simp [hs, hc]
      · simp [hs, hc]

theorem calculate_err {k : Kind} {needCheck : Bool} {v1 v2 : List ℝ} {r : DOut}
    (h : (calculate k needCheck v1 v2 r).1.isErr = true) : (calculate k needCheck v1 v2 r).2 = r := by
  unfold calculate at h ⊢
  by_cases hs : (if needCheck then check k v1.length v2.length else CStatus.ok).isErr = true
  · simp only [hs, if_true]
  · rw [if_neg hs] at h
    exact absurd (show CStatus.ok.isErr = true from h) (by decide)

theorem sqLoop_short : ∀ (v1 v2 : List ℝ) (r : ℝ), v2.length < v1.length → sqLoop v1 v2 r = none := by
  intro v1
  induction v1 with
  | nil => intro v2 r h; simp at h
  | cons x xs ih =>
    intro v2 r h
    cases v2 with
    | nil => rfl
    | cons y ys => rw [sqLoop]; exact ih ys _ (by simpa using h)

theorem cosLoop_short : ∀ (v1 v2 : List ℝ) (r a b : ℝ), v2.length < v1.length → cosLoop v1 v2 r a b = none := by
  intro v1
  induction v1 with
  | nil => intro v2 r a b h; simp at h
  | cons x xs ih =>
    intro v2 r a b h
    cases v2 with
    | nil => rfl
    | cons y ys => rw [cosLoop]; exact ih ys _ _ _ (by simpa using h)

theorem sqLoop_long (t : List ℝ) : ∀ (v1 v2 : List ℝ) (r : ℝ), v1.length = v2.length →
    sqLoop v1 (v2 ++ t) r = sqLoop v1 v2 r := by
  intro v1
  induction v1 with
  | nil => intro v2 r _; simp [sqLoop]
  | cons x xs ih =>
    intro v2 r h
    cases v2 with
    | nil => simp at h
    | cons y ys => rw [List.cons_append, sqLoop, sqLoop]; exact ih ys _ (by simpa using h)

theorem lenLoopInt_eq : ∀ (v : List ℤ) (r : ℤ), lenLoopInt v r = r + (v.map (fun x => x * x)).sum := by
  intro v
  induction v with
  | nil => intro r; simp [lenLoopInt]
  | cons x xs ih => intro r; rw [lenLoopInt, ih]; simp [add_assoc]

end Distance
end CGraph
