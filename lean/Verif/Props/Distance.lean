import Verif.Lemmas.Distance
import Mathlib.Geometry.Euclidean.Angle.Unoriented.Basic

/-! # C93: distances

The specification is Mathlib's Euclidean space: `dist`, `inner`, `InnerProductGeometry.angle` and the norm. -/
namespace CGraph
namespace Distance
open Spec (coords Sized)

/-- **C93** (Euclid): for two vectors with the same number of coordinates the result is their distance, with and without the
check (up to the sizes the check accepts), and its square without `needSqrt`. -/
theorem C93_euclid_partial {n : Nat} (a b : EuclideanSpace ℝ (Fin n)) (needCheck : Bool) (hs : Sized needCheck n) (r : DOut) :
    calculate (.euclid true) needCheck (coords a) (coords b) r = (.ok, .num (dist a b)) ∧
    calculate (.euclid false) needCheck (coords a) (coords b) r = (.ok, .num (dist a b ^ 2)) := by
  constructor
  · rw [calculate_ok (by simp [coords_length]) (by simpa [coords_length] using hs)]
    simp only [calcDist, sq_coords, if_true, Real.sqrt_sq dist_nonneg]
  · rw [calculate_ok (by simp [coords_length]) (by simpa [coords_length] using hs)]
    simp only [calcDist, sq_coords, Bool.false_eq_true, if_false]

/-- **C93** (metric): what is calculated for vectors of one size is a metric. -/
theorem C93_metric_partial (n : Nat) : ∃ d : EuclideanSpace ℝ (Fin n) → EuclideanSpace ℝ (Fin n) → ℝ,
    (∀ a b r, calculate (.euclid true) false (coords a) (coords b) r = (.ok, .num (d a b))) ∧
    (∀ a b, 0 ≤ d a b) ∧ (∀ a b, d a b = d b a) ∧ (∀ a b, d a b = 0 ↔ coords a = coords b) ∧
    ∀ a b c, d a c ≤ d a b + d b c := by
  refine ⟨fun a b => dist a b, fun a b r => (C93_euclid_partial a b false (by simp [Sized]) r).1, fun a b => dist_nonneg,
    fun a b => dist_comm a b, fun a b => ?_, fun a b c => dist_triangle a b c⟩
  rw [dist_eq_zero]
  exact ⟨fun h => by rw [h], coords_inj⟩

/-- **C93** (cosine): for two vectors other than zero with the same number of coordinates the result is the cosine of the angle
between them. -/
theorem C93_cosine_partial {n : Nat} (a b : EuclideanSpace ℝ (Fin n)) (ha : a ≠ 0) (hb : b ≠ 0) (needCheck : Bool)
    (hs : Sized needCheck n) (r : DOut) :
    calculate .cosine needCheck (coords a) (coords b) r = (.ok, .num (Real.cos (InnerProductGeometry.angle a b))) := by
  rw [calculate_ok (by simp [coords_length]) (by simpa [coords_length] using hs)]
  have h : Real.sqrt (‖a‖ ^ 2) * Real.sqrt (‖b‖ ^ 2) ≠ 0 := by
    rw [Real.sqrt_sq (norm_nonneg _), Real.sqrt_sq (norm_nonneg _)]
    exact mul_ne_zero (norm_ne_zero_iff.2 ha) (norm_ne_zero_iff.2 hb)
  simp only [calcDist, cos_coords, if_neg h, InnerProductGeometry.cos_angle]
  rw [Real.sqrt_sq (norm_nonneg _), Real.sqrt_sq (norm_nonneg _)]

/-- **C93** (cosine, range): what is calculated is between -1 and 1, symmetric, and the same for positive multiples. -/
theorem C93_cosine_range_partial {n : Nat} (a b : EuclideanSpace ℝ (Fin n)) (ha : a ≠ 0) (hb : b ≠ 0) (r : DOut) :
    ∃ x, calculate .cosine false (coords a) (coords b) r = (.ok, .num x) ∧ -1 ≤ x ∧ x ≤ 1 ∧
      calculate .cosine false (coords b) (coords a) r = (.ok, .num x) ∧
      ∀ s t : ℝ, 0 < s → 0 < t → calculate .cosine false (coords (s • a)) (coords (t • b)) r = (.ok, .num x) := by
  refine ⟨_, C93_cosine_partial a b ha hb false (by simp [Sized]) r, Real.neg_one_le_cos _, Real.cos_le_one _, ?_, ?_⟩
  · rw [InnerProductGeometry.angle_comm]
    exact C93_cosine_partial b a hb ha false (by simp [Sized]) r
  · intro s t hs ht
    rw [← InnerProductGeometry.angle_smul_left_of_pos a b hs, ← InnerProductGeometry.angle_smul_right_of_pos (s • a) b ht]
    exact C93_cosine_partial (s • a) (t • b) (smul_ne_zero hs.ne' ha) (smul_ne_zero ht.ne' hb) false (by simp [Sized]) r

/-- **C93** (normalize): a vector other than zero becomes the vector of length 1 in its direction; doing it again changes
nothing. -/
theorem C93_normalize_partial {n : Nat} (k : Kind) (a : EuclideanSpace ℝ (Fin n)) (ha : a ≠ 0) (needCheck : Bool)
    (hs : Sized needCheck n) :
    ∃ u : EuclideanSpace ℝ (Fin n), normalize k needCheck (coords a) = (.ok, (coords u).map .num) ∧
      u = (‖a‖⁻¹ : ℝ) • a ∧ ‖u‖ = 1 ∧ normalize k needCheck (coords u) = (.ok, (coords u).map .num) := by
  have key : ∀ v : EuclideanSpace ℝ (Fin n), v ≠ 0 →
      normalize k needCheck (coords v) = (.ok, (coords ((‖v‖⁻¹ : ℝ) • v)).map .num) := by
    intro v hv
    have hl : Real.sqrt (lenLoop (coords v) 0) = ‖v‖ := by
      rw [lenLoop_eq, zero_add, len_coords, Real.sqrt_sq (norm_nonneg _)]
    rw [normalize_ok (by simpa [coords_length] using hs)]
    unfold normalizeDist
    rw [hl, if_neg (norm_ne_zero_iff.2 hv)]
    unfold coords
    rw [List.map_ofFn, List.map_ofFn]
    congr 2
    funext i
    simp [mul_comm]
  have hu : ‖(‖a‖⁻¹ : ℝ) • a‖ = 1 := by
    rw [norm_smul, norm_inv, norm_norm, inv_mul_cancel₀ (norm_ne_zero_iff.2 ha)]
  refine ⟨_, key a ha, rfl, hu, ?_⟩
  have hne : (‖a‖⁻¹ : ℝ) • a ≠ 0 := by
    intro h; rw [h] at hu; simp at hu
  rw [key _ hne, hu, inv_one, one_smul]

/-- **C93** (check): with the check the Euclidean distance refuses vectors of different or zero size, and the result stays as
it was. -/
theorem C93_refused (needSqrt : Bool) (v1 v2 : List ℝ) (r : DOut) (h : v1.length ≠ v2.length ∨ v1 = [] ∨ v2 = []) :
    (calculate (.euclid needSqrt) true v1 v2 r).1.isErr = true ∧ (calculate (.euclid needSqrt) true v1 v2 r).2 = r := by
  have hc : check (.euclid needSqrt) v1.length v2.length = .err "euclidean distance dim error" := by
    refine if_pos ?_
    rcases h with h | rfl | rfl
    · exact .inl h
    · exact .inr (by simp)
    · exact .inr (by simp)
  have he : (calculate (.euclid needSqrt) true v1 v2 r).1.isErr = true := by
    unfold calculate
    simp only [if_true, hc]
    rfl
  exact ⟨he, calculate_err he⟩

example : ([1] : List ℝ).length ≠ ([1, 2] : List ℝ).length := by simp

/-- **C93** (check, normalize): with the check a vector of size zero, or of a size the check does not accept, is refused and
stays as it was. -/
theorem C93_normalize_refused (k : Kind) (v : List ℝ) (h : v = [] ∨ v.length * v.length % 2 ^ 64 = 0) :
    (normalize k true v).1.isErr = true ∧ (normalize k true v).2 = v.map .num := by
  have h0 : v.length * v.length % 2 ^ 64 = 0 := by
    rcases h with rfl | h
    · simp
    · exact h
  have hc : (check k v.length v.length).isErr = true := by
    cases k
    · rw [check, if_pos (.inr h0)]; rfl
    · rw [check, if_pos h0]; rfl
  unfold normalize
  simp only [if_true, hc]
  exact ⟨trivial, trivial⟩

example : ((List.replicate (2 ^ 32) (1 : ℝ)).length * (List.replicate (2 ^ 32) (1 : ℝ)).length) % 2 ^ 64 = 0 := by
  rw [List.length_replicate]; norm_num

/-! ## Several vectors -/

/-- **C93** (several vectors): there is one result per vector, in order, and each is what a single calculation gives; for a
vector that is refused it is zero.  The status is the first error, or OK. -/
theorem C93_batch (k : Kind) (needCheck : Bool) (query : List ℝ) (nodes : List (List ℝ)) :
    (batch k needCheck query nodes).2.length = nodes.length ∧
    (∀ i (h : i < nodes.length),
      (batch k needCheck query nodes).2[i]? = some (calculate k needCheck query nodes[i] (.num 0)).2 ∧
      ((calculate k needCheck query nodes[i] (.num 0)).1.isErr = true →
        (batch k needCheck query nodes).2[i]? = some (.num 0))) ∧
    (∀ i (h : i < nodes.length), (calculate k needCheck query nodes[i] (.num 0)).1.isErr = true →
      (∀ j (hj : j < i), (calculate k needCheck query (nodes[j]'(hj.trans h)) (.num 0)).1.isErr = false) →
      (batch k needCheck query nodes).1 = (calculate k needCheck query nodes[i] (.num 0)).1) ∧
    ((∀ v ∈ nodes, (calculate k needCheck query v (.num 0)).1.isErr = false) →
      (batch k needCheck query nodes).1 = .ok) := by
  obtain ⟨h1, h2⟩ := batchLoop_spec k needCheck query nodes .ok []
  unfold batch
  rw [if_neg (by decide)] at h2
  have hget : ∀ i (h : i < nodes.length), (batchLoop k needCheck query nodes .ok []).2[i]? =
      some (calculate k needCheck query nodes[i] (.num 0)).2 := by
    intro i h; rw [h1]; simp [h]
  refine ⟨by rw [h1]; simp, fun i h => ⟨hget i h, fun he => ?_⟩, ?_, ?_⟩
  · rw [hget i h, calculate_err he]
  · intro i h he hj
    rw [h2]
    have : (nodes.map (fun v => (calculate k needCheck query v (.num 0)).1)).find? CStatus.isErr =
        some (calculate k needCheck query nodes[i] (.num 0)).1 := by
      rw [List.find?_eq_some_iff_getElem]
      refine ⟨he, i, by simpa using h, by simp, fun j hj' => ?_⟩
      simpa using hj j hj'
    rw [this]; rfl
  · intro hall
    rw [h2]
    have : (nodes.map (fun v => (calculate k needCheck query v (.num 0)).1)).find? CStatus.isErr = none := by
      rw [List.find?_eq_none]
      intro x hx
      obtain ⟨v, hv, rfl⟩ := List.mem_map.1 hx
      simp [hall v hv]
    rw [this]; rfl

/-! ## Deviations -/

/-- **C93** fails for a second vector that is shorter: by default memory behind its end is read. -/
theorem C93_short_violated (k : Kind) (v1 v2 : List ℝ) (h : v2.length < v1.length) (r : DOut) :
    calculate k false v1 v2 r = (.ok, .ub) := by
  unfold calculate
  cases k with
  | euclid b =>
    simp only [Bool.false_eq_true, if_false, calcDist, sqLoop_short _ _ _ h]
    rfl
  | cosine =>
    simp only [Bool.false_eq_true, if_false, calcDist, cosLoop_short _ _ _ _ _ h]
    rfl

/-- **C93** fails for cosine even with the check, which does not compare the sizes. -/
theorem C93_short_checked_violated (v1 v2 : List ℝ) (h : v2.length < v1.length)
    (hs : v1.length * v2.length % 2 ^ 64 ≠ 0) (r : DOut) : calculate .cosine true v1 v2 r = (.ok, .ub) := by
  unfold calculate
  simp only [if_true, check, if_neg hs, calcDist, cosLoop_short _ _ _ _ _ h]
  rfl

/-- **C93** fails for a second vector that is longer: what it has more is ignored. -/
theorem C93_long_violated {n : Nat} (a : EuclideanSpace ℝ (Fin n)) (t : List ℝ) (r : DOut) :
    calculate (.euclid true) false (coords a) (coords a ++ t) r = (.ok, .num 0) := by
  have h1 := (C93_euclid_partial a a false (by simp [Sized]) r).1
  unfold calculate at h1 ⊢
  simp only [Bool.false_eq_true, if_false, calcDist, sqLoop_long t _ _ 0 rfl] at h1 ⊢
  rw [dist_self] at h1
  exact h1

/-- **C93** fails for the zero vector: cosine yields not-a-number, with and without the check, and the status is OK. -/
theorem C93_zero_violated {n : Nat} (a b : EuclideanSpace ℝ (Fin n)) (h : a = 0 ∨ b = 0) (needCheck : Bool)
    (hs : Sized needCheck n) (r : DOut) : calculate .cosine needCheck (coords a) (coords b) r = (.ok, .nan) := by
  rw [calculate_ok (by simp [coords_length]) (by simpa [coords_length] using hs)]
  have h : Real.sqrt (‖a‖ ^ 2) * Real.sqrt (‖b‖ ^ 2) = 0 := by
    rcases h with rfl | rfl <;> simp
  simp only [calcDist, cos_coords, if_pos h]

/-- **C93** (normalize) fails for the zero vector: every coordinate becomes not-a-number and the status is OK. -/
theorem C93_normalize_zero_violated (n : Nat) (k : Kind) (needCheck : Bool) (hs : Sized needCheck n) :
    normalize k needCheck (coords (0 : EuclideanSpace ℝ (Fin n))) = (.ok, List.replicate n .nan) := by
  rw [normalize_ok (by simpa [coords_length] using hs)]
  unfold normalizeDist
  rw [if_pos (by rw [lenLoop_eq, zero_add, len_coords]; simp)]
  rw [List.map_const', coords_length]

/-- **C93** fails for `2^32` coordinates: the check refuses two vectors of this size (the product wraps to zero). -/
theorem C93_wrap_violated (k : Kind) (v1 v2 : List ℝ) (h1 : v1.length = 2 ^ 32) (h2 : v2.length = 2 ^ 32) (r : DOut) :
    (calculate k true v1 v2 r).1.isErr = true := by
  unfold calculate
  have : (check k v1.length v2.length).isErr = true := by
    rw [h1, h2]
    cases k <;> simp [check, CStatus.isErr, CStatus.err, STATUS_OK, STATUS_ERR]
  simp only [if_true, this]

/-- **C93** (normalize) fails for integral types: every vector longer than 1 becomes zero. -/
theorem C93_integral_violated (v : List ℤ) (h : 1 < (v.map (fun x => x * x)).sum) :
    normalizeInt v = some (v.map (fun _ => 0)) := by
  unfold normalizeInt
  rw [lenLoopInt_eq, zero_add]
  generalize hL : (v.map (fun x => x * x)).sum = L at h
  rw [if_neg (by omega)]
  have hf : ⌊1 / Real.sqrt ((L : ℤ) : ℝ)⌋ = 0 := by
    have h1 : (1 : ℝ) < Real.sqrt (L : ℝ) := by
      rw [Real.lt_sqrt (by norm_num)]
      norm_num
      exact_mod_cast h
    rw [Int.floor_eq_zero_iff]
    constructor
    · positivity
    · rw [div_lt_one (by linarith)]; exact h1
  rw [hf]
  simp

/-! ## Examples -/

/-- A vector in the plane. -/
noncomputable def ex34 : EuclideanSpace ℝ (Fin 2) := !₂[3, 4]

theorem ex34_ne : ex34 ≠ 0 := by
  intro h
  have := congrFun (congrArg (fun v : EuclideanSpace ℝ (Fin 2) => (v : Fin 2 → ℝ)) h) 0
  simp [ex34] at this

example : Sized true 2 ∧ Sized true 1000 := ⟨fun _ => by norm_num, fun _ => by norm_num⟩

example : coords ex34 = [3, 4] := by simp [coords, ex34, List.ofFn_succ]

example : calculate (.euclid true) true (coords ex34) (coords (0 : EuclideanSpace ℝ (Fin 2))) (.num 0) = (.ok, .num 5) := by
  rw [(C93_euclid_partial ex34 0 true (fun _ => by norm_num) _).1]
  congr 2
  rw [dist_zero_right, EuclideanSpace.norm_eq]
  rw [show (∑ i, ‖ex34 i‖ ^ 2) = 5 ^ 2 by simp [ex34, Fin.sum_univ_two]; norm_num]
  exact Real.sqrt_sq (by norm_num)

example : ∃ u, normalize .cosine true (coords ex34) = (.ok, u) ∧ u.length = 2 := by
  obtain ⟨u, h, -⟩ := C93_normalize_partial .cosine ex34 ex34_ne true (fun _ => by norm_num)
  exact ⟨_, h, by simp [Spec.coords]⟩

example : ([1] : List ℝ).length < ([1, 2] : List ℝ).length ∧ ([1, 2] : List ℝ).length * ([1] : List ℝ).length % 2 ^ 64 ≠ 0 := by
  simp

example : 1 < (([3, 4] : List ℤ).map (fun x => x * x)).sum := by decide

example : normalizeInt [3, 4] = some [0, 0] := C93_integral_violated _ (by decide)

example : (batch (.euclid true) true [1, 2] [[1, 2], [1]]).1 = .err "euclidean distance dim error" := by
  rw [(C93_batch _ _ _ _).2.2.1 1 (by simp) (by simp [calculate, check, CStatus.isErr, CStatus.err, STATUS_OK, STATUS_ERR])]
  · simp [calculate, check, CStatus.isErr, CStatus.err, STATUS_OK, STATUS_ERR]
  · intro j hj
    obtain rfl : j = 0 := by omega
    simp [calculate, check, CStatus.isErr, CStatus.ok, STATUS_OK]

end Distance
end CGraph
