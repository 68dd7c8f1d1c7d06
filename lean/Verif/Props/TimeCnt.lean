import Verif.Model.TimeCnt
/-! # C118: the time counter measures the time that passed -/
namespace CGraph.TimeCnt

/-- The time that passed during the calls. -/
def total : List TcCall → Nat
  | [] => 0
  | .span d :: l => d + total l
  | .reset d d' :: l => d + d' + total l

/-- The time that passed since the last reset, or since `n` before the calls. -/
def since (n : Nat) : List TcCall → Nat
  | [] => n
  | .span d :: l => since (n + d) l
  | .reset _ _ :: l => since 0 l

/-- The number of resets. -/
def resets : List TcCall → Nat
  | [] => 0
  | .span _ :: l => resets l
  | .reset _ _ :: l => resets l + 1

/-- The time that passed between the two readings of the clock of each reset. -/
def gaps : List TcCall → Nat
  | [] => 0
  | .span _ :: l => gaps l
  | .reset _ d' :: l => d' + gaps l

/-- The sum of what the resets returned, from the calls and the values returned. -/
def resetSum : List TcCall → List Nat → Nat
  | .span _ :: l, _ :: r => resetSum l r
  | .reset _ _ :: l, x :: r => x + resetSum l r
  | _, _ => 0

theorem run_since (l : List TcCall) (s : TcSt) (n : Nat) (h : s.clock = s.start + n) :
    (run s l).1.clock = (run s l).1.start + since n l ∧ (run s l).1.minShow = s.minShow := by
  induction l generalizing s n with
  | nil => exact ⟨h, rfl⟩
  | cons c l ih =>
    cases c with
    | span d => exact ih (step s (.span d)).1 (n + d) (by simp only [step]; omega)
    | reset d d' => exact ih (step s (.reset d d')).1 0 (by simp only [step]; omega)

theorem ms_iff (n r : Nat) : ms n = r ↔ r * 1000000 ≤ n ∧ n < (r + 1) * 1000000 := by
  unfold ms
  omega

/-- **C118 (span)** After any calls `getSpan` and `reset` return the whole milliseconds since the last reset, or since the counter was made. -/
theorem C118_span (c : Nat) (m : Int) (l : List TcCall) (d d' : Nat) :
    (∀ r, (step (run (make c m) l).1 (.span d)).2 = r ↔ r * 1000000 ≤ since 0 l + d ∧ since 0 l + d < (r + 1) * 1000000) ∧
    (∀ r, (step (run (make c m) l).1 (.reset d d')).2 = r ↔ r * 1000000 ≤ since 0 l + d ∧ since 0 l + d < (r + 1) * 1000000) := by
  have h := (run_since l (make c m) 0 rfl).1
  have e : (run (make c m) l).1.clock + d - (run (make c m) l).1.start = since 0 l + d := by omega
  constructor <;> intro r <;> simp only [step] <;> rw [e] <;> exact ms_iff _ _

/-- **C118 (show)** The destructor prints exactly if the time since the last reset reaches the given number of milliseconds. -/
theorem C118_show (c : Nat) (m : Int) (l : List TcCall) (d : Nat) :
    shows (run (make c m) l).1 d = true ↔ m * 1000000 ≤ ((since 0 l + d : Nat) : Int) := by
  obtain ⟨h, hm⟩ := run_since l (make c m) 0 rfl
  have e : (run (make c m) l).1.clock + d - (run (make c m) l).1.start = since 0 l + d := by omega
  have hm : (run (make c m) l).1.minShow = m := hm
  simp only [shows, decide_eq_true_eq]
  rw [e, hm]
  unfold ms
  omega

/-- **C118 (sum)** What the resets return need not add up to the time that passed, also if the last call is a reset during which no time passes: any
time may be lost in the reset before, between its two readings of the clock. -/
theorem C118_sum_violated (c : Nat) (m : Int) (k : Nat) : ∃ l, resets l = 1 ∧ k * 1000000 ≤ total (l ++ [.reset 0 0]) ∧
    resetSum (l ++ [.reset 0 0]) (run (make c m) (l ++ [.reset 0 0])).2 = 0 :=
  ⟨[.reset 0 (k * 1000000)], rfl, by simp [total], by simp [run, step, make, resetSum, ms]⟩

theorem sum_arith (a b c z g n d d' u k : Nat) (h : a + z + g ≤ 0 + u ∧ 0 + u ≤ a + z + g + c) (h3 : b ≤ n + d) (h4 : n + d ≤ b + k) :
    b + a + z + (d' + g) ≤ n + (d + d' + u) ∧ n + (d + d' + u) ≤ b + a + z + (d' + g) + (c + k) := by
  omega

theorem ms_bounds (n : Nat) : ms n * 1000000 ≤ n ∧ n ≤ ms n * 1000000 + 999999 := by
  unfold ms
  omega

theorem sum_bounds (l : List TcCall) (s : TcSt) (n : Nat) (h : s.clock = s.start + n) :
    resetSum l (run s l).2 * 1000000 + since n l + gaps l ≤ n + total l ∧
    n + total l ≤ resetSum l (run s l).2 * 1000000 + since n l + gaps l + resets l * 999999 := by
  induction l generalizing s n with
  | nil => simp [resetSum, since, total, gaps, resets]
  | cons c l ih =>
    cases c with
    | span d =>
      have := ih (step s (.span d)).1 (n + d) (by simp only [step]; omega)
      have e : resetSum (.span d :: l) (run s (.span d :: l)).2 = resetSum l (run (step s (.span d)).1 l).2 := rfl
      rw [e]
      generalize resetSum l (run (step s (.span d)).1 l).2 = x at *
      simp only [since, total, gaps, resets]
      omega
    | reset d d' =>
      have := ih (step s (.reset d d')).1 0 (by simp only [step]; omega)
      have h2 : (step s (.reset d d')).2 = ms (n + d) := by
        have : s.clock + d - s.start = n + d := by omega
        simp only [step, this]
      have e : resetSum (.reset d d' :: l) (run s (.reset d d' :: l)).2 = (step s (.reset d d')).2 + resetSum l (run (step s (.reset d d')).1 l).2 := rfl
      rw [e, h2]
      have h3 := ms_bounds (n + d)
      generalize resetSum l (run (step s (.reset d d')).1 l).2 = x at *
      generalize ms (n + d) = y at *
      have key := sum_arith _ _ _ (since 0 l) (gaps l) n d d' (total l) _ this h3.1 h3.2
      rw [← Nat.add_mul, ← Nat.succ_mul] at key
      exact key

/-- **C118 (sum, what holds)** They never add up to more than the time that passed, and what is missing is the time between the two readings of
each reset and less than a millisecond for each. -/
theorem C118_sum_partial (c : Nat) (m : Int) (l : List TcCall) :
    resetSum l (run (make c m) l).2 * 1000000 + since 0 l + gaps l ≤ total l ∧
    total l ≤ resetSum l (run (make c m) l).2 * 1000000 + since 0 l + gaps l + resets l * 999999 := by
  have := sum_bounds l (make c m) 0 rfl
  omega

/-- 2.5 ms, reset, with 3 ms until the second reading, 1.2 ms, a span: 2 and 1 are returned, 3.5 ms are in no span. -/
example : (run (make 7 1) [.reset 2500000 3000000, .span 1200000]).2 = [2, 1] ∧
    total [.reset 2500000 3000000, .span 1200000] = 6700000 ∧ since 0 [.reset 2500000 3000000, .span 1200000] = 1200000 ∧
    shows (run (make 7 1) [.reset 2500000 3000000, .span 1200000]).1 0 = true ∧
    shows (run (make 7 2) [.reset 2500000 3000000, .span 1200000]).1 0 = false := by decide

end CGraph.TimeCnt
