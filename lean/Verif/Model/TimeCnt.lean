/-! # The time counter

`UTimeCounter` of `src/UtilsCtrl/Timer/UTimeCounter.h:19-66`.  Time is in nanoseconds.  `std::chrono::steady_clock` is a clock that never goes
back: before each reading any time may pass.

Simplified: `span.count()`, a `double` of milliseconds that is cut to an integer (lines 40, 51, 57), is the exact quotient. -/
namespace CGraph.TimeCnt

/-- The clock, `start_ts_`, `min_show_span_` (UTimeCounter.h:63-65; `CMSec` is signed, CValType.h:36). -/
structure TcSt where
  clock : Nat
  start : Nat
  minShow : Int
deriving DecidableEq

/-- A call with the time that passes before each of its readings of the clock: `getSpan` (38-41) reads once, `reset` (48-52) twice. -/
inductive TcCall where
  | span (d : Nat)
  | reset (d d' : Nat)
deriving DecidableEq

/-- Whole milliseconds (UTimeCounter.h:40). -/
def ms (ns : Nat) : Nat := ns / 1000000

/-- The constructors (UTimeCounter.h:21-31) at clock `c`. -/
def make (c : Nat) (minShow : Int) : TcSt := ⟨c, c, minShow⟩

/-- A call: the state afterwards and what it returns. -/
def step (s : TcSt) : TcCall → TcSt × Nat
  | .span d => ({ s with clock := s.clock + d }, ms (s.clock + d - s.start))
  | .reset d d' => ({ s with clock := s.clock + d + d', start := s.clock + d + d' }, ms (s.clock + d - s.start))

/-- Calls one after the other: the state afterwards and all that was returned. -/
def run (s : TcSt) : List TcCall → TcSt × List Nat
  | [] => (s, [])
  | c :: l => ((run (step s c).1 l).1, (step s c).2 :: (run (step s c).1 l).2)

/-- The destructor (UTimeCounter.h:55-60), with `d` passing before it reads the clock: whether it prints. -/
def shows (s : TcSt) (d : Nat) : Bool := decide (s.minShow ≤ (ms (s.clock + d - s.start) : Int))

end CGraph.TimeCnt
