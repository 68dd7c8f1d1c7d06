/-! # Which thread is which, and what an operating system grants a thread -/
namespace CGraph.Spec

/-- What a thread is to a thread pool: its `i`-th primary thread, one of its secondary threads, the one that initialised it, or none
of these. -/
inductive Role where
  | primary (i : Nat)
  | secondary
  | starter
  | stranger
deriving DecidableEq

/-- What a thread that asks for its index is to be told: its number, -1 for the thread that started the pool, -2 for a secondary
thread; a stranger is not to be told that it is a thread of the pool. -/
def Role.tells (k : Int) : Role → Prop
  | .primary i => k = i
  | .starter => k = -1
  | .secondary => k = -2
  | .stranger => k < 0 ∧ k ≠ -2

/-- sched(7), for a process with the privilege: the policy `SCHED_OTHER` (0) goes with the priority 0 only, `SCHED_FIFO` (1) and
`SCHED_RR` (2) with the priorities 1 to 99. -/
def schedOk (policy priority : Int) : Bool :=
  (policy == 0 && priority == 0) || ((policy == 1 || policy == 2) && decide (1 ≤ priority) && decide (priority ≤ 99))

end CGraph.Spec
