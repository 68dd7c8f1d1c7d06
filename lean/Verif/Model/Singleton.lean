/-! # The singleton adapter

`src/GraphCtrl/GraphElement/GAdapter/GSingleton/GSingleton.{h,inl}` with `UtilsCtrl/Singleton/USingleton.h`: all elements
`GSingleton<T>` of a program share one object of type `T` and one flag.  Pipelines are numbers; pipeline `q` has `k q` such
elements.  Every pipeline is used by a thread of its own, and the threads are interleaved arbitrarily between the accesses
to the flag and the calls of the object.  Simplified: the elements of a pipeline are initialised and destroyed one after the
other (as `GElementManager.cpp:32-36, 45-49` does); runs are counted, and how they are distributed over the elements of the
pipeline is left open. -/
namespace CGraph

/-- What happens to the shared object. -/
inductive SgEv where
  /-- `init` of the object is called on behalf of a pipeline, and returns a code -/
  | initB (q : Nat)
  | initE (q : Nat) (c : Int)
  /-- `run` of the object begins, with the managers (parameters, events, stages) of the pipeline `m`, and ends -/
  | runB (q : Nat) (m : Option Nat)
  | runE (q : Nat)
  /-- `destroy` of the object is called, and returns a code -/
  | desB (q : Nat)
  | desE (q : Nat) (c : Int)
deriving DecidableEq, Repr

/-- Progress inside `GSingleton::init` or `destroy`. -/
inductive SgPc where
  /-- before the flag is read (GSingleton.inl:34, 62) -/
  | test
  /-- the flag was read, the object not called yet -/
  | call
  /-- inside the function of the object -/
  | run
deriving DecidableEq, Repr

/-- Where a pipeline is: not initialised, initialising or destroying element number `i`, initialised with `n` runs of the
object going on, or left by a failed `destroy`. -/
inductive SgPh where
  | down
  | ini (i : Nat) (pc : SgPc)
  | up (n : Nat)
  | des (i : Nat) (pc : SgPc)
  | half
deriving DecidableEq, Repr

/-- Steps. -/
inductive SgAct where
  /-- a singleton element is registered: GSingleton.inl:95-107 `addManagers` -/
  | reg (q : Nat)
  /-- `GPipeline::init` reaches the elements -/
  | init (q : Nat)
  /-- another part of the pipeline fails during `init` -/
  | fail (q : Nat)
  /-- the next step inside `init` or `destroy` -/
  | go (q : Nat)
  /-- the function of the object returns a code -/
  | ret (q : Nat) (c : Int)
  | run (q : Nat)
  | runEnd (q : Nat)
  /-- `GPipeline::destroy` reaches the elements -/
  | destroy (q : Nat)
deriving DecidableEq, Repr

/-- `s_is_init_` (GSingleton.h:42), the managers that the object has, the pipelines, and what happened. -/
structure SgSt where
  flag : Bool
  mgr : Option Nat
  ph : Nat → SgPh
  hist : List SgEv

namespace SgSt

/-- Beginning of the program: GSingleton.inl:16-20. -/
def start : SgSt := ⟨false, none, fun _ => .down, []⟩

/-- A pipeline goes on. -/
def to (s : SgSt) (q : Nat) (p : SgPh) : SgSt := { s with ph := fun x => if x = q then p else s.ph x }

/-- Something happens to the object. -/
def log (s : SgSt) (e : SgEv) : SgSt := { s with hist := s.hist ++ [e] }

/-- One step; a step that is not possible changes nothing.  GSingleton.inl:30-46 `init`, 49-56 `run`, 59-73 `destroy`. -/
def step (k : Nat → Nat) (s : SgSt) : SgAct → SgSt
  | .reg q => match s.ph q with
    | .down => { s with mgr := some q }
    | _ => s
  | .init q => match s.ph q with
    | .down => s.to q (.ini 0 .test)
    | _ => s
  | .fail q => match s.ph q with
    | .ini _ .test => s.to q .down
    | _ => s
  | .go q => match s.ph q with
    | .ini i .test => if i = k q then s.to q (.up 0) else if s.flag then s.to q (.ini (i + 1) .test) else s.to q (.ini i .call)
    | .ini i .call => (s.to q (.ini i .run)).log (.initB q)
    | .des i .test => if i = k q then s.to q .down else if s.flag then s.to q (.des i .call) else s.to q (.des (i + 1) .test)
    | .des i .call => (s.to q (.des i .run)).log (.desB q)
    | _ => s
  | .ret q c => match s.ph q with
    | .ini i .run =>
      { (s.to q (if c < 0 then .down else .ini (i + 1) .test)).log (.initE q c) with flag := s.flag || decide (c = 0) }
    | .des i .run =>
      { (s.to q (if c < 0 then .half else .des (i + 1) .test)).log (.desE q c) with flag := s.flag && !decide (c = 0) }
    | _ => s
  | .run q => match s.ph q with
    | .up n => (s.to q (.up (n + 1))).log (.runB q s.mgr)
    | _ => s
  | .runEnd q => match s.ph q with
    | .up (n + 1) => (s.to q (.up n)).log (.runE q)
    | _ => s
  | .destroy q => match s.ph q with
    | .up 0 => s.to q (.des 0 .test)
    | .half => s.to q (.des 0 .test)
    | _ => s

/-- A sequence of steps. -/
def exec (k : Nat → Nat) (s : SgSt) : List SgAct → SgSt
  | [] => s
  | a :: l => exec k (s.step k a) l

end SgSt
end CGraph
