/-
Model of `CSTATUS` (src/CBasic/CStatus.h) and of the status macros
(src/CBasic/CFuncType.h, src/UtilsCtrl/UtilsDefine.h).
-/
namespace CGraph

/-- src/CBasic/CStatus.h:26 `STATUS_OK`. -/
def STATUS_OK : Int := 0
/-- src/CBasic/CStatus.h:27 `STATUS_ERR`. -/
def STATUS_ERR : Int := -1
/-- src/CBasic/CStatus.h:28 `STATUS_CRASH`. -/
def STATUS_CRASH : Int := -996

/-- src/CBasic/CStatus.h:30-172 `class CSTATUS`: the two private members.
`int` is modelled by `Int` (no arithmetic is performed on codes). -/
structure CStatus where
  code : Int
  info : String
deriving DecidableEq, Repr

namespace CStatus

/-- src/CBasic/CStatus.h:32,170-171: default constructor (code 0, empty text). -/
def ok : CStatus := ⟨STATUS_OK, ""⟩

instance : Inhabited CStatus := ⟨ok⟩

/-- src/CBasic/CStatus.h:34-37: `CSTATUS(const std::string&)`. -/
def err (info : String) : CStatus := ⟨STATUS_ERR, info⟩

/-- src/CBasic/CStatus.h:118-120 `isOK`. -/
def isOK (s : CStatus) : Bool := STATUS_OK == s.code

/-- src/CBasic/CStatus.h:126-128 `isErr`. -/
def isErr (s : CStatus) : Bool := decide (s.code < STATUS_OK)

/-- src/CBasic/CStatus.h:134-136 `isNotErr`. -/
def isNotErr (s : CStatus) : Bool := decide (s.code ≥ STATUS_OK)

/-- src/CBasic/CStatus.h:142-144 `isCrash`. -/
def isCrash (s : CStatus) : Bool := STATUS_CRASH == s.code

/-- src/CBasic/CStatus.h:71-82 `operator+=`: `add this cur` is the new value of `*this`. -/
def add (this cur : CStatus) : CStatus :=
  if !this.isErr && cur.isErr then ⟨cur.code, cur.info⟩ else this

/-- src/CBasic/CStatus.h:62-69 `operator=`: `assign this status` is the new value of `*this`. -/
def assign (this status : CStatus) : CStatus :=
  if this.code ≠ status.code then ⟨status.code, status.info⟩ else this

/-- src/CBasic/CStatus.h:44-51 and 53-60: copy and move constructors.  The members of the new
object first get their default initialisers (170-171), then the body runs. -/
def copyCtor (status : CStatus) : CStatus :=
  if status.code = ok.code then ok else ⟨status.code, status.info⟩

/-- src/CBasic/CStatus.h:91-96 `reset`. -/
def reset (s : CStatus) : CStatus :=
  if s.code ≠ STATUS_OK then ⟨STATUS_OK, ""⟩ else s

/-- src/CBasic/CStatus.h:152-156 `setInfo`. -/
def setInfo (_s : CStatus) (code : Int) (info : String) : CStatus :=
  ⟨code, if STATUS_OK = code then "" else info⟩

/-- src/CBasic/CStatus.h:163-167 `setErrorInfo`. -/
def setErrorInfo (_s : CStatus) (info : String) : CStatus := ⟨STATUS_ERR, info⟩

end CStatus

/-- Outcome of evaluating a piece of C++ that may leave by exception.
`throw msg` stands for a thrown `CException`/`std::exception` whose `what()` is `msg`
(src/CBasic/CException.h). -/
inductive Res (α : Type) where
  | ret (a : α)
  | throw (msg : String)
deriving DecidableEq, Repr

/-- src/UtilsCtrl/UtilsDefine.h:123-129 `CGRAPH_FUNCTION_CHECK_STATUS`: what happens at the check:
`none` = continue, `some (.ret s)` = `return status`, `some (.throw i)` = throw because the status is a
crash. -/
def checkStatus (s : CStatus) : Option (Res CStatus) :=
  if s.isErr then
    (if s.isCrash then some (.throw s.info) else some (.ret s))
  else none

end CGraph
