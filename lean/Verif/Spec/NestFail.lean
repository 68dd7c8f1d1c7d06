import Verif.Model.NestFail
import Verif.Spec.NestOrder

/-! # Specification for failures inside nested groups -/
namespace CGraph.Spec

/-- The execution of the element has been begun. -/
def begunF : FStat → Bool
  | .wait | .queued _ | .dropped => false
  | .entered | .launched | .done | .failed => true

/-- The element is being executed. -/
def activeF : FStat → Bool
  | .entered | .launched => true
  | _ => false

end CGraph.Spec
