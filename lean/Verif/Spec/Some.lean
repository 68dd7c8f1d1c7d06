import Verif.Model.Some

/-! # What is expected of a some-group, in terms of the calls seen from outside -/
namespace CGraph.Spec
open CGraph

/-- The children whose bodies have ended, in order. -/
def finished : List SomeEv → List Nat
  | [] => []
  | .leave c _ :: es => c :: finished es
  | _ :: es => finished es

/-- The bodies that have begun, in order. -/
def entered : List SomeEv → List Nat
  | [] => []
  | .enter c :: es => c :: entered es
  | _ :: es => entered es

/-- Results of the group's runs. -/
def returned : List SomeEv → List CStatus
  | [] => []
  | .back st :: es => st :: returned es
  | _ :: es => returned es

end CGraph.Spec
