import Verif.Model.Status
import Verif.Spec.Adapter

/-! # Elements that pass a call on to a function of the user: `DAnnNode` and `GFunction` -/
namespace CGraph
open Spec

/-- An ann node of the user: `prepareParam` (DomainCtrl/Ann/DAnnNode.h:23: must be written), the functions and `refreshParam`; `none`: not
overridden.  What user code does is one outcome: it returns or throws. -/
structure AnnNode where
  prepare : Res Int
  own : AnnFunc → Option (Res CStatus)
  refresh : Option (Res CStatus)

/-- CBasic/CStrDefine.h:19, CFuncType.h:63-64. -/
def noSupport : CStatus := CStatus.err "function no support"

/-- DAnnNode.cpp:50-87: functions that are not overridden. -/
def AnnNode.call (a : AnnNode) (f : AnnFunc) : Res CStatus := (a.own f).getD (.ret noSupport)

/-- DAnnNode.cpp:90-92, CFuncType.h:44-45. -/
def AnnNode.doRefresh (a : AnnNode) : Res CStatus := a.refresh.getD (.ret .ok)

/-- DAnnNode.h:91, DAnnNode.cpp:17-24: the table of functions, filled by the constructor; the indices are those of DAnnDefine.h:17-26. -/
def annTable : List (Option AnnFunc) :=
  ((((((((List.replicate 9 none).set 1 (some .train)).set 2 (some .search)).set 3 (some .insert)).set 4 (some .update)).set 5
    (some .remove)).set 6 (some .loadModel)).set 7 (some .saveModel)).set 8 (some .edition)

/-- DAnnNode.cpp:28-47 `run`, with what is observed; `none`: a null member function would be called (undefined). -/
def AnnNode.run (a : AnnNode) : Option (List AnnEv × Res CStatus) :=
  match a.prepare with
  | .throw m => some ([.prepared], .throw m)
  | .ret t =>
    -- 37-40
    if t ≤ 0 ∨ t ≥ 9 then some ([.prepared], .ret (CStatus.err "error ann function type"))
    else
      -- 42
      match annTable[t.toNat]? with
      | some (some f) =>
        match a.call f with
        | .throw m => some ([.prepared, .called f], .throw m)
        | .ret st =>
          -- 43
          match checkStatus (CStatus.ok.assign st) with
          | some r => some ([.prepared, .called f], r)
          | none =>
            -- 45-46
            match a.doRefresh with
            | .throw m => some ([.prepared, .called f, .refreshed], .throw m)
            | .ret st' => some ([.prepared, .called f, .refreshed], .ret (((CStatus.ok.assign st).assign st').copyCtor))
      | _ => none

/-! ### GFunction -/

/-- GFunction.h:42-44, and `is_init_` of the element (GElement.h:444). -/
structure FnSt (F : Type) where
  initF : Option F := none
  runF : Option F := none
  destroyF : Option F := none
  isInit : Bool := false

/-- What happens to the element: `setFunction`, a phase (GFunction.cpp:34-47), or whoever initialises it sets `is_init_` (C84). -/
inductive FnOp (F : Type) where
  | set (p : Phase) (f : Option F)
  | phase (p : Phase)
  | flag (b : Bool)

/-- GFunction.cpp:13-25 `setFunction`: `none` = it throws (UtilsDefine.h:109-111, 64-68). -/
def FnSt.set {F : Type} (s : FnSt F) (p : Phase) (f : Option F) : Option (FnSt F) :=
  if s.isInit then none
  else
    match f with
    | none => none
    | some f =>
      match p with
      | .init => some { s with initF := some f }
      | .run => some { s with runF := some f }
      | .destroy => some { s with destroyF := some f }

/-- GFunction.cpp:34-47: the function that is executed; without one `CStatus()` is returned. -/
def FnSt.pick {F : Type} (s : FnSt F) : Phase → Option F
  | .init => s.initF
  | .run => s.runF
  | .destroy => s.destroyF

/-- One operation, and what is seen of it (newest first). -/
def FnSt.step {F : Type} (x : FnSt F × List (FnEv F)) : FnOp F → FnSt F × List (FnEv F)
  | .set p f =>
    match x.1.set p f with
    | none => (x.1, .set p f false :: x.2)
    | some s' => (s', .set p f true :: x.2)
  | .phase p => (x.1, .call p (x.1.pick p) :: x.2)
  | .flag b => ({ x.1 with isInit := b }, x.2)

/-- A history of a fresh element (GFunction.cpp:28-31). -/
def FnSt.hist {F : Type} (ops : List (FnOp F)) : FnSt F × List (FnEv F) := ops.foldl FnSt.step ({}, [])

/-- GFunction.cpp:34-47: the status of a phase. -/
def FnSt.answer (s : FnSt (Res CStatus)) (p : Phase) : Res CStatus := (s.pick p).getD (.ret .ok)

end CGraph
