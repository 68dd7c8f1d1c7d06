import Verif.Model.Status

namespace CGraph
namespace CStatus

@[simp] theorem ok_isErr : ok.isErr = false := by decide
@[simp] theorem ok_isOK : ok.isOK = true := by decide
@[simp] theorem ok_isNotErr : ok.isNotErr = true := by decide

theorem isErr_iff (s : CStatus) : s.isErr = true ↔ s.code < 0 :=
  decide_eq_true_iff

theorem isOK_iff (s : CStatus) : s.isOK = true ↔ s.code = 0 := by
  simp [isOK, STATUS_OK]; exact eq_comm

theorem isNotErr_eq (s : CStatus) : s.isNotErr = !s.isErr := by
  unfold isNotErr isErr
  rw [← decide_not]
  apply decide_eq_decide.2
  show s.code ≥ 0 ↔ ¬ s.code < 0
  omega

theorem isErr_not_ok {s : CStatus} (h : s.isErr = true) : s.isOK = false := by
  rw [isErr_iff] at h
  have : ¬ (s.isOK = true) := by rw [isOK_iff]; omega
  simpa using this

theorem isOK_not_err {s : CStatus} (h : s.isOK = true) : s.isErr = false := by
  rw [isOK_iff] at h
  have : ¬ (s.isErr = true) := by rw [isErr_iff]; omega
  simpa using this

theorem add_of_err {a : CStatus} (b : CStatus) (h : a.isErr = true) : a.add b = a := by
  simp [add, h]

theorem add_of_not_err {a b : CStatus} (h : a.isErr = false) (hb : b.isErr = true) : a.add b = b := by
  simp [add, h, hb]

theorem add_not_err_right {a b : CStatus} (hb : b.isErr = false) : a.add b = a := by
  simp [add, hb]

theorem add_isErr (a b : CStatus) : (a.add b).isErr = (a.isErr || b.isErr) := by
  cases ha : a.isErr <;> cases hb : b.isErr <;> simp [add, ha, hb]

theorem add_assoc (a b c : CStatus) : (a.add b).add c = a.add (b.add c) := by
  cases ha : a.isErr <;> cases hb : b.isErr <;> cases hc : c.isErr <;> simp [add, ha, hb, hc]

end CStatus
end CGraph
