import Verif.Lemmas.WeakDynLog
import Verif.Lemmas.Visible
import Mathlib.Data.List.Perm.Subperm

/-! The steps of `Model/WeakDyn.lean` seen as steps of `Model/Visible.lean`, and what their operations do. -/
namespace CGraph
namespace WeakDyn
open Spec Weak

/-! ### Lists of operations -/

/-- Operations that are always in order. -/
def easy : WkOp → Bool
  | .read _ => true
  | .write _ => true
  | .store (.left _) rel _ => rel
  | .store .fin rel _ => rel
  | .rmw (.left _) acq rel _ _ _ => acq && rel
  | .rmw .fin acq rel _ _ _ => acq && rel
  | _ => false

theorem OpOk.easy {tot : Nat} {log : List WkLogged} {t : Nat} {o : WkOp} (h : WeakDyn.easy o = true) : OpOk tot log t o := by
  cases o with
  | store l r v => cases l <;> simp [WeakDyn.easy] at h <;> subst h <;> constructor <;> simp [Wf]
  | rmw l a r s v v' => cases l <;> simp [WeakDyn.easy] at h <;> (obtain ⟨rfl, rfl⟩ := h) <;> constructor <;> simp [Wf]
  | load l a s v => simp [WeakDyn.easy] at h
  | read l => constructor <;> simp [Wf]
  | write l => constructor <;> simp [Wf]

def OpsOk (tot : Nat) (t : Nat) : List WkLogged → List WkOp → Prop
  | _, [] => True
  | log, o :: r => OpOk tot log t o ∧ OpsOk tot t (log ++ [⟨t, o⟩]) r

theorem opsOk_easy {tot t : Nat} {log : List WkLogged} {ops : List WkOp} (h : ∀ o ∈ ops, easy o = true) : OpsOk tot t log ops := by
  induction ops generalizing log with
  | nil => trivial
  | cons o r ih => exact ⟨.easy (h o (by simp)), ih (fun x hx => h x (by simp [hx]))⟩

theorem linv_ops {tot t : Nat} {c : DynCfg} {log : List WkLogged} {ops : List WkOp} (h : LInv tot log)
    (hc : Coherent (ini c) (log ++ ops.map (fun o => ⟨t, o⟩))) (ho : OpsOk tot t log ops) :
    LInv tot (log ++ ops.map (fun o => ⟨t, o⟩)) := by
  induction ops generalizing log with
  | nil => simpa using h
  | cons o r ih =>
    have e : log ++ (o :: r).map (fun o => (⟨t, o⟩ : WkLogged)) = (log ++ [⟨t, o⟩]) ++ r.map (fun o => ⟨t, o⟩) := by simp
    rw [e] at hc ⊢
    exact ih (linv_snoc h (coherent_left hc) ho.1) hc ho.2

/-- No operation writes to `l`. -/
def NoW (l : WLoc) (ops : List WkOp) : Prop := ∀ o ∈ ops, ∀ v, ¬ o.Writes l v

theorem last_ops {l : WLoc} {t : Nat} {ops : List WkOp} {log : List WkLogged} (h : NoW l ops) {m : Nat} :
    LastAt (log ++ ops.map (fun o => (⟨t, o⟩ : WkLogged))) l m ↔ LastAt log l m := by
  induction ops generalizing log with
  | nil => simp
  | cons o r ih =>
    have e : log ++ (o :: r).map (fun o => (⟨t, o⟩ : WkLogged)) = (log ++ [⟨t, o⟩]) ++ r.map (fun o => ⟨t, o⟩) := by simp
    rw [e, ih (fun x hx => h x (by simp [hx]))]
    exact last_keep (h o (by simp))

/-- What `ops` make of the value of `l`. -/
def updO (l : WLoc) (v : Int) (o : WkOp) : Int := upd l v (⟨0, o⟩ : WkLogged)

theorem lastv_ops {c : DynCfg} {l : WLoc} {t : Nat} {ops : List WkOp} {log : List WkLogged} :
    lastv (ini c) (log ++ ops.map (fun o => (⟨t, o⟩ : WkLogged))) l = ops.foldl (updO l) (lastv (ini c) log l) := by
  induction ops generalizing log with
  | nil => simp
  | cons o r ih =>
    have e : log ++ (o :: r).map (fun o => (⟨t, o⟩ : WkLogged)) = (log ++ [⟨t, o⟩]) ++ r.map (fun o => ⟨t, o⟩) := by simp
    rw [e, ih, lastv_snoc]
    rfl

theorem foldl_noW {l : WLoc} {ops : List WkOp} (h : NoW l ops) (v : Int) : ops.foldl (updO l) v = v := by
  induction ops generalizing v with
  | nil => rfl
  | cons o r ih =>
    simp only [List.foldl_cons]
    rw [ih (fun x hx => h x (by simp [hx]))]
    exact upd_of_not (a := (⟨0, o⟩ : WkLogged)) (h o (by simp)) v

/-- Numbers of tasks that were handed over. -/
def TskLt (log : List WkLogged) (n : Nat) : Prop :=
  ∀ (k : Nat) (b : WkLogged) (m : Nat) (v : Int), log[k]? = some b → b.op.Writes (.task m) v → m < n

theorem TskLt.snoc {log : List WkLogged} {n t : Nat} {o : WkOp} (h : TskLt log n) (ho : ∀ m v, o.Writes (.task m) v → m < n) :
    TskLt (log ++ [⟨t, o⟩]) n := by
  intro k b m v hk hb
  rcases get_snoc hk with hk' | ⟨-, rfl⟩
  · exact h k b m v hk' hb
  · exact ho m v hb

theorem TskLt.ops {log : List WkLogged} {n t : Nat} {ops : List WkOp} (h : TskLt log n)
    (ho : ∀ o ∈ ops, ∀ m v, o.Writes (.task m) v → m < n) : TskLt (log ++ ops.map (fun o => ⟨t, o⟩)) n := by
  induction ops generalizing log with
  | nil => simpa using h
  | cons o r ih =>
    have e : log ++ (o :: r).map (fun o => (⟨t, o⟩ : WkLogged)) = (log ++ [⟨t, o⟩]) ++ r.map (fun o => ⟨t, o⟩) := by simp
    rw [e]
    exact ih (h.snoc (ho o (by simp))) (fun x hx => ho x (by simp [hx]))

theorem OpOk.send' {tot : Nat} {log : List WkLogged} {t n : Nat} {v : Int} (h : TskLt log n) :
    OpOk tot log t (.store (.task n) true v) := by
  constructor <;> simp [Wf]
  intro k b x hk hb
  exact absurd (h k b n x hk hb) (by omega)

theorem opsOk_post {tot t n : Nat} {log : List WkLogged} (h : TskLt log n) :
    OpsOk tot t log [.read .status, .store (.task n) true 1] :=
  ⟨.easy rfl, .send' (h.snoc (by simp [WOp.Writes])), trivial⟩

/-! ### The picture -/

/-- The state of `Model/Visible.lean`. -/
def mirror (c : DynCfg) (w : WdSt) : Visible.VSt := ⟨w.s, w.qt, w.jt, w.next, w.log.map (mirA c.totalEnd)⟩

theorem sends_mir {tot : Nat} {ops : List WkOp} : Visible.VSt.sends (ops.map (mir tot)) = WdSt.sends ops := by
  unfold Visible.VSt.sends WdSt.sends
  rw [List.any_map]
  congr 1
  funext o
  cases o with
  | store l r v => cases l <;> rfl
  | load l r s v =>
    cases l
    case fin => by_cases h : tot ≤ v.toNat <;> simp [mir, h]
    all_goals rfl
  | rmw l a r s v v' => cases l <;> rfl
  | read l => cases l <;> rfl
  | write l => rfl

theorem mirror_put (c : DynCfg) (w : WdSt) (t : Nat) (ops : List WkOp) (s' : DynSt) (jt' : List Nat) (ac : List (Nat × Nat × Option Eid)) :
    mirror c { w.put t ops with s := s', jt := jt', accs := ac } =
      { (mirror c w).put t (ops.map (mir c.totalEnd)) with s := s', jt := jt' } := by
  simp only [mirror, WdSt.put, Visible.VSt.put, sends_mir, List.map_append, List.map_map]
  rfl

theorem mir_jobOps {c : DynCfg} {s : DynSt} {n : Nat} {src : Option Nat} {v : Int} {j : Job} (hs : s.status = CStatus.ok)
    (hj : ∀ st, j ≠ .errSet st) : (jobOps c s n src v j).map (mir c.totalEnd) = Visible.jobOps c s CStatus.ok n j := by
  have h1 : CStatus.ok.isErr = false := rfl
  have h2 : CStatus.ok.isNotErr = true := rfl
  unfold jobOps Visible.jobOps
  split <;> simp_all [mir, Visible.postOps]
  split <;> simp [mir]

/-! ### Steps of a thread inside `innerExec` -/

/-- What the job reads is up to date. -/
def Good (s : DynSt) (v : Int) (j : Job) : Prop :=
  (∀ x, jobLoc j = some (.left x) → v = s.left x) ∧ (jobLoc j = some .fin → v = s.fin)

theorem jobView_good {s : DynSt} {v : Int} {j : Job} (h : Good s v j) : jobView s v j = s := by
  unfold jobView
  split
  · rename_i x r q
    have := h.1 x rfl
    subst this
    have : Graph.setLeft s.left x (s.left x) = s.left := by
      funext a; unfold Graph.setLeft; split <;> simp_all
    rw [this]
  · rename_i e
    have := h.2 rfl
    subst this
    simp
  · rfl

/-- The operation that reads. -/
theorem good_of {c : DynCfg} {s : DynSt} {n t : Nat} {src : Option Nat} {v : Int} {j : Job} {log : List WkLogged}
    (hc : Coherent (ini c) (log ++ (jobOps c s n src v j).map (fun o => ⟨t, o⟩)))
    (vl : ∀ x, lastv (ini c) log (.left x) = s.left x) (vf : lastv (ini c) log .fin = s.fin) : Good s v j := by
  constructor
  · intro x hx
    unfold jobLoc at hx
    split at hx
    · simp only [Option.some.injEq, WLoc.left.injEq] at hx
      subst hx
      have := (rmw_last (a := ⟨t, _⟩) hc rfl).1
      rw [this, vl]
    · simp at hx
    · simp at hx
  · intro hx
    unfold jobLoc at hx
    split at hx
    · simp at hx
    · have := (rmw_last (a := ⟨t, _⟩) hc rfl).1
      rw [this, vf]
    · simp at hx

theorem notify_vals (s : DynSt) : s.notify.left = s.left ∧ s.notify.fin = s.fin ∧ s.notify.status = s.status ∧ s.notify.failed = s.failed := by
  unfold DynSt.notify; split <;> simp

theorem job_left {c : DynCfg} {s s1 : DynSt} {n : Nat} {src : Option Nat} {v : Int} {j : Job} {oj : Option Job} {x : Eid} (hg : Good s v j)
    (h : DynSt.jobStep c s CStatus.ok j = some (s1, oj)) :
    (jobOps c s n src v j).foldl (updO (.left x)) (s.left x) = s1.left x := by
  have hn := notify_vals s
  cases j with
  | exec e =>
    simp only [DynSt.jobStep, Option.some.injEq, Prod.mk.injEq] at h
    obtain ⟨rfl, rfl⟩ := h
    simp only [jobOps, List.foldl_cons, List.foldl_nil, updO, upd, Graph.setLeft, WLoc.left.injEq]
    by_cases hx : x = e <;> simp [hx, eq_comm]
  | nIter e rest q =>
    cases rest with
    | nil => cases q <;> simp only [DynSt.jobStep, Option.some.injEq, Prod.mk.injEq] at h <;> obtain ⟨rfl, rfl⟩ := h <;> rfl
    | cons y rest =>
      have hv := hg.1 y rfl
      subst hv
      have : s1.left = Graph.setLeft s.left y (s.left y - 1) := by
        simp only [DynSt.jobStep] at h
        grind
      rw [this]
      simp only [jobOps, List.foldl_cons, List.foldl_nil, updO, upd, Graph.setLeft, WLoc.left.injEq]
      by_cases hx : x = y <;> simp [hx, eq_comm]
  | proc e =>
    have : s1.left = s.left := by simp only [DynSt.jobStep] at h; grind [DynSt.push]
    rw [this]
    simp only [jobOps]
    split <;> simp [updO, upd]
  | rIter e rest =>
    have : s1.left = s.left := by unfold DynSt.jobStep at h; grind [DynSt.push]
    rw [this]
    match rest with
    | [] => rfl
    | [_] => rfl
    | _ :: _ :: _ => simp [jobOps, updO, upd]
  | _ =>
    have : s1.left = s.left := by simp only [DynSt.jobStep] at h; grind [DynSt.push]
    rw [this]
    simp [jobOps, updO, upd]

theorem job_fin {c : DynCfg} {s s1 : DynSt} {n : Nat} {src : Option Nat} {v : Int} {j : Job} {oj : Option Job}
    (h : DynSt.jobStep c s CStatus.ok j = some (s1, oj)) (hj : ∀ e, j ≠ .tailInc e) : NoW .fin (jobOps c s n src v j) ∧ s1.fin = s.fin := by
  have hn := notify_vals s
  constructor
  · intro o ho x hx
    unfold jobOps at ho
    split at ho <;> simp_all [WOp.Writes] <;> grind [WOp.Writes]
  · unfold DynSt.jobStep at h; grind [DynSt.push]

theorem job_mtx {c : DynCfg} {s : DynSt} {n : Nat} {src : Option Nat} {v : Int} {j : Job} (hj : j ≠ .tailNotify) :
    NoW .mtx (jobOps c s n src v j) := by
  intro o ho x hx
  unfold jobOps at ho
  split at ho <;> simp_all [WOp.Writes] <;> grind [WOp.Writes]

theorem job_task {c : DynCfg} {s : DynSt} {n : Nat} {src : Option Nat} {v : Int} {j : Job} :
    ∀ o ∈ jobOps c s n src v j, ∀ m x, o.Writes (.task m) x → m < if WdSt.sends (jobOps c s n src v j) then n + 1 else n := by
  intro o ho m x hx
  cases j with
  | rIter e rest =>
    match rest with
    | [] => simp [jobOps] at ho
    | [_] => simp [jobOps] at ho
    | _ :: _ :: _ =>
      simp only [jobOps, List.mem_cons, List.not_mem_nil, or_false] at ho
      rcases ho with rfl | rfl
      · exact hx.elim
      · obtain ⟨h1, -⟩ := hx
        simp at h1
        simp [jobOps, WdSt.sends]; omega
  | nPost =>
    simp only [jobOps, List.mem_cons, List.not_mem_nil, or_false] at ho
    rcases ho with rfl | rfl
    · exact hx.elim
    · obtain ⟨h1, -⟩ := hx
      simp at h1
      simp [jobOps, WdSt.sends]; omega
  | proc e =>
    by_cases hd : c.isDefault e = true
    · simp only [jobOps, hd, if_true, List.mem_cons, List.not_mem_nil, or_false] at ho
      subst ho; exact hx.elim
    · simp only [jobOps, hd, List.mem_cons, List.not_mem_nil, or_false] at ho
      rcases ho with rfl | ho
      · exact hx.elim
      · simp at ho
        subst ho
        obtain ⟨h1, -⟩ := hx
        simp at h1
        simp [jobOps, WdSt.sends, hd]; omega
  | nIter e rest q =>
    cases rest with
    | nil => simp [jobOps] at ho
    | cons y rest => simp only [jobOps, List.mem_singleton] at ho; subst ho; simp [WOp.Writes] at hx
  | exec e => simp only [jobOps, List.mem_cons, List.not_mem_nil, or_false] at ho; rcases ho with rfl | rfl <;> simp [WOp.Writes] at hx
  | tailNotify => simp only [jobOps, List.mem_cons, List.not_mem_nil, or_false] at ho; rcases ho with rfl | rfl <;> simp [WOp.Writes] at hx
  | body e => simp only [jobOps, List.mem_singleton] at ho; subst ho; simp [WOp.Writes] at hx
  | after e => simp only [jobOps, List.mem_singleton] at ho; subst ho; simp [WOp.Writes] at hx
  | tailInc e => simp only [jobOps, List.mem_singleton] at ho; subst ho; simp [WOp.Writes] at hx
  | errSet st => simp [jobOps] at ho
  | errNotify => simp [jobOps] at ho

theorem job_opsOk {c : DynCfg} {s : DynSt} {n t tot : Nat} {src : Option Nat} {v : Int} {j : Job} {log : List WkLogged}
    (hl : TskLt log n) (hm : j = .tailNotify → ∀ (m : Nat) (a : WkLogged), LastAt log .mtx m → log[m]? = some a → StoreTo .mtx a.op) :
    OpsOk tot t log (jobOps c s n src v j) := by
  cases j with
  | rIter e rest =>
    match rest with
    | [] => trivial
    | [_] => trivial
    | _ :: _ :: _ => exact opsOk_post hl
  | nPost => exact opsOk_post hl
  | proc e =>
    by_cases hd : c.isDefault e = true
    · simp only [jobOps, hd, if_true]; exact opsOk_easy (by simp [easy])
    · simp only [jobOps, hd]; exact opsOk_post hl
  | nIter e rest q =>
    cases rest with
    | nil => trivial
    | cons y rest => exact opsOk_easy (by simp [jobOps, easy])
  | tailNotify =>
    refine ⟨?_, ?_, trivial⟩
    · constructor <;> simp [Wf]
      intro m a h1 h2
      exact hm rfl m a h1 h2
    · constructor <;> simp [Wf]
      exact ⟨log.length, last_snoc ⟨rfl, rfl⟩, _, get_last _, rfl⟩
  | _ => exact opsOk_easy (by simp [jobOps, easy])

theorem fin_le {c : DynCfg} {s : DynSt} {J : List Job} {fr : List Eid} (h : DynSt.Inv c s J fr) : s.fin ≤ c.totalEnd := by
  rw [h.fin]
  apply List.Subperm.length_le
  apply List.subperm_of_subset h.ended_nodup
  intro x hx
  have h1 := List.count_pos_iff.2 hx
  have h2 := h.tails x
  have h3 := h.body x
  simp only [List.mem_filter, List.isEmpty_iff]
  exact ⟨(h.rdy x (by omega)).1, h.tailsS x (by omega)⟩

theorem SInv.status {c : DynCfg} {s : DynSt} (h : DynSt.SInv c s) (hf : s.failed = []) : s.status = CStatus.ok := by
  by_cases h0 : s.nrun = 0
  · rw [h.first h0]; rfl
  · have hi := h.inv h0
    apply hi.stOk
    cases he : s.status.isErr with
    | false => rfl
    | true => obtain ⟨p, hp, -⟩ := hi.stErr he; rw [hf] at hp; simp at hp

theorem SInv.noErr {c : DynCfg} {s : DynSt} (h : DynSt.SInv c s) (hf : s.failed = []) : ∀ j ∈ s.allJobs, ∀ st, j ≠ .errSet st := by
  rintro j hj st rfl
  by_cases h0 : s.nrun = 0
  · rw [h.first h0] at hj; simp [DynSt.allJobs, DynSt.init] at hj
  · obtain ⟨-, e, he⟩ := (h.inv h0).jobs _ hj
    rw [hf] at he; simp at he

end WeakDyn
end CGraph
