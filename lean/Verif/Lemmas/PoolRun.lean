import Verif.Model.PoolRun
import Verif.Props.Queues
import Verif.Props.Pool

/-! Conservation of tasks in the thread pool. -/
namespace CGraph

/-! ### sums over workers -/

/-- Sum over the primary threads. -/
def sumI (n : Nat) (f : Int → Nat) : Nat := ((List.range n).map (fun k : Nat => f (k : Int))).sum

/-- Sum over the secondary threads. -/
def sumN (n : Nat) (f : Nat → Nat) : Nat := ((List.range n).map f).sum

theorem sumN_upd (n : Nat) (f g : Nat → Nat) (i : Nat) (hi : i < n) (h : ∀ k, k ≠ i → g k = f k) :
    sumN n g + f i = sumN n f + g i := by
  induction n with
  | zero => omega
  | succ n ih =>
    simp only [sumN, List.range_succ, List.map_append, List.map_cons, List.map_nil, List.sum_append, List.sum_cons,
      List.sum_nil] at *
    by_cases hin : i = n
    · subst hin
      have : (List.range i).map g = (List.range i).map f :=
        List.map_congr_left (fun k hk => h k (by have := List.mem_range.1 hk; omega))
      rw [this]; omega
    · have := ih (by omega)
      have h2 := h n (by omega)
      omega

theorem sumI_upd (n : Nat) (f g : Int → Nat) (i : Int) (h0 : 0 ≤ i) (hi : i < n) (h : ∀ k, k ≠ i → g k = f k) :
    sumI n g + f i = sumI n f + g i := by
  have := sumN_upd n (fun k => f (k : Int)) (fun k => g (k : Int)) i.toNat (by omega)
    (fun k hk => h k (by omega))
  rw [show ((i.toNat : Nat) : Int) = i by omega] at this
  exact this

theorem sumN_congr {n : Nat} {f g : Nat → Nat} (h : ∀ k, k < n → f k = g k) : sumN n f = sumN n g := by
  unfold sumN
  rw [List.map_congr_left (fun k hk => h k (List.mem_range.1 hk))]

theorem sumI_congr {n : Nat} {f g : Int → Nat} (h : ∀ k : Nat, k < n → f k = g k) : sumI n f = sumI n g := by
  unfold sumI
  rw [List.map_congr_left (fun k hk => h k (List.mem_range.1 hk))]

theorem sumN_succ (n : Nat) (f : Nat → Nat) : sumN (n + 1) f = sumN n f + f n := by
  simp [sumN, List.range_succ]

theorem sumN_zero {n : Nat} {f : Nat → Nat} (h : ∀ k, k < n → f k = 0) : sumN n f = 0 := by
  induction n with
  | zero => rfl
  | succ n ih => rw [sumN_succ, ih (fun k hk => h k (by omega)), h n (by omega)]

theorem sumN_pos {n : Nat} {f : Nat → Nat} (h : 0 < sumN n f) : ∃ k, k < n ∧ 0 < f k := by
  by_contra hc
  have : sumN n f = 0 := sumN_zero (fun k hk => by
    by_contra h0; exact hc ⟨k, hk, by omega⟩)
  omega

theorem sumI_zero {n : Nat} {f : Int → Nat} (h : ∀ k : Nat, k < n → f k = 0) : sumI n f = 0 :=
  sumN_zero (f := fun k => f k) h

theorem sumI_pos {n : Nat} {f : Int → Nat} (h : 0 < sumI n f) : ∃ k : Int, 0 ≤ k ∧ k < n ∧ 0 < f k := by
  obtain ⟨k, h1, h2⟩ := sumN_pos (f := fun k => f (k : Int)) h
  exact ⟨k, by omega, by omega, h2⟩

theorem le_sumN {n : Nat} {f : Nat → Nat} {k : Nat} (h : k < n) : f k ≤ sumN n f := by
  have := sumN_upd n f (fun j => if j = k then 0 else f j) k h (fun j hj => by simp [hj])
  simp at this
  omega

theorem le_sumI {n : Nat} {f : Int → Nat} {k : Int} (h0 : 0 ≤ k) (h : k < n) : f k ≤ sumI n f := by
  have := sumI_upd n f (fun j => if j = k then 0 else f j) k h0 h (fun j hj => by simp [hj])
  simp at this
  omega

/-! ### queue operations conserve tasks -/

namespace PoolSt

theorem count_popOwn (c : PoolCfg) (pre : Bool) (q : List Task) (t : Task) :
    (popOwn c pre q).1.count t + (popOwn c pre q).2.count t = q.count t := by
  unfold popOwn
  split
  · unfold WsQueue.tryPopN
    split
    · have h := congrArg (List.count t) (WsQueue.popLoop_split q c.localBatch [])
      simp only [List.count_append, List.count_nil] at h
      omega
    · simp
  · unfold WsQueue.tryPop
    split
    · cases q <;> simp [List.count_cons]
    · simp

theorem count_stealFrom (c : PoolCfg) (pre : Bool) (q : List Task) (t : Task) :
    (stealFrom c pre q).1.count t + (stealFrom c pre q).2.count t = q.count t := by
  unfold stealFrom
  split
  · unfold WsQueue.tryStealN
    split
    · have h := congrArg (List.count t) (WsQueue.popLoop_split q.reverse c.stealBatch [])
      simp only [WsQueue.stealLoop_eq, List.count_append, List.count_nil, List.count_reverse] at *
      omega
    · simp
  · unfold WsQueue.trySteal
    split
    · cases h : q.getLast? with
      | none => simp
      | some x =>
        have := List.dropLast_append_getLast? x h
        have h2 := congrArg (List.count t) this
        simp only [List.count_append] at h2
        simpa using h2
    · simp

theorem count_popShared (c : PoolCfg) (pre : Bool) (q : AQueue Task) (t : Task) :
    (popShared c pre q).1.queue.count t + (popShared c pre q).2.count t = q.queue.count t := by
  unfold popShared
  split
  · unfold AQueue.tryPopN
    split
    · have h := congrArg (List.count t) (AQueue.popLoop_split q.queue c.poolBatch [])
      simp only [List.count_append, List.count_nil] at h
      simp only
      omega
    · simp
  · unfold AQueue.tryPop
    split
    · cases h : q.queue <;> simp [List.count_cons, h]
    · simp

theorem pq_top_mem {q : PQueue Task} {e : PqEntry Task} (h : PQueue.top q = some e) : e ∈ q := by
  induction q with
  | nil => simp [PQueue.top] at h
  | cons x q ih =>
    simp only [PQueue.top] at h
    split at h
    · simp_all
    · rename_i m hm
      split at h
      · simp only [Option.some.injEq] at h; subst h; exact List.mem_cons_of_mem _ (ih hm)
      · simp only [Option.some.injEq] at h; subst h; simp

theorem pq_top_none {q : PQueue Task} (h : PQueue.top q = none) : q = [] := by
  cases q with
  | nil => rfl
  | cons x q =>
    simp only [PQueue.top] at h
    split at h
    · simp at h
    · split at h <;> simp at h

theorem count_pq (pre : Bool) (q : PQueue Task) (t : Task) :
    ((PQueue.tryPop pre q).1.map PqEntry.val).count t + ((PQueue.tryPop pre q).2.map PqEntry.val).toList.count t =
      (q.map PqEntry.val).count t := by
  unfold PQueue.tryPop
  split
  · split
    · simp
    · rename_i m hm
      have := (List.perm_cons_erase (pq_top_mem hm)).map PqEntry.val |>.count_eq t
      simp only [List.map_cons, List.count_cons] at this
      simp only [Option.map_some, Option.toList_some, List.count_cons, List.count_nil]
      omega
  · simp

theorem count_popTimeout (pre : Bool) (q : AQueue Task) (t : Task) :
    (q.popWithTimeout pre).1.queue.count t + (q.popWithTimeout pre).2.toList.count t = q.queue.count t := by
  unfold AQueue.popWithTimeout
  split
  · simp
  · cases h : q.queue with
    | nil => simp [h]
    | cons x r => simp only; split <;> simp [h, List.count_cons]

/-! ### the invariant -/

/-- Copies of a task that sit in queues. -/
def inQ (c : PoolCfg) (s : PoolSt) (t : Task) : Nat :=
  sumI c.defaultSize.toNat (fun i => (s.wsq i).count t) + s.shared.queue.count t +
    (s.prioq.map PqEntry.val).count t

/-- Copies held by workers, not started. -/
def held (c : PoolCfg) (s : PoolSt) (t : Task) : Nat :=
  sumI c.defaultSize.toNat (fun i => (s.prim i).held.count t) + sumN s.nsec (fun j => (s.sec j).held.count t)

/-- Copies being executed. -/
def exec (c : PoolCfg) (s : PoolSt) (t : Task) : Nat :=
  sumI c.defaultSize.toNat (fun i => (s.prim i).exec.count t) + sumN s.nsec (fun j => (s.sec j).exec.count t)

/-- Facts about every reachable state. -/
structure Inv (c : PoolCfg) (s : PoolSt) : Prop where
  cons : ∀ t, s.submitted.count t = inQ c s t + held c s t + s.started.count t
  fin : ∀ t, s.started.count t = exec c s t + s.finished.count t
  out : ∀ i, ¬ (0 ≤ i ∧ i < c.defaultSize) → s.wsq i = []
  steal : ∀ i rest, s.prim i = .steal rest → ∀ k ∈ rest, 0 ≤ k ∧ k < c.defaultSize
  pex : ∀ i, s.prim i = .exited → s.pgo i = false
  sex : ∀ j, s.sec j = .exited → s.sgo j = false
  pnp : ∀ i, s.prim i ≠ .prio
  snp : ∀ j, s.sec j ≠ .pop ∧ ∀ r, s.sec j ≠ .steal r
  fresh : ∀ j, s.nsec ≤ j → s.sec j = .loop

theorem inv_init (c : PoolCfg) (k : Nat) : Inv c (init k) where
  cons t := by
    simp only [init, inQ, held, WPc.held, AQueue.init, List.map_nil, List.count_nil]
    rw [sumI_zero (fun _ _ => rfl), sumN_zero (fun _ _ => rfl)]
  fin t := by
    simp only [init, exec, WPc.exec, List.count_nil]
    rw [sumI_zero (fun _ _ => rfl), sumN_zero (fun _ _ => rfl)]
  out _ _ := rfl
  steal := by intro i r h; simp [init] at h
  pex := by intro i h; simp [init] at h
  sex := by intro i h; simp [init] at h
  pnp := by intro i; simp [init]
  snp := by intro j; simp [init]
  fresh _ _ := rfl

theorem inQ_setWsq {c : PoolCfg} (s : PoolSt) (i : Int) (hi : 0 ≤ i ∧ i < c.defaultSize) (q : List Task) (t : Task) :
    inQ c (s.setWsq i q) t + (s.wsq i).count t = inQ c s t + q.count t := by
  have := sumI_upd c.defaultSize.toNat (fun k => (s.wsq k).count t)
    (fun k => ((s.setWsq i q).wsq k).count t) i hi.1 (by omega) (fun k hk => by simp [setWsq, hk])
  simp only [inQ, setWsq] at *
  simp at this
  omega

theorem held_setPrim {c : PoolCfg} (s : PoolSt) (i : Int) (hi : 0 ≤ i ∧ i < c.defaultSize) (p : WPc) (t : Task) :
    held c (s.setPrim i p) t + (s.prim i).held.count t = held c s t + p.held.count t := by
  have := sumI_upd c.defaultSize.toNat (fun k => (s.prim k).held.count t)
    (fun k => ((s.setPrim i p).prim k).held.count t) i hi.1 (by omega) (fun k hk => by simp [setPrim, hk])
  simp only [held, setPrim] at *
  simp at this
  omega

theorem exec_setPrim {c : PoolCfg} (s : PoolSt) (i : Int) (hi : 0 ≤ i ∧ i < c.defaultSize) (p : WPc) (t : Task) :
    exec c (s.setPrim i p) t + (s.prim i).exec.count t = exec c s t + p.exec.count t := by
  have := sumI_upd c.defaultSize.toNat (fun k => (s.prim k).exec.count t)
    (fun k => ((s.setPrim i p).prim k).exec.count t) i hi.1 (by omega) (fun k hk => by simp [setPrim, hk])
  simp only [exec, setPrim] at *
  simp at this
  omega

theorem held_setSec {c : PoolCfg} (s : PoolSt) (j : Nat) (hj : j < s.nsec) (p : WPc) (t : Task) :
    held c (s.setSec j p) t + (s.sec j).held.count t = held c s t + p.held.count t := by
  have := sumN_upd s.nsec (fun k => (s.sec k).held.count t)
    (fun k => ((s.setSec j p).sec k).held.count t) j hj (fun k hk => by simp [setSec, hk])
  simp only [held, setSec] at *
  simp at this
  omega

theorem exec_setSec {c : PoolCfg} (s : PoolSt) (j : Nat) (hj : j < s.nsec) (p : WPc) (t : Task) :
    exec c (s.setSec j p) t + (s.sec j).exec.count t = exec c s t + p.exec.count t := by
  have := sumN_upd s.nsec (fun k => (s.sec k).exec.count t)
    (fun k => ((s.setSec j p).sec k).exec.count t) j hj (fun k hk => by simp [setSec, hk])
  simp only [exec, setSec] at *
  simp at this
  omega

/-- Changing only queues and ghost lists leaves the workers' shares. -/
theorem held_congr {c : PoolCfg} {s s' : PoolSt} (h1 : s'.prim = s.prim) (h2 : s'.sec = s.sec)
    (h3 : s'.nsec = s.nsec) (t : Task) : held c s' t = held c s t := by simp [held, h1, h2, h3]

theorem exec_congr {c : PoolCfg} {s s' : PoolSt} (h1 : s'.prim = s.prim) (h2 : s'.sec = s.sec)
    (h3 : s'.nsec = s.nsec) (t : Task) : exec c s' t = exec c s t := by simp [exec, h1, h2, h3]

theorem inQ_congr {c : PoolCfg} {s s' : PoolSt} (h1 : s'.wsq = s.wsq) (h2 : s'.shared.queue = s.shared.queue)
    (h3 : s'.prioq = s.prioq) (t : Task) : inQ c s' t = inQ c s t := by simp [inQ, h1, h2, h3]

/-- A task is put into queue `i`. -/
theorem inv_pushWsq {c : PoolCfg} {s : PoolSt} (h : Inv c s) (i : Int) (hi : 0 ≤ i ∧ i < c.defaultSize) (t : Task)
    (lk : Int → Bool) : Inv c { s.setWsq i (WsQueue.push (s.wsq i) t) with
      submitted := s.submitted ++ [t], locked := lk } where
  cons u := by
    have h1 := inQ_setWsq (c := c) s i hi (WsQueue.push (s.wsq i) t) u
    have h2 := h.cons u
    simp only [WsQueue.push, List.count_append] at h1
    show (s.submitted ++ [t]).count u = inQ c (s.setWsq i (s.wsq i ++ [t])) u + held c s u + s.started.count u
    rw [List.count_append]
    omega
  fin := h.fin
  out k hk := by
    have : k ≠ i := by rintro rfl; exact hk hi
    simp [setWsq, this, h.out k hk]
  steal := h.steal
  pex := h.pex
  sex := h.sex
  pnp := h.pnp
  snp := h.snp
  fresh := h.fresh

/-- A task is put into the shared queue. -/
theorem inv_pushShared {c : PoolCfg} {s : PoolSt} (h : Inv c s) (t : Task) :
    Inv c { s with shared := s.shared.push t, submitted := s.submitted ++ [t] } where
  cons u := by
    have h2 := h.cons u
    show (s.submitted ++ [t]).count u = _ + s.started.count u
    simp only [inQ, held, AQueue.push, List.count_append] at *
    omega
  fin := h.fin
  out := h.out
  steal := h.steal
  pex := h.pex
  sex := h.sex
  pnp := h.pnp
  snp := h.snp
  fresh := h.fresh

/-- A task is put into the priority queue. -/
theorem inv_pushPrio {c : PoolCfg} {s : PoolSt} (h : Inv c s) (t : Task) (a : Nat) (p : Int) :
    Inv c { s with prioq := PQueue.push s.prioq a p t, submitted := s.submitted ++ [t] } where
  cons u := by
    have h2 := h.cons u
    show (s.submitted ++ [t]).count u = _ + s.started.count u
    simp only [inQ, held, PQueue.push, List.count_append, List.map_append, List.map_cons, List.map_nil] at *
    omega
  fin := h.fin
  out := h.out
  steal := h.steal
  pex := h.pex
  sex := h.sex
  pnp := h.pnp
  snp := h.snp
  fresh := h.fresh

theorem place_primary {c : PoolCfg} {d i : Int} (h : c.place d = .primary i) : 0 ≤ i ∧ i < c.defaultSize := by
  unfold PoolCfg.place at h
  split at h
  · simp only [Dest.primary.injEq] at h; subst h; assumption
  · split at h
    · simp at h
    · split at h <;> simp at h

theorem inv_deliver {c : PoolCfg} {s s' : PoolSt} (h : Inv c s) {t : Task} {a : Nat} {d : Int}
    (hd : s.deliver t a (c.place d) = some s') : Inv c s' := by
  cases hp : c.place d with
  | primary i =>
    rw [hp] at hd
    simp only [deliver] at hd
    split at hd
    · simp at hd
    · simp only [Option.some.injEq] at hd
      subst hd
      exact inv_pushWsq h i (place_primary hp) t s.locked
  | priority =>
    rw [hp] at hd
    simp only [deliver, Option.some.injEq] at hd
    subst hd
    exact inv_pushPrio h t a _
  | shared w =>
    rw [hp] at hd
    simp only [deliver, Option.some.injEq] at hd
    subst hd
    exact inv_pushShared h t

/-- A primary worker moves without touching tasks. -/
theorem inv_movePrim {c : PoolCfg} {s : PoolSt} (h : Inv c s) (i : Int) (hi : 0 ≤ i ∧ i < c.defaultSize) (p : WPc)
    (h1 : (s.prim i).held = []) (h1' : (s.prim i).exec = []) (h2 : p.held = []) (h2' : p.exec = [])
    (h3 : ∀ r, p = .steal r → ∀ k ∈ r, 0 ≤ k ∧ k < c.defaultSize)
    (h4 : p = .exited → s.pgo i = false) (h5 : p ≠ .prio) : Inv c (s.setPrim i p) where
  cons u := by
    have e1 := held_setPrim (c := c) s i hi p u
    have e2 := h.cons u
    rw [h1, h2] at e1
    show s.submitted.count u = inQ c s u + held c (s.setPrim i p) u + s.started.count u
    omega
  fin u := by
    have e1 := exec_setPrim (c := c) s i hi p u
    have e2 := h.fin u
    rw [h1', h2'] at e1
    show s.started.count u = exec c (s.setPrim i p) u + s.finished.count u
    omega
  out := h.out
  steal k r hk := by
    simp only [setPrim] at hk
    split at hk
    · exact h3 r hk
    · exact h.steal k r hk
  pex k hk := by
    simp only [setPrim] at hk
    split at hk
    · rename_i he; rw [he]; exact h4 hk
    · exact h.pex k hk
  sex := h.sex
  pnp k := by
    simp only [setPrim]
    split
    · exact h5
    · exact h.pnp k
  snp := h.snp
  fresh := h.fresh

/-- A primary worker takes tasks out of queue `k`. -/
theorem inv_takeWsq {c : PoolCfg} {s : PoolSt} (h : Inv c s) (i k : Int) (hi : 0 ≤ i ∧ i < c.defaultSize)
    (hk : 0 ≤ k ∧ k < c.defaultSize) (q got : List Task) (hq : ∀ t, q.count t + got.count t = (s.wsq k).count t)
    (h1 : (s.prim i).held = []) (h1' : (s.prim i).exec = []) :
    Inv c ((s.setWsq k q).setPrim i (.hand got)) where
  cons u := by
    have e1 := held_setPrim (c := c) (s.setWsq k q) i hi (.hand got) u
    have e2 := h.cons u
    have e3 := inQ_setWsq (c := c) s k hk q u
    have e4 := hq u
    have e5 : held c (s.setWsq k q) u = held c s u := held_congr rfl rfl rfl u
    have e6 : ((s.setWsq k q).prim i).held = [] := h1
    rw [e6, e5] at e1
    simp only [WPc.held, List.count_nil] at e1
    show s.submitted.count u = inQ c (s.setWsq k q) u + held c ((s.setWsq k q).setPrim i (.hand got)) u
      + s.started.count u
    omega
  fin u := by
    have e1 := exec_setPrim (c := c) (s.setWsq k q) i hi (.hand got) u
    have e2 := h.fin u
    have e5 : exec c (s.setWsq k q) u = exec c s u := exec_congr rfl rfl rfl u
    have e6 : ((s.setWsq k q).prim i).exec = [] := h1'
    rw [e6, e5] at e1
    simp only [WPc.exec, List.count_nil] at e1
    show s.started.count u = exec c ((s.setWsq k q).setPrim i (.hand got)) u + s.finished.count u
    omega
  out j hj := by
    have : j ≠ k := by rintro rfl; exact hj hk
    simp [setWsq, setPrim, this, h.out j hj]
  steal j r hj := by
    simp only [setPrim] at hj
    split at hj
    · simp at hj
    · exact h.steal j r hj
  pex j hj := by
    simp only [setPrim] at hj
    split at hj
    · simp at hj
    · exact h.pex j hj
  sex := h.sex
  pnp j := by
    simp only [setPrim]
    split
    · simp
    · exact h.pnp j
  snp := h.snp
  fresh := h.fresh

/-- An emptied queue operation that got nothing changes no counts. -/
theorem inv_sameWsq {c : PoolCfg} {s : PoolSt} (h : Inv c s) (k : Int) (hk : 0 ≤ k ∧ k < c.defaultSize)
    (q : List Task) (hq : ∀ t, q.count t = (s.wsq k).count t) : Inv c (s.setWsq k q) where
  cons u := by
    have e2 := h.cons u
    have e3 := inQ_setWsq (c := c) s k hk q u
    have e4 := hq u
    show s.submitted.count u = inQ c (s.setWsq k q) u + held c s u + s.started.count u
    omega
  fin := h.fin
  out j hj := by
    have : j ≠ k := by rintro rfl; exact hj hk
    simp [setWsq, this, h.out j hj]
  steal := h.steal
  pex := h.pex
  sex := h.sex
  pnp := h.pnp
  snp := h.snp
  fresh := h.fresh

/-- A primary worker takes tasks from the shared queue. -/
theorem inv_takeShared {c : PoolCfg} {s : PoolSt} (h : Inv c s) (i : Int) (hi : 0 ≤ i ∧ i < c.defaultSize)
    (q : AQueue Task) (got : List Task) (hq : ∀ t, q.queue.count t + got.count t = s.shared.queue.count t)
    (h1 : (s.prim i).held = []) (h1' : (s.prim i).exec = []) (p : WPc) (hp : p = .hand got ∨ (p = .wait ∧ got = [])) :
    Inv c (({ s with shared := q } : PoolSt).setPrim i p) := by
  have hph : p.held = got := by rcases hp with rfl | ⟨rfl, rfl⟩ <;> rfl
  have hpe : p.exec = [] := by rcases hp with rfl | ⟨rfl, rfl⟩ <;> rfl
  exact
  { cons := fun u => by
      have e1 := held_setPrim (c := c) ({ s with shared := q } : PoolSt) i hi p u
      have e2 := h.cons u
      have e4 := hq u
      have e5 : held c ({ s with shared := q } : PoolSt) u = held c s u := held_congr rfl rfl rfl u
      have e6 : ((({ s with shared := q } : PoolSt)).prim i).held = [] := h1
      rw [e6, e5, hph] at e1
      simp only [List.count_nil] at e1
      have e7 : inQ c ({ s with shared := q } : PoolSt) u + got.count u = inQ c s u := by
        simp only [inQ]; omega
      show s.submitted.count u = inQ c ({ s with shared := q } : PoolSt) u +
        held c (({ s with shared := q } : PoolSt).setPrim i p) u + s.started.count u
      omega
    fin := fun u => by
      have e1 := exec_setPrim (c := c) ({ s with shared := q } : PoolSt) i hi p u
      have e2 := h.fin u
      have e5 : exec c ({ s with shared := q } : PoolSt) u = exec c s u := exec_congr rfl rfl rfl u
      have e6 : ((({ s with shared := q } : PoolSt)).prim i).exec = [] := h1'
      rw [e6, e5, hpe] at e1
      simp only [List.count_nil] at e1
      show s.started.count u = exec c (({ s with shared := q } : PoolSt).setPrim i p) u + s.finished.count u
      omega
    out := h.out
    steal := fun j r hj => by
      simp only [setPrim] at hj
      split at hj
      · rcases hp with rfl | ⟨rfl, rfl⟩ <;> simp at hj
      · exact h.steal j r hj
    pex := fun j hj => by
      simp only [setPrim] at hj
      split at hj
      · rcases hp with rfl | ⟨rfl, rfl⟩ <;> simp at hj
      · exact h.pex j hj
    sex := h.sex
    pnp := fun j => by
      simp only [setPrim]
      split
      · rcases hp with rfl | ⟨rfl, rfl⟩ <;> simp
      · exact h.pnp j
    snp := h.snp
    fresh := h.fresh }

/-- A primary worker starts or finishes a task. -/
theorem inv_workPrim {c : PoolCfg} {s : PoolSt} (h : Inv c s) (i : Int) (hi : 0 ≤ i ∧ i < c.defaultSize) (p : WPc)
    (st fi : List Task) (hp : ∀ r, p ≠ .steal r) (hp1 : p ≠ .exited) (hp2 : p ≠ .prio)
    (hh : ∀ u, (s.prim i).held.count u = p.held.count u + st.count u)
    (he : ∀ u, (s.prim i).exec.count u + st.count u = p.exec.count u + fi.count u) :
    Inv c (({ s with started := s.started ++ st, finished := s.finished ++ fi } : PoolSt).setPrim i p) where
  cons u := by
    have e1 := held_setPrim (c := c) ({ s with started := s.started ++ st, finished := s.finished ++ fi } : PoolSt)
      i hi p u
    have e2 := h.cons u
    have e5 : held c ({ s with started := s.started ++ st, finished := s.finished ++ fi } : PoolSt) u = held c s u :=
      held_congr rfl rfl rfl u
    rw [e5] at e1
    have e6 := hh u
    show s.submitted.count u = inQ c s u + held c (({ s with started := s.started ++ st, finished := s.finished ++ fi } : PoolSt).setPrim i p) u
      + (s.started ++ st).count u
    rw [List.count_append]
    have e7 : (({ s with started := s.started ++ st, finished := s.finished ++ fi } : PoolSt).prim i) = s.prim i := rfl
    rw [e7] at e1
    omega
  fin u := by
    have e1 := exec_setPrim (c := c) ({ s with started := s.started ++ st, finished := s.finished ++ fi } : PoolSt)
      i hi p u
    have e2 := h.fin u
    have e5 : exec c ({ s with started := s.started ++ st, finished := s.finished ++ fi } : PoolSt) u = exec c s u :=
      exec_congr rfl rfl rfl u
    rw [e5] at e1
    have e6 := he u
    show (s.started ++ st).count u = exec c (({ s with started := s.started ++ st, finished := s.finished ++ fi } : PoolSt).setPrim i p) u
      + (s.finished ++ fi).count u
    rw [List.count_append, List.count_append]
    have e7 : (({ s with started := s.started ++ st, finished := s.finished ++ fi } : PoolSt).prim i) = s.prim i := rfl
    rw [e7] at e1
    omega
  out := h.out
  steal j r hj := by
    simp only [setPrim] at hj
    split at hj
    · exact absurd hj (hp r)
    · exact h.steal j r hj
  pex j hj := by
    simp only [setPrim] at hj
    split at hj
    · exact absurd hj hp1
    · exact h.pex j hj
  sex := h.sex
  pnp j := by
    simp only [setPrim]
    split
    · exact hp2
    · exact h.pnp j
  snp := h.snp
  fresh := h.fresh

theorem inv_primStep {c : PoolCfg} {s s' : PoolSt} (h : Inv c s) (i : Int) (hi : 0 ≤ i ∧ i < c.defaultSize)
    (pre : Bool) (hs : s.primStep c i pre = some s') : Inv c s' := by
  unfold primStep at hs
  split at hs <;> rename_i hp
  · simp only [Option.some.injEq] at hs
    subst hs
    apply inv_movePrim h i hi <;> (try simp [hp, WPc.held, WPc.exec])
    all_goals cases hg : s.pgo i <;> simp_all
  · simp only [Option.some.injEq] at hs
    subst hs
    have hc := fun t => count_popOwn c (pre && !s.locked i) (s.wsq i) t
    split
    · rename_i he
      have he' : (popOwn c (pre && !s.locked i) (s.wsq i)).2 = [] := by simpa using he
      have h1 := inv_sameWsq h i hi (popOwn c (pre && !s.locked i) (s.wsq i)).1 (fun t => by
        have := hc t; rw [he'] at this; simpa using this)
      apply inv_movePrim h1 i hi
      · show (s.prim i).held = []; rw [hp]; rfl
      · show (s.prim i).exec = []; rw [hp]; rfl
      · rfl
      · rfl
      · intro r hr
        simp only [WPc.steal.injEq] at hr
        subst hr
        intro k hk
        have := (C14_steal_targets c i hi).2.1 k hk
        exact ⟨this.1, this.2.1⟩
      · simp
      · simp
    · exact inv_takeWsq h i i hi hi _ _ hc (by rw [hp]; rfl) (by rw [hp]; rfl)
  · simp only [Option.some.injEq] at hs
    subst hs
    apply inv_movePrim h i hi <;> simp [hp, WPc.held, WPc.exec]
  · rename_i k rest
    simp only [Option.some.injEq] at hs
    subst hs
    have hk := h.steal i _ hp k (by simp)
    have hc := fun t => count_stealFrom c (pre && !s.locked k) (s.wsq k) t
    split
    · rename_i he
      have he' : (stealFrom c (pre && !s.locked k) (s.wsq k)).2 = [] := by simpa using he
      have h1 := inv_sameWsq h k hk (stealFrom c (pre && !s.locked k) (s.wsq k)).1 (fun t => by
        have := hc t; rw [he'] at this; simpa using this)
      apply inv_movePrim h1 i hi
      · show (s.prim i).held = []; rw [hp]; rfl
      · show (s.prim i).exec = []; rw [hp]; rfl
      · rfl
      · rfl
      · intro r hr
        simp only [WPc.steal.injEq] at hr
        subst hr
        intro k' hk'
        exact h.steal i _ hp k' (by simp [hk'])
      · simp
      · simp
    · exact inv_takeWsq h i k hi hk _ _ hc (by rw [hp]; rfl) (by rw [hp]; rfl)
  · simp only [Option.some.injEq] at hs
    subst hs
    have hc := fun t => count_popShared c pre s.shared t
    apply inv_takeShared h i hi _ _ hc (by rw [hp]; rfl) (by rw [hp]; rfl)
    split
    · rename_i he; right; exact ⟨rfl, by simpa using he⟩
    · left; rfl
  · simp at hs
  · simp only [Option.some.injEq] at hs
    subst hs
    apply inv_movePrim h i hi <;> simp [hp, WPc.held, WPc.exec]
  · simp only [Option.some.injEq] at hs
    subst hs
    apply inv_movePrim h i hi <;> simp [hp, WPc.held, WPc.exec]
  · rename_i t ts
    simp only [Option.some.injEq] at hs
    subst hs
    have := inv_workPrim h i hi (.busy t ts) [t] [] (by simp) (by simp) (by simp)
      (fun u => by rw [hp]; simp only [WPc.held, List.count_cons, List.count_nil]; omega)
      (fun u => by rw [hp]; simp [WPc.exec])
    simpa using this
  · rename_i t ts
    simp only [Option.some.injEq] at hs
    subst hs
    have := inv_workPrim h i hi (.hand ts) [] [t] (by simp) (by simp) (by simp)
      (fun u => by rw [hp]; simp [WPc.held])
      (fun u => by rw [hp]; simp [WPc.exec])
    simpa using this
  · simp at hs

/-- A secondary worker moves; `q`, `pq` are the queues afterwards, `got` what it took, `st`/`fi` what it started and
finished. -/
theorem inv_secMove {c : PoolCfg} {s : PoolSt} (h : Inv c s) (j : Nat) (hj : j < s.nsec) (p : WPc)
    (q : AQueue Task) (pq : PQueue Task) (st fi : List Task)
    (hq : ∀ u, q.queue.count u + (pq.map PqEntry.val).count u + p.held.count u + st.count u =
      s.shared.queue.count u + (s.prioq.map PqEntry.val).count u + (s.sec j).held.count u)
    (he : ∀ u, (s.sec j).exec.count u + st.count u = p.exec.count u + fi.count u)
    (hp1 : p = .exited → s.sgo j = false) (hp2 : p ≠ .pop ∧ ∀ r, p ≠ .steal r) :
    Inv c (({ s with shared := q, prioq := pq, started := s.started ++ st, finished := s.finished ++ fi } :
      PoolSt).setSec j p) where
  cons u := by
    have e1 := held_setSec (c := c) ({ s with shared := q, prioq := pq, started := s.started ++ st, finished := s.finished ++ fi } :
      PoolSt) j hj p u
    have e2 := h.cons u
    have e3 := hq u
    have e5 : held c ({ s with shared := q, prioq := pq, started := s.started ++ st, finished := s.finished ++ fi } :
      PoolSt) u = held c s u := held_congr rfl rfl rfl u
    rw [e5] at e1
    have e7 : (({ s with shared := q, prioq := pq, started := s.started ++ st, finished := s.finished ++ fi } :
      PoolSt).sec j) = s.sec j := rfl
    rw [e7] at e1
    show s.submitted.count u = inQ c ({ s with shared := q, prioq := pq } : PoolSt) u + held c (({ s with shared := q, prioq := pq, started := s.started ++ st, finished := s.finished ++ fi } :
      PoolSt).setSec j p) u + (s.started ++ st).count u
    rw [List.count_append]
    simp only [inQ] at e2 ⊢
    omega
  fin u := by
    have e1 := exec_setSec (c := c) ({ s with shared := q, prioq := pq, started := s.started ++ st, finished := s.finished ++ fi } :
      PoolSt) j hj p u
    have e2 := h.fin u
    have e3 := he u
    have e5 : exec c ({ s with shared := q, prioq := pq, started := s.started ++ st, finished := s.finished ++ fi } :
      PoolSt) u = exec c s u := exec_congr rfl rfl rfl u
    rw [e5] at e1
    have e7 : (({ s with shared := q, prioq := pq, started := s.started ++ st, finished := s.finished ++ fi } :
      PoolSt).sec j) = s.sec j := rfl
    rw [e7] at e1
    show (s.started ++ st).count u = exec c (({ s with shared := q, prioq := pq, started := s.started ++ st, finished := s.finished ++ fi } :
      PoolSt).setSec j p) u + (s.finished ++ fi).count u
    rw [List.count_append, List.count_append]
    omega
  out := h.out
  steal := h.steal
  pex := h.pex
  sex k hk := by
    simp only [setSec] at hk
    split at hk
    · rename_i he'; rw [he']; exact hp1 hk
    · exact h.sex k hk
  pnp := h.pnp
  snp k := by
    simp only [setSec]
    split
    · exact hp2
    · exact h.snp k
  fresh k hk := by
    have : k ≠ j := by
      have : s.nsec ≤ k := hk
      omega
    simp only [setSec, this, if_false]
    exact h.fresh k hk

theorem inv_secStep {c : PoolCfg} {s s' : PoolSt} (h : Inv c s) (j : Nat) (hj : j < s.nsec)
    (pre : Bool) (hs : s.secStep c j pre = some s') : Inv c s' := by
  unfold secStep at hs
  split at hs <;> rename_i hp
  · simp only [Option.some.injEq] at hs
    subst hs
    have := inv_secMove h j hj (if s.sgo j = true then WPc.pool else .exited) s.shared s.prioq [] []
      (fun u => by rw [hp]; split <;> simp [WPc.held]) (fun u => by rw [hp]; split <;> simp [WPc.exec])
      (by split <;> simp_all) (by split <;> simp)
    simpa using this
  · simp at hs
  · simp at hs
  · simp only [Option.some.injEq] at hs
    subst hs
    have hc := fun t => count_popShared c pre s.shared t
    have := inv_secMove h j hj (if (popShared c pre s.shared).2.isEmpty = true then WPc.prio else
      .hand (popShared c pre s.shared).2) (popShared c pre s.shared).1 s.prioq [] []
      (fun u => by
        have := hc u
        rw [hp]
        split
        · rename_i he
          have he' : (popShared c pre s.shared).2 = [] := by simpa using he
          rw [he'] at this
          simp [WPc.held] at *; omega
        · simp [WPc.held] at *; omega)
      (fun u => by rw [hp]; split <;> simp [WPc.exec])
      (by split <;> simp) (by split <;> simp)
    simpa using this
  · simp only [Option.some.injEq] at hs
    subst hs
    have hc := fun t => count_pq pre s.prioq t
    have := inv_secMove h j hj (match (PQueue.tryPop pre s.prioq).2 with | none => WPc.wait | some e => .hand [e.val])
      s.shared (PQueue.tryPop pre s.prioq).1 [] []
      (fun u => by
        have := hc u
        rw [hp]
        cases he : (PQueue.tryPop pre s.prioq).2 <;> rw [he] at this <;> simp [WPc.held] at * <;> omega)
      (fun u => by rw [hp]; split <;> simp [WPc.exec])
      (by split <;> simp) (by split <;> simp)
    cases he : (PQueue.tryPop pre s.prioq).2 <;> simpa [he] using this
  · simp only [Option.some.injEq] at hs
    subst hs
    have hc := fun t => count_popTimeout (!pre) s.shared t
    have := inv_secMove h j hj (match (s.shared.popWithTimeout (!pre)).2 with | none => WPc.loop | some t => .hand [t])
      (s.shared.popWithTimeout (!pre)).1 s.prioq [] []
      (fun u => by
        have := hc u
        rw [hp]
        cases he : (s.shared.popWithTimeout (!pre)).2 <;> rw [he] at this <;> simp [WPc.held] at * <;> omega)
      (fun u => by rw [hp]; split <;> simp [WPc.exec])
      (by split <;> simp) (by split <;> simp)
    cases he : (s.shared.popWithTimeout (!pre)).2 <;> simpa [he] using this
  · simp only [Option.some.injEq] at hs
    subst hs
    have := inv_secMove h j hj .loop s.shared s.prioq [] []
      (fun u => by rw [hp]; simp [WPc.held]) (fun u => by rw [hp]; simp [WPc.exec]) (by simp) (by simp)
    simpa using this
  · rename_i t ts
    simp only [Option.some.injEq] at hs
    subst hs
    have := inv_secMove h j hj (.busy t ts) s.shared s.prioq [t] []
      (fun u => by rw [hp]; simp only [WPc.held, List.count_cons, List.count_nil]; omega)
      (fun u => by rw [hp]; simp [WPc.exec]) (by simp) (by simp)
    simpa using this
  · rename_i t ts
    simp only [Option.some.injEq] at hs
    subst hs
    have := inv_secMove h j hj (.hand ts) s.shared s.prioq [] [t]
      (fun u => by rw [hp]; simp [WPc.held])
      (fun u => by rw [hp]; simp [WPc.exec]) (by simp) (by simp)
    simpa using this
  · simp at hs

theorem inv_step {c : PoolCfg} {s s' : PoolSt} (h : Inv c s) (a : PAct) (hs : s.step c a = some s') : Inv c s' := by
  cases a with
  | submit t index running addr =>
    simp only [step, PoolCfg.execute] at hs
    cases hd : c.dispatch (fun _ => running) s.cur index with
    | none => simp [hd] at hs
    | some r =>
      simp only [hd, Option.map_some] at hs
      have h1 : Inv c ({ s with cur := r.2 } : PoolSt) :=
        ⟨h.cons, h.fin, h.out, h.steal, h.pex, h.sex, h.pnp, h.snp, h.fresh⟩
      exact inv_deliver h1 hs
  | submitPrio t p addr =>
    simp only [step, Option.some.injEq] at hs
    subst hs
    exact inv_pushPrio h t addr p
  | pushTid t tid enable lockable =>
    simp only [step, PoolCfg.placeTid] at hs
    split at hs
    · rename_i i hpl
      split at hpl
      · rename_i hi
        simp only [Dest.primary.injEq] at hpl
        subst hpl
        split at hs
        · split at hs
          · simp at hs
          · simp only [Option.some.injEq] at hs
            subst hs
            exact inv_pushWsq h tid hi t _
        · split at hs
          · simp at hs
          · simp only [Option.some.injEq] at hs
            subst hs
            exact inv_pushWsq h tid hi t _
      · simp at hpl
    · simp only [Option.some.injEq] at hs
      subst hs
      exact inv_pushShared h t
  | addSec =>
    simp only [step, Option.some.injEq] at hs
    subst hs
    have hf := h.fresh s.nsec (Nat.le_refl _)
    refine ⟨?_, ?_, h.out, h.steal, h.pex, h.sex, h.pnp, h.snp, fun j hj => h.fresh j (by simp at hj; omega)⟩
    · intro u
      have := h.cons u
      simp only [inQ, held] at this ⊢
      rw [sumN_succ, hf]
      simp [WPc.held] at *; omega
    · intro u
      have := h.fin u
      simp only [exec] at this ⊢
      rw [sumN_succ, hf]
      simp [WPc.exec] at *; omega
  | stop i =>
    simp only [step, Option.some.injEq] at hs
    subst hs
    refine ⟨h.cons, h.fin, h.out, h.steal, ?_, h.sex, h.pnp, h.snp, h.fresh⟩
    intro k hk
    have := h.pex k hk
    simp [this]
  | stopSec j =>
    simp only [step, Option.some.injEq] at hs
    subst hs
    refine ⟨h.cons, h.fin, h.out, h.steal, h.pex, ?_, h.pnp, h.snp, h.fresh⟩
    intro k hk
    have := h.sex k hk
    simp [this]
  | resetShared =>
    simp only [step, Option.some.injEq] at hs
    subst hs
    exact ⟨h.cons, h.fin, h.out, h.steal, h.pex, h.sex, h.pnp, h.snp, h.fresh⟩
  | prim i pre =>
    simp only [step] at hs
    split at hs
    · exact inv_primStep h i (by assumption) pre hs
    · simp at hs
  | sec j pre =>
    simp only [step] at hs
    split at hs
    · exact inv_secStep h j (by assumption) pre hs
    · simp at hs

theorem inv_run {c : PoolCfg} (k : Nat) (l : List PAct) : Inv c (run c (init k) l) := by
  have h0 := inv_init c k
  unfold run
  generalize init k = s at h0
  induction l generalizing s with
  | nil => exact h0
  | cons a l ih =>
    simp only [List.foldl_cons]
    apply ih
    cases ha : s.step c a with
    | none => simpa [ha] using h0
    | some s' => simpa [ha] using inv_step h0 a ha

end PoolSt
end CGraph
