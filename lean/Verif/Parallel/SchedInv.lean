import Verif.Parallel.Scheduler

/-! # Invariants of all executions of the schedulers -/

namespace Mdp.Sched

variable {D R C : Type}

/-- The task a thread is responsible for. -/
def Pc.task : Pc D R C → List Nat
  | .proc _ _ k | .procWait _ _ k | .start _ _ k | .startP _ _ _ k | .rel _ k | .stAcq _ k _ | .stBody _ k _
  | .work _ _ k | .cmp _ _ _ k | .retag _ _ _ k | .send _ _ _ k => [k]
  | _ => []

/-- The thread is between acquiring and releasing the lock. -/
def Pc.crit : Pc D R C → Bool
  | .addBody .. | .setBody .. | .getBody | .shutBody | .proc .. | .rel .. | .stBody .. => true
  | _ => false

section
variable (d : D) (c : C) (co : Option C) (k p : Nat) (r : R) (n : Next)

@[simp] theorem crit_idle : (Pc.idle : Pc D R C).crit = false := rfl
@[simp] theorem task_idle : (Pc.idle : Pc D R C).task = [] := rfl
@[simp] theorem crit_addAcq : (Pc.addAcq d co : Pc D R C).crit = false := rfl
@[simp] theorem task_addAcq : (Pc.addAcq d co : Pc D R C).task = [] := rfl
@[simp] theorem crit_addBody : (Pc.addBody d co : Pc D R C).crit = true := rfl
@[simp] theorem task_addBody : (Pc.addBody d co : Pc D R C).task = [] := rfl
@[simp] theorem crit_setAcq : (Pc.setAcq c : Pc D R C).crit = false := rfl
@[simp] theorem task_setAcq : (Pc.setAcq c : Pc D R C).task = [] := rfl
@[simp] theorem crit_setBody : (Pc.setBody c : Pc D R C).crit = true := rfl
@[simp] theorem task_setBody : (Pc.setBody c : Pc D R C).task = [] := rfl
@[simp] theorem crit_getAcq : (Pc.getAcq : Pc D R C).crit = false := rfl
@[simp] theorem task_getAcq : (Pc.getAcq : Pc D R C).task = [] := rfl
@[simp] theorem crit_getBody : (Pc.getBody : Pc D R C).crit = true := rfl
@[simp] theorem task_getBody : (Pc.getBody : Pc D R C).task = [] := rfl
@[simp] theorem crit_shutAcq : (Pc.shutAcq : Pc D R C).crit = false := rfl
@[simp] theorem task_shutAcq : (Pc.shutAcq : Pc D R C).task = [] := rfl
@[simp] theorem crit_shutBody : (Pc.shutBody : Pc D R C).crit = true := rfl
@[simp] theorem task_shutBody : (Pc.shutBody : Pc D R C).task = [] := rfl
@[simp] theorem crit_proc : (Pc.proc d c k : Pc D R C).crit = true := rfl
@[simp] theorem task_proc : (Pc.proc d c k : Pc D R C).task = [k] := rfl
@[simp] theorem crit_procWait : (Pc.procWait d c k : Pc D R C).crit = false := rfl
@[simp] theorem task_procWait : (Pc.procWait d c k : Pc D R C).task = [k] := rfl
@[simp] theorem crit_start : (Pc.start d c k : Pc D R C).crit = false := rfl
@[simp] theorem task_start : (Pc.start d c k : Pc D R C).task = [k] := rfl
@[simp] theorem crit_startP : (Pc.startP p d c k : Pc D R C).crit = false := rfl
@[simp] theorem task_startP : (Pc.startP p d c k : Pc D R C).task = [k] := rfl
@[simp] theorem crit_rel : (Pc.rel r k : Pc D R C).crit = true := rfl
@[simp] theorem task_rel : (Pc.rel r k : Pc D R C).task = [k] := rfl
@[simp] theorem crit_stAcq : (Pc.stAcq r k n : Pc D R C).crit = false := rfl
@[simp] theorem task_stAcq : (Pc.stAcq r k n : Pc D R C).task = [k] := rfl
@[simp] theorem crit_stBody : (Pc.stBody r k n : Pc D R C).crit = true := rfl
@[simp] theorem task_stBody : (Pc.stBody r k n : Pc D R C).task = [k] := rfl
@[simp] theorem crit_work : (Pc.work d c k : Pc D R C).crit = false := rfl
@[simp] theorem task_work : (Pc.work d c k : Pc D R C).task = [k] := rfl
@[simp] theorem crit_dec : (Pc.dec : Pc D R C).crit = false := rfl
@[simp] theorem task_dec : (Pc.dec : Pc D R C).task = [] := rfl
@[simp] theorem crit_cmp : (Pc.cmp p d c k : Pc D R C).crit = false := rfl
@[simp] theorem task_cmp : (Pc.cmp p d c k : Pc D R C).task = [k] := rfl
@[simp] theorem crit_retag : (Pc.retag p d c k : Pc D R C).crit = false := rfl
@[simp] theorem task_retag : (Pc.retag p d c k : Pc D R C).task = [k] := rfl
@[simp] theorem crit_send : (Pc.send p d co k : Pc D R C).crit = false := rfl
@[simp] theorem task_send : (Pc.send p d co k : Pc D R C).task = [k] := rfl
@[simp] theorem crit_freeP : (Pc.freeP p : Pc D R C).crit = false := rfl
@[simp] theorem task_freeP : (Pc.freeP p : Pc D R C).task = [] := rfl
@[simp] theorem crit_dead : (Pc.dead : Pc D R C).crit = false := rfl
@[simp] theorem task_dead : (Pc.dead : Pc D R C).task = [] := rfl
@[simp] theorem task_next : (n.pc : Pc D R C).task = [] := by cases n <;> rfl
@[simp] theorem crit_next : (n.pc : Pc D R C).crit = false := by cases n <;> rfl
@[simp] theorem crit_ite (b : Bool) (x y : Pc D R C) : (if b = true then x else y).crit = if b then x.crit else y.crit := by
  cases b <;> rfl
@[simp] theorem task_ite (b : Bool) (x y : Pc D R C) : (if b = true then x else y).task = if b then x.task else y.task := by
  cases b <;> rfl

end

/-- The lock is held exactly by the one thread that is in the critical section, or by nobody any more after
a call that raised. -/
def Mutex (s : St D R C) : Prop := s.ts.countP Pc.crit + s.sh.raised.toNat = s.sh.lock.toNat

theorem tstep_crit {cfg : Cfg D R C} {s s' : Sh D R C} {pc pc' : Pc D R C} {sp : List (Pc D R C)}
    (h : TStep cfg s pc s' pc' sp) (h1 : pc.crit = true → s.raised = false ∧ s.lock = true) :
    pc'.crit.toNat + sp.countP Pc.crit + s'.raised.toNat + s.lock.toNat =
      pc.crit.toNat + s.raised.toNat + s'.lock.toNat := by
  cases h <;> simp_all <;> omega

theorem countP_mid (p : Pc D R C → Bool) (a b : List (Pc D R C)) (x : Pc D R C) :
    (a ++ x :: b).countP p = a.countP p + (p x).toNat + b.countP p := by
  cases h : p x <;> simp [List.countP_append, List.countP_cons, h] ; omega

theorem mutex_step {cfg : Cfg D R C} {s s' : St D R C} (h : Step cfg s s') (hm : Mutex s) : Mutex s' := by
  cases h with
  | @mk s s' pc pc' sp a b h =>
    unfold Mutex at *
    rw [countP_mid] at *
    rw [List.countP_append]
    dsimp only at hm ⊢
    have := tstep_crit h (by
      intro hc
      rw [hc] at hm
      cases h1 : s.raised <;> cases h2 : s.lock <;> simp [h1, h2] at hm ⊢ <;> omega)
    omega

theorem reach_mutex {cfg : Cfg D R C} {m : Nat} {s : St D R C} (h : Reach cfg m s) : Mutex s := by
  induction h with
  | init => simp [Mutex, initSt]
  | step _ hs ih => exact mutex_step hs ih

/-- In a step of a thread in the critical section nothing has raised and the lock is held. -/
theorem crit_lock {s : Sh D R C} {a b : List (Pc D R C)} {pc : Pc D R C} (hm : Mutex ⟨s, a ++ pc :: b⟩)
    (hc : pc.crit = true) : s.raised = false ∧ s.lock = true := by
  unfold Mutex at hm
  simp only [countP_mid] at hm
  rw [hc] at hm
  cases h1 : s.raised <;> cases h2 : s.lock <;> simp [h1, h2] at hm ⊢ <;> omega

/-- The tasks threads are responsible for. -/
def St.carried (s : St D R C) : List Nat := s.ts.flatMap Pc.task

/-- Accounting. -/
structure Acc (lo : Nat) (s : St D R C) : Prop where
  count : ∀ k, (s.sh.stored.map (·.2)).count k + s.sh.failed.count k + s.carried.count k =
    if 1 ≤ k ∧ k ≤ s.sh.counter then 1 else 0
  nOpen : s.sh.nOpen = s.sh.failed.length + s.carried.length
  counter : s.sh.counter = s.sh.submitted.length
  le : lo ≤ s.sh.counter
  taken : ∃ t, s.sh.stored = t ++ s.sh.results ∧ ∀ k, (t.map (·.2)).count k = if 1 ≤ k ∧ k ≤ lo then 1 else 0

/-- The number of tasks covered by the last return of `get_results`. -/
def Sh.lo (s : Sh D R C) : Nat := (s.log.getLast?.map (·.upto)).getD 0

theorem carried_mid (a b : List (Pc D R C)) (x : Pc D R C) (s : Sh D R C) (k : Nat) :
    (St.carried ⟨s, a ++ x :: b⟩).count k = (a.flatMap Pc.task).count k + x.task.count k + (b.flatMap Pc.task).count k ∧
    (St.carried ⟨s, a ++ x :: b⟩).length = (a.flatMap Pc.task).length + x.task.length + (b.flatMap Pc.task).length := by
  simp [St.carried, List.count_append]; omega

/-- When no task is open every task has been stored and the container holds those since `lo`. -/
theorem Acc.all_stored {lo : Nat} {s : St D R C} (h : Acc lo s) (h0 : s.sh.nOpen = 0) (k : Nat) :
    (s.sh.results.map (·.2)).count k = if lo + 1 ≤ k ∧ k ≤ s.sh.counter then 1 else 0 := by
  have h1 := h.count k
  have h2 := h.nOpen
  have h3 : s.sh.failed = [] := List.length_eq_zero_iff.1 (by omega)
  have h4 : s.carried = [] := List.length_eq_zero_iff.1 (by omega)
  obtain ⟨t, e1, e2⟩ := h.taken
  rw [h3, h4, e1] at h1
  simp only [List.map_append, List.count_append, e2, List.count_nil] at h1
  have := h.le
  split at h1 <;> split at h1 <;> split <;> omega

/-- What a step does to the accounts. -/
theorem tstep_acc {cfg : Cfg D R C} {s s' : Sh D R C} {pc pc' : Pc D R C} {sp : List (Pc D R C)}
    (h : TStep cfg s pc s' pc' sp) (hc : s.counter = s.submitted.length) :
    (∀ j, (s'.stored.map (·.2)).count j + s'.failed.count j + pc'.task.count j + (sp.flatMap Pc.task).count j +
        (if 1 ≤ j ∧ j ≤ s.counter then 1 else 0) =
      (s.stored.map (·.2)).count j + s.failed.count j + pc.task.count j +
        (if 1 ≤ j ∧ j ≤ s'.counter then 1 else 0)) ∧
    s'.nOpen - s'.failed.length - pc'.task.length - (sp.flatMap Pc.task).length =
      s.nOpen - s.failed.length - pc.task.length ∧
    s'.counter = s'.submitted.length ∧ s.counter ≤ s'.counter ∧
    ((s'.log = s.log ∧ ∃ x, s'.stored = s.stored ++ x ∧ s'.results = s.results ++ x) ∨
     (s.nOpen = 0 ∧ s'.stored = s.stored ∧ s'.counter = s.counter ∧ s'.results = [] ∧
      ∃ vs, takeResults cfg.ordered s.results = some vs ∧ s'.log = s.log ++ [⟨s.counter, vs⟩])) := by
  have hadd : ∀ j, (if 1 ≤ j ∧ j ≤ s.counter then 1 else 0) + (if s.counter + 1 = j then 1 else 0) =
      (if 1 ≤ j ∧ j ≤ s.counter + 1 then 1 else 0 : Nat) := by
    intro j; split <;> split <;> split <;> omega
  cases h
  case addOld => exact ⟨fun j => by have := hadd j; simp [List.count_cons]; omega, by simp; omega, by simp [hc],
    by simp, .inl ⟨rfl, [], by simp⟩⟩
  case addNew => exact ⟨fun j => by have := hadd j; simp [List.count_cons]; omega, by simp; omega, by simp [hc],
    by simp, .inl ⟨rfl, [], by simp⟩⟩
  case getOk vs h0 hv => exact ⟨fun j => by simp, by simp, hc, Nat.le_refl _, .inr ⟨h0, rfl, rfl, rfl, vs, hv, rfl⟩⟩
  case getRaise h0 hv =>
    have h10 : s.results = [] := by
      unfold takeResults at hv
      split at hv
      · split at hv
        · next h => simpa using h
        · cases hv
      · cases hv
    exact ⟨fun j => by simp, by simp, hc, Nat.le_refl _, .inl ⟨rfl, [], by simp [h10]⟩⟩
  case stBody r k n => exact ⟨fun j => by simp [List.count_cons]; omega, by simp; omega, hc, Nat.le_refl _,
    .inl ⟨rfl, [(r, k)], by simp⟩⟩
  all_goals exact ⟨fun j => by simp [List.count_cons] <;> omega, by simp <;> omega, hc, Nat.le_refl _,
    .inl ⟨rfl, [], by simp⟩⟩

theorem acc_step {cfg : Cfg D R C} {s s' : St D R C} (h : Step cfg s s') (ha : Acc s.sh.lo s) :
    Acc s'.sh.lo s' := by
  cases h with
  | @mk s s' pc pc' sp a b h =>
    obtain ⟨h1, h2, h3, h4, t, h5, h6⟩ := id ha
    obtain ⟨g1, g2, g3, g4, g5⟩ := tstep_acc h h3
    have e1 := fun k => (carried_mid a b pc s k).1
    have e2 := (carried_mid a b pc s 0).2
    have e3 := fun k => (carried_mid a (b ++ sp) pc' s' k).1
    have e4 := (carried_mid a (b ++ sp) pc' s' 0).2
    simp only [List.flatMap_append, List.count_append, List.length_append] at e3 e4
    have h7 : ∀ k, (s'.stored.map (·.2)).count k + s'.failed.count k +
        (St.carried ⟨s', a ++ pc' :: (b ++ sp)⟩).count k = if 1 ≤ k ∧ k ≤ s'.counter then 1 else 0 := by
      intro k
      have := h1 k
      have := g1 k
      have := e1 k
      have := e3 k
      simp only at *
      omega
    have h8 : s'.nOpen = s'.failed.length + (St.carried ⟨s', a ++ pc' :: (b ++ sp)⟩).length := by
      simp only at *
      omega
    obtain ⟨g6, x, g7, g8⟩ | ⟨g6, g7, g8, g9, vs, g10, g11⟩ := g5
    · have hlo : s'.lo = s.lo := by simp only [Sh.lo, g6]
      refine ⟨h7, h8, g3, ?_, t, ?_, ?_⟩
      · simp only [hlo] at *; omega
      · simp only at *; rw [g7, g8, h5, List.append_assoc]
      · simp only [hlo] at *; exact h6
    · have hlo : s'.lo = s'.counter := by simp [Sh.lo, g11, g8]
      refine ⟨h7, h8, g3, ?_, s'.stored, by simp [g9], ?_⟩
      · simp only [hlo]; exact Nat.le_refl _
      · intro k
        have := h1 k
        have i1 : s.failed = [] := List.length_eq_zero_iff.1 (by simp only at h2; omega)
        have i2 : St.carried ⟨s, a ++ pc :: b⟩ = [] := List.length_eq_zero_iff.1 (by simp only at h2; omega)
        simp only [i1, i2, List.count_nil, Nat.add_zero, hlo, g7, g8] at this ⊢
        exact this

theorem reach_acc {cfg : Cfg D R C} {m : Nat} {s : St D R C} (h : Reach cfg m s) : Acc s.sh.lo s := by
  induction h with
  | init =>
    have : (initSt cfg m).carried = [] := by simp [St.carried, initSt]
    refine ⟨fun k => ?_, by rw [this]; rfl, rfl, Nat.le_refl _, [], rfl, fun k => ?_⟩
    · rw [this]; simp [initSt]; omega
    · simp [Sh.lo, initSt]; omega
  | step _ hs ih => exact acc_step hs ih

end Mdp.Sched
