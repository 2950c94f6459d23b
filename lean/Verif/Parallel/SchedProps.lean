import Verif.Parallel.SchedInv
import Mathlib.Data.List.Sort
import Mathlib.Data.List.Count
import Mathlib.Data.List.Forall2

/-! # What all executions of the schedulers have in common (C39, C40, C43) -/

namespace Mdp.Sched

variable {D R C : Type}

/-! ## Accounting -/

theorem perm_of_count {l : List Nat} {a n : Nat} (h : ∀ k, l.count k = if a ≤ k ∧ k < a + n then 1 else 0) :
    l.Perm (List.range' a n) := by
  rw [List.perm_iff_count]
  intro k
  rw [h k, (List.nodup_range' (s := a) (n := n) (step := 1)).count]
  simp only [List.mem_range'_1]

/-- C40: at every moment of every execution `n_open_tasks` is the number of submitted tasks whose result has
not been handed to the result container, `task_counter` is the number of submitted tasks, every stored result
belongs to a submitted task, and no task is stored twice. -/
theorem open_tasks_exact {cfg : Cfg D R C} {m : Nat} {s : St D R C} (h : Reach cfg m s) :
    s.sh.nOpen = s.sh.submitted.length - s.sh.stored.length ∧ s.sh.counter = s.sh.submitted.length ∧
      (∀ e ∈ s.sh.stored, 1 ≤ e.2 ∧ e.2 ≤ s.sh.submitted.length) ∧ (s.sh.stored.map (·.2)).Nodup := by
  have ha := reach_acc h
  have hp : (s.sh.stored.map (·.2) ++ s.sh.failed ++ s.carried).Perm (List.range' 1 s.sh.counter) := by
    refine perm_of_count fun k => ?_
    have := ha.count k
    simp only [List.count_append, this]
    split <;> split <;> omega
  have hl := hp.length_eq
  simp only [List.length_append, List.length_map, List.length_range'] at hl
  have h1 := ha.nOpen
  have h2 := ha.counter
  refine ⟨by omega, h2, fun e he => ?_, ?_⟩
  · have : e.2 ∈ List.range' 1 s.sh.counter := hp.subset (by
      simp only [List.mem_append, List.mem_map]
      exact .inl (.inl ⟨e, he, rfl⟩))
    simp only [List.mem_range'_1] at this
    omega
  · have := hp.nodup_iff.2 List.nodup_range'
    exact (List.nodup_append.1 (List.nodup_append.1 this).1).1

/-- C40: `get_results` returns only when no task is open: the step in which it returns finds `n_open_tasks` at
zero, and then the result of every submitted task has been stored. -/
theorem get_results_waits {cfg : Cfg D R C} {m : Nat} {s s' : St D R C} (h : Reach cfg m s) (hs : Step cfg s s')
    (hl : s'.sh.log ≠ s.sh.log) :
    s.sh.nOpen = 0 ∧ ∀ k, 1 ≤ k → k ≤ s.sh.submitted.length → k ∈ s.sh.stored.map (·.2) := by
  have ha := reach_acc h
  have h0 : s.sh.nOpen = 0 := by
    cases hs with
    | mk a b ht =>
      obtain ⟨-, -, -, -, ⟨g, -⟩ | ⟨g, -⟩⟩ := tstep_acc ht ha.counter
      · exact absurd g hl
      · exact g
  refine ⟨h0, fun k h1 h2 => ?_⟩
  have h3 := ha.count k
  have h4 := ha.nOpen
  have h5 : s.sh.failed = [] := List.length_eq_zero_iff.1 (by omega)
  have h6 : s.carried = [] := List.length_eq_zero_iff.1 (by omega)
  rw [if_pos ⟨h1, by rw [ha.counter]; exact h2⟩, h5, h6] at h3
  exact List.count_pos_iff.1 (by simp only [List.count_nil] at h3; omega)

/-! ## Results -/

/-- Number of tasks that had been submitted when the last of these calls of `get_results` returned. -/
def lastUpto (l : List (Ret R)) : Nat := (l.getLast?.map (·.upto)).getD 0

theorem takeResults_perm {l : List (R × Nat)} {vs : List R} {b : Bool} (h : takeResults b l = some vs) :
    ∃ l' : List (R × Nat), l'.Perm l ∧ vs = l'.map (·.1) ∧ (b = true → (l'.map (·.2)).Pairwise (· ≤ ·)) := by
  unfold takeResults at h
  split at h
  · split at h
    · cases h
    · cases h
      refine ⟨_, List.mergeSort_perm _ _, rfl, fun _ => ?_⟩
      have := List.pairwise_mergeSort (le := fun (a b : R × Nat) => decide (a.2 ≤ b.2))
        (by intro a b c h1 h2; simp at *; omega) (by intro a b; simp; omega) l
      rw [List.pairwise_map]
      exact this.imp (by intro a b h; simpa using h)
  · next hb =>
    cases h
    exact ⟨l, .refl _, rfl, fun h => absurd h hb⟩

theorem log_step {cfg : Cfg D R C} {m : Nat} {s s' : St D R C} (h : Reach cfg m s) (hs : Step cfg s s') :
    (∃ x, s'.sh.stored = s.sh.stored ++ x) ∧
    (s'.sh.log = s.sh.log ∨ ∃ e, s'.sh.log = s.sh.log ++ [e] ∧ lastUpto s.sh.log ≤ e.upto ∧
      e.upto = s.sh.counter ∧
      ∃ σ : List Nat, σ.Perm (List.range' (lastUpto s.sh.log + 1) (e.upto - lastUpto s.sh.log)) ∧
        (cfg.ordered = true → σ = List.range' (lastUpto s.sh.log + 1) (e.upto - lastUpto s.sh.log)) ∧
        List.Forall₂ (fun r k => (r, k) ∈ s.sh.stored) e.vals σ) := by
  have ha := reach_acc h
  cases hs with
  | @mk s s' pc pc' sp a b ht =>
    obtain ⟨-, -, -, -, ⟨g, x, g1, -⟩ | ⟨g, g1, -, -, vs, g2, g3⟩⟩ := tstep_acc ht ha.counter
    · exact ⟨⟨x, g1⟩, .inl g⟩
    · refine ⟨⟨[], by simp [g1]⟩, .inr ⟨_, g3, ha.le, rfl, ?_⟩⟩
      obtain ⟨l', p1, rfl, p2⟩ := takeResults_perm g2
      have hp : (l'.map (·.2)).Perm (List.range' (lastUpto s.log + 1) (s.counter - lastUpto s.log)) := by
        refine (p1.map _).trans (perm_of_count fun k => ?_)
        rw [ha.all_stored g k]
        have := ha.le
        change lastUpto s.log ≤ s.counter at this
        change (if lastUpto s.log + 1 ≤ k ∧ k ≤ s.counter then 1 else 0) = _
        split <;> split <;> omega
      refine ⟨l'.map (·.2), hp, fun hb => ?_, ?_⟩
      · refine List.Perm.eq_of_pairwise (le := (· ≤ ·)) ?_ (p2 hb) ?_ hp
        · intro a b _ _ h1 h2; omega
        · exact (List.pairwise_lt_range' (s := lastUpto s.log + 1)).imp (fun h => Nat.le_of_lt h)
      · obtain ⟨t, e1, -⟩ := ha.taken
        rw [List.forall₂_map_left_iff, List.forall₂_map_right_iff, List.forall₂_same]
        intro e he
        have : e ∈ s.results := p1.subset he
        simp only at e1
        rw [e1]
        exact List.mem_append_right _ this

/-- C39: in every execution, each value `get_results` returned has one entry for each task submitted since the
previous return, in the order of submission, and the entry is the result that was stored for that task; no
other result is in it. With `open_tasks_exact` (no task is stored twice) this determines it. -/
theorem results_in_order {cfg : Cfg D R C} {m : Nat} {s : St D R C} (h : Reach cfg m s) (ho : cfg.ordered = true)
    (l1 l2 : List (Ret R)) (e : Ret R) (hl : s.sh.log = l1 ++ e :: l2) :
    lastUpto l1 ≤ e.upto ∧ e.upto ≤ s.sh.submitted.length ∧
      List.Forall₂ (fun r k => (r, k) ∈ s.sh.stored) e.vals
        (List.range' (lastUpto l1 + 1) (e.upto - lastUpto l1)) := by
  induction h generalizing l1 l2 e with
  | init => simp [initSt] at hl
  | @step s s' h hs ih =>
    have hc : s'.sh.counter = s'.sh.submitted.length := (reach_acc (h.step hs)).counter
    have hc' : s.sh.counter = s.sh.submitted.length := (reach_acc h).counter
    have hcc : s.sh.counter ≤ s'.sh.counter := by
      cases hs with | mk a b h1 => exact (tstep_acc h1 hc').2.2.2.1
    have old : ∀ l1 l2 (e : Ret R), s.sh.log = l1 ++ e :: l2 → lastUpto l1 ≤ e.upto ∧
        e.upto ≤ s'.sh.submitted.length ∧ List.Forall₂ (fun r k => (r, k) ∈ s'.sh.stored) e.vals
        (List.range' (lastUpto l1 + 1) (e.upto - lastUpto l1)) := by
      intro l1 l2 e hl
      obtain ⟨i1, i2, i3⟩ := ih l1 l2 e hl
      refine ⟨i1, by omega, i3.imp fun r k hk => ?_⟩
      obtain ⟨⟨x, hx⟩, -⟩ := log_step h hs
      rw [hx]
      exact List.mem_append_left _ hk
    obtain ⟨⟨x, hx⟩, g | ⟨e', g1, g2, g3, σ, -, g4, g5⟩⟩ := log_step h hs
    · exact old l1 l2 e (g ▸ hl)
    · rw [hl] at g1
      rcases List.eq_nil_or_concat l2 with rfl | ⟨l3, e3, rfl⟩
      · have := List.append_inj' g1 rfl
        obtain ⟨rfl, h2⟩ := this
        cases h2
        refine ⟨g2, by omega, ?_⟩
        rw [g4 ho] at g5
        refine g5.imp fun r k hk => ?_
        rw [hx]
        exact List.mem_append_left _ hk
      · rw [List.concat_eq_append, ← List.cons_append, ← List.append_assoc] at g1
        exact old l1 l3 e (List.append_inj_left' g1 rfl).symm

/-- C74: with the list container the value returned by `get_results` has exactly one entry for each task
submitted since the previous return, in some order. -/
theorem results_complete {cfg : Cfg D R C} {m : Nat} {s : St D R C} (h : Reach cfg m s)
    (l1 l2 : List (Ret R)) (e : Ret R) (hl : s.sh.log = l1 ++ e :: l2) :
    ∃ σ : List Nat, σ.Perm (List.range' (lastUpto l1 + 1) (e.upto - lastUpto l1)) ∧
      List.Forall₂ (fun r k => (r, k) ∈ s.sh.stored) e.vals σ := by
  induction h generalizing l1 l2 e with
  | init => simp [initSt] at hl
  | @step s s' h hs ih =>
    have old : ∀ l1 l2 (e : Ret R), s.sh.log = l1 ++ e :: l2 →
        ∃ σ : List Nat, σ.Perm (List.range' (lastUpto l1 + 1) (e.upto - lastUpto l1)) ∧
          List.Forall₂ (fun r k => (r, k) ∈ s'.sh.stored) e.vals σ := by
      intro l1 l2 e hl
      obtain ⟨σ, i1, i3⟩ := ih l1 l2 e hl
      refine ⟨σ, i1, i3.imp fun r k hk => ?_⟩
      obtain ⟨⟨x, hx⟩, -⟩ := log_step h hs
      rw [hx]
      exact List.mem_append_left _ hk
    obtain ⟨⟨x, hx⟩, g | ⟨e', g1, g2, g3, σ, g6, g4, g5⟩⟩ := log_step h hs
    · exact old l1 l2 e (g ▸ hl)
    · rw [hl] at g1
      rcases List.eq_nil_or_concat l2 with rfl | ⟨l3, e3, rfl⟩
      · have := List.append_inj' g1 rfl
        obtain ⟨rfl, h2⟩ := this
        cases h2
        refine ⟨σ, g6, g5.imp fun r k hk => ?_⟩
        rw [hx]
        exact List.mem_append_left _ hk
      · rw [List.concat_eq_append, ← List.cons_append, ← List.append_assoc] at g1
        exact old l1 l3 e (List.append_inj_left' g1 rfl).symm

/-! ## Calls that raise -/

/-- Later states of an execution. -/
inductive Steps (cfg : Cfg D R C) : St D R C → St D R C → Prop
  | refl (s) : Steps cfg s s
  | step {s s' s''} (h : Steps cfg s s') (hs : Step cfg s' s'') : Steps cfg s s''

/-- C43 does not hold: once a call of a client raised (in `add_task` without a callable, a callable raising in
the base class scheduler, `get_results` without results, `shutdown` of a busy process scheduler) the lock is
held for ever: no further call submits a task, stores a result, or returns results. -/
theorem raise_blocks_forever {cfg : Cfg D R C} {m : Nat} {s s' : St D R C} (h : Reach cfg m s)
    (hr : s.sh.raised = true) (hs : Steps cfg s s') :
    s'.sh.lock = true ∧ s'.sh.submitted = s.sh.submitted ∧ s'.sh.stored = s.sh.stored ∧ s'.sh.log = s.sh.log ∧
      s'.sh.last = s.sh.last := by
  suffices Reach cfg m s' ∧ s'.sh.raised = true ∧ s'.sh.submitted = s.sh.submitted ∧
      s'.sh.stored = s.sh.stored ∧ s'.sh.log = s.sh.log ∧ s'.sh.last = s.sh.last by
    obtain ⟨h1, h2, h3⟩ := this
    refine ⟨?_, h3⟩
    have := reach_mutex h1
    unfold Mutex at this
    rw [h2] at this
    cases hl : s'.sh.lock
    · simp [hl] at this
    · rfl
  induction hs with
  | refl => exact ⟨h, hr, rfl, rfl, rfl, rfl⟩
  | @step s1 s2 _ hs ih =>
    obtain ⟨h1, h2, h3, h4, h5, h6⟩ := ih
    refine ⟨h1.step hs, ?_⟩
    rw [← h3, ← h4, ← h5, ← h6]
    have hm := reach_mutex h1
    cases hs with
    | @mk s s' pc pc' sp a b ht =>
      have hnc : pc.crit = false := by
        cases hc : pc.crit
        · rfl
        · have := (crit_lock hm hc).1
          simp only at h2; rw [h2] at this; cases this
      clear hm h1 h3 h4 h5 h6
      cases ht <;> first | (simp at hnc; done) | exact ⟨h2, rfl, rfl, rfl, rfl⟩

/-- C43 does not hold: once the callable of a task raised (in any of the schedulers), `n_open_tasks` stays
positive for ever and no call of `get_results` returns any more. -/
theorem failed_task_blocks {cfg : Cfg D R C} {m : Nat} {s s' : St D R C} (h : Reach cfg m s)
    (hf : s.sh.failed ≠ []) (hs : Steps cfg s s') : 0 < s'.sh.nOpen ∧ s'.sh.log = s.sh.log := by
  have key : ∀ t : St D R C, Reach cfg m t → t.sh.failed ≠ [] → 0 < t.sh.nOpen := by
    intro t ht hf
    have := (reach_acc ht).nOpen
    have := List.length_pos_of_ne_nil hf
    omega
  suffices Reach cfg m s' ∧ s'.sh.failed ≠ [] ∧ s'.sh.log = s.sh.log from ⟨key _ this.1 this.2.1, this.2.2⟩
  induction hs with
  | refl => exact ⟨h, hf, rfl⟩
  | @step s1 s2 _ hs ih =>
    obtain ⟨h1, h2, h3⟩ := ih
    have h0 := key _ h1 h2
    refine ⟨h1.step hs, ?_⟩
    rw [← h3]
    constructor
    · cases hs with
      | mk a b ht => cases ht <;> first | exact h2 | simp
    · apply Classical.byContradiction
      intro hc
      have := (get_results_waits h1 hs hc).1
      omega

theorem reach_shut {cfg : Cfg D R C} {m : Nat} {s : St D R C} (h : Reach cfg m s) (q : Pc D R C) (hq : q ∈ s.ts)
    (hs : q = .shutAcq ∨ q = .shutBody) : ∃ n b, cfg.kind = .process n b := by
  induction h generalizing q with
  | init =>
    simp only [initSt, List.mem_replicate] at hq
    obtain ⟨-, rfl⟩ := hq
    rcases hs with hs | hs <;> cases hs
  | step _ hst ih =>
    cases hst with
    | @mk s s' pc pc' sp a b ht =>
      simp only [List.mem_append, List.mem_cons] at hq ih
      rcases hq with hq | hq | hq | hq
      · exact ih q (.inl hq) hs
      · rw [hq] at hs
        cases ht
        case callShut => exact ⟨_, _, by assumption⟩
        case shutAcq => exact ih _ (.inr (.inl rfl)) (.inl rfl)
        case stBody => rename_i n _; cases n <;> rcases hs with hs | hs <;> cases hs
        all_goals rcases hs with hs | hs <;> cases hs
      · exact ih q (.inr (.inr hq)) hs
      · exfalso
        cases ht <;> simp only [List.not_mem_nil, List.mem_singleton] at hq
        · subst hq; rcases hs with hs | hs <;> cases hs
        · subst hq; split at hs <;> rcases hs with hs | hs <;> cases hs

/-- C43, the part that holds: as long as no call has raised, the lock is free, or the one thread that holds it
can go on without waiting for any other thread; a thread that waits for the lock gets it once it is free. -/
theorem lock_progress_partial {cfg : Cfg D R C} {m : Nat} {s : St D R C} (h : Reach cfg m s)
    (hr : s.sh.raised = false) : s.sh.lock = false ∨ ∃ a b pc, s.ts = a ++ pc :: b ∧ pc.crit = true ∧
      (∀ q ∈ a ++ b, Pc.crit q = false) ∧
      ∃ s' pc' sp, TStep cfg s.sh pc s' pc' sp := by
  have hm := reach_mutex h
  unfold Mutex at hm
  cases hl : s.sh.lock
  · exact .inl rfl
  · right
    rw [hl, hr] at hm
    have hpos : 0 < s.ts.countP Pc.crit := by simp at hm; omega
    obtain ⟨pc, hpc, hc⟩ := List.countP_pos_iff.1 hpos
    obtain ⟨a, b, hab⟩ := List.append_of_mem hpc
    refine ⟨a, b, pc, hab, hc, ?_, ?_⟩
    · rw [hab, countP_mid, hc] at hm
      simp only [Bool.toNat_true, Bool.toNat_false] at hm
      intro q hq
      cases hqc : Pc.crit q
      · rfl
      · have : 0 < (a ++ b).countP Pc.crit := List.countP_pos_iff.2 ⟨q, hq, hqc⟩
        rw [List.countP_append] at this
        omega
    · cases pc with
      | addBody d c =>
        cases c with
        | some c => exact ⟨_, _, _, .addNew ..⟩
        | none =>
          cases hl : s.sh.last with
          | none => exact ⟨_, _, _, .addRaise _ _ hl⟩
          | some c => exact ⟨_, _, _, .addOld _ _ _ hl⟩
      | setBody c => exact ⟨_, _, _, .setBody ..⟩
      | getBody =>
        by_cases h0 : s.sh.nOpen = 0
        · cases hv : takeResults cfg.ordered s.sh.results with
          | none => exact ⟨_, _, _, .getRaise _ h0 hv⟩
          | some v => exact ⟨_, _, _, .getOk _ _ h0 hv⟩
        · exact ⟨_, _, _, .getOpen _ h0⟩
      | shutBody =>
        cases hk : cfg.kind with
        | base => obtain ⟨n, b, h⟩ := reach_shut h _ hpc (.inr rfl); rw [hk] at h; cases h
        | thread n => obtain ⟨n, b, h⟩ := reach_shut h _ hpc (.inr rfl); rw [hk] at h; cases h
        | process n b =>
          by_cases h0 : s.sh.free.length < n ∨ ∃ p ∈ s.sh.free, s.sh.alive p = false
          · exact ⟨_, _, _, .shutRaise _ _ _ hk h0⟩
          · refine ⟨_, _, _, .shutOk _ _ _ hk (by omega) ?_⟩
            intro p hp
            cases ha : s.sh.alive p
            · exact absurd (.inr ⟨p, hp, ha⟩) h0
            · rfl
      | proc d c k =>
        cases hk : cfg.kind with
        | base =>
          cases hv : cfg.call c d with
          | none => exact ⟨_, _, _, .runRaise _ _ _ _ hk hv⟩
          | some r => exact ⟨_, _, _, .runOk _ _ _ _ _ hk hv⟩
        | thread n =>
          by_cases h0 : s.sh.nActive < n
          · exact ⟨_, _, _, .thGo _ _ _ _ _ hk h0⟩
          · exact ⟨_, _, _, .thFull _ _ _ _ _ hk (by omega)⟩
        | process n b =>
          rcases List.eq_nil_or_concat s.sh.free with h0 | ⟨fs, p, h0⟩
          · exact ⟨_, _, _, .prFull _ _ _ _ _ _ hk h0⟩
          · exact ⟨_, _, _, .prGo _ _ _ _ _ _ _ _ hk (by rw [h0, List.concat_eq_append])⟩
      | rel r k => exact ⟨_, _, _, .rel ..⟩
      | stBody r k n => exact ⟨_, _, _, .stBody ..⟩
      | _ => simp at hc

end Mdp.Sched
