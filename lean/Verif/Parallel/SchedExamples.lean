import Verif.Parallel.SchedProc

/-! # Executions of the schedulers: what goes wrong (C41, C42, C43, C76), and examples -/

namespace Mdp.Sched

variable {D R C : Type}

/-! ## C41: two callables and one process -/

/-- A caching scheduler with one worker process. Callable `c` maps `d` to `10 * c + d`. -/
def oneProc : Cfg Nat Nat Nat := ⟨.process 1 true, true, fun c d => some (10 * c + d)⟩

/-- C41 does not hold: `add_task(1, f1); add_task(2, f2)` with one worker process. The second call registers
`f2` before the thread of the first task has looked at the index of the current callable, so the process gets
`f1` but is tagged as having `f2`, and computes the second task with `f1`. -/
theorem wrong_callable : ∃ s, Reach oneProc 1 s ∧ s.sh.submitted = [(1, some 1), (2, some 2)] ∧
    s.sh.stored = [(11, 1), (12, 2)] := by
  have h0 := Reach.init (cfg := oneProc) (m := 1)
  have h1 := h0.step (Step.mk [] [] (.callAdd _ 1 (some 1)))
  have h2 := h1.step (Step.mk [] [] (.addAcq _ _ _ rfl))
  have h3 := h2.step (Step.mk [] [] (.addNew _ _ _))
  have h4 := h3.step (Step.mk [] [] (.prGo _ _ _ _ 1 true [] 0 rfl rfl))
  have h5 := h4.step (Step.mk [] [] (.startP _ _ _ _ _ 1 true rfl))
  have h6 := h5.step (Step.mk [] _ (.callAdd _ 2 (some 2)))
  have h7 := h6.step (Step.mk [] _ (.addAcq _ _ _ rfl))
  have h8 := h7.step (Step.mk [] _ (.addNew _ _ _))
  have h9 := h8.step (Step.mk [] _ (.prFull _ _ _ _ 1 true rfl rfl))
  have h10 := h9.step (Step.mk [_] [] (.cmpNew _ _ _ _ _ (by decide)))
  have h11 := h10.step (Step.mk [_] [] (.retag _ _ _ _ _))
  have h12 := h11.step (Step.mk [_] [] (.sendOk _ _ _ _ _ 1 11 1 true rfl rfl rfl rfl))
  have h13 := h12.step (Step.mk [_] [] (.stAcq _ _ _ _ rfl))
  have h14 := h13.step (Step.mk [_] [] (.stBody _ _ _ _))
  have h15 := h14.step (Step.mk [_] [] (.freeP _ _))
  have h16 := h15.step (Step.mk [] _ (.wake _ _ _ _ rfl))
  have h17 := h16.step (Step.mk [] _ (.prGo _ _ _ _ 1 true [] 0 rfl rfl))
  have h18 := h17.step (Step.mk [] _ (.startP _ _ _ _ _ 1 true rfl))
  have h19 := h18.step (Step.mk [_, _] [] (.cmpOld _ _ _ _ _ (by decide)))
  have h20 := h19.step (Step.mk [_, _] [] (.sendOk _ _ _ _ _ 1 12 1 true rfl rfl rfl rfl))
  have h21 := h20.step (Step.mk [_, _] [] (.stAcq _ _ _ _ rfl))
  have h22 := h21.step (Step.mk [_, _] [] (.stBody _ _ _ _))
  exact ⟨_, h22, rfl, rfl⟩

/-- The result of the second task is not what its callable gives. -/
theorem wrong_callable_not_right : ∃ s, Reach oneProc 1 s ∧ ∃ r k, (r, k) ∈ s.sh.stored ∧
    ¬ RightResult oneProc s.sh r k := by
  obtain ⟨s, h, h1, h2⟩ := wrong_callable
  refine ⟨s, h, 12, 2, by simp [h2], ?_⟩
  rintro ⟨d, c, ⟨-, h3⟩, h4⟩
  rw [h1] at h3
  simp only [List.getElem?_cons_succ, List.getElem?_cons_zero, Option.some.injEq, Prod.mk.injEq] at h3
  obtain ⟨rfl, rfl⟩ := h3
  exact absurd h4 (by decide)

/-- A client that waits for the results before it changes the callable gets what it asked for, from both tasks
and in two calls of `get_results`. -/
theorem calm_run : ∃ s, CalmReach oneProc 1 s ∧ s.sh.submitted = [(1, some 1), (2, some 2)] ∧
    s.sh.log = [⟨1, [11]⟩, ⟨2, [22]⟩] := by
  have h0 := CalmReach.init (cfg := oneProc) (m := 1)
  have h1 := h0.step [] [] (fun _ => trivial) (.callAdd _ 1 (some 1))
  have h2 := h1.step [] [] (fun _ => trivial) (.addAcq _ _ _ rfl)
  have h3 := h2.step [] [] (fun _ => .inr rfl) (.addNew _ _ _)
  have h4 := h3.step [] [] (fun _ => trivial) (.prGo _ _ _ _ 1 true [] 0 rfl rfl)
  have h5 := h4.step [] [] (fun _ => trivial) (.startP _ _ _ _ _ 1 true rfl)
  have h6 := h5.step [_] [] (fun _ => trivial) (.cmpNew _ _ _ _ _ (by decide))
  have h7 := h6.step [_] [] (fun _ => trivial) (.retag _ _ _ _ _)
  have h8 := h7.step [_] [] (fun _ => trivial) (.sendOk _ _ _ _ _ 1 11 1 true rfl rfl rfl rfl)
  have h9 := h8.step [_] [] (fun _ => trivial) (.stAcq _ _ _ _ rfl)
  have h10 := h9.step [_] [] (fun _ => trivial) (.stBody _ _ _ _)
  have h11 := h10.step [] _ (fun _ => trivial) (.callGet _)
  have h12 := h11.step [] _ (fun _ => trivial) (.getAcq _ rfl)
  have h13 := h12.step [] _ (fun _ => trivial) (.getOk _ [11] rfl (by decide +kernel))
  have h14 := h13.step [_] [] (fun _ => trivial) (.freeP _ _)
  have h15 := h14.step [] _ (fun _ => trivial) (.callAdd _ 2 (some 2))
  have h16 := h15.step [] _ (fun _ => trivial) (.addAcq _ _ _ rfl)
  have h17 := h16.step [] _ (fun _ => .inr rfl) (.addNew _ _ _)
  have h18 := h17.step [] _ (fun _ => trivial) (.prGo _ _ _ _ 1 true [] 0 rfl rfl)
  have h19 := h18.step [] _ (fun _ => trivial) (.startP _ _ _ _ _ 1 true rfl)
  have h20 := h19.step [_, _] [] (fun _ => trivial) (.cmpNew _ _ _ _ _ (by decide))
  have h21 := h20.step [_, _] [] (fun _ => trivial) (.retag _ _ _ _ _)
  have h22 := h21.step [_, _] [] (fun _ => trivial) (.sendOk _ _ _ _ _ 2 22 1 true rfl rfl rfl rfl)
  have h23 := h22.step [_, _] [] (fun _ => trivial) (.stAcq _ _ _ _ rfl)
  have h24 := h23.step [_, _] [] (fun _ => trivial) (.stBody _ _ _ _)
  have h25 := h24.step [] _ (fun _ => trivial) (.callGet _)
  have h26 := h25.step [] _ (fun _ => trivial) (.getAcq _ rfl)
  have h27 := h26.step [] _ (fun _ => trivial) (.getOk _ [22] rfl (by decide +kernel))
  exact ⟨_, h27, rfl, rfl⟩

/-! ## C42: the limit of `ThreadScheduler` -/

/-- A task thread of a thread scheduler that is computing. -/
def Pc.working : Pc D R C → Bool
  | .work .. => true
  | _ => false

/-- C42 does not hold: a `ThreadScheduler` never counts the threads it starts, so whatever `n_threads` is, any
number of tasks can run at the same time. -/
theorem thread_limit_unenforced (call : C → D → Option R) (o : Bool) (n : Int) (hn : 1 ≤ n) (d : D) (c : C)
    (m : Nat) : ∃ s, Reach ⟨.thread n, o, call⟩ 1 s ∧ s.ts.countP Pc.working = m := by
  suffices ∃ s, Reach ⟨.thread n, o, call⟩ 1 s ∧ s.sh.lock = false ∧ s.sh.nActive = 0 ∧
      ∃ ws, s.ts = .idle :: ws ∧ ws.countP Pc.working = m by
    obtain ⟨s, h1, -, -, ws, h2, h3⟩ := this
    refine ⟨s, h1, ?_⟩
    rw [h2]
    simpa [List.countP_cons, Pc.working] using h3
  induction m with
  | zero => exact ⟨_, .init, rfl, rfl, [], rfl, rfl⟩
  | succ m ih =>
    obtain ⟨⟨s, ts⟩, h0, hl, ha, ws, rfl, hw⟩ := ih
    have h1 := h0.step (Step.mk [] ws (.callAdd _ d (some c)))
    have h2 := h1.step (Step.mk [] _ (.addAcq _ _ _ hl))
    have h3 := h2.step (Step.mk [] _ (.addNew _ _ _))
    have h4 := h3.step (Step.mk [] _ (.thGo _ _ _ _ n rfl (by simp only at ha ⊢; omega)))
    have h5 := h4.step (Step.mk [] _ (.start _ _ _ _))
    refine ⟨_, h5, rfl, ha, _, rfl, ?_⟩
    simp [Pc.working, hw]

/-- C42 in the form of its negation. -/
theorem thread_limit_exceeded : ∃ s, Reach (⟨.thread 2, true, fun _ d => some d⟩ : Cfg Nat Nat Nat) 1 s ∧
    2 < s.ts.countP Pc.working := by
  obtain ⟨s, h1, h2⟩ := thread_limit_unenforced (fun (_ : Nat) (d : Nat) => some d) true 2 (by decide) 0 0 3
  exact ⟨s, h1, by omega⟩

/-! ## C43: calls that raise -/

/-- `add_task(data)` on a new scheduler of any kind. -/
theorem add_without_callable (cfg : Cfg D R C) (d : D) : ∃ s, Reach cfg 1 s ∧ s.sh.raised = true ∧ s.ts = [.idle] :=
  ⟨_, ((Reach.init.step (Step.mk [] [] (.callAdd _ d none))).step (Step.mk [] [] (.addAcq _ _ _ rfl))).step
    (Step.mk [] [] (.addRaise _ _ rfl)), rfl, rfl⟩

/-- `get_results()` on a new scheduler of any kind. -/
theorem get_without_results (cfg : Cfg D R C) (ho : cfg.ordered = true) :
    ∃ s, Reach cfg 1 s ∧ s.sh.raised = true ∧ s.ts = [.idle] :=
  ⟨_, ((Reach.init.step (Step.mk [] [] (.callGet _))).step (Step.mk [] [] (.getAcq _ rfl))).step
    (Step.mk [] [] (.getRaise _ rfl (by simp [takeResults, ho, initSt]))), rfl, rfl⟩

/-- A callable that raises in the base class scheduler. -/
theorem callable_raises (cfg : Cfg D R C) (hk : cfg.kind = .base) (d : D) (c : C) (hc : cfg.call c d = none) :
    ∃ s, Reach cfg 1 s ∧ s.sh.raised = true ∧ s.sh.failed = [1] ∧ s.ts = [.idle] :=
  ⟨_, (((Reach.init.step (Step.mk [] [] (.callAdd _ d (some c)))).step (Step.mk [] [] (.addAcq _ _ _ rfl))).step
    (Step.mk [] [] (.addNew _ _ _))).step (Step.mk [] [] (.runRaise _ _ _ _ hk hc)), rfl, rfl, rfl⟩

/-- A callable that raises in a thread scheduler: the client is not told, but will wait for ever. -/
theorem callable_raises_thread (cfg : Cfg D R C) (n : Int) (hn : 0 < n) (hk : cfg.kind = .thread n) (d : D) (c : C)
    (hc : cfg.call c d = none) :
    ∃ s, Reach cfg 1 s ∧ s.sh.raised = false ∧ s.sh.failed = [1] ∧ s.ts = [.idle, .dead] :=
  ⟨_, (((((Reach.init.step (Step.mk [] [] (.callAdd _ d (some c)))).step (Step.mk [] [] (.addAcq _ _ _ rfl))).step
    (Step.mk [] [] (.addNew _ _ _))).step (Step.mk [] [] (.thGo _ _ _ _ n hk hn))).step
    (Step.mk [] [] (.start _ _ _ _))).step (Step.mk [_] [] (.workRaise _ _ _ _ hc)), rfl, rfl, rfl⟩

/-- C76 does not hold: a client calls `add_task`, `get_results`, which returns the result, and `shutdown`, which
raises, because the thread of the task has stored the result but not yet given back the process. -/
theorem shutdown_after_results : ∃ s s', Reach oneProc 1 s ∧ s.sh.log = [⟨1, [11]⟩] ∧ s.sh.nOpen = 0 ∧
    s.sh.raised = false ∧ s.ts.head? = some .shutBody ∧ Step oneProc s s' ∧ s'.sh.raised = true := by
  have h0 := Reach.init (cfg := oneProc) (m := 1)
  have h1 := h0.step (Step.mk [] [] (.callAdd _ 1 (some 1)))
  have h2 := h1.step (Step.mk [] [] (.addAcq _ _ _ rfl))
  have h3 := h2.step (Step.mk [] [] (.addNew _ _ _))
  have h4 := h3.step (Step.mk [] [] (.prGo _ _ _ _ 1 true [] 0 rfl rfl))
  have h5 := h4.step (Step.mk [] [] (.startP _ _ _ _ _ 1 true rfl))
  have h6 := h5.step (Step.mk [_] [] (.cmpNew _ _ _ _ _ (by decide)))
  have h7 := h6.step (Step.mk [_] [] (.retag _ _ _ _ _))
  have h8 := h7.step (Step.mk [_] [] (.sendOk _ _ _ _ _ 1 11 1 true rfl rfl rfl rfl))
  have h9 := h8.step (Step.mk [_] [] (.stAcq _ _ _ _ rfl))
  have h10 := h9.step (Step.mk [_] [] (.stBody _ _ _ _))
  have h11 := h10.step (Step.mk [] _ (.callGet _))
  have h12 := h11.step (Step.mk [] _ (.getAcq _ rfl))
  have h13 := h12.step (Step.mk [] _ (.getOk _ [11] rfl (by decide +kernel)))
  have h14 := h13.step (Step.mk [] _ (.callShut _ 1 true rfl))
  have h15 := h14.step (Step.mk [] _ (.shutAcq _ rfl))
  exact ⟨_, _, h15, rfl, rfl, rfl, rfl, Step.mk [] _ (.shutRaise _ 1 true rfl (.inl (by decide))), rfl⟩

/-! ## Examples of the theorems -/

example : ∃ s, Reach oneProc 1 s ∧ s.sh.nOpen = 0 ∧ s.sh.submitted.length = 2 ∧ s.sh.stored.length = 2 := by
  obtain ⟨s, h, h1, h2⟩ := wrong_callable
  have := (open_tasks_exact h).1
  exact ⟨s, h, by rw [this, h1, h2]; rfl, by rw [h1]; rfl, by rw [h2]; rfl⟩

example : ∃ s, CalmReach oneProc 1 s ∧ ∃ l1 l2 e, s.sh.log = l1 ++ e :: l2 ∧ l1 ≠ [] ∧ e.vals = [22] ∧
    lastUpto l1 = 1 := by
  obtain ⟨s, h, -, h2⟩ := calm_run
  exact ⟨s, h, [⟨1, [11]⟩], [], ⟨2, [22]⟩, h2, by simp, rfl, rfl⟩

example : ∃ s, Reach oneProc 1 s ∧ s.sh.raised = true ∧ ∀ s', Steps oneProc s s' → s'.sh.submitted = [] ∧
    s'.sh.log = [] := by
  have h0 := ((Reach.init (cfg := oneProc) (m := 1)).step (Step.mk [] [] (.callAdd _ 5 none))).step
    (Step.mk [] [] (.addAcq _ _ _ rfl))
  have h1 := h0.step (Step.mk [] [] (.addRaise _ _ rfl))
  exact ⟨_, h1, rfl, fun s' hs => ⟨(raise_blocks_forever h1 rfl hs).2.1, (raise_blocks_forever h1 rfl hs).2.2.2.1⟩⟩

example : ∃ s, Reach oneProc 1 s ∧ s.sh.raised = false ∧ s.sh.lock = true := by
  exact ⟨_, (Reach.init.step (Step.mk [] [] (.callGet _))).step (Step.mk [] [] (.getAcq _ rfl)), rfl, rfl⟩

theorem sort_example : takeResults true [((22 : Nat), 2), (11, 1)] = some [11, 22] := by
  simp [takeResults, List.mergeSort, List.MergeSort.Internal.splitInTwo]

/-- Two tasks of which the second finishes first. -/
example : ∃ s, Reach (⟨.thread 2, true, fun c d => some (10 * c + d)⟩ : Cfg Nat Nat Nat) 1 s ∧
    s.sh.stored = [(22, 2), (11, 1)] ∧ s.sh.log = [⟨2, [11, 22]⟩] := by
  have h0 := Reach.init (cfg := (⟨.thread 2, true, fun c d => some (10 * c + d)⟩ : Cfg Nat Nat Nat)) (m := 1)
  have h1 := h0.step (Step.mk [] [] (.callAdd _ 1 (some 1)))
  have h2 := h1.step (Step.mk [] [] (.addAcq _ _ _ rfl))
  have h3 := h2.step (Step.mk [] [] (.addNew _ _ _))
  have h4 := h3.step (Step.mk [] [] (.thGo _ _ _ _ 2 rfl (by decide)))
  have h5 := h4.step (Step.mk [] [] (.start _ _ _ _))
  have h6 := h5.step (Step.mk [] _ (.callAdd _ 2 (some 2)))
  have h7 := h6.step (Step.mk [] _ (.addAcq _ _ _ rfl))
  have h8 := h7.step (Step.mk [] _ (.addNew _ _ _))
  have h9 := h8.step (Step.mk [] _ (.thGo _ _ _ _ 2 rfl (by decide)))
  have h10 := h9.step (Step.mk [] _ (.start _ _ _ _))
  have h11 := h10.step (Step.mk [_, _] [] (.workOk _ _ _ _ 22 rfl))
  have h12 := h11.step (Step.mk [_, _] [] (.stAcq _ _ _ _ rfl))
  have h13 := h12.step (Step.mk [_, _] [] (.stBody _ _ _ _))
  have h14 := h13.step (Step.mk [_] [_] (.workOk _ _ _ _ 11 rfl))
  have h15 := h14.step (Step.mk [_] [_] (.stAcq _ _ _ _ rfl))
  have h16 := h15.step (Step.mk [_] [_] (.stBody _ _ _ _))
  have h17 := h16.step (Step.mk [] _ (.callGet _))
  have h18 := h17.step (Step.mk [] _ (.getAcq _ rfl))
  have h19 := h18.step (Step.mk [] _ (.getOk _ [11, 22] rfl sort_example))
  exact ⟨_, h19, rfl, rfl⟩

end Mdp.Sched
