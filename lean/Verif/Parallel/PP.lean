import Mathlib.Data.List.Perm.Basic
import Mathlib.Data.List.Sort

/-! # The adaptor for parallel python (C300, C301, C302)

`PPScheduler` hands its tasks to a pp server and stores the results in the callbacks of the server.  The pp
server itself is not part of the code base; it is modelled by what the adaptor relies on: `submit` puts a task at
the end of a queue, workers take tasks from the front of the queue, at most `ncpus` at a time, they finish in any
order, and the callback of a task is then called once, in a thread of the server, with the return value, or with
`None` if the task raised. -/

namespace Mdp.PP

/-! ## Model -/

/-- A task as it is submitted to the server. -/
structure Task (D C : Type) where
  idx : Nat
  data : D
  fn : C

/-- What a thread of the user is doing.
/repo/mdp/parallel/pp_support.py 91-117 and /repo/mdp/parallel/scheduling.py 236-275. -/
inductive Pc (D C : Type) where
  /-- no call is running -/
  | idle
  /-- in the `while True` of `_process_task`, holding the lock -/
  | check (t : Task D C)
  /-- in `time.sleep(0.5)`, the lock is released (lines 108-110) -/
  | sleep (t : Task D C)
  /-- behind the release of line 114, before the call of `submit` (line 117) -/
  | submit (t : Task D C)

/-- The configuration: `max_queue_length`, the workers of the server, whether the result container is an
`OrderedResultContainer` (the default of the adaptor is a `ListResultContainer`, lines 84-85), and what a callable
does with the data (`none`: it raises).
/repo/mdp/parallel/pp_support.py 72-89. -/
structure Cfg (D R C : Type) where
  maxQueue : Nat
  ncpus : Nat
  ordered : Bool
  call : C → D → Option R

/-- The state of the scheduler and of the server.  `added` and `log` are the history: the tasks that were added, in
the order of their numbers, and what the calls of `get_results` returned, each with the numbers of tasks that were
added before the previous one and before it. -/
structure St (D R C : Type) where
  lock : Bool
  /-- an exception left a method that holds the lock -/
  raised : Bool
  nOpen : Int
  counter : Nat
  last : Option C
  results : List (Option R × Option Nat)
  queue : List (Task D C)
  running : List (Task D C)
  callbacks : List (Task D C)
  ts : List (Pc D C)
  added : List (D × C)
  base : Nat
  log : List (Nat × Nat × List (Option R))

variable {D R C : Type}

/-- A new scheduler used by `m` threads. -/
def init (m : Nat) : St D R C :=
  { lock := false, raised := false, nOpen := 0, counter := 0, last := none, results := [], queue := [],
    running := [], callbacks := [], ts := List.replicate m .idle, added := [], base := 0, log := [] }

/-- What the callback stores for a task: `(None, None)` if the task failed, else the return value and the number.
/repo/mdp/parallel/pp_support.py 100-104 (`execute_task`) and 121-127 (`_pp_result_callback`). -/
def entry (cfg : Cfg D R C) (t : Task D C) : Option R × Option Nat :=
  match cfg.call t.fn t.data with
  | none => (none, none)
  | some r => (some r, some t.idx)

/-- Comparing two keys of the sort: `none` when Python raises a TypeError, i.e. unless both are integers. -/
def allKeys : List (Option R × Option Nat) → Option (List (Nat × Option R))
  | [] => some []
  | (r, some k) :: l => (allKeys l).map ((k, r) :: ·)
  | (_, none) :: _ => none

/-- `OrderedResultContainer.get_results` and `ListResultContainer.get_results`.  Sorting a list of one element
compares nothing; sorting a longer list compares every key, and comparing `None` raises; `zip(*[])` has no first
element.
/repo/mdp/parallel/scheduling.py 40-48 and 69-74. -/
def take (ordered : Bool) (l : List (Option R × Option Nat)) : Option (List (Option R)) :=
  if ordered then
    match l with
    | [] => none
    | [e] => some [e.1]
    | l => (allKeys l).map fun ks =>
        (ks.insertionSort (fun a b => a.1 ≤ b.1)).map Prod.snd
  else some (l.map Prod.fst)

/-- One step of one of the threads of the user, or of the server.
/repo/mdp/parallel/scheduling.py 227-311 and /repo/mdp/parallel/pp_support.py 91-127.  The bodies between acquiring
and releasing the lock are single steps; `fork` returns the callable itself, as in the base class. -/
inductive Step (cfg : Cfg D R C) : St D R C → St D R C → Prop
  /-- `add_task` up to `_process_task`, with a callable or with the last one -/
  | add {s a b d co c} : s.ts = a ++ .idle :: b → s.lock = false →
      (co = some c ∨ (co = none ∧ s.last = some c)) →
      Step cfg s { s with
        lock := true, nOpen := s.nOpen + 1, counter := s.counter + 1, last := some c,
        ts := a ++ .check ⟨s.counter + 1, d, c⟩ :: b, added := s.added ++ [(d, c)] }
  /-- `add_task` without any callable -/
  | addRaise {s a b} : s.ts = a ++ .idle :: b → s.lock = false → s.last = none →
      Step cfg s { s with lock := true, raised := true }
  /-- the queue is full: release the lock and sleep -/
  | full {s a b t} : s.ts = a ++ .check t :: b → cfg.maxQueue < s.queue.length →
      Step cfg s { s with lock := false, ts := a ++ .sleep t :: b }
  /-- the sleep is over: acquire the lock again -/
  | wake {s a b t} : s.ts = a ++ .sleep t :: b → s.lock = false →
      Step cfg s { s with lock := true, ts := a ++ .check t :: b }
  /-- the queue is not full: release the lock -/
  | room {s a b t} : s.ts = a ++ .check t :: b → s.queue.length ≤ cfg.maxQueue →
      Step cfg s { s with lock := false, ts := a ++ .submit t :: b }
  /-- submit the task -/
  | submit {s a b t} : s.ts = a ++ .submit t :: b →
      Step cfg s { s with queue := s.queue ++ [t], ts := a ++ .idle :: b }
  /-- the server: a worker takes a task -/
  | take {s t q} : s.queue = t :: q → s.running.length < cfg.ncpus →
      Step cfg s { s with queue := q, running := s.running ++ [t] }
  /-- the server: a worker finishes its task -/
  | finish {s a t b} : s.running = a ++ t :: b →
      Step cfg s { s with running := a ++ b, callbacks := s.callbacks ++ [t] }
  /-- a callback stores the result -/
  | store {s a t b} : s.callbacks = a ++ t :: b → s.lock = false →
      Step cfg s { s with
        callbacks := a ++ b, results := s.results ++ [entry cfg t], nOpen := s.nOpen - 1 }
  /-- `get_results` without open tasks -/
  | get {s a b vs} : s.ts = a ++ .idle :: b → s.lock = false → s.nOpen = 0 →
      PP.take cfg.ordered s.results = some vs →
      Step cfg s { s with results := [], base := s.counter, log := s.log ++ [(s.base, s.counter, vs)] }
  /-- `get_results` without open tasks, the container raises -/
  | getRaise {s a b} : s.ts = a ++ .idle :: b → s.lock = false → s.nOpen = 0 →
      PP.take cfg.ordered s.results = none →
      Step cfg s { s with results := [], base := s.counter, lock := true, raised := true }

/-- Any number of steps. -/
inductive Steps (cfg : Cfg D R C) (s : St D R C) : St D R C → Prop
  | refl : Steps cfg s s
  | step {t u} : Steps cfg s t → Step cfg t u → Steps cfg s u

/-- The states of a scheduler used by `m` threads. -/
def Reach (cfg : Cfg D R C) (m : Nat) (s : St D R C) : Prop := Steps cfg (init m) s

/-! ## Specification -/

/-- What the tasks with the numbers `lo + 1 … hi` give, in the order in which they were added: the return value, or
`None` for a task that raised. -/
def Outcomes (cfg : Cfg D R C) (added : List (D × C)) (lo hi : Nat) : List (Option R) :=
  ((added.take hi).drop lo).map fun x => cfg.call x.2 x.1

/-! ## The invariant -/

def Pc.task : Pc D C → List (Task D C)
  | .idle => []
  | .check t | .sleep t | .submit t => [t]

def Pc.crit : Pc D C → Nat
  | .check _ => 1
  | _ => 0

def Pc.subm : Pc D C → Nat
  | .submit _ => 1
  | _ => 0

section
variable (t : Task D C)
@[simp] theorem task_idle : (Pc.idle : Pc D C).task = [] := rfl
@[simp] theorem task_check : (Pc.check t).task = [t] := rfl
@[simp] theorem task_sleep : (Pc.sleep t).task = [t] := rfl
@[simp] theorem task_submit : (Pc.submit t).task = [t] := rfl
@[simp] theorem crit_idle : (Pc.idle : Pc D C).crit = 0 := rfl
@[simp] theorem crit_check : (Pc.check t).crit = 1 := rfl
@[simp] theorem crit_sleep : (Pc.sleep t).crit = 0 := rfl
@[simp] theorem crit_submit : (Pc.submit t).crit = 0 := rfl
@[simp] theorem subm_idle : (Pc.idle : Pc D C).subm = 0 := rfl
@[simp] theorem subm_check : (Pc.check t).subm = 0 := rfl
@[simp] theorem subm_sleep : (Pc.sleep t).subm = 0 := rfl
@[simp] theorem subm_submit : (Pc.submit t).subm = 1 := rfl
end

/-- The tasks that have been added and whose result is not stored. -/
def St.pending (s : St D R C) : List (Task D C) :=
  s.ts.flatMap Pc.task ++ s.queue ++ s.running ++ s.callbacks

/-- The tasks with their numbers. -/
def number : Nat → List (D × C) → List (Task D C)
  | _, [] => []
  | k, x :: l => ⟨k + 1, x.1, x.2⟩ :: number (k + 1) l

theorem number_append (k : Nat) (l l' : List (D × C)) :
    number k (l ++ l') = number k l ++ number (k + l.length) l' := by
  induction l generalizing k with
  | nil => rfl
  | cons x l ih =>
    simp only [List.cons_append, number, ih, List.length_cons]
    rw [show k + 1 + l.length = k + (l.length + 1) by omega]

theorem number_length (k : Nat) (l : List (D × C)) : (number k l).length = l.length := by
  induction l generalizing k with
  | nil => rfl
  | cons x l ih => simp [number, ih]

theorem entry_fst (cfg : Cfg D R C) (t : Task D C) : (entry cfg t).1 = cfg.call t.fn t.data := by
  unfold entry
  split <;> simp_all

theorem number_entry (cfg : Cfg D R C) (k : Nat) (l : List (D × C)) :
    (number k l).map (fun t => (entry cfg t).1) = l.map fun x => cfg.call x.2 x.1 := by
  induction l generalizing k with
  | nil => rfl
  | cons x l ih => rw [number, List.map_cons, List.map_cons, ih, entry_fst]

structure Inv (cfg : Cfg D R C) (m : Nat) (s : St D R C) : Prop where
  len : s.ts.length = m
  counter : s.counter = s.added.length
  base : s.base ≤ s.counter
  nOpen : s.nOpen = s.pending.length
  perm : (s.results ++ s.pending.map (entry cfg)).Perm
    ((number s.base (s.added.drop s.base)).map (entry cfg))
  crit : s.raised = false → (s.ts.map Pc.crit).sum = if s.lock then 1 else 0
  critR : s.raised = true → s.lock = true ∧ (s.ts.map Pc.crit).sum = 0
  queue : s.queue.length + (s.ts.map Pc.subm).sum ≤ cfg.maxQueue + m
  busy : s.running.length ≤ cfg.ncpus

theorem subm_le (l : List (Pc D C)) : (l.map Pc.subm).sum ≤ l.length := by
  induction l with
  | nil => simp
  | cons p l ih =>
    have : p.subm ≤ 1 := by cases p <;> simp [Pc.subm]
    simp only [List.map_cons, List.sum_cons, List.length_cons]
    omega

theorem inv_init (cfg : Cfg D R C) (m : Nat) : Inv cfg m (init m : St D R C) where
  len := by simp [init]
  counter := rfl
  base := by simp [init]
  nOpen := by
    have : (List.replicate m (Pc.idle : Pc D C)).flatMap Pc.task = [] := by
      rw [List.flatMap_eq_nil_iff]
      intro q hq
      rw [List.eq_of_mem_replicate hq]
      rfl
    simp [init, St.pending, this]
  perm := by
    have : (List.replicate m (Pc.idle : Pc D C)).flatMap Pc.task = [] := by
      rw [List.flatMap_eq_nil_iff]
      intro q hq
      rw [List.eq_of_mem_replicate hq]
      rfl
    simp [init, St.pending, this, number]
  crit := by simp [init]
  critR := by simp [init]
  queue := by simp [init]
  busy := by simp [init]

theorem perm_move {α : Type} (a b c : List α) (x : α) : (a ++ b ++ x :: c).Perm (a ++ x :: b ++ c) := by
  rw [List.append_assoc, List.append_assoc]
  exact List.Perm.append_left a (by simpa using List.perm_middle)

theorem inv_step {cfg : Cfg D R C} {m : Nat} {s s' : St D R C} (h : Inv cfg m s) (hs : Step cfg s s') :
    Inv cfg m s' := by
  have hr := h.critR
  cases hs with
  | @add a b d co c ht hl hc =>
    have hra : s.raised = false := by
      cases hx : s.raised
      · rfl
      · rw [hl] at hr; exact absurd (hr hx).1 (by decide)
    have hcr := h.crit hra
    refine ⟨?_, ?_, ?_, ?_, ?_, ?_, ?_, ?_, h.busy⟩
    · have := h.len; simp [ht] at this ⊢; omega
    · simp [h.counter]
    · have := h.base; simp only; omega
    · have := h.nOpen; simp [St.pending, ht] at this ⊢; omega
    · have hp := h.perm
      have hb : s.base ≤ s.added.length := h.counter ▸ h.base
      rw [List.drop_append_of_le_length hb, number_append, List.map_append, List.length_drop,
        Nat.add_sub_cancel' hb]
      simp only [number, List.map_cons, List.map_nil]
      refine .trans ?_ (List.Perm.append_right _ hp)
      rw [List.append_assoc]
      refine List.Perm.append_left _ ?_
      simp only [St.pending, ht, List.flatMap_append, List.flatMap_cons, task_idle, task_check, task_sleep, task_submit, List.map_append, List.nil_append,
        List.cons_append, List.append_assoc, List.map_cons, h.counter]
      refine List.perm_middle.trans ?_
      have hx := (List.perm_append_singleton (entry cfg ⟨s.added.length + 1, d, c⟩)
        (List.map (entry cfg) (List.flatMap Pc.task a) ++ (List.map (entry cfg) (List.flatMap Pc.task b) ++
          (List.map (entry cfg) s.queue ++ (List.map (entry cfg) s.running ++
            List.map (entry cfg) s.callbacks))))).symm
      simpa only [List.append_assoc] using hx
    · intro _
      rw [ht, hl] at hcr
      simp at hcr ⊢
      omega
    · intro hx
      simp [hra] at hx
    · have := h.queue
      simpa [ht] using this
  | @addRaise a b ht hl hla =>
    have hra : s.raised = false := by
      cases hx : s.raised
      · rfl
      · rw [hl] at hr; exact absurd (hr hx).1 (by decide)
    have hcr := h.crit hra
    refine ⟨h.len, h.counter, h.base, h.nOpen, h.perm, ?_, ?_, h.queue, h.busy⟩
    · intro hx; simp at hx
    · intro _
      rw [hl] at hcr
      simpa using hcr
  | @full a b t ht hq =>
    have hra : s.raised = false := by
      cases hx : s.raised
      · rfl
      · have := (hr hx).2; rw [ht] at this; simp  at this
    have hcr := h.crit hra
    have hn := h.nOpen
    have hp := h.perm
    have hqu := h.queue
    refine ⟨?_, h.counter, h.base, ?_, ?_, ?_, ?_, ?_, h.busy⟩
    · have := h.len; simp [ht] at this ⊢; omega
    · simpa [St.pending, ht] using hn
    · simpa [St.pending, ht] using hp
    · intro _
      rw [ht] at hcr
      cases hl : s.lock <;> simp [hl] at hcr ⊢
      omega
    · intro hx; simp [hra] at hx
    · simpa [ht] using hqu
  | @wake a b t ht hl =>
    have hra : s.raised = false := by
      cases hx : s.raised
      · rfl
      · rw [hl] at hr; exact absurd (hr hx).1 (by decide)
    have hcr := h.crit hra
    have hn := h.nOpen
    have hp := h.perm
    have hqu := h.queue
    refine ⟨?_, h.counter, h.base, ?_, ?_, ?_, ?_, ?_, h.busy⟩
    · have := h.len; simp [ht] at this ⊢; omega
    · simpa [St.pending, ht] using hn
    · simpa [St.pending, ht] using hp
    · intro _
      rw [ht, hl] at hcr
      simp at hcr ⊢
      omega
    · intro hx; simp [hra] at hx
    · simpa [ht] using hqu
  | @room a b t ht hq =>
    have hra : s.raised = false := by
      cases hx : s.raised
      · rfl
      · have := (hr hx).2; rw [ht] at this; simp  at this
    have hcr := h.crit hra
    have hn := h.nOpen
    have hp := h.perm
    have hlen := h.len
    refine ⟨?_, h.counter, h.base, ?_, ?_, ?_, ?_, ?_, h.busy⟩
    · simp [ht] at hlen ⊢; omega
    · simpa [St.pending, ht] using hn
    · simpa [St.pending, ht] using hp
    · intro _
      rw [ht] at hcr
      cases hl : s.lock <;> simp [hl] at hcr ⊢
      omega
    · intro hx; simp [hra] at hx
    · have h1 := subm_le a
      have h2 := subm_le b
      simp [ht] at hlen
      simp 
      omega
  | @submit a b t ht =>
    have hlen := h.len
    have hn := h.nOpen
    have hp := h.perm
    have hqu := h.queue
    have hcr := h.crit
    refine ⟨?_, h.counter, h.base, ?_, ?_, ?_, ?_, ?_, h.busy⟩
    · simp [ht] at hlen ⊢; omega
    · simp [St.pending, ht] at hn ⊢; omega
    · refine .trans (List.Perm.append_left _ (List.Perm.map _ ?_)) hp
      simp only [St.pending, ht, List.flatMap_append, List.flatMap_cons, task_idle, task_check, task_sleep, task_submit, List.nil_append, List.append_assoc,
        List.cons_append]
      refine List.Perm.append_left _ ?_
      rw [← List.append_assoc, ← List.append_assoc]
      exact List.perm_middle.trans (by simp)
    · intro hx
      have := hcr hx
      simpa [ht] using this
    · intro hx
      have := hr hx
      simpa [ht] using this
    · simp [ht] at hqu ⊢; omega
  | @take t q hq hcap =>
    have hn := h.nOpen
    have hp := h.perm
    have hqu := h.queue
    refine ⟨h.len, h.counter, h.base, ?_, ?_, h.crit, h.critR, ?_, ?_⟩
    · simp [St.pending, hq] at hn ⊢; omega
    · refine .trans (List.Perm.append_left _ (List.Perm.map _ ?_)) hp
      simp only [St.pending, hq, List.append_assoc, List.cons_append, List.nil_append]
      refine List.Perm.append_left _ ?_
      rw [← List.append_assoc]
      exact List.perm_middle.trans (by simp)
    · simp [hq] at hqu ⊢; omega
    · simp; omega
  | @finish a t b hq =>
    have hn := h.nOpen
    have hp := h.perm
    have hb := h.busy
    refine ⟨h.len, h.counter, h.base, ?_, ?_, h.crit, h.critR, h.queue, ?_⟩
    · simp [St.pending, hq] at hn ⊢; omega
    · refine .trans (List.Perm.append_left _ (List.Perm.map _ ?_)) hp
      simp only [St.pending, hq, List.append_assoc]
      refine List.Perm.append_left _ (List.Perm.append_left _ (List.Perm.append_left _ ?_))
      rw [← List.append_assoc, List.cons_append]
      refine (List.perm_append_singleton _ _).trans ?_
      simp
    · simp [hq] at hb ⊢; omega
  | @store a t b hq hl =>
    have hn := h.nOpen
    have hp := h.perm
    refine ⟨h.len, h.counter, h.base, ?_, ?_, h.crit, h.critR, h.queue, h.busy⟩
    · simp [St.pending, hq] at hn ⊢; omega
    · refine .trans ?_ hp
      simp only [St.pending, hq, List.map_append, List.map_cons, List.append_assoc, List.cons_append,
        List.nil_append]
      refine List.Perm.append_left _ ?_
      have := (List.perm_middle (a := entry cfg t)
        (l₁ := List.map (entry cfg) (List.flatMap Pc.task s.ts) ++ (List.map (entry cfg) s.queue ++
          (List.map (entry cfg) s.running ++ List.map (entry cfg) a))) (l₂ := List.map (entry cfg) b)).symm
      simpa only [List.append_assoc] using this
  | @get a b vs ht hl ho hv =>
    have hn := h.nOpen
    have hpe : s.pending = [] := List.length_eq_zero_iff.1 (by omega)
    have hpe' : ({ s with results := [], base := s.counter, log := s.log ++ [(s.base, s.counter, vs)] } :
        St D R C).pending = [] := hpe
    refine ⟨h.len, h.counter, Nat.le_refl _, ?_, ?_, h.crit, h.critR, h.queue, h.busy⟩
    · rw [hpe']; simpa using ho
    · rw [hpe']
      simp [h.counter, number]
  | @getRaise a b ht hl ho hv =>
    have hra : s.raised = false := by
      cases hx : s.raised
      · rfl
      · rw [hl] at hr; exact absurd (hr hx).1 (by decide)
    have hcr := h.crit hra
    have hn := h.nOpen
    have hpe : s.pending = [] := List.length_eq_zero_iff.1 (by omega)
    have hpe' : ({ s with results := [], base := s.counter, lock := true, raised := true } :
        St D R C).pending = [] := hpe
    refine ⟨h.len, h.counter, Nat.le_refl _, ?_, ?_, ?_, ?_, h.queue, h.busy⟩
    · rw [hpe']; simpa using ho
    · rw [hpe']
      simp [h.counter, number]
    · intro hx; simp at hx
    · intro _
      rw [hl] at hcr
      simpa using hcr

theorem reach_inv {cfg : Cfg D R C} {m : Nat} {s : St D R C} (h : Reach cfg m s) : Inv cfg m s := by
  unfold Reach at h
  induction h with
  | refl => exact inv_init cfg m
  | step _ hs ih => exact inv_step ih hs

/-! ## What `get_results` returns -/

theorem allKeys_some {l : List (Option R × Option Nat)} {ks : List (Nat × Option R)} (h : allKeys l = some ks) :
    ks.map Prod.snd = l.map Prod.fst ∧ ks.map (fun x => some x.1) = l.map Prod.snd := by
  induction l generalizing ks with
  | nil => simp only [allKeys, Option.some.injEq] at h; subst h; simp
  | cons e l ih =>
    obtain ⟨r, k⟩ := e
    cases k with
    | none => simp [allKeys] at h
    | some k =>
      simp only [allKeys, Option.map_eq_some_iff] at h
      obtain ⟨ks', h1, rfl⟩ := h
      have := ih h1
      simp [this]

theorem allKeys_none {l : List (Option R × Option Nat)} : allKeys l = none ↔ none ∈ l.map Prod.snd := by
  induction l with
  | nil => simp [allKeys]
  | cons e l ih =>
    obtain ⟨r, k⟩ := e
    cases k with
    | none => simp [allKeys]
    | some k => simp [allKeys, ih]

instance : Std.Total (fun a b : Nat × Option R => a.1 ≤ b.1) := ⟨fun a b => Nat.le_total a.1 b.1⟩
instance : IsTrans (Nat × Option R) (fun a b => a.1 ≤ b.1) := ⟨fun _ _ _ h1 h2 => Nat.le_trans h1 h2⟩

/-- What the container returns is a rearrangement of the stored results. -/
theorem take_perm {b : Bool} {l : List (Option R × Option Nat)} {vs : List (Option R)} (h : take b l = some vs) :
    vs.Perm (l.map Prod.fst) := by
  unfold take at h
  split at h
  · split at h
    · cases h
    · cases h; simp
    · simp only [Option.map_eq_some_iff] at h
      obtain ⟨ks, h1, rfl⟩ := h
      rw [← (allKeys_some h1).1]
      exact (List.perm_insertionSort _ _).map _
  · cases h; exact .refl _

theorem number_sorted (k : Nat) (l : List (D × C)) :
    (number k l).Pairwise (fun a b => a.idx < b.idx) ∧ ∀ t ∈ number k l, k < t.idx := by
  induction l generalizing k with
  | nil => simp [number]
  | cons x l ih =>
    have := ih (k + 1)
    simp only [number, List.pairwise_cons, List.mem_cons, forall_eq_or_imp]
    exact ⟨⟨fun t ht => this.2 t ht, this.1⟩, Nat.lt_succ_self k, fun t ht => by have := this.2 t ht; omega⟩

/-- With an ordered container the results are in the order of the task numbers. -/
theorem take_ordered (cfg : Cfg D R C) {l : List (Option R × Option Nat)} {vs : List (Option R)} {k : Nat}
    {ad : List (D × C)} (hp : l.Perm ((number k ad).map (entry cfg))) (h : take true l = some vs) :
    vs = ad.map fun x => cfg.call x.2 x.1 := by
  unfold take at h
  simp only [if_true] at h
  split at h
  · cases h
  · rename_i e
    cases h
    have := List.perm_singleton.1 hp.symm
    rw [← number_entry cfg k ad]
    have h2 := congrArg (List.map Prod.fst) this
    simpa [List.map_map, Function.comp_def] using h2.symm
  · simp only [Option.map_eq_some_iff] at h
    obtain ⟨ks, h1, rfl⟩ := h
    obtain ⟨ha, hb⟩ := allKeys_some h1
    -- the numbered results in the order of the tasks
    have hsome : ∀ t ∈ number k ad, entry cfg t = (cfg.call t.fn t.data, some t.idx) := by
      intro t ht
      have hm : (entry cfg t).2 ∈ l.map Prod.snd := by
        refine List.mem_map_of_mem ?_
        exact hp.mem_iff.2 (List.mem_map_of_mem ht)
      rw [← hb] at hm
      unfold entry at hm ⊢
      cases hc : cfg.call t.fn t.data with
      | none => rw [hc] at hm; simp at hm
      | some r => rfl
    have hks : l = ks.map fun x => (x.2, some x.1) := by
      clear hp hsome
      rename_i _ hz1 hz2
      clear hz1 hz2
      induction l generalizing ks with
      | nil => cases ks <;> simp_all
      | cons e l ih =>
        obtain ⟨r, i⟩ := e
        cases i with
        | none => simp [allKeys] at h1
        | some i =>
          simp only [allKeys, Option.map_eq_some_iff] at h1
          obtain ⟨ks', h1, rfl⟩ := h1
          obtain ⟨ha', hb'⟩ := allKeys_some h1
          have hi := ih _ h1 ha' hb'
          rw [List.map_cons, ← hi]
    let tgt : List (Nat × Option R) := (number k ad).map fun t => (t.idx, cfg.call t.fn t.data)
    have htgt : ks.Perm tgt := by
      have h3 : (ks.map fun x => ((x.2, some x.1) : Option R × Option Nat)).Perm
          (tgt.map fun x => ((x.2, some x.1) : Option R × Option Nat)) := by
        rw [← hks]
        refine hp.trans ?_
        rw [List.map_map]
        have : (number k ad).map (entry cfg) =
            (number k ad).map ((fun x : Nat × Option R => (x.2, some x.1)) ∘
              fun t => (t.idx, cfg.call t.fn t.data)) :=
          List.map_congr_left fun t ht => hsome t ht
        rw [this]
      have h4 := h3.map (fun x : Option R × Option Nat => (x.2.getD 0, x.1))
      simpa [List.map_map, Function.comp_def] using h4
    have hsort : ks.insertionSort (fun a b => a.1 ≤ b.1) = tgt := by
      refine List.Perm.eq_of_pairwise (le := fun a b : Nat × Option R => a.1 ≤ b.1) ?_
        (List.pairwise_insertionSort _ _) ?_ ((List.perm_insertionSort _ _).trans htgt)
      · intro x y hx hy h1 h2
        have hx' : x ∈ tgt := ((List.perm_insertionSort _ _).trans htgt).mem_iff.1 hx
        have hpw : tgt.Pairwise (fun a b => a.1 < b.1) := by
          rw [List.pairwise_map]
          exact (number_sorted k ad).1
        have hxy : x.1 = y.1 := Nat.le_antisymm h1 h2
        clear_value tgt
        clear hx h1 h2 htgt
        induction tgt with
        | nil => cases hx'
        | cons z l ih =>
          rw [List.pairwise_cons] at hpw
          rcases List.mem_cons.1 hx' with rfl | hx1
          · rcases List.mem_cons.1 hy with rfl | hy1
            · rfl
            · have := hpw.1 y hy1; omega
          · rcases List.mem_cons.1 hy with rfl | hy1
            · have := hpw.1 x hx1; omega
            · exact ih hy1 hx1 hpw.2
      · rw [List.pairwise_map]
        exact (number_sorted k ad).1.imp fun h => Nat.le_of_lt h
    rw [hsort]
    have : tgt.map Prod.snd = (number k ad).map fun t => (entry cfg t).1 := by
      rw [List.map_map]
      exact List.map_congr_left fun t _ => (entry_fst cfg t).symm
    rw [this, number_entry]

theorem outcomes_stable (cfg : Cfg D R C) (ad x : List (D × C)) (lo hi : Nat) (h : hi ≤ ad.length) :
    Outcomes cfg (ad ++ x) lo hi = Outcomes cfg ad lo hi := by
  unfold Outcomes
  rw [List.take_append_of_le_length h]

theorem outcomes_full (cfg : Cfg D R C) (ad : List (D × C)) (lo : Nat) :
    Outcomes cfg ad lo ad.length = (ad.drop lo).map fun x => cfg.call x.2 x.1 := by
  unfold Outcomes
  rw [List.take_length]

/-- C300: in every execution, whatever threads add tasks and however the workers interleave, every list that
`get_results` returned consists of the outcomes of exactly the tasks that were added since the previous call (a task
that raised counts as `None`), each once; with an ordered container they are in the order of the tasks. -/
theorem pp_results {cfg : Cfg D R C} {m : Nat} {s : St D R C} (h : Reach cfg m s)
    {lo hi : Nat} {vs : List (Option R)} (he : (lo, hi, vs) ∈ s.log) :
    lo ≤ hi ∧ hi ≤ s.added.length ∧ vs.Perm (Outcomes cfg s.added lo hi) ∧
      (cfg.ordered = true → vs = Outcomes cfg s.added lo hi) := by
  unfold Reach at h
  induction h with
  | refl => simp [init] at he
  | @step t u hr hs ih =>
    have hi' := reach_inv (cfg := cfg) (m := m) hr
    cases hs with
    | @add a b d co c ht hl hc =>
      obtain ⟨h1, h2, h3, h4⟩ := ih he
      simp only
      rw [outcomes_stable cfg _ _ _ _ h2]
      refine ⟨h1, ?_, h3, h4⟩
      simp; omega
    | @get a b vs' ht hl ho hv =>
      simp only [List.mem_append, List.mem_singleton, Prod.mk.injEq] at he
      rcases he with he | ⟨rfl, rfl, rfl⟩
      · exact ih he
      · have hp := hi'.perm
        have hn := hi'.nOpen
        have hpe : t.pending = [] := List.length_eq_zero_iff.1 (by omega)
        rw [hpe, List.map_nil, List.append_nil] at hp
        refine ⟨hi'.base, Nat.le_of_eq hi'.counter, ?_, ?_⟩
        · simp only [hi'.counter]
          rw [outcomes_full]
          refine (take_perm hv).trans ?_
          have := hp.map Prod.fst
          rw [List.map_map] at this
          rw [← number_entry cfg t.base]
          exact this
        · intro hor
          simp only [hi'.counter]
          rw [outcomes_full]
          rw [hor] at hv
          exact take_ordered cfg hp hv
    | _ => exact ih he

/-- C300: the calls of `get_results` cover the tasks without a gap: each begins where the previous one ended. -/
theorem pp_results_contiguous {cfg : Cfg D R C} {m : Nat} {s : St D R C} (h : Reach cfg m s)
    (hnr : s.raised = false) :
    (s.log.map (·.1)) ++ [s.base] = 0 :: s.log.map (·.2.1) := by
  unfold Reach at h
  induction h with
  | refl => rfl
  | @step t u hr hs ih =>
    have hra : t.raised = false := by
      cases hs <;> first | exact hnr | (simp at hnr)
    have := ih hra
    cases hs with
    | get ht hl ho hv =>
      simp only [List.map_append, List.map_cons, List.map_nil]
      rw [← List.cons_append, ← this]
    | _ => first | exact this | (simp at hnr)

/-- C300: the number of open tasks is the number of added tasks whose result is neither stored nor returned; it is
zero exactly when all results since the last call are stored. -/
theorem pp_open_tasks {cfg : Cfg D R C} {m : Nat} {s : St D R C} (h : Reach cfg m s) :
    s.nOpen + s.results.length + s.base = s.added.length := by
  have hi := reach_inv h
  have h1 := hi.perm.length_eq
  have h2 := hi.nOpen
  have h3 := hi.base
  have h4 := hi.counter
  simp only [List.length_append, List.length_map, number_length, List.length_drop] at h1
  omega

/-! ## The queue -/

/-- C301: when `m` threads add tasks the queue of the server never holds more than `max_queue_length + m` tasks, and
no more than `ncpus` tasks run at a time. -/
theorem pp_queue_bound {cfg : Cfg D R C} {m : Nat} {s : St D R C} (h : Reach cfg m s) :
    s.queue.length ≤ cfg.maxQueue + m ∧ s.running.length ≤ cfg.ncpus := by
  have hi := reach_inv h
  exact ⟨Nat.le_trans (Nat.le_add_right _ _) hi.queue, hi.busy⟩

/-- C301: as long as no method has raised, an execution with open tasks can always go on without any further call:
some thread in `add_task`, a worker or a callback has a step to make. -/
theorem pp_progress {cfg : Cfg D R C} {m : Nat} {s : St D R C} (h : Reach cfg m s) (hnr : s.raised = false)
    (hc : 0 < cfg.ncpus) (ho : 0 < s.nOpen) :
    ∃ s', Step cfg s s' ∧ s'.added = s.added ∧ s'.log = s.log ∧ s'.raised = false := by
  have hi := reach_inv h
  have hn := hi.nOpen
  cases hl : s.lock with
  | true =>
    have hcr := hi.crit hnr
    rw [hl] at hcr
    have hex : ∃ p ∈ s.ts, Pc.crit p = 1 := by
      refine Decidable.byContradiction fun hne => ?_
      have hz : ∀ l : List (Pc D C), (∀ p ∈ l, Pc.crit p ≠ 1) → (l.map Pc.crit).sum = 0 := by
        intro l hl
        induction l with
        | nil => rfl
        | cons p l ih =>
          have h1 := hl p (by simp)
          have h2 := ih fun q hq => hl q (by simp [hq])
          cases p <;> simp_all
      have hz := hz s.ts fun p hp h => hne ⟨p, hp, h⟩
      rw [hz] at hcr
      simp at hcr
    obtain ⟨p, hp, hcp⟩ := hex
    cases p with
    | check t =>
      obtain ⟨a, b, hab⟩ := List.append_of_mem hp
      by_cases hq : s.queue.length ≤ cfg.maxQueue
      · exact ⟨_, .room hab hq, rfl, rfl, hnr⟩
      · exact ⟨_, .full hab (by omega), rfl, rfl, hnr⟩
    | _ => simp  at hcp
  | false =>
    cases hcb : s.callbacks with
    | cons t b => exact ⟨_, .store (a := []) hcb hl, rfl, rfl, hnr⟩
    | nil =>
      cases hru : s.running with
      | cons t b => exact ⟨_, .finish (a := []) hru, rfl, rfl, hnr⟩
      | nil =>
        cases hq : s.queue with
        | cons t q => exact ⟨_, .take hq (by rw [hru]; exact hc), rfl, rfl, hnr⟩
        | nil =>
          have hne : s.ts.flatMap Pc.task ≠ [] := by
            intro h0
            simp [St.pending, hcb, hru, hq, h0] at hn
            omega
          obtain ⟨t, ht⟩ := List.exists_mem_of_ne_nil _ hne
          obtain ⟨p, hp, htp⟩ := List.mem_flatMap.1 ht
          obtain ⟨a, b, hab⟩ := List.append_of_mem hp
          cases p with
          | idle => simp  at htp
          | check t =>
            exact ⟨_, .room hab (by simp [hq]), rfl, rfl, hnr⟩
          | sleep t => exact ⟨_, .wake hab hl, rfl, rfl, hnr⟩
          | submit t => exact ⟨_, .submit hab, rfl, rfl, hnr⟩

/-! ## Failures -/

/-- What one expects: with an ordered container too, a call of `get_results` that has tasks to wait for gives
their results. -/
def OrderedGives (cfg : Cfg D R C) (m : Nat) : Prop :=
  ∀ s : St D R C, Reach cfg m s → s.nOpen = 0 → s.lock = false → s.results ≠ [] →
    ∃ vs, take cfg.ordered s.results = some vs

/-- C302: with an ordered container a failed task among two or more makes `get_results` raise, and whatever
happens afterwards no call adds a task, stores a result or returns results again. -/
theorem pp_failed_task_blocks {cfg : Cfg D R C} {m : Nat} {s s' : St D R C} (h : Reach cfg m s)
    (hor : cfg.ordered = true) (hn : s.nOpen = 0)
    (h2 : s.base + 2 ≤ s.added.length) (hf : none ∈ Outcomes cfg s.added s.base s.added.length)
    (hs : Step cfg s s') (hget : s'.base ≠ s.base) :
    s'.raised = true ∧ s'.log = s.log ∧
      ∀ u, Steps cfg s' u → u.lock = true ∧ u.added = s.added ∧ u.log = s.log ∧ u.results = [] := by
  have hi := reach_inv h
  have hpe : s.pending = [] := List.length_eq_zero_iff.1 (by have := hi.nOpen; omega)
  have hp := hi.perm
  rw [hpe, List.map_nil, List.append_nil] at hp
  rw [outcomes_full] at hf
  have hlen : 2 ≤ s.results.length := by
    have := hp.length_eq
    simp only [List.length_map, number_length, List.length_drop] at this
    omega
  have hnone : none ∈ s.results.map Prod.snd := by
    rw [← number_entry cfg s.base] at hf
    obtain ⟨t, ht, hte⟩ := List.mem_map.1 hf
    refine List.mem_map.2 ⟨entry cfg t, hp.mem_iff.2 (List.mem_map_of_mem ht), ?_⟩
    rw [entry_fst] at hte
    simp [entry, hte]
  have htake : take cfg.ordered s.results = none := by
    rw [hor]
    unfold take
    simp only [if_true]
    split
    · rfl
    · rename_i he; rw [he] at hlen; simp at hlen
    · rw [allKeys_none.2 hnone]; rfl
  have hrs : Reach cfg m s' := Steps.step h hs
  cases hs with
  | get ht hl ho hv => rw [htake] at hv; cases hv
  | getRaise ht hl ho hv =>
    refine ⟨rfl, rfl, ?_⟩
    intro u hu
    have key : Reach cfg m u ∧ u.raised = true ∧ u.added = s.added ∧ u.log = s.log ∧ u.results = [] := by
      induction hu with
      | refl => exact ⟨hrs, rfl, rfl, rfl, rfl⟩
      | @step x y hx hxy ih =>
        obtain ⟨h1, h3, h4, h5, h6⟩ := ih
        have hlx := ((reach_inv h1).critR h3)
        have hr' : Reach cfg m y := Steps.step h1 hxy
        cases hxy with
        | submit _ => exact ⟨hr', h3, h4, h5, h6⟩
        | take _ _ => exact ⟨hr', h3, h4, h5, h6⟩
        | finish _ => exact ⟨hr', h3, h4, h5, h6⟩
        | full ht _ => have := hlx.2; rw [ht] at this; simp  at this
        | room ht _ => have := hlx.2; rw [ht] at this; simp  at this
        | _ => simp_all
    exact ⟨((reach_inv key.1).critR key.2.1).1, key.2.2.1, key.2.2.2.1, key.2.2.2.2⟩
  | _ => exact absurd rfl hget

/-! ### Examples -/

/-- Squares natural numbers, raises for 7. -/
def exCfg (ordered : Bool) : Cfg Nat Nat Unit :=
  { maxQueue := 1, ncpus := 2, ordered := ordered, call := fun _ d => if d = 7 then none else some (d * d) }

/-- Two tasks, the second one fails; the results are in the reverse order. -/
def exSt (ordered : Bool) : St Nat Nat Unit :=
  { (init 1 : St Nat Nat Unit) with
    counter := 2, last := some (), results := [(none, none), (some 9, some 1)], added := [(3, ()), (7, ())] }

theorem exSt_reach (b : Bool) : Reach (exCfg b) 1 (exSt b) := by
  have h0 : 0 ≤ (exCfg b).maxQueue := Nat.zero_le _
  have h1 : 0 < (exCfg b).ncpus := Nat.succ_pos 1
  have h2 : 1 < (exCfg b).ncpus := Nat.lt_succ_self 1
  refine .step (.step (.step (.step (.step (.step (.step (.step (.step (.step (.step (.step .refl
    (.add (a := []) (b := []) (d := 3) (co := some ()) (c := ()) rfl rfl (.inl rfl)))
    (.room (a := []) (b := []) rfl h0))
    (.submit (a := []) (b := []) rfl))
    (.take (t := ⟨1, 3, ()⟩) (q := []) rfl h1))
    (.add (a := []) (b := []) (d := 7) (co := none) (c := ()) rfl rfl (.inr ⟨rfl, rfl⟩)))
    (.room (a := []) (b := []) rfl h0))
    (.submit (a := []) (b := []) rfl))
    (.take (t := ⟨2, 7, ()⟩) (q := []) rfl h2))
    (.finish (a := [⟨1, 3, ()⟩]) (t := ⟨2, 7, ()⟩) (b := []) rfl))
    (.store (a := []) (t := ⟨2, 7, ()⟩) (b := []) rfl rfl))
    (.finish (a := []) (t := ⟨1, 3, ()⟩) (b := []) rfl))
    (.store (a := []) (t := ⟨1, 3, ()⟩) (b := []) rfl rfl)

/-- C302: the claim is false: a reachable state without open tasks from which `get_results` raises. -/
theorem pp_ordered_gives_false : ¬ OrderedGives (exCfg true) 1 := by
  intro h
  obtain ⟨vs, hv⟩ := h _ (exSt_reach true) rfl rfl (by simp [exSt])
  simp [exSt, take, exCfg, allKeys] at hv

/-- C302: with the default container of the adaptor no failure makes `get_results` raise. -/
theorem pp_list_gives {cfg : Cfg D R C} (hor : cfg.ordered = false) (l : List (Option R × Option Nat)) :
    take cfg.ordered l = some (l.map Prod.fst) := by
  rw [hor]
  rfl

example : ∃ s', Step (exCfg false) (exSt false) s' ∧ s'.log = [(0, 2, [none, some 9])] :=
  ⟨_, .get (a := []) (b := []) rfl rfl rfl rfl, rfl⟩
example : ∃ s', Step (exCfg true) (exSt true) s' ∧ s'.base ≠ (exSt true).base ∧ s'.raised = true :=
  ⟨_, .getRaise (a := []) (b := []) rfl rfl rfl rfl, by decide, rfl⟩
example : Outcomes (exCfg true) (exSt true).added 0 2 = [some 9, none] := by decide

end Mdp.PP
