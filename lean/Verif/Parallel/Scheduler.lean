/-!
# Model of the schedulers (parallel/scheduling.py, thread_schedule.py, process_schedule.py)

Any number of client threads use one scheduler object; the scheduler starts a thread per task. The model is a
transition system: a state is the object's fields together with the program counter of every thread, a step
lets one thread go on. Every interleaving of steps is an execution.

Granularity: acquiring the lock is one step, the statements up to releasing it are one step where all the
fields they touch are only used with the lock held; the one exception, `_last_callable_index`, is read by the
task threads of `ProcessScheduler` without the lock, and is written last.

Simplifications:
* callables are deterministic functions that return a value or raise; `fork`, deep copies and
  `setup_environment` do not change what they compute;
* a thread can always be started (the retry branches thread_schedule.py:77-81 and process_schedule.py:160-164 are not modelled), pickling never fails, and a worker process dies only by an exception
  in a task or by `shutdown`;
* `verbose` output is not modelled; sleeping is an arbitrary delay.
-/

namespace Mdp.Sched

/-- The scheduler class: `Scheduler`, `ThreadScheduler(n_threads)`, `ProcessScheduler(n_processes,
cache_callable)`. -/
inductive Kind where
  | base
  | thread (n : Int)
  | process (n : Nat) (cached : Bool)
deriving DecidableEq

/-- A scheduler with its result container (`OrderedResultContainer` or `ListResultContainer`), and what
callables compute; `none` is an exception. -/
structure Cfg (D R C : Type) where
  kind : Kind
  ordered : Bool
  call : C → D → Option R

/-- One return of `get_results`: its value, and how many tasks had been submitted by then. -/
structure Ret (R : Type) where
  upto : Nat
  vals : List R
deriving DecidableEq

/-- Fields of the scheduler, its result container and its worker processes, and (`given` and below) a
record of what happened that the program does not look at: `given` are the callables passed by the user,
`submitted` the data of the tasks with the callable they are meant for. Callable indices are doubled. -/
structure Sh (D R C : Type) where
  lock : Bool
  nOpen : Int
  counter : Nat
  last : Option C
  lastIdx : Int
  results : List (R × Nat)
  nActive : Int
  free : List Nat
  tag : Nat → Int
  cache : Nat → Option C
  alive : Nat → Bool
  given : List C
  submitted : List (D × Option C)
  stored : List (R × Nat)
  failed : List Nat
  log : List (Ret R)
  raised : Bool

/-- What a thread does after `_store_result`. -/
inductive Next where
  | client
  | thread
  | proc (p : Nat)

/-- Program counter of a thread. -/
inductive Pc (D R C : Type) where
  /-- a client between two calls -/
  | idle
  | addAcq (d : D) (c : Option C)
  | addBody (d : D) (c : Option C)
  | setAcq (c : C)
  | setBody (c : C)
  | getAcq
  | getBody
  | shutAcq
  | shutBody
  /-- in `_process_task`, with the lock -/
  | proc (d : D) (c : C) (k : Nat)
  /-- asleep in `_process_task`, without the lock -/
  | procWait (d : D) (c : C) (k : Nat)
  /-- about to start the thread of a task -/
  | start (d : D) (c : C) (k : Nat)
  | startP (p : Nat) (d : D) (c : C) (k : Nat)
  /-- base class: about to release the lock after the call -/
  | rel (r : R) (k : Nat)
  | stAcq (r : R) (k : Nat) (n : Next)
  | stBody (r : R) (k : Nat) (n : Next)
  /-- a task thread of `ThreadScheduler` -/
  | work (d : D) (c : C) (k : Nat)
  | dec
  /-- a task thread of `ProcessScheduler` -/
  | cmp (p : Nat) (d : D) (c : C) (k : Nat)
  | retag (p : Nat) (d : D) (c : C) (k : Nat)
  | send (p : Nat) (d : D) (c : Option C) (k : Nat)
  | freeP (p : Nat)
  | dead

def Next.pc {D R C : Type} : Next → Pc D R C
  | .client => .idle
  | .thread => .dec
  | .proc p => .freeP p

/-- `get_results` of the result container (scheduling.py:41-49, 71-76); `none` is the IndexError for an empty
`OrderedResultContainer`. `list.sort` is stable. -/
def takeResults {R : Type} (ordered : Bool) (l : List (R × Nat)) : Option (List R) :=
  if ordered then
    if l.isEmpty then none else some ((l.mergeSort fun a b => decide (a.2 ≤ b.2)).map (·.1))
  else some (l.map (·.1))

/-- The callable a worker process uses for a task (process_schedule.py:223-235); `none`: there is none. -/
def effective {C : Type} (sent cached : Option C) : Option C := sent.or cached

variable {D R C : Type}

/-- A step of one thread: fields and program counter before and after, and the threads it started. -/
inductive TStep (cfg : Cfg D R C) : Sh D R C → Pc D R C → Sh D R C → Pc D R C → List (Pc D R C) → Prop
  /- calls of the user -/
  | callAdd (s d c) : TStep cfg s .idle s (.addAcq d c) []
  | callSet (s c) : TStep cfg s .idle s (.setAcq c) []
  | callGet (s) : TStep cfg s .idle s .getAcq []
  | callShut (s) (n b) (h : cfg.kind = .process n b) : TStep cfg s .idle s .shutAcq []
  /- `add_task` (scheduling.py:248-266) -/
  | addAcq (s d c) (h : s.lock = false) : TStep cfg s (.addAcq d c) { s with lock := true } (.addBody d c) []
  | addRaise (s d) (h : s.last = none) : TStep cfg s (.addBody d none) { s with raised := true } .idle []
  | addOld (s d c) (h : s.last = some c) : TStep cfg s (.addBody d none)
      { s with nOpen := s.nOpen + 1, counter := s.counter + 1,
               submitted := s.submitted ++ [(d, s.given.getLast?)] }
      (.proc d c (s.counter + 1)) []
  | addNew (s d c) : TStep cfg s (.addBody d (some c))
      { s with nOpen := s.nOpen + 1, counter := s.counter + 1, submitted := s.submitted ++ [(d, some c)],
               given := s.given ++ [c], last := some c, lastIdx := 2 * (s.counter + 1) } (.proc d c (s.counter + 1)) []
  /- `set_task_callable` (277-282) -/
  | setAcq (s c) (h : s.lock = false) : TStep cfg s (.setAcq c) { s with lock := true } (.setBody c) []
  | setBody (s c) : TStep cfg s (.setBody c)
      { s with last := some c, lastIdx := 2 * s.counter + 1, given := s.given ++ [c], lock := false } .idle []
  /- `get_results` (307-315) -/
  | getAcq (s) (h : s.lock = false) : TStep cfg s .getAcq { s with lock := true } .getBody []
  | getOpen (s) (h : s.nOpen ≠ 0) : TStep cfg s .getBody { s with lock := false } .getAcq []
  | getOk (s vs) (h : s.nOpen = 0) (hv : takeResults cfg.ordered s.results = some vs) : TStep cfg s .getBody
      { s with results := [], lock := false, log := s.log ++ [⟨s.counter, vs⟩] } .idle []
  | getRaise (s) (h : s.nOpen = 0) (hv : takeResults cfg.ordered s.results = none) : TStep cfg s .getBody
      { s with results := [], raised := true } .idle []
  /- `_shutdown` of `ProcessScheduler` (process_schedule.py:128-134); writing to a dead process raises -/
  | shutAcq (s) (h : s.lock = false) : TStep cfg s .shutAcq { s with lock := true } .shutBody []
  | shutRaise (s n b) (hk : cfg.kind = .process n b) (h : s.free.length < n ∨ ∃ p ∈ s.free, s.alive p = false) :
      TStep cfg s .shutBody { s with raised := true } .idle []
  | shutOk (s n b) (hk : cfg.kind = .process n b) (h : n ≤ s.free.length)
      (ha : ∀ p ∈ s.free, s.alive p = true) :
      TStep cfg s .shutBody { s with lock := false, alive := fun _ => false } .idle []
  /- `Scheduler._process_task` (scheduling.py:353-358) -/
  | runOk (s d c k r) (hk : cfg.kind = .base) (h : cfg.call c d = some r) :
      TStep cfg s (.proc d c k) s (.rel r k) []
  | runRaise (s d c k) (hk : cfg.kind = .base) (h : cfg.call c d = none) :
      TStep cfg s (.proc d c k) { s with raised := true, failed := s.failed ++ [k] } .idle []
  | rel (s r k) : TStep cfg s (.rel r k) { s with lock := false } (.stAcq r k .client) []
  /- `_store_result` (292-300) -/
  | stAcq (s r k n) (h : s.lock = false) : TStep cfg s (.stAcq r k n) { s with lock := true } (.stBody r k n) []
  | stBody (s r k n) : TStep cfg s (.stBody r k n)
      { s with results := s.results ++ [(r, k)], stored := s.stored ++ [(r, k)], nOpen := s.nOpen - 1,
               lock := false } n.pc []
  /- `ThreadScheduler._process_task` (thread_schedule.py:55-76), `_task_thread` (83-87) -/
  | thFull (s d c k n) (hk : cfg.kind = .thread n) (h : n ≤ s.nActive) :
      TStep cfg s (.proc d c k) { s with lock := false } (.procWait d c k) []
  | thGo (s d c k n) (hk : cfg.kind = .thread n) (h : s.nActive < n) :
      TStep cfg s (.proc d c k) { s with lock := false } (.start d c k) []
  | wake (s d c k) (h : s.lock = false) : TStep cfg s (.procWait d c k) { s with lock := true } (.proc d c k) []
  | start (s d c k) : TStep cfg s (.start d c k) s .idle [.work d c k]
  | workOk (s d c k r) (h : cfg.call c d = some r) : TStep cfg s (.work d c k) s (.stAcq r k .thread) []
  | workRaise (s d c k) (h : cfg.call c d = none) :
      TStep cfg s (.work d c k) { s with failed := s.failed ++ [k] } .dead []
  | dec (s) : TStep cfg s .dec { s with nActive := s.nActive - 1 } .dead []
  /- `ProcessScheduler._process_task` (process_schedule.py:144-159) -/
  | prFull (s d c k n b) (hk : cfg.kind = .process n b) (h : s.free = []) :
      TStep cfg s (.proc d c k) { s with lock := false } (.procWait d c k) []
  | prGo (s d c k n b fs p) (hk : cfg.kind = .process n b) (h : s.free = fs ++ [p]) :
      TStep cfg s (.proc d c k) { s with lock := false, free := fs } (.startP p d c k) []
  | startP (s p d c k n b) (hk : cfg.kind = .process n b) : TStep cfg s (.startP p d c k) s .idle
      [if b then .cmp p d c k else .send p d (some c) k]
  /- `_task_thread` (174-179); the index is read twice -/
  | cmpNew (s p d c k) (h : s.tag p < s.lastIdx) : TStep cfg s (.cmp p d c k) s (.retag p d c k) []
  | cmpOld (s p d c k) (h : s.lastIdx ≤ s.tag p) : TStep cfg s (.cmp p d c k) s (.send p d none k) []
  | retag (s p d c k) : TStep cfg s (.retag p d c k)
      { s with tag := fun q => if q = p then s.lastIdx else s.tag q } (.send p d (some c) k) []
  /- the exchange with the process (181-192, 214-249): a result arrives, or the process is or becomes dead -/
  | sendFail (s p d co k)
      (h : s.alive p = false ∨ (effective co (s.cache p)).bind (fun c => cfg.call c d) = none) :
      TStep cfg s (.send p d co k) { s with alive := fun q => if q = p then false else s.alive q,
                                            failed := s.failed ++ [k], free := s.free ++ [p] } .dead []
  | sendOk (s p d co k c r n b) (hk : cfg.kind = .process n b) (ha : s.alive p = true)
      (hc : effective co (s.cache p) = some c) (hr : cfg.call c d = some r) :
      TStep cfg s (.send p d co k)
        { s with cache := fun q => if q = p ∧ b = true then effective co (s.cache p) else s.cache q }
        (.stAcq r k (.proc p)) []
  | freeP (s p) : TStep cfg s (.freeP p) { s with free := s.free ++ [p] } .dead []

/-- A state: the object and all threads. -/
structure St (D R C : Type) where
  sh : Sh D R C
  ts : List (Pc D R C)

/-- One step of one thread; the threads it starts are new. -/
inductive Step (cfg : Cfg D R C) : St D R C → St D R C → Prop
  | mk {s s' : Sh D R C} {pc pc' : Pc D R C} {sp : List (Pc D R C)} (a b : List (Pc D R C))
      (h : TStep cfg s pc s' pc' sp) : Step cfg ⟨s, a ++ pc :: b⟩ ⟨s', a ++ pc' :: (b ++ sp)⟩

/-- Number of worker processes. -/
def Kind.nproc : Kind → Nat
  | .process n _ => n
  | _ => 0

/-- A new scheduler (scheduling.py:209-219, process_schedule.py:85-118) used by `m` client threads. -/
def initSt (cfg : Cfg D R C) (m : Nat) : St D R C :=
  ⟨{ lock := false, nOpen := 0, counter := 0, last := none, lastIdx := -2, results := [], nActive := 0,
     free := List.range cfg.kind.nproc, tag := fun _ => -2, cache := fun _ => none, alive := fun _ => true,
     given := [], submitted := [], stored := [], failed := [], log := [], raised := false }, List.replicate m .idle⟩

/-- The states of all executions. -/
inductive Reach (cfg : Cfg D R C) (m : Nat) : St D R C → Prop
  | init : Reach cfg m (initSt cfg m)
  | step {s s'} (h : Reach cfg m s) (hs : Step cfg s s') : Reach cfg m s'

end Mdp.Sched
