import Verif.Parallel.SchedProps

/-! # Worker processes: who uses them, and which callable they run (C41, C75) -/

namespace Mdp.Sched

variable {D R C : Type}

def Next.owns : Next → List Nat
  | .proc p => [p]
  | _ => []

/-- The worker process a thread uses. -/
def Pc.owns : Pc D R C → List Nat
  | .startP p _ _ _ | .cmp p _ _ _ | .retag p _ _ _ | .send p _ _ _ | .freeP p => [p]
  | .stAcq _ _ n | .stBody _ _ n => n.owns
  | _ => []

section
variable (d : D) (c : C) (co : Option C) (k p : Nat) (r : R) (n : Next)

@[simp] theorem owns_idle : (Pc.idle : Pc D R C).owns = [] := rfl
@[simp] theorem owns_addAcq : (Pc.addAcq d co : Pc D R C).owns = [] := rfl
@[simp] theorem owns_addBody : (Pc.addBody d co : Pc D R C).owns = [] := rfl
@[simp] theorem owns_setAcq : (Pc.setAcq c : Pc D R C).owns = [] := rfl
@[simp] theorem owns_setBody : (Pc.setBody c : Pc D R C).owns = [] := rfl
@[simp] theorem owns_getAcq : (Pc.getAcq : Pc D R C).owns = [] := rfl
@[simp] theorem owns_getBody : (Pc.getBody : Pc D R C).owns = [] := rfl
@[simp] theorem owns_shutAcq : (Pc.shutAcq : Pc D R C).owns = [] := rfl
@[simp] theorem owns_shutBody : (Pc.shutBody : Pc D R C).owns = [] := rfl
@[simp] theorem owns_proc : (Pc.proc d c k : Pc D R C).owns = [] := rfl
@[simp] theorem owns_procWait : (Pc.procWait d c k : Pc D R C).owns = [] := rfl
@[simp] theorem owns_start : (Pc.start d c k : Pc D R C).owns = [] := rfl
@[simp] theorem owns_startP : (Pc.startP p d c k : Pc D R C).owns = [p] := rfl
@[simp] theorem owns_rel : (Pc.rel r k : Pc D R C).owns = [] := rfl
@[simp] theorem owns_stAcq : (Pc.stAcq r k n : Pc D R C).owns = n.owns := rfl
@[simp] theorem owns_stBody : (Pc.stBody r k n : Pc D R C).owns = n.owns := rfl
@[simp] theorem owns_work : (Pc.work d c k : Pc D R C).owns = [] := rfl
@[simp] theorem owns_dec : (Pc.dec : Pc D R C).owns = [] := rfl
@[simp] theorem owns_cmp : (Pc.cmp p d c k : Pc D R C).owns = [p] := rfl
@[simp] theorem owns_retag : (Pc.retag p d c k : Pc D R C).owns = [p] := rfl
@[simp] theorem owns_send : (Pc.send p d co k : Pc D R C).owns = [p] := rfl
@[simp] theorem owns_freeP : (Pc.freeP p : Pc D R C).owns = [p] := rfl
@[simp] theorem owns_dead : (Pc.dead : Pc D R C).owns = [] := rfl
@[simp] theorem owns_next : (n.pc : Pc D R C).owns = n.owns := by cases n <;> rfl
@[simp] theorem owns_ite (b : Bool) (x y : Pc D R C) :
    (if b = true then x else y).owns = if b then x.owns else y.owns := by cases b <;> rfl

end

theorem tstep_owns {cfg : Cfg D R C} {s s' : Sh D R C} {pc pc' : Pc D R C} {sp : List (Pc D R C)}
    (h : TStep cfg s pc s' pc' sp) (j : Nat) :
    s'.free.count j + pc'.owns.count j + (sp.flatMap Pc.owns).count j = s.free.count j + pc.owns.count j := by
  cases h
  case prGo => simp_all [List.count_append]
  all_goals simp [List.count_append, Next.owns]

/-- Every worker process is free or used by one thread. -/
theorem reach_owns {cfg : Cfg D R C} {m : Nat} {s : St D R C} (h : Reach cfg m s) :
    (s.sh.free ++ s.ts.flatMap Pc.owns).Perm (List.range cfg.kind.nproc) := by
  induction h with
  | init =>
    have : (List.replicate m (Pc.idle : Pc D R C)).flatMap Pc.owns = [] := by
      rw [List.flatMap_eq_nil_iff]
      intro q hq
      rw [List.eq_of_mem_replicate hq]
      rfl
    simp only [initSt, this, List.append_nil]
    exact .refl _
  | step _ hs ih =>
    refine .trans ?_ ih
    cases hs with
    | mk a b ht =>
      rw [List.perm_iff_count]
      intro j
      have := tstep_owns ht j
      simp [List.count_append]
      omega

/-- A worker process is computing. -/
def Pc.busy : Pc D R C → Bool
  | .send .. => true
  | _ => false

/-- C75: at no moment of any execution of a process scheduler are more than `n_processes` tasks in worker
processes, and no process has two of them. -/
theorem process_limit {cfg : Cfg D R C} {m n : Nat} {b : Bool} {s : St D R C} (h : Reach cfg m s)
    (hk : cfg.kind = .process n b) :
    s.ts.countP Pc.busy ≤ n ∧ ((s.ts.filter Pc.busy).flatMap Pc.owns).Nodup := by
  have hp := reach_owns h
  rw [hk] at hp
  have hsub : ((s.ts.filter Pc.busy).flatMap Pc.owns).Sublist (s.ts.flatMap Pc.owns) := by
    generalize s.ts = ts
    induction ts with
    | nil => simp
    | cons q ts ih =>
      rw [List.filter_cons]
      split
      · simpa using ih
      · simpa using ih.trans (List.sublist_append_right _ _)
  have hlen : ∀ ts : List (Pc D R C), ts.countP Pc.busy = ((ts.filter Pc.busy).flatMap Pc.owns).length := by
    intro ts
    induction ts with
    | nil => rfl
    | cons q ts ih =>
      cases q <;> simp [List.countP_cons, List.filter_cons, Pc.busy] <;> simpa using ih
  have h1 := hp.length_eq
  have h2 := hsub.length_le
  simp only [List.length_append, Kind.nproc, List.length_range] at h1
  refine ⟨by rw [hlen]; omega, ?_⟩
  have : (s.sh.free ++ s.ts.flatMap Pc.owns).Nodup := hp.nodup_iff.2 List.nodup_range
  exact (List.nodup_append.1 this).2.1.sublist hsub

/-! ## Which callable a task is computed with -/

/-- The scheduler caches callables in its worker processes. -/
def cacheOn (cfg : Cfg D R C) : Prop := ∃ n, cfg.kind = .process n true

/-- Task `k` was submitted with this data, and this callable was given with it or last before it. -/
def TaskIs (s : Sh D R C) (k : Nat) (d : D) (c : C) : Prop := 1 ≤ k ∧ s.submitted[k - 1]? = some (d, some c)

/-- `r` is what the callable of task `k` gives for the data of task `k`. -/
def RightResult (cfg : Cfg D R C) (s : Sh D R C) (r : R) (k : Nat) : Prop :=
  ∃ d c, TaskIs s k d c ∧ cfg.call c d = some r

def Pre (cfg : Cfg D R C) (s : Sh D R C) (d : D) (c : C) (k : Nat) : Prop :=
  TaskIs s k d c ∧ (cacheOn cfg → s.last = some c)

def Fresh (cfg : Cfg D R C) (e : Int) (s : Sh D R C) (p : Nat) : Prop :=
  cacheOn cfg → s.alive p = true → e ≤ s.tag p → s.cache p = s.last

def PcOK (cfg : Cfg D R C) (e : Int) (s : Sh D R C) : Pc D R C → Prop
  | .proc d c k | .procWait d c k | .start d c k | .work d c k => Pre cfg s d c k
  | .startP p d c k | .retag p d c k => Pre cfg s d c k ∧ Fresh cfg e s p
  | .cmp p d c k => (Pre cfg s d c k ∧ Fresh cfg e s p) ∧ cacheOn cfg
  | .send p d co k => ∃ c, Pre cfg s d c k ∧
      (co = some c ∨ (cacheOn cfg ∧ co = none ∧ (s.alive p = true → s.cache p = some c)))
  | .rel r k => RightResult cfg s r k
  | .stAcq r k n | .stBody r k n => RightResult cfg s r k ∧ ∀ p ∈ n.owns, Fresh cfg e s p
  | .freeP p => Fresh cfg e s p
  | _ => True

structure Val (cfg : Cfg D R C) (e : Int) (s : St D R C) : Prop where
  pcs : ∀ q ∈ s.ts, PcOK cfg e s.sh q
  free : ∀ p ∈ s.sh.free, Fresh cfg e s.sh p
  stored : ∀ x ∈ s.sh.stored, RightResult cfg s.sh x.1 x.2
  e_le : s.sh.last ≠ none → e ≤ s.sh.lastIdx
  tag : ∀ p, s.sh.tag p ≤ s.sh.lastIdx
  idx : s.sh.lastIdx ≤ 2 * s.sh.counter + 1
  half : cacheOn cfg → s.sh.lastIdx ≤ 2 * s.sh.counter ∨ (s.carried = [] ∧ ∀ p, s.sh.tag p ≤ 2 * s.sh.counter)

theorem TaskIs.mono {s s' : Sh D R C} {k : Nat} {d : D} {c : C} (h : TaskIs s k d c)
    (hs : ∃ x, s'.submitted = s.submitted ++ x) : TaskIs s' k d c := by
  obtain ⟨x, hx⟩ := hs
  refine ⟨h.1, ?_⟩
  rw [hx, List.getElem?_append_left]
  · exact h.2
  · exact (List.getElem?_eq_some_iff.1 h.2).1

theorem RightResult.mono {cfg : Cfg D R C} {s s' : Sh D R C} {k : Nat} {r : R} (h : RightResult cfg s r k)
    (hs : ∃ x, s'.submitted = s.submitted ++ x) : RightResult cfg s' r k := by
  obtain ⟨d, c, h1, h2⟩ := h
  exact ⟨d, c, h1.mono hs, h2⟩

/-- The process is as it was, or dead. -/
def SameProc (s s' : Sh D R C) (p : Nat) : Prop :=
  s'.tag p = s.tag p ∧ s'.cache p = s.cache p ∧ (s'.alive p = true → s.alive p = true)

theorem Fresh.frame {cfg : Cfg D R C} {e : Int} {s s' : Sh D R C} {p : Nat} (h : Fresh cfg e s p)
    (hl : s'.last = s.last) (hp : SameProc s s' p) : Fresh cfg e s' p := by
  intro h1 h2 h3
  rw [hp.2.1, hl]
  exact h h1 (hp.2.2 h2) (hp.1 ▸ h3)

theorem PcOK.frame {cfg : Cfg D R C} {e : Int} {s s' : Sh D R C} {q : Pc D R C} (h : PcOK cfg e s q)
    (hs : ∃ x, s'.submitted = s.submitted ++ x) (hl : s'.last = s.last)
    (hp : ∀ p ∈ q.owns, SameProc s s' p) : PcOK cfg e s' q := by
  cases q with
  | proc d c k => exact ⟨h.1.mono hs, hl ▸ h.2⟩
  | procWait d c k => exact ⟨h.1.mono hs, hl ▸ h.2⟩
  | start d c k => exact ⟨h.1.mono hs, hl ▸ h.2⟩
  | work d c k => exact ⟨h.1.mono hs, hl ▸ h.2⟩
  | startP p d c k => exact ⟨⟨h.1.1.mono hs, hl ▸ h.1.2⟩, h.2.frame hl (hp p (by simp))⟩
  | cmp p d c k => exact ⟨⟨⟨h.1.1.1.mono hs, hl ▸ h.1.1.2⟩, h.1.2.frame hl (hp p (by simp))⟩, h.2⟩
  | retag p d c k => exact ⟨⟨h.1.1.mono hs, hl ▸ h.1.2⟩, h.2.frame hl (hp p (by simp))⟩
  | send p d co k =>
    obtain ⟨c, h1, h2⟩ := h
    refine ⟨c, ⟨h1.1.mono hs, hl ▸ h1.2⟩, h2.imp_right fun ⟨i1, i2, i3⟩ => ⟨i1, i2, fun i4 => ?_⟩⟩
    have := hp p (by simp)
    rw [this.2.1]
    exact i3 (this.2.2 i4)
  | rel r k => exact RightResult.mono h hs
  | stAcq r k n => exact ⟨RightResult.mono h.1 hs, fun p hpn => (h.2 p hpn).frame hl (hp p hpn)⟩
  | stBody r k n => exact ⟨RightResult.mono h.1 hs, fun p hpn => (h.2 p hpn).frame hl (hp p hpn)⟩
  | freeP p => exact Fresh.frame h hl (hp p (by simp))
  | _ => trivial

/-- What users of a caching process scheduler have to respect: the callable is set, or changed in `add_task`,
only while no task is open. (`n_open_tasks` is public.) -/
def Calm (cfg : Cfg D R C) (s : Sh D R C) (pc : Pc D R C) : Prop :=
  cacheOn cfg → match pc with
    | .setBody _ => s.nOpen = 0
    | .addBody _ (some c) => s.last = some c ∨ s.nOpen = 0
    | _ => True

/-- The executions in which this is respected. -/
inductive CalmReach (cfg : Cfg D R C) (m : Nat) : St D R C → Prop
  | init : CalmReach cfg m (initSt cfg m)
  | step {s s' : Sh D R C} {pc pc' : Pc D R C} {sp : List (Pc D R C)} (a b : List (Pc D R C))
      (h : CalmReach cfg m ⟨s, a ++ pc :: b⟩) (hc : Calm cfg s pc) (ht : TStep cfg s pc s' pc' sp) :
      CalmReach cfg m ⟨s', a ++ pc' :: (b ++ sp)⟩

theorem CalmReach.reach {cfg : Cfg D R C} {m : Nat} {s : St D R C} (h : CalmReach cfg m s) : Reach cfg m s := by
  induction h with
  | init => exact .init
  | step a b _ _ ht ih => exact .step ih (.mk a b ht)

/-- Without caching there is nothing to respect. -/
theorem calm_of_reach {cfg : Cfg D R C} {m : Nat} {s : St D R C} (hc : ¬ cacheOn cfg) (h : Reach cfg m s) :
    CalmReach cfg m s := by
  induction h with
  | init => exact .init
  | step _ hs ih =>
    cases hs with
    | mk a b ht => exact .step a b ih (fun h => absurd h hc) ht

theorem Val.next {cfg : Cfg D R C} {e : Int} {s s' : Sh D R C} {pc pc' : Pc D R C} {sp a b : List (Pc D R C)}
    (hv : Val cfg e ⟨s, a ++ pc :: b⟩) (hn : (s.free ++ (a ++ pc :: b).flatMap Pc.owns).Nodup)
    (hs : s'.submitted = s.submitted) (hl : s'.last = s.last)
    (hp : ∀ p, p ∉ pc.owns → SameProc s s' p) (hpc : PcOK cfg e s' pc') (hsp : ∀ q ∈ sp, PcOK cfg e s' q)
    (hf : ∀ p ∈ s'.free, p ∈ s.free ∨ Fresh cfg e s' p)
    (hst : ∀ x ∈ s'.stored, x ∈ s.stored ∨ RightResult cfg s' x.1 x.2)
    (htag : ∀ p, s'.tag p = s.tag p ∨ s'.tag p = s.lastIdx) (hi : s'.lastIdx = s.lastIdx)
    (hc : s'.counter = s.counter)
    (hta : pc.task = [] → pc'.task = [] ∧ sp.flatMap Pc.task = [] ∧ s'.tag = s.tag) :
    Val cfg e ⟨s', a ++ pc' :: (b ++ sp)⟩ := by
  have hs' : ∃ x, s'.submitted = s.submitted ++ x := ⟨[], by simp [hs]⟩
  have hdis : ∀ q, q ∈ a ∨ q ∈ b → ∀ p ∈ q.owns, p ∉ pc.owns := by
    intro q hq p hpq hpp
    have h2 := (List.nodup_append.1 hn).2.1
    rw [List.flatMap_append, List.flatMap_cons] at h2
    rcases hq with hq | hq
    · exact (List.nodup_append.1 h2).2.2 p (List.mem_flatMap.2 ⟨q, hq, hpq⟩) p
        (List.mem_append_left _ hpp) rfl
    · have h3 := (List.nodup_append.1 h2).2.1
      exact (List.nodup_append.1 h3).2.2 p hpp p (List.mem_flatMap.2 ⟨q, hq, hpq⟩) rfl
  have hfr : ∀ p ∈ s.free, p ∉ pc.owns := by
    intro p hp1 hpp
    refine (List.nodup_append.1 hn).2.2 p hp1 p ?_ rfl
    exact List.mem_flatMap.2 ⟨pc, by simp, hpp⟩
  refine ⟨?_, ?_, ?_, ?_, ?_, ?_, ?_⟩
  · intro q hq
    simp only [List.mem_append, List.mem_cons] at hq
    rcases hq with hq | rfl | hq | hq
    · exact (hv.pcs q (by simp [hq])).frame hs' hl fun p hpq => hp p (hdis q (.inl hq) p hpq)
    · exact hpc
    · exact (hv.pcs q (by simp [hq])).frame hs' hl fun p hpq => hp p (hdis q (.inr hq) p hpq)
    · exact hsp q hq
  · intro p hpf
    rcases hf p hpf with h | h
    · exact (hv.free p h).frame hl (hp p (hfr p h))
    · exact h
  · intro x hx
    rcases hst x hx with h | h
    · exact (hv.stored x h).mono hs'
    · exact h
  · intro h
    simp only at h ⊢
    rw [hi]
    exact hv.e_le (hl ▸ h)
  · intro p
    have := hv.tag p
    simp only at this ⊢
    rcases htag p with h | h <;> rw [h, hi] <;> omega
  · have := hv.idx
    simp only at this ⊢
    rw [hi, hc]; exact this
  · have := hv.half
    simp only at this ⊢
    rw [hi, hc]
    intro hon
    refine (this hon).imp_right fun ⟨h1, h2⟩ => ?_
    simp only [St.carried, List.flatMap_append, List.flatMap_cons, List.append_eq_nil_iff] at h1 ⊢
    obtain ⟨i1, i2, i3⟩ := hta h1.2.1
    exact ⟨⟨h1.1, i1, h1.2.2, i2⟩, i3 ▸ h2⟩

/-- When the callable changes while no thread has a task. -/
theorem PcOK.reset {cfg : Cfg D R C} {e : Int} {s s' : Sh D R C} {q : Pc D R C} (h : q.task = [])
    (hp : ∀ p, s'.tag p < e) : PcOK cfg e s' q := by
  cases q with
  | freeP p => intro _ _ h3; have := hp p; omega
  | _ => first | trivial | (simp at h; done)

theorem PcOK.off {cfg : Cfg D R C} {e e' : Int} {s s' : Sh D R C} {q : Pc D R C} (h : PcOK cfg e s q)
    (hs : ∃ x, s'.submitted = s.submitted ++ x) (hc : ¬ cacheOn cfg) : PcOK cfg e' s' q := by
  have hf : ∀ p, Fresh cfg e' s' p := fun p h => absurd h hc
  cases q with
  | proc d c k => exact ⟨h.1.mono hs, fun h => absurd h hc⟩
  | procWait d c k => exact ⟨h.1.mono hs, fun h => absurd h hc⟩
  | start d c k => exact ⟨h.1.mono hs, fun h => absurd h hc⟩
  | work d c k => exact ⟨h.1.mono hs, fun h => absurd h hc⟩
  | startP p d c k => exact ⟨⟨h.1.1.mono hs, fun h => absurd h hc⟩, hf p⟩
  | cmp p d c k => exact absurd h.2 hc
  | retag p d c k => exact ⟨⟨h.1.1.mono hs, fun h => absurd h hc⟩, hf p⟩
  | send p d co k =>
    obtain ⟨c, h1, h2⟩ := h
    exact ⟨c, ⟨h1.1.mono hs, fun h => absurd h hc⟩, h2.imp_right fun ⟨i1, _⟩ => absurd i1 hc⟩
  | rel r k => exact RightResult.mono h hs
  | stAcq r k n => exact ⟨RightResult.mono h.1 hs, fun p _ => hf p⟩
  | stBody r k n => exact ⟨RightResult.mono h.1 hs, fun p _ => hf p⟩
  | freeP p => exact hf p
  | _ => trivial

theorem pc_adv {cfg : Cfg D R C} {s s' : Sh D R C} {pc : Pc D R C} {e : Int} (h : PcOK cfg e s pc)
    (h1 : s'.submitted = s.submitted) (h2 : s'.last = s.last)
    (h3 : ∀ p, SameProc s s' p) : PcOK cfg e s' pc :=
  h.frame ⟨[], by simp [h1]⟩ h2 fun p _ => h3 p

/-- The callable or its index changes: threads, free processes and results stay as they should be. -/
theorem Val.change {cfg : Cfg D R C} {e : Int} {s s' : Sh D R C} {pc pc' : Pc D R C} {a b : List (Pc D R C)}
    {x : List (D × Option C)} (hr : Acc s.lo ⟨s, a ++ pc :: b⟩) (hv : Val cfg e ⟨s, a ++ pc :: b⟩)
    (hs : s'.submitted = s.submitted ++ x) 
    (hc : cacheOn cfg → s'.last = s.last ∧ s.last ≠ none ∨ s.nOpen = 0 ∧ ∀ p, s.tag p < s'.lastIdx)
    (hp : s'.tag = s.tag ∧ s'.cache = s.cache ∧ s'.alive = s.alive ∧ s'.free = s.free ∧ s'.stored = s.stored)
    (hi : s.lastIdx ≤ s'.lastIdx)
    (hidx : s'.lastIdx ≤ 2 * s'.counter + 1)
    (hhalf : cacheOn cfg → s'.lastIdx ≤ 2 * s'.counter ∨ (St.carried ⟨s', a ++ pc' :: b⟩ = [] ∧ ∀ p, s.tag p ≤ 2 * s'.counter))
    (hpc : ∀ e', PcOK cfg e' s' pc') : ∃ e', Val cfg e' ⟨s', a ++ pc' :: b⟩ := by
  obtain ⟨h1, h2, h3, h4, h5⟩ := hp
  have htag : ∀ p, s'.tag p ≤ s'.lastIdx := by
    intro p
    have := hv.tag p
    simp only at this
    rw [h1]; omega
  have hst : ∀ y ∈ s'.stored, RightResult cfg s' y.1 y.2 := by
    intro y hy
    exact (hv.stored y (h5 ▸ hy)).mono ⟨x, hs⟩
  by_cases hon : cacheOn cfg
  · rcases hc hon with ⟨hl, hl'⟩ | ⟨h0, hi'⟩
    · have hsame : ∀ p, SameProc s s' p := fun p => ⟨by rw [h1], by rw [h2], by rw [h3]; exact id⟩
      refine ⟨e, ?_, ?_, hst, ?_, htag, hidx, h1 ▸ hhalf⟩
      · intro q hq
        simp only [List.mem_append, List.mem_cons] at hq
        rcases hq with hq | rfl | hq
        · exact (hv.pcs q (by simp [hq])).frame ⟨x, hs⟩ hl fun p _ => hsame p
        · exact hpc e
        · exact (hv.pcs q (by simp [hq])).frame ⟨x, hs⟩ hl fun p _ => hsame p
      · intro p hp
        exact (hv.free p (h4 ▸ hp)).frame hl (hsame p)
      · intro _
        have := hv.e_le hl'
        simp only at this ⊢
        omega
    · have hlt : ∀ p, s'.tag p < s'.lastIdx := by
        intro p
        rw [h1]; exact hi' p
      have hno : St.carried ⟨s, a ++ pc :: b⟩ = [] := by
        have := hr.nOpen
        simp only at this
        exact List.length_eq_zero_iff.1 (by omega)
      simp only [St.carried, List.flatMap_append, List.flatMap_cons, List.append_eq_nil_iff,
        List.flatMap_eq_nil_iff] at hno
      refine ⟨s'.lastIdx, ?_, ?_, hst, fun _ => Int.le_refl _, htag, hidx, h1 ▸ hhalf⟩
      · intro q hq
        simp only [List.mem_append, List.mem_cons] at hq
        rcases hq with hq | rfl | hq
        · exact PcOK.reset (s := s) (hno.1 q hq) hlt
        · exact hpc _
        · exact PcOK.reset (s := s) (hno.2.2 q hq) hlt
      · intro p _ _ _ h
        have := hlt p
        simp only at h
        omega
  · refine ⟨s'.lastIdx, ?_, fun p _ h => absurd h hon, hst, fun _ => Int.le_refl _, htag, hidx, h1 ▸ hhalf⟩
    intro q hq
    simp only [List.mem_append, List.mem_cons] at hq
    rcases hq with hq | rfl | hq
    · exact (hv.pcs q (by simp [hq])).off ⟨x, hs⟩ hon
    · exact hpc _
    · exact (hv.pcs q (by simp [hq])).off ⟨x, hs⟩ hon

theorem reach_given {cfg : Cfg D R C} {m : Nat} {s : St D R C} (h : Reach cfg m s) :
    s.sh.last = s.sh.given.getLast? := by
  induction h with
  | init => rfl
  | step _ hs ih =>
    cases hs with
    | mk a b ht => cases ht <;> first | exact ih | simp

theorem val_step {cfg : Cfg D R C} {m : Nat} {e : Int} {s s' : Sh D R C} {pc pc' : Pc D R C}
    {sp a b : List (Pc D R C)} (hr : Reach cfg m ⟨s, a ++ pc :: b⟩) (hc : Calm cfg s pc)
    (ht : TStep cfg s pc s' pc' sp) (hv : Val cfg e ⟨s, a ++ pc :: b⟩) :
    ∃ e', Val cfg e' ⟨s', a ++ pc' :: (b ++ sp)⟩ := by
  have hn : (s.free ++ (a ++ pc :: b).flatMap Pc.owns).Nodup := (reach_owns hr).nodup_iff.2 List.nodup_range
  have hpc := hv.pcs pc (by simp)
  have ha := reach_acc hr
  have hcnt : s.counter = s.submitted.length := ha.counter
  have hgiv : s.last = s.given.getLast? := reach_given hr
  cases ht
  case addOld d c hl =>
    rw [List.append_nil]
    refine hv.change ha rfl (fun _ => .inl ⟨rfl, by rw [hl]; simp⟩) ⟨rfl, rfl, rfl, rfl, rfl⟩ (Int.le_refl _) ?_ ?_ ?_
    · have := hv.idx; simp only at this ⊢; omega
    · intro _; left; have := hv.idx; simp only at this ⊢; omega
    · intro e'
      refine ⟨⟨by omega, ?_⟩, fun _ => hl⟩
      simp [hcnt, ← hgiv, hl]
  case addNew d c =>
    rw [List.append_nil]
    have hidx := hv.idx
    simp only at hidx
    refine hv.change ha rfl ?_ ⟨rfl, rfl, rfl, rfl, rfl⟩ (by simp only; omega) (by simp only; omega) ?_ ?_
    · intro hon
      rcases hc hon with h | h
      · exact .inl ⟨h.symm, by rw [h]; simp⟩
      · refine .inr ⟨h, fun p => ?_⟩
        have := hv.tag p
        simp only at this ⊢
        omega
    · intro _; left; simp only; omega
    · intro e'
      refine ⟨⟨by omega, ?_⟩, fun _ => rfl⟩
      simp [hcnt]
  case setBody c =>
    rw [List.append_nil]
    have hidx := hv.idx
    have key : cacheOn cfg → ∀ p, s.tag p ≤ 2 * s.counter := by
      intro hon p
      have := hv.tag p
      rcases hv.half hon with h | h
      · simp only at this h; omega
      · exact h.2 p
    refine hv.change (x := []) ha (by simp) ?_ ⟨rfl, rfl, rfl, rfl, rfl⟩ (by simpa using hidx) (by simp) ?_
      (fun _ => trivial)
    · intro hon
      refine .inr ⟨hc hon, fun p => ?_⟩
      have := key hon p
      simp only
      omega
    · intro hon
      refine .inr ⟨?_, key hon⟩
      have h1 : s.nOpen = 0 := hc hon
      have h2 := ha.nOpen
      simp only at h2
      have h3 : St.carried ⟨s, a ++ Pc.setBody c :: b⟩ = [] := List.length_eq_zero_iff.1 (by omega)
      simpa [St.carried] using h3
  case sendOk p d co k c r n b' hk hal hce hcall =>
    obtain ⟨c', hpre, hco⟩ := hpc
    have hcc : c = c' := by
      rcases hco with rfl | ⟨-, rfl, h⟩
      · simpa [effective] using hce.symm
      · have := h hal
        simp only at this
        simpa [effective, this] using hce.symm
    subst hcc
    refine ⟨e, hv.next hn rfl rfl (fun q hq => ⟨rfl, ?_, id⟩) ⟨⟨d, c, hpre.1, hcall⟩, ?_⟩ (by simp) (fun p h => .inl h)
      (fun x h => .inl h) (fun p => .inl rfl) rfl rfl (by simp)⟩
    · simp at hq; simp [hq]
    · intro q hq hon _ _
      simp only [Next.owns, List.mem_singleton] at hq
      subst hq
      obtain ⟨n', hk'⟩ := hon
      rw [hk] at hk'
      cases hk'
      have : s.last = some c := hpre.2 ⟨n, hk⟩
      simp only [and_self, if_true, this, hce]
  case sendFail p d co k hf =>
    refine ⟨e, hv.next hn rfl rfl (fun q hq => ⟨rfl, rfl, ?_⟩) trivial (by simp) ?_
      (fun x h => .inl h) (fun p => .inl rfl) rfl rfl (by simp)⟩
    · simp at hq; simp [hq]
    · intro q hq
      simp only [List.mem_append, List.mem_singleton] at hq
      refine hq.imp_right fun hq => ?_
      subst hq
      intro _ h
      simp at h
  case retag p d c k =>
    refine ⟨e, hv.next hn rfl rfl (fun q hq => ⟨?_, rfl, id⟩) ⟨c, hpc.1, .inl rfl⟩ (by simp) (fun p h => .inl h)
      (fun x h => .inl h) (fun q => ?_) rfl rfl (by simp)⟩
    · simp at hq; simp [hq]
    · simp only
      split
      · exact .inr rfl
      · exact .inl rfl
  case cmpOld p d c k hlt =>
    refine ⟨e, hv.next hn rfl rfl (fun q hq => ⟨rfl, rfl, id⟩) ⟨c, hpc.1.1, .inr ⟨hpc.2, rfl, ?_⟩⟩ (by simp)
      (fun p h => .inl h) (fun x h => .inl h) (fun q => .inl rfl) rfl rfl (by simp)⟩
    intro hal
    have hl : s.last = some c := hpc.1.1.2 hpc.2
    have he := hv.e_le (by simp [hl])
    rw [← hl]
    exact hpc.1.2 hpc.2 hal (by simp only at he ⊢; omega)
  case cmpNew p d c k hlt =>
    exact ⟨e, hv.next hn rfl rfl (fun q hq => ⟨rfl, rfl, id⟩) hpc.1 (by simp) (fun p h => .inl h)
      (fun x h => .inl h) (fun q => .inl rfl) rfl rfl (by simp)⟩
  case prGo d c k n b' fs p hk hf =>
    refine ⟨e, hv.next hn rfl rfl (fun q hq => ⟨rfl, rfl, id⟩) ⟨hpc, ?_⟩ (by simp) (fun p h => .inl ?_)
      (fun x h => .inl h) (fun q => .inl rfl) rfl rfl (by simp)⟩
    · exact (hv.free p (by simp [hf])).frame rfl ⟨rfl, rfl, id⟩
    · rw [hf]; exact List.mem_append_left _ h
  case startP p d c k n b' hk =>
    refine ⟨e, hv.next hn rfl rfl (fun q hq => ⟨rfl, rfl, id⟩) trivial ?_ (fun p h => .inl h)
      (fun x h => .inl h) (fun q => .inl rfl) rfl rfl (by simp)⟩
    intro q hq
    simp only [List.mem_singleton] at hq
    subst hq
    cases b'
    · exact ⟨c, hpc.1, .inl rfl⟩
    · exact ⟨hpc, n, hk⟩
  case stBody r k n =>
    refine ⟨e, hv.next hn rfl rfl (fun q hq => ⟨rfl, rfl, id⟩) ?_ (by simp) (fun p h => .inl h)
      (fun x h => ?_) (fun q => .inl rfl) rfl rfl (by simp)⟩
    · cases n with
      | client => trivial
      | thread => trivial
      | proc p => exact (hpc.2 p (by simp [Next.owns])).frame rfl ⟨rfl, rfl, id⟩
    · simp only [List.mem_append, List.mem_singleton] at h
      refine h.imp_right fun h => ?_
      subst h
      exact hpc.1
  case freeP p =>
    refine ⟨e, hv.next hn rfl rfl (fun q hq => ⟨rfl, rfl, id⟩) trivial (by simp) (fun q hq => ?_)
      (fun x h => .inl h) (fun q => .inl rfl) rfl rfl (by simp)⟩
    simp only [List.mem_append, List.mem_singleton] at hq
    refine hq.imp_right fun hq => ?_
    subst hq
    exact Fresh.frame hpc rfl ⟨rfl, rfl, id⟩
  case runOk d c k r hk hcall =>
    exact ⟨e, hv.next hn rfl rfl (fun q hq => ⟨rfl, rfl, id⟩) ⟨d, c, hpc.1, hcall⟩ (by simp) (fun p h => .inl h)
      (fun x h => .inl h) (fun q => .inl rfl) rfl rfl (by simp)⟩
  case workOk d c k r hcall =>
    exact ⟨e, hv.next hn rfl rfl (fun q hq => ⟨rfl, rfl, id⟩) ⟨⟨d, c, hpc.1, hcall⟩, by simp [Next.owns]⟩ (by simp)
      (fun p h => .inl h) (fun x h => .inl h) (fun q => .inl rfl) rfl rfl (by simp)⟩
  case start d c k =>
    refine ⟨e, hv.next hn rfl rfl (fun q hq => ⟨rfl, rfl, id⟩) trivial ?_ (fun p h => .inl h)
      (fun x h => .inl h) (fun q => .inl rfl) rfl rfl (by simp)⟩
    intro q hq
    simp only [List.mem_singleton] at hq
    subst hq
    exact hpc
  case rel r k =>
    exact ⟨e, hv.next hn rfl rfl (fun q hq => ⟨rfl, rfl, id⟩) ⟨hpc, by simp [Next.owns]⟩ (by simp)
      (fun p h => .inl h) (fun x h => .inl h) (fun q => .inl rfl) rfl rfl (by simp)⟩
  all_goals
    refine ⟨e, hv.next hn rfl rfl (fun p _ => ⟨rfl, rfl, by simp⟩) ?_ (by simp) (fun p h => .inl h)
      (fun x h => .inl h) (fun p => .inl rfl) rfl rfl (by simp)⟩
    first | trivial | exact pc_adv hpc rfl rfl (fun p => ⟨rfl, rfl, id⟩)

theorem calm_val {cfg : Cfg D R C} {m : Nat} {s : St D R C} (h : CalmReach cfg m s) : ∃ e, Val cfg e s := by
  induction h with
  | init =>
    refine ⟨0, ?_, ?_, by simp [initSt], by simp [initSt], by simp [initSt], by simp [initSt], ?_⟩
    · intro q hq
      simp only [initSt] at hq
      rw [List.eq_of_mem_replicate hq]
      trivial
    · intro p _ _ _ h
      simp [initSt] at h
    · intro _; left; simp [initSt]
  | step a b h hc ht ih =>
    obtain ⟨e, hv⟩ := ih
    exact val_step h.reach hc ht hv

/-- C41, the part that holds: in an execution of the base, thread or process scheduler every stored result is
what the callable of that task (the one given with it, or else the last one given before) computes from the
data of that task; for a process scheduler with `cache_callable` this is only claimed for executions in which
the callable is set or changed only while no task is open. -/
theorem result_right_partial {cfg : Cfg D R C} {m : Nat} {s : St D R C} (h : CalmReach cfg m s)
    (r : R) (k : Nat) (hs : (r, k) ∈ s.sh.stored) : RightResult cfg s.sh r k := by
  obtain ⟨e, hv⟩ := calm_val h
  exact hv.stored _ hs

/-- C41 for every execution of a scheduler that does not cache callables. -/
theorem result_right_uncached {cfg : Cfg D R C} {m : Nat} {s : St D R C} (hc : ¬ cacheOn cfg) (h : Reach cfg m s)
    (r : R) (k : Nat) (hs : (r, k) ∈ s.sh.stored) : RightResult cfg s.sh r k :=
  result_right_partial (calm_of_reach hc h) r k hs

/-- C39 and C41 together: every value `get_results` returned lists, in the order of submission, what the
callables of the tasks submitted since the previous return compute from the data of these tasks. -/
theorem get_results_correct {cfg : Cfg D R C} {m : Nat} {s : St D R C} (h : CalmReach cfg m s)
    (ho : cfg.ordered = true) (l1 l2 : List (Ret R)) (e : Ret R) (hl : s.sh.log = l1 ++ e :: l2) :
    e.vals.map some =
      ((s.sh.submitted.take e.upto).drop (lastUpto l1)).map fun t => t.2.bind fun c => cfg.call c t.1 := by
  obtain ⟨h1, h2, h3⟩ := results_in_order h.reach ho l1 l2 e hl
  have hlen := h3.length_eq
  rw [List.length_range'] at hlen
  apply List.ext_getElem?
  intro j
  simp only [List.getElem?_map, List.getElem?_drop, List.getElem?_take]
  by_cases hj : j < e.vals.length
  · have hr := List.forall₂_iff_get.1 h3
    have := hr.2 j hj (by rw [List.length_range']; omega)
    simp only [List.get_eq_getElem, List.getElem_range'] at this
    obtain ⟨d, c, ⟨-, i2⟩, i3⟩ := result_right_partial h _ _ this
    have e1 : lastUpto l1 + 1 + 1 * j - 1 = lastUpto l1 + j := by omega
    rw [e1] at i2
    rw [if_pos (by omega), i2, List.getElem?_eq_getElem hj]
    simp [i3]
  · rw [List.getElem?_eq_none (by omega), if_neg (by omega)]
    rfl

end Mdp.Sched
