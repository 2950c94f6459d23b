import Verif.Online.Flow
import Verif.Flow.ContainerProps

/-! # Properties of `OnlineFlow` (C64, C87, C88, C89) -/

namespace Mdp.Online

open Py Mdp.Node Mdp.Flow

variable {σ α β : Type}

/-! ### Specification -/

/-- `a` are the extra arguments meant for node `i` that needs `k` of them: none, or the `i`-th tuple that
came with the data. -/
def ArgsOf (args : Option (List (Option (List β)))) (i k : Nat) (a : List β) : Prop :=
  (k = 0 → a = []) ∧ (k ≠ 0 → ∃ l, args = some l ∧ l[i]? = some (some a) ∧ a.length = k)

/-- What one chunk does to the nodes, `ms` before and `ms'` after: `xs i` is the input of node `i`. Every
node is first trained on its input, if it is still training, and then executed on it; the result is the
input of the next node, which therefore comes from the already updated node. -/
def ChunkDone (req : List Nat) (c : Chunk α β) (xs : Nat → Arr α) (ms ms' : List (Mem σ α β)) : Prop :=
  xs 0 = c.x ∧ ms'.length = ms.length ∧
    ∀ i m, ms[i]? = some m → ∃ k a m1 m2, req[i]? = some k ∧ ArgsOf c.args i k a ∧
      (m.isTraining = true → m.train (xs i) a = (.ok (), m1)) ∧ (m.isTraining = false → m1 = m) ∧
      m1.execute (xs i) = (.ok (xs (i + 1)), m2) ∧ ms'[i]? = some m2

/-- The chunks one after the other, with the inputs of the nodes for every chunk. -/
inductive ChunksDone (req : List Nat) :
    List (Chunk α β) → List (Nat → Arr α) → List (Mem σ α β) → List (Mem σ α β) → Prop where
  | nil (ms : List (Mem σ α β)) : ChunksDone req [] [] ms ms
  | cons {c : Chunk α β} {cs : List (Chunk α β)} {xs : Nat → Arr α} {xss : List (Nat → Arr α)}
      {ms ms1 ms2 : List (Mem σ α β)} (h1 : ChunkDone req c xs ms ms1) (h2 : ChunksDone req cs xss ms1 ms2) :
      ChunksDone req (c :: cs) (xs :: xss) ms ms2

/-! ### Lemmas -/

theorem argsFor_ok {args : Option (List (Option (List β)))} {i : Nat} {k : Option Nat} {a : List β}
    (h : argsFor args i k = .ok a) : ∃ n, k = some n ∧ ArgsOf args i n a := by
  cases k with
  | none => simp [argsFor] at h
  | some n =>
    refine ⟨n, rfl, ?_⟩
    cases n with
    | zero => simp [argsFor] at h; exact ⟨fun _ => h, fun hne => absurd rfl hne⟩
    | succ n =>
      refine ⟨fun h => by omega, fun _ => ?_⟩
      simp only [argsFor] at h
      · split at h
        · cases h
        · next l =>
          split at h
          · cases h
          · cases h
          · next b hb =>
            split at h
            · cases h
            · next hk => cases h; exact ⟨l, rfl, hb, (Classical.not_not.mp hk).symm⟩

theorem learn_ok {m m' : Mem σ α β} {x : Arr α} {a : Except Err (List β)} (h : m.learn x a = (.ok (), m')) :
    ∃ l, a = .ok l ∧ (m.isTraining = true → m.train x l = (.ok (), m')) ∧
      (m.isTraining = false → m' = m) := by
  unfold Mem.learn at h
  split at h
  · cases h
  · next l =>
    refine ⟨l, rfl, ?_⟩
    split at h
    · next ht => exact ⟨fun _ => h, fun hf => by rw [ht] at hf; cases hf⟩
    · next ht => cases h; exact ⟨fun hf => absurd hf ht, fun _ => rfl⟩

theorem feed_ok (args : Option (List (Option (List β)))) (req : List Nat) (ms ms' : List (Mem σ α β))
    (i0 : Nat) (x y : Arr α) (h : feed args req i0 ms x = (.ok y, ms')) :
    ∃ xs : Nat → Arr α, xs 0 = x ∧ xs ms.length = y ∧ ms'.length = ms.length ∧
      ∀ i m, ms[i]? = some m → ∃ k a m1 m2, req[i0 + i]? = some k ∧ ArgsOf args (i0 + i) k a ∧
        (m.isTraining = true → m.train (xs i) a = (.ok (), m1)) ∧ (m.isTraining = false → m1 = m) ∧
        m1.execute (xs i) = (.ok (xs (i + 1)), m2) ∧ ms'[i]? = some m2 := by
  induction ms generalizing i0 x ms' with
  | nil =>
    simp only [feed] at h
    obtain ⟨h1, rfl⟩ := Prod.mk.inj h
    obtain rfl : x = y := by injection h1
    exact ⟨fun _ => x, rfl, rfl, rfl, fun i m h => by simp at h⟩
  | cons m r ih =>
    rw [feed] at h
    split at h
    · cases h
    · next m1 h1 =>
      split at h
      · cases h
      · next z m2 h2 =>
        generalize hf : feed args req (i0 + 1) r z = rr at h
        obtain ⟨res, r'⟩ := rr
        simp only at h
        cases h
        obtain ⟨xs, e1, e2, e3, e4⟩ := ih r' (i0 + 1) z hf
        obtain ⟨l, g1, g2, g3⟩ := learn_ok h1
        obtain ⟨k, g4, g5⟩ := argsFor_ok g1
        refine ⟨fun n => match n with | 0 => x | n + 1 => xs n, rfl, e2, by simp [e3], ?_⟩
        intro i m' hm'
        cases i with
        | zero =>
          simp only [List.getElem?_cons_zero, Option.some.injEq] at hm'
          subst hm'
          exact ⟨k, l, m1, m2, g4, g5, g2, g3, by rw [h2, ← e1], rfl⟩
        | succ i =>
          simp only [List.getElem?_cons_succ] at hm'
          obtain ⟨k, a, m1, m2, f1, f2, f3, f4, f5, f6⟩ := e4 i m' hm'
          refine ⟨k, a, m1, m2, ?_, ?_, f3, f4, f5, by simpa using f6⟩
          · rw [← f1]; congr 1; omega
          · rw [show i0 + (i + 1) = i0 + 1 + i by omega]; exact f2

theorem feedAll_ok (req : List Nat) (cs : List (Chunk α β)) (ms ms' : List (Mem σ α β))
    (h : feedAll req cs ms = (.ok (), ms')) : ∃ xss, ChunksDone req cs xss ms ms' := by
  induction cs generalizing ms with
  | nil => simp only [feedAll] at h; cases h; exact ⟨[], .nil _⟩
  | cons c r ih =>
    have key : ∀ y ms1, feed c.args req 0 ms c.x = (.ok y, ms1) → ∃ xs, ChunkDone req c xs ms ms1 := by
      intro y ms1 hf
      obtain ⟨xs, e1, _, e3, e4⟩ := feed_ok c.args req ms ms1 0 c.x y hf
      exact ⟨xs, e1, e3, fun i m hm => by simpa using e4 i m hm⟩
    rw [feedAll] at h
    split at h
    · split at h
      · cases h
      · split at h
        · cases h
        · next y ms1 hf =>
          obtain ⟨xs, h1⟩ := key y ms1 hf
          obtain ⟨xss, h2⟩ := ih ms1 h
          exact ⟨_, .cons h1 h2⟩
    · split at h
      · cases h
      · next y ms1 hf =>
        obtain ⟨xs, h1⟩ := key y ms1 hf
        obtain ⟨xss, h2⟩ := ih ms1 h
        exact ⟨_, .cons h1 h2⟩

/-- A list without and with its last element changed. -/
theorem onLast_ok {f : Mem σ α β → Except Err Unit × Mem σ α β} {ms ms' : List (Mem σ α β)}
    (h : onLast f ms = (.ok (), ms')) :
    ∃ init m m', ms = init ++ [m] ∧ f m = (.ok (), m') ∧ ms' = init ++ [m'] := by
  unfold onLast at h
  split at h
  · cases h
  · next m hm =>
    obtain ⟨init, rfl⟩ := List.getLast?_eq_some_iff.mp hm
    refine ⟨init, m, (f m).2, rfl, Prod.ext (Prod.mk.inj h).1 rfl, ?_⟩
    rw [← (Prod.mk.inj h).2, List.dropLast_concat]

/-! ## C64 -/

/-- C64: an accepted `train` puts all chunks, in order, through the flow: for every chunk every node that
is still training is trained, before the chunk is executed by it, on what the already updated preceding
nodes made of the chunk (`ChunksDone`). Afterwards only the last node may be closed. -/
theorem online_flow_train (req : List Nat) (d : OTrainArg α β) (ms ms' : List (Mem σ α β))
    (h : OnlineFlow.train req d ms = (.ok (), ms')) :
    ∃ cs xss init last last', d.chunks = .ok cs ∧ cs ≠ [] ∧ ChunksDone req cs xss ms (init ++ [last]) ∧
      ms' = init ++ [last'] ∧
      (last' = last ∨ last.stop = (.ok (), last') ∨ ∃ l1 e, (last.stop = (.ok (), l1) ∨ l1 = last) ∧
        (l1.stop = (.ok (), last') ∨ l1.stop = (.error e, last') ∧ e = .finished)) := by
  unfold OnlineFlow.train at h
  split at h
  · cases h
  · next cs hcs =>
    split at h
    · cases h
    · next ms1 h1 =>
      unfold trainNodes at h1
      split at h1
      · cases h1
      · next ms2 h2 =>
        split at h1
        · cases h1
        · next hne =>
          obtain ⟨i1, m1, m1', rfl, f1, rfl⟩ := onLast_ok h1
          obtain ⟨i2, m2, m2', e2, f2, rfl⟩ := onLast_ok h
          obtain ⟨rfl, hm⟩ := List.append_inj' e2 rfl
          cases hm
          obtain ⟨xss, hd⟩ := feedAll_ok req cs ms _ h2
          refine ⟨cs, xss, i1, m1, m2', hcs, by simpa using hne, hd, rfl, ?_⟩
          have a1 : m1' = m1 ∨ m1.stop = (.ok (), m1') := by
            unfold Mem.closeEarly at f1
            split at f1
            · exact .inr f1
            · cases f1; exact .inl rfl
          have a2 : m2' = m1' ∨ m1'.stop = (.ok (), m2') ∨ m1'.stop = (.error .finished, m2') := by
            unfold Mem.closePlain at f2
            split at f2
            · cases f2; exact .inl rfl
            · split at f2
              · next m3 h3 => cases f2; exact .inr (.inl h3)
              · next m3 h3 => cases f2; exact .inr (.inr h3)
              · cases f2
          rcases a2 with rfl | a2 | a2
          · rcases a1 with rfl | a1
            · exact .inl rfl
            · exact .inr (.inl a1)
          · exact .inr (.inr ⟨m1', .finished, a1.symm, .inl a2⟩)
          · exact .inr (.inr ⟨m1', .finished, a1.symm, .inr ⟨a2, rfl⟩⟩)

/-- The chunks made from the argument: the rows of a 2D array one by one, the blocks of a 3D array, or what
the iterable yields. -/
theorem online_flow_chunks (x : Arr α) (xs : List (Arr α)) (cs : List (Chunk α β)) :
    (OTrainArg.array x : OTrainArg α β).chunks = .ok (x.data.map fun row => ⟨{ x with data := [row] }, none⟩) ∧
    (OTrainArg.array3 xs : OTrainArg α β).chunks = .ok (xs.map fun b => ⟨b, none⟩) ∧
    (OTrainArg.iter cs).chunks = .ok cs := ⟨rfl, rfl, rfl⟩

/-! ### What happens to an online node -/

theorem train_training (K : Kind σ α β) (x : Arr α) (args : List β) (s : St σ α β) :
    (Node.train K x args s).2.training = s.training := by
  have p : M.Pre (fun a b : St σ α β => b.training = a.training) :=
    ⟨fun _ => rfl, fun h h' => Eq.trans h' h⟩
  have hs : ∀ {r : Type} {m : NodeM σ α β r}, M.Moves (Soft K) m →
      M.Moves (fun a b : St σ α β => b.training = a.training) m := fun h s => (h s).training
  suffices M.Moves (fun a b : St σ α β => b.training = a.training) (Node.train K x args) from this s
  unfold Node.train
  refine .ite (.raise p _) (.bind p (.get p) fun s1 => ?_)
  refine .ite (.raise p _) (.bind p (hs (checkInput_soft K x)) fun _ => ?_)
  refine .bind p (.get p) fun s1 => ?_
  refine .bind p (.lift p _) fun _ => ?_
  refine .bind p (.modify fun _ => rfl) fun _ => ?_
  refine .bind p (.get p) fun s1 => ?_
  exact .ite (fun s => hs (runHook_soft K _) s) (.raise p _)

/-- `execute` of an ordinary node leaves it closed. -/
theorem plain_execute_closes (K : Kind σ α β) (x : Arr α) (s s' : St σ α β) (y : Arr α)
    (h : Node.execute K x s = (.ok y, s')) : s'.training = false := by
  unfold Node.execute preExecutionChecks at h
  obtain ⟨_, s1, h1, h⟩ := M.bind_eq_ok h
  obtain ⟨_, s2, h2, h1⟩ := M.bind_eq_ok h1
  cases h2
  obtain ⟨_, s3, _, h1⟩ := M.bind_eq_ok h1
  obtain ⟨_, s4, h4, h1⟩ := M.bind_eq_ok h1
  have hc : s4.training = false := by
    unfold ifTrainingStopTraining at h4
    obtain ⟨_, s5, h5, h4⟩ := M.bind_eq_ok h4
    cases h5
    split at h4
    · next ht =>
      obtain ⟨_, s6, h6, h4⟩ := M.bind_eq_ok h4
      obtain ⟨_, s7, h7, h4⟩ := M.bind_eq_ok h4
      cases h7
      have h8 : ¬ remaining K s6 > 0 := by
        split at h4
        · cases h4
        · next hr => exact hr
      have : s4 = s6 := by
        rw [if_neg h8] at h4
        exact (Prod.mk.inj h4).2.symm
      subst this
      unfold stopTraining at h6
      obtain ⟨_, s8, h9, h6⟩ := M.bind_eq_ok h6
      cases h9
      split at h6
      · cases h6
      · split at h6
        · cases h6
        · split at h6
          · next hp =>
            obtain ⟨_, s9, h9, h6⟩ := M.bind_eq_ok h6
            obtain ⟨_, s10, h10, h6⟩ := M.bind_eq_ok h6
            have hph : s9.phase = s3.phase := by
              have := logged_phase (.stop s3.phase.toNat) _
                (runHook_phase K (K.stopHook s3.phase.toNat s3.st)) s3
              rw [h9] at this; exact this
            cases h10
            have h6 := (Prod.mk.inj h6).2
            simp only at h6
            by_contra hne
            by_cases hr : remaining K { s9 with phase := s9.phase + 1, started := false } = 0
            · rw [if_pos hr] at h6
              rw [← h6] at hne
              exact hne rfl
            · rw [if_neg hr] at h6
              rw [← h6] at h8
              unfold remaining at h8 hr
              split at hr
              · next hK =>
                rw [if_pos hK] at h8
                simp only at h8 hr
                omega
              · exact hr rfl
          · cases h6
    · next ht =>
      cases h4
      simpa using ht
  obtain ⟨_, s5, h5, h1⟩ := M.bind_eq_ok h1
  have e5 := (checkInput_soft K x s4).training
  rw [h5] at e5
  obtain ⟨_, s6, h6, h1⟩ := M.bind_eq_ok h1
  cases h6
  have e6 := (M.Moves.when (soft_pre K) (c := s5.outputDim = none) (setOutputDim_soft K s5.inputDim) s5).training
  rw [h1] at e6
  obtain ⟨_, s7, h7, h⟩ := M.bind_eq_ok h
  cases h7
  have e7 := (runHook_soft K (K.execHook s1.st (refcast s1.dtype x)) s1).training
  have e8 : s'.training = (runHook K (K.execHook s1.st (refcast s1.dtype x)) s1).2.training := by
    rw [← (Prod.mk.inj h).2]
    rfl
  rw [e8, e7]
  simp only at e5 e6
  rw [e6, e5, hc]

theorem mem_train_class (x : Arr α) (a : List β) (m : Mem σ α β) :
    (m.train x a).2.isOnline = m.isOnline ∧ (m.train x a).2.reqArgs = m.reqArgs ∧
    (m.train x a).2.isTraining = m.isTraining := by
  cases m with
  | plain K s => exact ⟨rfl, rfl, train_training K x a s⟩
  | online K s => exact ⟨rfl, rfl, (otrain_keepOpen K x a s).1⟩

theorem mem_execute_class (x : Arr α) (m : Mem σ α β) :
    (m.execute x).2.isOnline = m.isOnline ∧ (m.execute x).2.reqArgs = m.reqArgs ∧
    (m.isOnline = true → (m.execute x).2.isTraining = m.isTraining) ∧
    (m.isTraining = false → (m.execute x).2.isTraining = false) ∧
    (∀ y, m.isOnline = false → (m.execute x).1 = .ok y → (m.execute x).2.isTraining = false) := by
  cases m with
  | plain K s =>
    refine ⟨rfl, rfl, fun h => Bool.noConfusion h, fun h => (execute_fwd K x s).training h, fun y _ h => ?_⟩
    exact plain_execute_closes K x s _ y (Prod.ext h rfl)
  | online K s =>
    have := (oexecute_keepOpen K x s).1
    exact ⟨rfl, rfl, fun _ => this, fun h => this.trans h, fun y h => Bool.noConfusion h⟩

theorem mem_stop_class (m : Mem σ α β) :
    m.stop.2.isOnline = m.isOnline ∧ m.stop.2.reqArgs = m.reqArgs ∧
    (m.isTraining = false → m.stop.2.isTraining = false) := by
  cases m with
  | plain K s => exact ⟨rfl, rfl, fun h => (stop_fwd K s).training h⟩
  | online K s =>
    refine ⟨rfl, rfl, fun h => ?_⟩
    simp only [Mem.isTraining, Mem.stop] at h ⊢
    rcases ostop_cases K s with ⟨_, h'⟩ | ⟨h', _⟩ | ⟨h', _⟩ | ⟨h', _⟩
    · rw [h']; exact h
    all_goals rw [h] at h'; cases h'

/-- A started node stays started. -/
def KeepStarted (s t : OSt σ α β) : Prop := s.node.started = true → t.node.started = true

theorem keepStarted_pre : M.Pre (KeepStarted : OSt σ α β → OSt σ α β → Prop) :=
  ⟨fun _ h => h, fun h h' h0 => h' (h h0)⟩

theorem onNode_keepStarted {r : Type} {K : Kind σ α β} {m : NodeM σ α β r} (h : M.Moves (Soft K) m) :
    M.Moves KeepStarted (onNode m) := fun s h0 => (h s.node).started.trans h0

theorem runPhases_keepStarted (K : OKind σ α β) (args : List β) (l : List Nat) (x : Arr α) :
    M.Moves KeepStarted (runPhases K args l x) := by
  have p := keepStarted_pre (σ := σ) (α := α) (β := β)
  induction l generalizing x with
  | nil => exact .pure p _
  | cons q r ih =>
    rw [runPhases]
    refine .bind p (.get p) fun s => .bind p (fun s => onNode_keepStarted (runHook_soft _ _) s) fun _ => ?_
    split
    · exact ih x
    · refine .bind p (.get p) fun s => ?_
      exact .bind p (fun s => onNode_keepStarted (runHook_soft _ _) s) fun y => ih y

theorem runRows_keepStarted (K : OKind σ α β) (args : List β) (x : Arr α) (l : List (List α)) :
    M.Moves KeepStarted (runRows K args x l) := by
  have p := keepStarted_pre (σ := σ) (α := α) (β := β)
  induction l with
  | nil => exact .pure p _
  | cons q r ih =>
    rw [runRows]
    exact .bind p (runPhases_keepStarted K args _ _) fun _ => .bind p (.modify fun _ h => h) fun _ => ih

/-- An accepted `train` leaves the node started. -/
theorem otrain_started (K : OKind σ α β) (x : Arr α) (args : List β) (s s' : OSt σ α β)
    (h : otrain K x args s = (.ok (), s')) : s'.node.started = true := by
  unfold otrain at h
  split at h
  · cases h
  · obtain ⟨_, s1, h1, h⟩ := M.bind_eq_ok h
    split at h
    · cases h
    · obtain ⟨_, s2, h2, h⟩ := M.bind_eq_ok h
      obtain ⟨_, s3, h3, h⟩ := M.bind_eq_ok h
      obtain ⟨_, s4, h4, h⟩ := M.bind_eq_ok h
      obtain ⟨_, s5, h5, h⟩ := M.bind_eq_ok h
      obtain ⟨_, s6, h6, h⟩ := M.bind_eq_ok h
      obtain ⟨s7', s7, h7, h⟩ := M.bind_eq_ok h
      have hs : s7.node.started = true := by
        have e6 := (Prod.mk.inj h6).2
        have e7 := (Prod.mk.inj h7).2
        rw [← e7, ← e6]
      have p := keepStarted_pre (σ := σ) (α := α) (β := β)
      have hm : M.Moves KeepStarted (if s7'.ttype = some TType.incremental then
          runRows K args (refcast s7'.node.dtype x) (refcast s7'.node.dtype x).data
        else do
          runPhases K args (List.range K.nPhases) (refcast s7'.node.dtype x)
          M.modify (fun s => { s with iter := s.iter + (refcast s7'.node.dtype x).nrows })) :=
        .ite (runRows_keepStarted K args _ _)
          (.bind p (runPhases_keepStarted K args _ _) fun _ => .modify fun _ h => h)
      have := hm s7 hs
      rw [h] at this
      exact this

/-- C64: what one chunk does to an online node that is training: its training hooks are called for the
blocks of its input `xs i`, in order and through all its phases, then it is executed on that input; it
counts the samples and goes on training. -/
theorem online_node_learns_chunk {req : List Nat} {c : Chunk α β} {xs : Nat → Arr α}
    {ms ms' : List (Mem σ α β)} (h : ChunkDone req c xs ms ms') (i : Nat) (K : OKind σ α β) (s : OSt σ α β)
    (hm : ms[i]? = some (.online K s)) (ht : s.node.training = true) :
    ∃ (s' : OSt σ α β) (k : Nat) (a : List β) (t : TType) (d : Option Nat) (evs : List (List (OEvent α β)))
      (tail : List (OEvent α β)), ms'[i]? = some (.online K s') ∧ s'.node.training = true ∧
      s'.node.phase = s.node.phase ∧ req[i]? = some k ∧ ArgsOf c.args i k a ∧
      s.ttype.or K.types.head? = some t ∧
      List.Forall₂ (fun b e => Fed K a 0 b e) (blocks t (refcast d (xs i))) evs ∧
      s'.trace = s.trace ++ evs.flatten ++ tail ∧ (tail = [] ∨ ∃ x', tail = [.exec x']) ∧
      s'.iter = s.iter + (xs i).nrows := by
  obtain ⟨_, _, h⟩ := h
  obtain ⟨k, a, m1, m2, h1, h2, h3, _, h5, h6⟩ := h i _ hm
  have h3 := h3 ht
  have ht1 := otrain_keepOpen K (xs i) a s
  simp only [Mem.train] at h3
  obtain ⟨h3a, rfl⟩ := Prod.mk.inj h3
  have ht2 := oexecute_keepOpen K (xs i) (otrain K (xs i) a s).2
  simp only [Mem.execute] at h5
  obtain ⟨h5a, rfl⟩ := Prod.mk.inj h5
  have htr : otrain K (xs i) a s = (.ok (), (otrain K (xs i) a s).2) := Prod.ext h3a rfl
  obtain ⟨t, evs, _, g1, g2, g3, g4⟩ := online_train K (xs i) a s _ htr
  have hst := otrain_started K (xs i) a s _ htr
  obtain ⟨tail, f1, f2, f3⟩ := (execute_trace K (xs i) (otrain K (xs i) a s).2).2 (by
    rw [hst]; simp)
  exact ⟨_, k, a, t, _, evs, tail, h6, by rw [ht2.1, ht1.1, ht], ht2.2.trans ht1.2, h1, h2, g1, g2, by rw [f1, g3], f2,
    by rw [f3, g4]⟩

/-- C64: an online node that is training when `train` is called learns from every chunk: its iteration
count grows by the number of samples that reach it over all chunks, and it is still training. -/
theorem online_node_learns_every_chunk {req : List Nat} {cs : List (Chunk α β)} {xss : List (Nat → Arr α)}
    {ms ms' : List (Mem σ α β)} (h : ChunksDone req cs xss ms ms') (i : Nat) (K : OKind σ α β)
    (s : OSt σ α β) (hm : ms[i]? = some (.online K s)) (ht : s.node.training = true) :
    ∃ s' : OSt σ α β, ms'[i]? = some (.online K s') ∧ s'.node.training = true ∧
      s'.node.phase = s.node.phase ∧ xss.length = cs.length ∧
      s'.iter = s.iter + (xss.map fun xs => (xs i).nrows).sum := by
  induction h generalizing s with
  | nil ms => exact ⟨s, hm, ht, rfl, rfl, by simp⟩
  | cons h1 h2 ih =>
    obtain ⟨s1, k, a, t, d, evs, tail, g1, g2, g0, _, _, _, _, _, _, g3⟩ := online_node_learns_chunk h1 i K s hm ht
    obtain ⟨s2, f1, f2, f0, f3, f4⟩ := ih s1 g1 g2
    exact ⟨s2, f1, f2, f0.trans g0, by simp [f3], by rw [f4, g3]; simp; omega⟩

/-! ## C87: repeated training -/

theorem chunksDone_length {req : List Nat} {cs : List (Chunk α β)} {xss : List (Nat → Arr α)}
    {ms ms' : List (Mem σ α β)} (h : ChunksDone req cs xss ms ms') : ms'.length = ms.length := by
  induction h with
  | nil => rfl
  | cons h1 _ ih => rw [ih, h1.2.1]

/-- C87 where it holds: an accepted `train` leaves every online node that was training in training,
provided that, if it is the last node, it has at most one phase left. (Missing: an online node with
several phases at the end, see `multi_phase_terminal_closed`.) -/
theorem train_keeps_online_open_partial (req : List Nat) (d : OTrainArg α β) (ms ms' : List (Mem σ α β))
    (h : OnlineFlow.train req d ms = (.ok (), ms')) (i : Nat) (K : OKind σ α β) (s : OSt σ α β)
    (hm : ms[i]? = some (.online K s)) (ht : s.node.training = true)
    (hlast : i + 1 = ms.length → remaining K.toKind s.node ≤ 1) :
    ∃ s' : OSt σ α β, ms'[i]? = some (.online K s') ∧ s'.node.training = true := by
  unfold OnlineFlow.train at h
  split at h
  · cases h
  · next cs hcs =>
    split at h
    · cases h
    · next ms1 h1 =>
      unfold trainNodes at h1
      split at h1
      · cases h1
      · next ms2 h2 =>
        split at h1
        · cases h1
        · next hne =>
          obtain ⟨xss, hd⟩ := feedAll_ok req cs ms _ h2
          obtain ⟨s2, f1, f2, f3, _⟩ := online_node_learns_every_chunk hd i K s hm ht
          have hlen := chunksDone_length hd
          obtain ⟨i1, m1, m1', rfl, g1, rfl⟩ := onLast_ok h1
          obtain ⟨i2, m2, m2', e2, g2, rfl⟩ := onLast_ok h
          obtain ⟨rfl, hm2⟩ := List.append_inj' e2 rfl
          cases hm2
          by_cases hi : i < i1.length
          · refine ⟨s2, ?_, f2⟩
            rw [List.getElem?_append_left hi] at f1 ⊢
            exact f1
          · have hi' : i = i1.length := by
              have := (List.getElem?_eq_some_iff.mp f1).1
              simp at this
              omega
            subst hi'
            simp only [List.getElem?_concat_length, Option.some.injEq] at f1 ⊢
            subst f1
            simp only [List.length_append, List.length_singleton] at hlen
            have hr : remaining K.toKind s2.node ≤ 1 := by
              have := hlast (by omega)
              unfold remaining at this ⊢
              rw [f3]; exact this
            have e1 : m1' = .online K s2 := by
              unfold Mem.closeEarly at g1
              rw [if_neg (by simp only [Mem.remaining]; omega)] at g1
              exact (Prod.mk.inj g1).2.symm
            subst e1
            unfold Mem.closePlain at g2
            rw [if_pos (show (Mem.online K s2).isOnline = true from rfl)] at g2
            exact ⟨s2, (Prod.mk.inj g2).2.symm, f2⟩

/-- A plain node class with one phase for the examples: private data is what the training hook saw. -/
def pdemo : Kind (List (Nat × List (List Nat))) Nat Unit where
  trainable := true
  invertible := true
  preserveDim := false
  nPhases := 1
  supported := fun _ => true
  reqArgs := 0
  checkTrainArgs := fun _ _ _ => .ok ()
  trainHook := fun p st x _ => ⟨st ++ [(p, x.data)], [], .ok ()⟩
  stopHook := fun _ st => ⟨st, [], .ok ()⟩
  execHook := fun st x => ⟨st, [], .ok x⟩
  invHook := fun st x => ⟨st, [], .ok x⟩

/-- An online node class with one phase; executing adds the number of blocks seen so far. -/
def odemo1 : OKind (List (Nat × List (List Nat))) Nat Unit :=
  { pdemo with
    types := [.incremental, .batch]
    phaseExec := fun _ => some fun st x _ => ⟨st, [], .ok x⟩
    checkParams := fun st _ => ⟨st, [], .ok ()⟩
    execHook := fun st x => ⟨st, [], .ok { x with data := x.data.map (·.map (· + st.length)) }⟩ }

def mem1 : Mem (List (Nat × List (List Nat))) Nat Unit := .online odemo1 (oinit odemo1 none none none []).2
def mem2 : Mem (List (Nat × List (List Nat))) Nat Unit := .online odemo odemo0
def memP : Mem (List (Nat × List (List Nat))) Nat Unit := .plain pdemo (init pdemo none none none []).2

/-- The private data of a node. -/
def Mem.priv : Mem σ α β → σ
  | .plain _ s => s.st
  | .online _ s => s.node.st

/-- Two online nodes trained on two samples: the second node sees the first node's output after the first
node's update. -/
example : let r := OnlineFlow.train [0, 0] (.array (ox [[10], [20]])) [mem1, mem1]
    isOk r.1 = true ∧ r.2.map Mem.priv = [[(0, [[10]]), (0, [[20]])], [(0, [[11]]), (0, [[22]])]] ∧
    r.2.map Mem.isTraining = [true, true] := by decide +kernel

/-- C87 is violated: `train` closes an online node with two phases at the end of the flow, and a second
call of `train`, which returns normally, does not train it any more. -/
theorem multi_phase_terminal_closed :
    let r := OnlineFlow.train [0, 0] (.array (ox [[1]])) [mem1, mem2]
    let r' := OnlineFlow.train [0, 0] (.array (ox [[2]])) r.2
    isOk r.1 = true ∧ r.2.map Mem.isTraining = [true, false] ∧ isOk r'.1 = true ∧
    r'.2.map Mem.priv = [[(0, [[1]]), (0, [[2]])], [(0, [[2]]), (1, [[2]]), (10, []), (11, [])]] := by
  decide +kernel

/-! ## C88: an ordinary trainable node at the end -/

/-- The calls of the training and stop hooks in a trace. -/
def learning (t : List (Event α β)) : List (Event α β) :=
  t.filter fun e => match e with | .train .. => true | .stop .. => true | _ => false

/-- A closed node stays closed and its training and stop hooks are not called. -/
def ClosedQuiet (s t : St σ α β) : Prop :=
  s.training = false → t.training = false ∧ learning t.trace = learning s.trace

theorem closedQuiet_pre : M.Pre (ClosedQuiet (σ := σ) (α := α) (β := β)) :=
  ⟨fun _ h => ⟨h, rfl⟩, fun h1 h2 h => by
    have a := h1 h
    have b := h2 a.1
    exact ⟨b.1, b.2.trans a.2⟩⟩

theorem soft_closedQuiet {K : Kind σ α β} {s t : St σ α β} (h : Soft K s t) : ClosedQuiet s t :=
  fun ht => ⟨h.training.trans ht, by rw [h.trace]⟩

theorem plain_execute_closedQuiet (K : Kind σ α β) (x : Arr α) :
    M.Moves ClosedQuiet (Node.execute K x) := by
  have p := closedQuiet_pre (σ := σ) (α := α) (β := β)
  unfold Node.execute preExecutionChecks
  refine .bind p (.bind p (.get p) fun s1 => .bind p (.when p ?_) fun _ => .bind p ?_ fun _ =>
    .bind p (fun s => soft_closedQuiet (checkInput_soft K x s)) fun _ => .bind p (.get p) fun s1 =>
    .when p (fun s => soft_closedQuiet (setOutputDim_soft K _ s))) fun _ => .bind p (.get p) fun s1 => ?_
  · intro s ht
    rcases train_cases K x [] s with ⟨e, h1, h2⟩ | ⟨_, h, _⟩ | ⟨_, h, _⟩
    · rw [trainLoop]
      split
      · next e' s1 heq => rw [heq] at h2; exact soft_closedQuiet h2 ht
      · next s1 heq => rw [heq] at h1; cases h1
    · rw [ht] at h; cases h
    · rw [ht] at h; cases h
  · intro s ht
    simp only [ifTrainingStopTraining, M.bind_def, M.get_def, ht]
    exact ⟨ht, rfl⟩
  · intro s ht
    have := runHook_soft K (K.execHook s1.st (refcast s1.dtype x)) s
    refine ⟨this.training.trans ht, ?_⟩
    simp only [logged, this.trace, learning, List.filter_append]
    simp

/-- C88 is violated: after the first chunk an ordinary node is closed, because the flow executes it, so
its training and stop hooks are not called for any later chunk although `train` returns normally. -/
theorem plain_terminal_first_chunk_only {req : List Nat} {c : Chunk α β} {cs : List (Chunk α β)}
    {xss : List (Nat → Arr α)} {ms ms' : List (Mem σ α β)} (h : ChunksDone req (c :: cs) xss ms ms')
    (i : Nat) (K : Kind σ α β) (s : St σ α β) (hm : ms[i]? = some (.plain K s)) :
    ∃ (ms1 : List (Mem σ α β)) (s1 s' : St σ α β) (xs : Nat → Arr α), ChunkDone req c xs ms ms1 ∧
      ms1[i]? = some (.plain K s1) ∧ s1.training = false ∧ ms'[i]? = some (.plain K s') ∧
      s'.training = false ∧ learning s'.trace = learning s1.trace := by
  have later : ∀ (cs : List (Chunk α β)) (xss : List (Nat → Arr α)) (ms ms' : List (Mem σ α β)),
      ChunksDone req cs xss ms ms' → ∀ s, ms[i]? = some (.plain K s) → s.training = false →
      ∃ s', ms'[i]? = some (.plain K s') ∧ s'.training = false ∧ learning s'.trace = learning s.trace := by
    intro cs xss ms ms' hd
    induction hd with
    | nil => intro s hm ht; exact ⟨s, hm, ht, rfl⟩
    | @cons _ _ xs _ _ _ _ h1 _ ih =>
      intro s hm ht
      obtain ⟨k, a, m1, m2, _, _, _, h4, h5, h6⟩ := h1.2.2 i _ hm
      obtain rfl := h4 ht
      simp only [Mem.execute] at h5
      have hq := plain_execute_closedQuiet K (xs i) s ht
      have := (Prod.mk.inj h5).2
      subst this
      obtain ⟨s', g1, g2, g3⟩ := ih _ h6 hq.1
      exact ⟨s', g1, g2, g3.trans hq.2⟩
  cases h with
  | cons h1 h2 =>
    next xs xss ms1 =>
    obtain ⟨k, a, m1, m2, _, _, h3, h4, h5, h6⟩ := h1.2.2 i _ hm
    have hp : ∃ s0, m1 = .plain K s0 := by
      by_cases ht : s.training = true
      · have := (Prod.mk.inj (h3 ht)).2
        exact ⟨_, this.symm⟩
      · exact ⟨s, h4 (by simpa [Mem.isTraining] using ht)⟩
    obtain ⟨s0, rfl⟩ := hp
    simp only [Mem.execute] at h5
    have e1 := (Prod.mk.inj h5).1
    have e2 := (Prod.mk.inj h5).2
    subst e2
    have hc := plain_execute_closes K _ s0 _ _ (Prod.ext e1 rfl)
    obtain ⟨s', g1, g2, g3⟩ := later _ _ _ _ h2 _ h6 hc
    exact ⟨ms1, _, s', xs, h1, h6, hc, g1, g2, g3⟩

example : let r := OnlineFlow.train [0, 0] (.array (ox [[1], [2], [3]])) [mem1, memP]
    isOk r.1 = true ∧ r.2.map Mem.priv = [[(0, [[1]]), (0, [[2]]), (0, [[3]])], [(0, [[2]])]] := by
  decide +kernel

end Mdp.Online
