import Verif.Online.Circular

/-!
# Properties of `CircularOnlineFlow` (C65, C90, C91, C92)
-/

namespace Mdp.Online

open Py Mdp.Node Mdp.Flow

variable {σ α β : Type}

/-! ## C65: the ring -/

theorem rotateLeft_length (k : Nat) (l : List (Mem σ α β)) : (rotateLeft k l).length = l.length := by
  unfold rotateLeft
  split
  · rfl
  · simp only [List.length_append, List.length_drop, List.length_take]
    next h =>
    have : 0 < l.length := by
      cases l with
      | nil => simp at h
      | cons a l => simp
    have := Nat.mod_lt k this
    omega

theorem rotateLeft_get (k : Nat) (l : List (Mem σ α β)) (j : Nat) (hj : j < l.length) :
    (rotateLeft k l)[j]? = l[(j + k) % l.length]? := by
  unfold rotateLeft
  have hl : 0 < l.length := by omega
  rw [if_neg (by cases l with | nil => simp at hl | cons a l => simp)]
  have hk := Nat.mod_lt k hl
  rw [← Nat.add_mod_mod]
  generalize k % l.length = p at hk
  by_cases h : j < l.length - p
  · rw [List.getElem?_append_left (by simpa using h), List.getElem?_drop, Nat.mod_eq_of_lt (by omega),
      Nat.add_comm]
  · rw [List.getElem?_append_right (by simp; omega), List.length_drop, List.getElem?_take,
      if_pos (by omega)]
    congr 1
    rw [Nat.mod_eq_sub_mod (by omega), Nat.mod_eq_of_lt (by omega)]
    omega

/-- C65: `set_input_node(i)` with `0 ≤ i < len` makes node `i` the first one and keeps the cyclic order and
the output node. -/
theorem set_input_node_rotates (f : CFlow σ α β) (i : Nat) (hi : i < f.nodes.length)
    (ho : 0 ≤ f.out ∧ f.out < f.nodes.length) :
    ∃ f' : CFlow σ α β, setInputNode i f = (.ok (), f') ∧ f'.nodes.length = f.nodes.length ∧
      f'.nodes[0]? = f.nodes[i]? ∧
      (∀ k, k < f.nodes.length → f'.nodes[k]? = f.nodes[(k + i) % f.nodes.length]?) ∧
      0 ≤ f'.out ∧ f'.out < f.nodes.length ∧ (f'.out.toNat + i) % f.nodes.length = f.out.toNat ∧
      f'.nodes[f'.out.toNat]? = f.nodes[f.out.toNat]? ∧
      f'.iterations = f.iterations ∧ f'.stored = f.stored ∧ f'.ignore = f.ignore := by
  have hlen := rotateLeft_length i f.nodes
  unfold setInputNode
  rw [if_neg (by omega)]
  simp only [Int.toNat_natCast, hlen]
  rw [if_neg (by omega)]
  have hpos : (0 : Int) < f.nodes.length := by omega
  have h1 := Int.emod_nonneg (f.out - i) (by omega : (f.nodes.length : Int) ≠ 0)
  have h2 := Int.emod_lt_of_pos (f.out - i) hpos
  have hmod : (((f.out - i) % (f.nodes.length : Int)).toNat + i) % f.nodes.length = f.out.toNat := by
    have : ((((f.out - i) % (f.nodes.length : Int)).toNat + i) % f.nodes.length : Nat) =
        ((f.out.toNat : Nat) : Int) := by
      push_cast
      rw [Int.toNat_of_nonneg h1, Int.emod_add_emod, Int.sub_add_cancel, Int.toNat_of_nonneg ho.1]
      exact Int.emod_eq_of_lt ho.1 ho.2
    exact_mod_cast this
  refine ⟨_, rfl, hlen, ?_, ?_, h1, h2, hmod, ?_, rfl, rfl, rfl⟩
  · simp only
    rw [rotateLeft_get i f.nodes 0 (by omega), Nat.zero_add, Nat.mod_eq_of_lt hi]
  · intro k hk
    exact rotateLeft_get i f.nodes k hk
  · simp only
    rw [rotateLeft_get i f.nodes _ (by omega), hmod]

/-- C65: `set_output_node(i)` with `0 ≤ i < len` makes node `i` the output node and does nothing else. -/
theorem set_output_node_sets (f : CFlow σ α β) (i : Nat) (hi : i < f.nodes.length) :
    setOutputNode i f = (.ok (), { f with out := i }) := by
  unfold setOutputNode
  rw [if_neg (by omega)]

/-- C65, where it holds: indices below zero or above the number of nodes are rejected and nothing changes.
(Missing: the index equal to the number of nodes, see `set_node_past_end`.) -/
theorem set_node_rejects_partial (f : CFlow σ α β) (i : Int) (hi : i < 0 ∨ (f.nodes.length : Int) < i) :
    setInputNode i f = (.error .flow, f) ∧ setOutputNode i f = (.error .flow, f) := by
  unfold setInputNode setOutputNode
  rw [if_pos (by omega), if_pos (by omega)]
  exact ⟨rfl, rfl⟩

theorem cexec_past_end (k : Nat) (l : List (Mem σ α β)) (i : Nat) (x : Arr α) (h : l.length < k) :
    isOk (cexec i k l x).1 = false := by
  induction l generalizing i k x with
  | nil =>
    cases k with
    | zero => simp at h
    | succ k => rfl
  | cons m r ih =>
    cases k with
    | zero => simp at h
    | succ k =>
      unfold cexec
      split
      · rfl
      · exact ih k (i + 1) _ (by simpa using h)

/-- C65 is violated: `set_output_node` accepts the number of nodes as index, and after that `execute` fails
on every input. -/
theorem set_node_past_end (f : CFlow σ α β) :
    ∃ f' : CFlow σ α β, setOutputNode f.nodes.length f = (.ok (), f') ∧
      ∀ x, isOk (cexecute x none f').1 = false := by
  refine ⟨{ f with out := f.nodes.length }, ?_, fun x => ?_⟩
  · unfold setOutputNode
    rw [if_neg (by omega)]
  · unfold cexecute
    exact cexec_past_end _ _ _ _ (by simp only [Option.getD_none]; omega)

/-- C65: over every history of `set_input_node`, `set_output_node` and `reset_output_node` with arbitrary
indices, accepted or not, the nodes are the original ones in the same cyclic order, and the output index
points to a node if no call used the number of nodes as output index. -/
theorem ring_history (f : CFlow σ α β) (hne : f.nodes ≠ []) (ho : 0 ≤ f.out ∧ f.out < f.nodes.length)
    (ops : List (COp σ α β))
    (hops : ∀ o ∈ ops, (∃ i, o = .input i) ∨ (∃ i, o = .output i ∧ i ≠ f.nodes.length) ∨ o = .reset) :
    ∃ r, (crunOps f ops).nodes.length = f.nodes.length ∧
      (∀ k, k < f.nodes.length → (crunOps f ops).nodes[k]? = f.nodes[(k + r) % f.nodes.length]?) ∧
      0 ≤ (crunOps f ops).out ∧ (crunOps f ops).out < f.nodes.length := by
  have hpos : 0 < f.nodes.length := List.length_pos_iff.2 hne
  have gen : ∀ (ops : List (COp σ α β)) (g : CFlow σ α β) (r : Nat),
      (∀ o ∈ ops, (∃ i, o = .input i) ∨ (∃ i, o = .output i ∧ i ≠ f.nodes.length) ∨ o = .reset) →
      g.nodes.length = f.nodes.length →
      (∀ k, k < f.nodes.length → g.nodes[k]? = f.nodes[(k + r) % f.nodes.length]?) →
      0 ≤ g.out → g.out < f.nodes.length →
      ∃ r, (crunOps g ops).nodes.length = f.nodes.length ∧
        (∀ k, k < f.nodes.length → (crunOps g ops).nodes[k]? = f.nodes[(k + r) % f.nodes.length]?) ∧
        0 ≤ (crunOps g ops).out ∧ (crunOps g ops).out < f.nodes.length := by
    intro ops
    induction ops with
    | nil => intro g r _ h1 h2 h3 h4; exact ⟨r, h1, h2, h3, h4⟩
    | cons o ops ih =>
      intro g r ho h1 h2 h3 h4
      have ho' : ∀ o' ∈ ops, _ := fun o' h => ho o' (List.mem_cons_of_mem _ h)
      show ∃ r, (crunOps (o.run g).2 ops).nodes.length = _ ∧ (∀ k, k < _ → (crunOps (o.run g).2 ops).nodes[k]? = _) ∧
        0 ≤ (crunOps (o.run g).2 ops).out ∧ (crunOps (o.run g).2 ops).out < _
      rcases ho o (by simp) with ⟨i, rfl⟩ | ⟨i, rfl, hi⟩ | rfl
      · simp only [COp.run]
        by_cases hc : i > g.nodes.length ∨ i < 0
        · have : (setInputNode i g).2 = g := by unfold setInputNode; rw [if_pos hc]
          rw [this]
          exact ih g r ho' h1 h2 h3 h4
        · have hlen := rotateLeft_length i.toNat g.nodes
          have : (setInputNode i g).2 = { g with
              nodes := rotateLeft i.toNat g.nodes, out := (g.out - i) % f.nodes.length } := by
            unfold setInputNode
            rw [if_neg hc]
            simp only [hlen, h1]
            rw [if_neg (by omega)]
          rw [this]
          refine ih _ (i.toNat + r) ho' (hlen.trans h1) ?_ ?_ ?_
          · intro k hk
            simp only
            rw [rotateLeft_get _ _ _ (by omega), h1, h2 _ (Nat.mod_lt _ hpos), Nat.mod_add_mod,
              Nat.add_assoc]
          · exact Int.emod_nonneg _ (by omega)
          · exact Int.emod_lt_of_pos _ (by omega)
      · simp only [COp.run]
        by_cases hc : i > g.nodes.length ∨ i < 0
        · have : (setOutputNode i g).2 = g := by unfold setOutputNode; rw [if_pos hc]
          rw [this]
          exact ih g r ho' h1 h2 h3 h4
        · have : (setOutputNode i g).2 = { g with out := i } := by unfold setOutputNode; rw [if_neg hc]
          rw [this]
          exact ih _ r ho' h1 h2 (by simp only; omega) (by simp only; omega)
      · simp only [COp.run, resetOutputNode]
        exact ih _ r ho' h1 h2 (by simp only; omega) (by simp only; omega)
  refine gen ops f 0 hops rfl (fun k hk => ?_) ho.1 ho.2
  rw [Nat.add_zero, Nat.mod_eq_of_lt hk]

/-- A ring of three nodes that can be told apart. -/
def mem1' (n : Nat) : Mem (List (Nat × List (List Nat))) Nat Unit :=
  .online odemo1 (oinit odemo1 none none none [(n, [])]).2

def ring3 : CFlow (List (Nat × List (List Nat))) Nat Unit := ⟨[mem1' 0, mem1' 1, mem1' 2], 2, 1, none, false⟩

example : 1 < ring3.nodes.length ∧ 0 ≤ ring3.out ∧ ring3.out < ring3.nodes.length ∧ ring3.nodes ≠ [] ∧
    (setInputNode 1 ring3).2.nodes.map Mem.priv = [[(1, [])], [(2, [])], [(0, [])]] ∧
    (setInputNode 1 ring3).2.out = 1 := by
  refine ⟨by decide, by decide, by decide, by simp [ring3], by decide +kernel, by decide +kernel⟩

/-! ## C90: training -/

/-- `n` rounds: node `i` learns from its input and passes on its output, the output of a round is the input
of the next one. `x` is the first input, `y` the last output. -/
inductive Rounds : Nat → Arr α → Arr α → List (Mem σ α β) → List (Mem σ α β) → Prop where
  | zero (x : Arr α) (ms : List (Mem σ α β)) : Rounds 0 x x ms ms
  | succ {n : Nat} {x y : Arr α} {xs : Nat → Arr α} {ms ms1 ms2 : List (Mem σ α β)}
      (h1 : ChunkDone (β := β) (List.replicate ms.length 0) ⟨x, none⟩ xs ms ms1)
      (h2 : Rounds n (xs ms.length) y ms1 ms2) : Rounds (n + 1) x y ms ms2

/-- What `train` does to a flow: for every chunk, `iterations` rounds that start with the chunk, or with the
stored input if the data are ignored; the last output is stored. -/
inductive Circulated : List (Arr α) → CFlow σ α β → CFlow σ α β → Prop where
  | nil (f : CFlow σ α β) : Circulated [] f f
  | cons {x x0 y : Arr α} {xs : List (Arr α)} {f f2 : CFlow σ α β} {ms : List (Mem σ α β)}
      (h0 : if f.ignore = true then f.stored = some x0 else x0 = x)
      (h1 : Rounds f.iterations.toNat x0 y f.nodes ms)
      (h2 : Circulated xs { f with nodes := ms, stored := some y } f2) : Circulated (x :: xs) f f2

theorem cloop_ok (n : Nat) (x : Option (Arr α)) (f f' : CFlow σ α β) (hne : f.nodes ≠ [])
    (h : cloop (n + 1) x f = (.ok (), f')) :
    ∃ x0 y ms, x = some x0 ∧ Rounds (n + 1) x0 y f.nodes ms ∧ f' = { f with nodes := ms, stored := some y } ∧
      ms ≠ [] := by
  induction n generalizing x f with
  | zero =>
    cases x with
    | none =>
      unfold cloop at h
      rw [if_neg (by simpa using hne)] at h
      cases h
    | some x =>
      unfold cloop at h
      split at h
      · cases h
      · next y ms hp =>
        unfold pass at hp
        obtain ⟨xs, e1, e2, e3, e4⟩ := feed_ok _ _ _ _ _ _ _ hp
        simp only [cloop] at h
        obtain ⟨-, rfl⟩ := Prod.mk.inj h
        refine ⟨x, y, ms, rfl, .succ (xs := xs) ⟨e1, e3, fun i m hm => by simpa using e4 i m hm⟩ ?_, rfl, ?_⟩
        · rw [e2]; exact .zero _ _
        · intro h0; rw [h0] at e3; exact hne (List.length_eq_zero_iff.1 e3.symm)
  | succ n ih =>
    cases x with
    | none =>
      unfold cloop at h
      rw [if_neg (by simpa using hne)] at h
      cases h
    | some x =>
      unfold cloop at h
      split at h
      · cases h
      · next y ms hp =>
        unfold pass at hp
        obtain ⟨xs, e1, e2, e3, e4⟩ := feed_ok _ _ _ _ _ _ _ hp
        have hms : ms ≠ [] := by
          intro h0; rw [h0] at e3; exact hne (List.length_eq_zero_iff.1 e3.symm)
        obtain ⟨x0, y', ms', g1, g2, g3, g4⟩ := ih (some y) _ hms h
        cases g1
        refine ⟨x, y', ms', rfl, .succ (xs := xs) ⟨e1, e3, fun i m hm => by simpa using e4 i m hm⟩ ?_, g3, g4⟩
        rw [e2]; exact g2

/-- C90: an accepted `train` with at least one flow iteration runs, for every chunk, exactly that many rounds
through the ring: the first with the chunk (or, if external input is ignored, with the stored input), the
others with the output of the previous round; each node is trained before it passes on its output. -/
theorem circular_train (f f' : CFlow σ α β) (xs : List (Arr α)) (hne : f.nodes ≠ []) (hn : 0 < f.iterations)
    (h : ctrain (.array3 xs : OTrainArg α β) f = (.ok (), f')) : Circulated xs f f' := by
  have hx : ((xs.map fun x => (⟨x, none⟩ : Chunk α β)).map Chunk.x) = xs := by
    rw [List.map_map]; simp [Function.comp_def]
  have h' : ctrainNodes xs f = (.ok (), f') := by
    unfold ctrain OTrainArg.chunks at h
    simp only [hx] at h
    exact h
  clear h hx
  induction xs generalizing f with
  | nil => simp only [ctrainNodes] at h'; cases h'; exact .nil _
  | cons x xs ih =>
    unfold ctrainNodes at h'
    obtain ⟨n, hn'⟩ : ∃ n, f.iterations.toNat = n + 1 := ⟨f.iterations.toNat - 1, by omega⟩
    rw [hn'] at h'
    split at h'
    · cases h'
    · next f1 hl =>
      obtain ⟨x0, y, ms, e1, e2, e3, e4⟩ := cloop_ok n _ f f1 hne hl
      subst e3
      refine .cons (x0 := x0) (y := y) ?_ (by rw [hn']; exact e2) (ih _ e4 hn h')
      by_cases hi : f.ignore = true
      · rw [if_pos hi] at e1 ⊢; exact e1
      · rw [if_neg hi] at e1 ⊢; exact (Option.some.inj e1).symm

/-- C90: with the default of one iteration the nodes are trained as by an `OnlineFlow` without arguments. -/
theorem circular_train_default (f f' : CFlow σ α β) (xs : List (Arr α)) (hne : f.nodes ≠ [])
    (hn : f.iterations = 1) (hi : f.ignore = false)
    (h : ctrain (.array3 xs : OTrainArg α β) f = (.ok (), f')) :
    ∃ xss, ChunksDone (List.replicate f.nodes.length 0) (xs.map fun x => ⟨x, none⟩) xss f.nodes f'.nodes := by
  have hc := circular_train f f' xs hne (by omega) h
  clear h hne
  induction hc with
  | nil f => exact ⟨[], .nil _⟩
  | @cons x x0 y xs f f2 ms h0 h1 h2 ih =>
    rw [hi] at h0
    obtain rfl : x0 = x := by simpa using h0
    rw [hn] at h1
    cases h1 with
    | succ h3 h4 =>
      cases h4
      obtain ⟨xss, ih⟩ := ih hn hi
      rw [show ms.length = f.nodes.length from h3.2.1] at ih
      exact ⟨_, .cons h3 ih⟩

/-- C90: if external input is ignored, only the number of chunks matters. -/
theorem ignored_input (f : CFlow σ α β) (hi : f.ignore = true) (xs xs' : List (Arr α))
    (hl : xs.length = xs'.length) :
    ctrain (.array3 xs : OTrainArg α β) f = ctrain (.array3 xs') f := by
  have keep : ∀ (n : Nat) (x : Option (Arr α)) (f : CFlow σ α β), (cloop n x f).2.ignore = f.ignore := by
    intro n
    induction n with
    | zero => intro x f; rfl
    | succ n ih =>
      intro x f
      cases x with
      | none =>
        unfold cloop
        split
        · rw [ih]
        · rfl
      | some x =>
        unfold cloop
        split
        · rfl
        · rw [ih]
  have hx : ∀ xs : List (Arr α), ctrain (.array3 xs : OTrainArg α β) f = ctrainNodes xs f := by
    intro xs
    unfold ctrain OTrainArg.chunks
    simp only [List.map_map]
    congr 1
    simp [Function.comp_def]
  rw [hx, hx]
  clear hx
  induction xs generalizing f xs' with
  | nil =>
    cases xs' with
    | nil => rfl
    | cons x' xs' => simp at hl
  | cons x xs ih =>
    cases xs' with
    | nil => simp at hl
    | cons x' xs' =>
      simp only [ctrainNodes, hi, if_true]
      have := keep f.iterations.toNat f.stored f
      split
      · rfl
      · next f1 he =>
        rw [he] at this
        exact ih f1 (this.trans hi) xs' (by simpa using hl)

/-- Two rounds per sample: the second node adds the number of blocks it has seen. -/
example : let f : CFlow (List (Nat × List (List Nat))) Nat Unit := ⟨[mem1], 0, 2, none, false⟩
    let r := ctrain (.array3 [ox [[10]], ox [[20]]]) f
    f.nodes ≠ [] ∧ 0 < f.iterations ∧ isOk r.1 = true ∧
    r.2.nodes.map Mem.priv = [[(0, [[10]]), (0, [[11]]), (0, [[20]]), (0, [[23]])]] := by
  refine ⟨by simp, by decide, by decide +kernel, by decide +kernel⟩

/-! ## C91: the container -/

theorem caccept_cases (f : CFlow σ α β) (l : List (Mem σ α β)) :
    (∃ e, caccept f l = (.error e, f)) ∨
    (caccept f l = (.ok (), { f with nodes := l }) ∧ checkNodes l = .ok () ∧ ccompat l = .ok ()) := by
  unfold caccept
  cases h1 : checkNodes l with
  | error e => exact .inl ⟨e, rfl⟩
  | ok u =>
    cases h2 : ccompat l with
    | error e => exact .inl ⟨e, rfl⟩
    | ok u => exact .inr ⟨rfl, rfl, rfl⟩

theorem csetItem0_slice (f : CFlow σ α β) (a b c : Option Int) (v : Rhs (Mem σ α β)) :
    (∃ e, csetItem0 f (.slice a b c) v = (.error e, f)) ∨
    ∃ vs l, orhs v = .ok vs ∧ setSlice f.nodes a b c vs = some l ∧
      csetItem0 f (.slice a b c) v = (.ok (), { f with nodes := l }) ∧ checkNodes l = .ok () ∧
      ccompat l = .ok () := by
  unfold csetItem0
  cases h1 : orhs v with
  | error e => exact .inl ⟨e, rfl⟩
  | ok vs =>
    simp only
    cases h2 : setSlice f.nodes a b c vs with
    | none => exact .inl ⟨_, rfl⟩
    | some l =>
      simp only
      rcases caccept_cases f l with ⟨e, h⟩ | ⟨h, h3, h4⟩
      · exact .inl ⟨e, h⟩
      · exact .inr ⟨vs, l, rfl, h2, h, h3, h4⟩

/-- Slice assignment behind the output node. -/
theorem csetItem_behind (f : CFlow σ α β) (a : Int) (b c : Option Int) (v : Rhs (Mem σ α β)) (ha : f.out ≤ a) :
    (∃ e, cthenRecheck (csetItem f (.slice (some a) b c) v) = (.error e, f)) ∨
    ∃ vs l, orhs v = .ok vs ∧ setSlice f.nodes (some a) b c vs = some l ∧ Consistent l ∧
      (∀ m ∈ l, m.isOnline = true ∨ m.isTraining = false) ∧
      cthenRecheck (csetItem f (.slice (some a) b c) v) = (.ok (), { f with nodes := l }) := by
  rcases csetItem0_slice f (some a) b c v with ⟨e, h⟩ | ⟨vs, l, h1, h2, h3, h4, h5⟩
  · refine .inl ⟨e, ?_⟩
    simp only [csetItem, h, cthenRecheck]
  · refine .inr ⟨vs, l, h1, h2, checkNodes_ok h4, ?_, ?_⟩
    · intro m hm
      unfold ccompat at h5
      split at h5
      · next ha => simpa [Mem.anywhere] using List.all_eq_true.1 ha m hm
      · cases h5
    · simp only [csetItem, h3, keyTest]
      rw [if_neg (by omega)]
      simp only [cthenRecheck, h4, h5]

/-- C91, where it holds: `append` and `extend` on a flow with a valid output index are rejected without an
effect, or add the nodes at the end of an admissible flow and keep the output node. (Missing: the other
calls, see the violations below.) -/
theorem circular_append_partial (f : CFlow σ α β) (ho : f.out ≤ f.nodes.length) :
    (∀ n : Mem σ α β, (∃ e, cappend f (.node n) = (.error e, f)) ∨
      (cappend f (.node n) = (.ok (), { f with nodes := f.nodes ++ [n] }) ∧ Consistent (f.nodes ++ [n]))) ∧
    (∀ l : List (Mem σ α β), (∃ e, cextend f (.flow l) = (.error e, f)) ∨
      (cextend f (.flow l) = (.ok (), { f with nodes := f.nodes ++ l }) ∧ Consistent (f.nodes ++ l))) := by
  have hp : pyPos f.nodes.length f.nodes.length = f.nodes.length := by unfold pyPos; split <;> omega
  have hend : ∀ vs, setSlice f.nodes (some f.nodes.length) (some f.nodes.length) none vs = some (f.nodes ++ vs) := by
    intro vs; rw [setSlice_step1]; simp [hp]
  have hr : ∀ (l vs : List (Mem σ α β)), orhs (.many (l.map .node)) = .ok vs → vs = l := by
    intro l vs h
    have := orhs_plain h
    simp only [rhsNodes, allNodes_map, Except.ok.injEq] at this
    exact this.symm
  constructor
  · intro n
    unfold cappend
    rcases csetItem_behind f f.nodes.length (some f.nodes.length) none (.many [.node n]) ho with
      ⟨e, h⟩ | ⟨vs, l, h1, h2, h3, _, h5⟩
    · exact .inl ⟨e, h⟩
    · obtain rfl := hr [n] vs h1
      rw [hend] at h2
      cases h2
      exact .inr ⟨h5, h3⟩
  · intro l'
    unfold cextend
    rcases csetItem_behind f f.nodes.length (some f.nodes.length) none (.many (l'.map .node)) ho with
      ⟨e, h⟩ | ⟨vs, l, h1, h2, h3, _, h5⟩
    · exact .inl ⟨e, h⟩
    · obtain rfl := hr l' vs h1
      rw [hend] at h2
      cases h2
      exact .inr ⟨h5, h3⟩

/-- C91, where it holds: `insert` at or behind the output node is rejected without an effect, or puts the
node there and keeps the output node, also if it moves by one. -/
theorem circular_insert_partial (f : CFlow σ α β) (i : Nat) (n : Mem σ α β) (ho : 0 ≤ f.out ∧ f.out ≤ i)
    (hi : i ≤ f.nodes.length) :
    (∃ e, cinsert f i (.node n) = (.error e, f)) ∨
    (cinsert f i (.node n) = (.ok (), { f with
        nodes := f.nodes.take i ++ [n] ++ f.nodes.drop i, out := if f.out = i then (i : Int) + 1 else f.out }) ∧
      Consistent (f.nodes.take i ++ [n] ++ f.nodes.drop i) ∧
      (f.nodes.take i ++ [n] ++ f.nodes.drop i)[(if f.out = i then (i : Int) + 1 else f.out).toNat]? =
        f.nodes[f.out.toNat]?) := by
  have hp : pyPos f.nodes.length i = i := by unfold pyPos; split <;> omega
  have hset : ∀ vs, setSlice f.nodes (some (i : Int)) (some (i : Int)) none vs =
      some (f.nodes.take i ++ vs ++ f.nodes.drop i) := by
    intro vs; rw [setSlice_step1]; simp [hp]
  rcases csetItem_behind f i (some i) none (.many [.node n]) ho.2 with ⟨e, h⟩ | ⟨vs, l, h1, h2, h3, _, h5⟩
  · refine .inl ⟨e, ?_⟩
    simp only [cinsert, h]
  · refine .inr ?_
    have := orhs_plain h1
    have hv : rhsNodes (.many [.node n] : Rhs (Mem σ α β)) = .ok [n] := rfl
    rw [hv] at this
    cases this
    rw [hset] at h2
    cases h2
    refine ⟨?_, h3, ?_⟩
    · simp only [cinsert, h5]
      by_cases hc : f.out = i
      · rw [if_pos (by omega), if_pos hc]
        unfold setOutputNode
        rw [if_neg (by simp; omega)]
        rw [hc]
      · rw [if_neg (by omega), if_neg hc]
    · by_cases hc : f.out = i
      · rw [if_pos hc, hc, List.getElem?_append_right (by simp; omega)]
        simp only [List.length_append, List.length_take, List.length_singleton, List.getElem?_drop,
          Int.toNat_natCast]
        congr 1
        omega
      · rw [if_neg hc, List.append_assoc, List.getElem?_append_left (by simp; omega),
          List.getElem?_take, if_pos (by omega)]

/-- C91 is violated by `insert` before the output node (also for all negative indices): if the node is
admissible, the call raises a TypeError and the node has been inserted, so that the output index points to
another node. -/
theorem circular_insert_violation (f : CFlow σ α β) (i : Int) (n : Mem σ α β) (hi : i < f.out)
    (hn : n.isOnline = true ∨ n.isTraining = false)
    (hc : checkNodes (f.nodes.take (pyPos f.nodes.length i) ++ [n] ++ f.nodes.drop (pyPos f.nodes.length i)) = .ok ())
    (hf : ∀ m ∈ f.nodes, m.isOnline = true ∨ m.isTraining = false) :
    cinsert f i (.node n) = (.error .type, { f with
      nodes := f.nodes.take (pyPos f.nodes.length i) ++ [n] ++ f.nodes.drop (pyPos f.nodes.length i) }) := by
  have ha : n.anywhere = true := by simpa [Mem.anywhere] using hn
  have hcc : ccompat (f.nodes.take (pyPos f.nodes.length i) ++ [n] ++ f.nodes.drop (pyPos f.nodes.length i)) =
      .ok () := by
    unfold ccompat
    rw [if_pos]
    refine List.all_eq_true.2 fun m hm => ?_
    have : m ∈ f.nodes ∨ m = n := by
      simp only [List.mem_append, List.mem_singleton] at hm
      rcases hm with (h | h) | h
      · exact .inl (List.mem_of_mem_take h)
      · exact .inr h
      · exact .inl (List.mem_of_mem_drop h)
    rcases this with h | h
    · simpa [Mem.anywhere] using hf m h
    · rw [h]; exact ha
  have hs : setSlice f.nodes (some i) (some i) none [n] =
      some (f.nodes.take (pyPos f.nodes.length i) ++ [n] ++ f.nodes.drop (pyPos f.nodes.length i)) := by
    rw [setSlice_step1]; simp
  have : csetItem0 f (.slice (some i) (some i) none) (.many [.node n]) = (.ok (), { f with
      nodes := f.nodes.take (pyPos f.nodes.length i) ++ [n] ++ f.nodes.drop (pyPos f.nodes.length i) }) := by
    simp only [csetItem0, orhs, allNodes, Option.map_some, List.all_cons, ha, List.all_nil, Bool.and_self,
      if_true, hs, caccept, hc, hcc]
  simp only [cinsert, csetItem, this, keyTest]
  rw [if_pos hi]
  rfl

/-- C91 is violated by deletion: `del` and `pop` never return, whether or not they have deleted nodes. -/
theorem circular_delete_never_returns (f : CFlow σ α β) :
    (∀ k, isOk (cdelItem f k).1 = false) ∧ ∀ i, isOk (cpop f i).1 = false := by
  have h : ∀ k, isOk (cdelItem f k).1 = false := by
    intro k
    unfold cdelItem
    split
    · rfl
    · split <;> rfl
  refine ⟨h, fun i => ?_⟩
  unfold cpop
  split
  · rfl
  · exact h _

/-- C91 is violated by item assignment: `flow[i] = node` never returns. -/
theorem circular_setitem_never_returns (f : CFlow σ α β) (i : Int) (v : Rhs (Mem σ α β)) :
    isOk (csetItem f (.idx i) v).1 = false := by
  unfold csetItem
  split
  · rfl
  · rfl

/-- The calls that raise have changed the flow: a node was replaced, deleted, inserted. -/
theorem circular_violation :
    ((csetItem ring3 (.idx 0) (.one (.node (mem1' 7)))).2.nodes.map Mem.priv =
      [[(7, [])], [(1, [])], [(2, [])]]) ∧
    ((cdelItem ring3 (.idx 0)).2.nodes.map Mem.priv = [[(1, [])], [(2, [])]]) ∧
    (cdelItem ring3 (.idx 0)).2.out = 2 ∧
    ((cinsert ring3 0 (.node (mem1' 7))).2.nodes.map Mem.priv = [[(7, [])], [(0, [])], [(1, [])], [(2, [])]]) ∧
    isOk (cinsert ring3 0 (.node (mem1' 7))).1 = false ∧ (cinsert ring3 0 (.node (mem1' 7))).2.out = 2 := by
  decide +kernel

example : (cinsert ring3 2 (.node (mem1' 7))).2.nodes.map Mem.priv = [[(0, [])], [(1, [])], [(7, [])], [(2, [])]] ∧
    isOk (cinsert ring3 2 (.node (mem1' 7))).1 = true ∧ (cinsert ring3 2 (.node (mem1' 7))).2.out = 3 ∧
    isOk (cappend ring3 (.node (mem1' 7))).1 = true := by
  decide +kernel

/-! ## C92: the stored input, and execution -/

/-- C92, where it holds: if the input dimension of the first node is known, `set_stored_input` stores an
array of that width and rejects any other without an effect. (Missing: an unknown input dimension.) -/
theorem set_stored_input_partial (f : CFlow σ α β) (m : Mem σ α β) (r : List (Mem σ α β)) (d : Nat) (x : Arr α)
    (hf : f.nodes = m :: r) (hd : Dims.inp m = some d) :
    (x.cols = d → setStoredInput x f = (.ok (), { f with stored := some x })) ∧
    (x.cols ≠ d → setStoredInput x f = (.error .flow, f)) := by
  unfold setStoredInput
  rw [hf]
  simp only [hd]
  exact ⟨fun h => by rw [if_neg (by simpa using h)], fun h => by rw [if_pos h]⟩

/-- C92 is violated: on a new flow, whose input dimension is not known, `set_stored_input` returns without
storing anything, and training on stored input then fails. -/
theorem set_stored_input_dropped (f : CFlow σ α β) (m : Mem σ α β) (r : List (Mem σ α β)) (x y : Arr α)
    (hf : f.nodes = m :: r) (hd : Dims.inp m = none) (hs : f.stored = none) (hn : 0 < f.iterations) :
    setStoredInput x f = (.ok (), f) ∧
      ctrain (.array3 [y] : OTrainArg α β) { (setStoredInput x f).2 with ignore := true } =
        (.error (.flowCR 0 .attribute), { f with ignore := true }) := by
  have h : setStoredInput x f = (.ok (), f) := by
    unfold setStoredInput
    rw [hf]
    simp only [hd]
  refine ⟨h, ?_⟩
  rw [h]
  obtain ⟨n, hn'⟩ : ∃ n, f.iterations.toNat = n + 1 := ⟨f.iterations.toNat - 1, by omega⟩
  simp only [ctrain, OTrainArg.chunks, List.map_cons, List.map_nil, ctrainNodes, if_true, hs, hn', cloop, hf,
    List.isEmpty_cons]
  rfl

example : ∃ m r, ring3.nodes = m :: r ∧ Dims.inp m = none ∧ ring3.stored = none ∧ 0 < ring3.iterations :=
  ⟨_, _, rfl, rfl, rfl, by decide⟩

/-- The nodes from the first to the output node, applied in order. -/
inductive Through : List (Mem σ α β) → Arr α → Arr α → List (Mem σ α β) → Prop where
  | nil (x : Arr α) : Through [] x x []
  | cons {m m' : Mem σ α β} {r r' : List (Mem σ α β)} {x y z : Arr α} (h1 : m.execute x = (.ok y, m'))
      (h2 : Through r y z r') : Through (m :: r) x z (m' :: r')

/-- C92: `execute` applies the nodes from the input node to the output node, both included, and leaves the
others alone. -/
theorem circular_execute (f f' : CFlow σ α β) (x y : Arr α) (ho : -1 ≤ f.out)
    (h : cexecute x none f = (.ok y, f')) :
    ∃ l, Through (f.nodes.take (f.out + 1).toNat) x y l ∧
      f' = { f with nodes := l ++ f.nodes.drop (f.out + 1).toNat } ∧ f.out < f.nodes.length := by
  have gen : ∀ (k : Nat) (ms : List (Mem σ α β)) (i : Nat) (x : Arr α) (ms' : List (Mem σ α β)),
      cexec i k ms x = (.ok y, ms') →
      ∃ l, Through (ms.take k) x y l ∧ ms' = l ++ ms.drop k ∧ k ≤ ms.length := by
    intro k
    induction k with
    | zero =>
      intro ms i x ms' h
      simp only [cexec] at h
      obtain ⟨h1, rfl⟩ := Prod.mk.inj h
      obtain rfl : x = y := by injection h1
      exact ⟨[], .nil _, by simp, by simp⟩
    | succ k ih =>
      intro ms i x ms' h
      cases ms with
      | nil => simp [cexec] at h
      | cons m r =>
        unfold cexec at h
        split at h
        · cases h
        · next y' m' he =>
          obtain ⟨h1, rfl⟩ := Prod.mk.inj h
          obtain ⟨l, g1, g2, g3⟩ := ih r (i + 1) y' _ (Prod.ext h1 rfl)
          refine ⟨m' :: l, .cons he g1, ?_, by simpa using g3⟩
          simp only [List.drop_succ_cons, List.cons_append, List.cons.injEq, true_and]
          exact g2
  unfold cexecute at h
  simp only [Option.getD_none] at h
  obtain ⟨h1, rfl⟩ := Prod.mk.inj h
  obtain ⟨l, g1, g2, g3⟩ := gen _ f.nodes 0 x _ (Prod.ext h1 rfl)
  exact ⟨l, g1, congrArg (fun n => ({ f with nodes := n } : CFlow σ α β)) g2, by omega⟩

/-- C92 is violated by `inverse`, which never returns: it slices a deque. -/
theorem circular_inverse_never_returns (f : CFlow σ α β) (x : Arr α) : isOk (cinverse x f).1 = false := rfl

end Mdp.Online
