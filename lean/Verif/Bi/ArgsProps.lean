import Verif.Bi.Args

/-!
# Data, messages and targets that reach the nodes of a `BiFlow` (C364, C365)
-/

namespace Mdp.BiArgs

variable {X M : Type}

/-! ## Specification -/

/-- `v` is a list or another iterable (for instance a generator) with the elements `l`. -/
def Lists (v : Val X M) (l : List (Val X M)) : Prop := v = .list l ∨ v = .gen l

/-- The optional argument `v` has the value `y` for chunk `k`: it was left out and `y` is `None`, or it is an iterable with element `y`
at `k`. -/
def Gives (v : Val X M) (k : Nat) (y : Val X M) : Prop :=
  (v = .none ∧ y = .none) ∨ ∃ l, Lists v l ∧ l[k]? = some y

/-- A sequence of arrays or an omitted argument. -/
def Optional (v : Val X M) : Prop := v = .none ∨ ∃ l, Lists v l

/-! ## Helper lemmas -/

/-- What `next` gives at time `k`. -/
def It.at : It X M → Nat → Option (Val X M)
  | .fin l, k => l[k]?
  | .nones, _ => some .none

theorem next_none {i : It X M} : i.next = Option.none ↔ i.at 0 = Option.none := by
  rcases i with (_ | ⟨v, l⟩) | _ <;> simp [It.next, It.at]

theorem next_some {i j : It X M} {v : Val X M} (h : i.next = some (v, j)) : i.at 0 = some v ∧ ∀ k, i.at (k + 1) = j.at k := by
  rcases i with (_ | ⟨w, l⟩) | _ <;> simp [It.next] at h <;> obtain ⟨rfl, rfl⟩ := h <;> simp [It.at]

/-- One of the iterators is at its end at time `n`. -/
def Ends (i : Its X M) (n : Nat) : Prop := i.1.at n = Option.none ∨ i.2.1.at n = Option.none ∨ i.2.2.at n = Option.none

theorem loop_spec : ∀ (n fuel : Nat) (i : Its X M), Ends i n → n < fuel →
    ∃ l i', loop fuel i = some (l, i') ∧ ∀ k x m t, l[k]? = some (x, m, t) ↔ k < n ∧
      (∀ k' ≤ k, ¬Ends i k') ∧ i.1.at k = some x ∧ i.2.1.at k = some m ∧ i.2.2.at k = some t := by
  intro n
  induction n with
  | zero =>
    intro fuel i he hf
    obtain ⟨f, rfl⟩ : ∃ f, fuel = f + 1 := ⟨fuel - 1, by omega⟩
    have hz : (zipNext i).1 = Option.none := by
      unfold zipNext
      rcases h1 : i.1.next with _ | ⟨x, a⟩
      · rfl
      · rcases h2 : i.2.1.next with _ | ⟨m, b⟩
        · rfl
        · rcases h3 : i.2.2.next with _ | ⟨t, c⟩
          · rfl
          · rcases he with h | h | h
            · rw [← next_none, h1] at h; cases h
            · rw [← next_none, h2] at h; cases h
            · rw [← next_none, h3] at h; cases h
    rcases hzz : zipNext i with ⟨o, j⟩
    rw [hzz] at hz
    subst hz
    exact ⟨[], j, by simp [loop, hzz], by simp⟩
  | succ n ih =>
    intro fuel i he hf
    obtain ⟨f, rfl⟩ : ∃ f, fuel = f + 1 := ⟨fuel - 1, by omega⟩
    obtain ⟨a, b, c⟩ := i
    rcases h1 : a.next with _ | ⟨x, a'⟩
    · refine ⟨[], (a, b, c), by simp [loop, zipNext, h1], fun k x m t => ?_⟩
      have : Ends (a, b, c) 0 := .inl (next_none.1 h1)
      simp only [List.getElem?_nil, reduceCtorEq, false_iff]
      rintro ⟨_, h, _⟩
      exact h 0 (Nat.zero_le _) this
    · rcases h2 : b.next with _ | ⟨m, b'⟩
      · refine ⟨[], (a', b, c), by simp [loop, zipNext, h1, h2], fun k x m t => ?_⟩
        have : Ends (a, b, c) 0 := .inr (.inl (next_none.1 h2))
        simp only [List.getElem?_nil, reduceCtorEq, false_iff]
        rintro ⟨_, h, _⟩
        exact h 0 (Nat.zero_le _) this
      · rcases h3 : c.next with _ | ⟨t, c'⟩
        · refine ⟨[], (a', b', c), by simp [loop, zipNext, h1, h2, h3], fun k x m t => ?_⟩
          have : Ends (a, b, c) 0 := .inr (.inr (next_none.1 h3))
          simp only [List.getElem?_nil, reduceCtorEq, false_iff]
          rintro ⟨_, h, _⟩
          exact h 0 (Nat.zero_le _) this
        · obtain ⟨a0, as⟩ := next_some h1
          obtain ⟨b0, bs⟩ := next_some h2
          obtain ⟨c0, cs⟩ := next_some h3
          have hends : ∀ k, Ends (a, b, c) (k + 1) ↔ Ends (a', b', c') k := fun k => by simp [Ends, as, bs, cs]
          have h00 : ¬Ends (a, b, c) 0 := by simp [Ends, a0, b0, c0]
          obtain ⟨l, j, hl, hs⟩ := ih f (a', b', c') ((hends n).1 he) (by omega)
          refine ⟨(x, m, t) :: l, j, by simp [loop, zipNext, h1, h2, h3, hl], fun k y p q => ?_⟩
          cases k with
          | zero =>
            simp only [List.getElem?_cons_zero, Option.some.injEq, Prod.mk.injEq, a0, b0, c0]
            constructor
            · rintro ⟨rfl, rfl, rfl⟩
              exact ⟨by omega, fun k' hk' => by obtain rfl : k' = 0 := by omega
                                                exact h00, rfl, rfl, rfl⟩
            · rintro ⟨_, _, h⟩; exact h
          | succ k =>
            rw [List.getElem?_cons_succ, hs]
            simp only [as, bs, cs]
            constructor
            · rintro ⟨g1, g2, g3⟩
              refine ⟨by omega, fun k' hk' => ?_, g3⟩
              cases k' with
              | zero => exact h00
              | succ k' => rw [hends]; exact g2 k' (by omega)
            · rintro ⟨g1, g2, g3⟩
              exact ⟨by omega, fun k' hk' => by rw [← hends]; exact g2 (k' + 1) (by omega), g3⟩

theorem lists_iter (E : Env X M) {v : Val X M} {l : List (Val X M)} (h : Lists v l) : (Src.val v).iter E = .ok (.fin l) := by
  rcases h with rfl | rfl <;> rfl

theorem lists_inj {v : Val X M} {l l' : List (Val X M)} (h : Lists v l) (h' : Lists v l') : l = l' := by
  rcases h with rfl | rfl <;> rcases h' with h' | h' <;> cases h' <;> rfl

/-- The iterator of an optional argument. -/
theorem optional_iter (E : Env X M) {v : Val X M} (h : Optional v) :
    ∃ i : It X M, (Src.opt v).iter E = .ok i ∧ (∀ k y, i.at k = some y ↔ Gives v k y) ∧
      ((v = .none ∧ i = .nones) ∨ ∃ l, Lists v l ∧ i = .fin l) := by
  rcases h with rfl | ⟨l, h⟩
  · exact ⟨.nones, rfl, fun k y => by simp [It.at, Gives, Lists, eq_comm], .inl ⟨rfl, rfl⟩⟩
  · refine ⟨.fin l, ?_, fun k y => ?_, .inr ⟨l, h, rfl⟩⟩
    · rcases h with rfl | rfl <;> rfl
    · simp only [It.at, Gives]
      constructor
      · exact fun hy => .inr ⟨l, h, hy⟩
      · rintro (⟨rfl, _⟩ | ⟨l', h', hy⟩)
        · rcases h with h | h <;> cases h
        · rw [lists_inj h h']; exact hy

theorem sanitize_lists {d : Val X M} {xs : List (Val X M)} (hd : Lists d xs) (m t : Val X M) :
    sanitize d m t = .ok (.val d, .opt m, .opt t) := by
  rcases hd with rfl | rfl <;> rfl

/-! ## Execution -/

/-- C364. A single array is one chunk with the given message and target, whatever they are. -/
theorem single_array (E : Env X M) (x : X) (m t : Val X M) (fuel : Nat) (hf : 1 < fuel) :
    ∃ i, execute E fuel (.array x) m t = some (.ok ([(.array x, m, t)], i)) := by
  obtain ⟨f, rfl⟩ : ∃ f, fuel = f + 2 := ⟨fuel - 2, by omega⟩
  exact ⟨_, rfl⟩

/-- C364. A single message without data is one chunk. -/
theorem single_message (E : Env X M) (m : M) (t : Val X M) (fuel : Nat) (hf : 1 < fuel) :
    ∃ i, execute E fuel .none (.dict m) t = some (.ok ([(.none, .dict m, t)], i)) := by
  obtain ⟨f, rfl⟩ : ∃ f, fuel = f + 2 := ⟨fuel - 2, by omega⟩
  exact ⟨_, rfl⟩

/-- C364. Without data and message the flow raises an exception. -/
theorem nothing_refused (E : Env X M) (t : Val X M) (fuel : Nat) : execute E fuel .none .none t = some (.error .biflow) := rfl

/-- C364. For an iterable of data, with messages and targets as iterables or left out: the chunks are the elements at the same
position, in order, as long as each iterable has an element; if there is not a single one, the flow raises an exception. -/
theorem chunks_in_order (E : Env X M) (d m t : Val X M) (xs : List (Val X M)) (hd : Lists d xs) (hm : Optional m) (ht : Optional t)
    (fuel : Nat) (hf : xs.length < fuel) :
    (∃ l i, execute E fuel d m t = some (.ok (l, i)) ∧ l ≠ [] ∧
      ∀ k x y z, l[k]? = some (x, y, z) ↔ xs[k]? = some x ∧ Gives m k y ∧ Gives t k z) ∨
    (execute E fuel d m t = some (.error .biflow) ∧ ¬∃ x y z, xs[0]? = some x ∧ Gives m 0 y ∧ Gives t 0 z) := by
  obtain ⟨b, hb, gb, fb⟩ := optional_iter E hm
  obtain ⟨c, hc, gc, fc⟩ := optional_iter E ht
  have hit : iters E (.val d, .opt m, .opt t) =
      .ok (.fin xs, b, c) := by
    unfold iters
    simp only [lists_iter E hd, hb, hc]
    rfl
  obtain ⟨l, i', hl, hs⟩ := loop_spec xs.length fuel (.fin xs, b, c) (.inl (by simp [It.at])) hf
  have mono : ∀ (j : It X M) k k' y, k' ≤ k → j.at k = some y → j.at k' ≠ Option.none := by
    intro j k k' y hk hy
    cases j with
    | nones => simp [It.at]
    | fin l =>
      simp only [It.at] at hy ⊢
      obtain ⟨hlt, _⟩ := List.getElem?_eq_some_iff.1 hy
      rw [Ne, List.getElem?_eq_none_iff]; omega
  have key : ∀ k x y z, l[k]? = some (x, y, z) ↔ xs[k]? = some x ∧ Gives m k y ∧ Gives t k z := by
    intro k x y z
    rw [hs, ← gb, ← gc]
    constructor
    · rintro ⟨_, _, h⟩; exact h
    · rintro ⟨h1, h2, h3⟩
      obtain ⟨hlt, _⟩ := List.getElem?_eq_some_iff.1 h1
      refine ⟨hlt, fun k' hk' he => ?_, h1, h2, h3⟩
      rcases he with he | he | he
      · exact mono (.fin xs) k k' x hk' h1 he
      · exact mono b k k' y hk' h2 he
      · exact mono c k k' z hk' h3 he
  have hex : execute E fuel d m t = some (if l.isEmpty then .error .biflow else .ok (l, i')) := by
    unfold execute
    simp only [sanitize_lists hd, hit, hl]
  by_cases he : l = []
  · right
    refine ⟨by rw [hex, he]; rfl, ?_⟩
    rintro ⟨x, y, z, h⟩
    have := (key 0 x y z).2 h
    rw [he] at this
    cases this
  · left
    refine ⟨l, i', ?_, he, key⟩
    rw [hex, if_neg (by simpa using he)]

/-- C364, false: with messages for fewer chunks than there are data, the remaining data are not processed, without an exception. -/
theorem short_messages_violation (E : Env X M) (xs ms : List (Val X M)) (h0 : ms ≠ []) (h : ms.length < xs.length) (fuel : Nat)
    (hf : xs.length < fuel) :
    ∃ l i, execute E fuel (.list xs) (.list ms) .none = some (.ok (l, i)) ∧ l.length = ms.length := by
  rcases chunks_in_order E (.list xs) (.list ms) .none xs (.inl rfl) (.inr ⟨ms, .inl rfl⟩) (.inl rfl) fuel hf with
    ⟨l, i, h1, _, h3⟩ | ⟨_, h2⟩
  · refine ⟨l, i, h1, ?_⟩
    have hg : ∀ k y, Gives (.list ms : Val X M) k y ↔ ms[k]? = some y := fun k y => by
      constructor
      · rintro (⟨h, _⟩ | ⟨l, h | h, hy⟩) <;> cases h
        exact hy
      · exact fun hy => .inr ⟨ms, .inl rfl, hy⟩
    apply le_antisymm
    · by_contra hc
      push Not at hc
      have h4 := (h3 ms.length l[ms.length].1 l[ms.length].2.1 l[ms.length].2.2).1 (by simp [hc])
      have := (hg _ _).1 h4.2.1
      simp at this
    · by_contra hc
      push Not at hc
      have h4 := (h3 l.length (xs[l.length]'(by omega)) ms[l.length] .none).2
        ⟨by simp, (hg _ _).2 (by simp), .inl ⟨rfl, rfl⟩⟩
      simp at h4
  · exfalso
    apply h2
    obtain ⟨y, ms, rfl⟩ := List.exists_cons_of_ne_nil h0
    obtain ⟨x, xs, rfl⟩ := List.exists_cons_of_ne_nil (l := xs) (by rintro rfl; simp at h)
    exact ⟨x, y, .none, rfl, .inr ⟨_, .inl rfl, rfl⟩, .inl ⟨rfl, rfl⟩⟩

/-- C364, false: messages without data and without targets are refused with a TypeError, although the data and the targets are
optional. -/
theorem messages_only_violation (E : Env X M) (ms : List (Val X M)) (fuel : Nat) :
    execute E fuel .none (.list ms) .none = some (.error .type) := rfl

/-- C364, restricted to calls with targets: messages without data are processed. -/
theorem messages_only_partial (E : Env X M) (ms ts : List (Val X M)) (h : ms ≠ []) (hl : ts.length = ms.length) (fuel : Nat)
    (hf : ms.length < fuel) :
    ∃ l i, execute E fuel .none (.list ms) (.list ts) = some (.ok (l, i)) ∧
      ∀ (k : Nat) (x y z : Val X M), l[k]? = some (x, y, z) ↔ x = .none ∧ ms[k]? = some y ∧ ts[k]? = some z := by
  obtain ⟨l, i', h1, hs⟩ := loop_spec ms.length fuel (.nones, .fin ms, .fin ts) (.inr (.inl (by simp [It.at]))) hf
  have key : ∀ (k : Nat) (x y z : Val X M), l[k]? = some (x, y, z) ↔ x = .none ∧ ms[k]? = some y ∧ ts[k]? = some z := by
    intro k x y z
    rw [hs]
    simp only [It.at, Option.some.injEq]
    constructor
    · rintro ⟨_, _, h1, h2⟩; exact ⟨h1.symm, h2⟩
    · rintro ⟨rfl, h2, h3⟩
      obtain ⟨hlt, _⟩ := List.getElem?_eq_some_iff.1 h2
      refine ⟨hlt, fun k' hk' he => ?_, rfl, h2, h3⟩
      rcases he with he | he | he <;> simp [It.at] at he <;> omega
  have he : l ≠ [] := by
    rintro rfl
    obtain ⟨y, ms, rfl⟩ := List.exists_cons_of_ne_nil h
    obtain ⟨z, ts, rfl⟩ := List.exists_cons_of_ne_nil (l := ts) (by rintro rfl; simp at hl)
    have := (key 0 .none y z).2 ⟨rfl, rfl, rfl⟩
    cases this
  refine ⟨l, i', ?_, key⟩
  have : execute E fuel .none (.list ms) (.list ts) = (match loop fuel (.nones, .fin ms, .fin ts) with
    | Option.none => Option.none
    | some (l, i) => some (if l.isEmpty then .error .biflow else .ok (l, i)) : Option (Except Err (List (Chunk X M) × Its X M))) := rfl
  rw [this, h1]
  simp [he]

/-- C364. A dictionary given with an iterable of data is not the message of the chunks: its keys are. -/
theorem dictionary_keys (E : Env X M) (xs : List (Val X M)) (m : M) (fuel : Nat) :
    execute E fuel (.list xs) (.dict m) .none = execute E fuel (.list xs) (.list (E.keys m)) .none := rfl

/-! ## Parallel execution -/

theorem createTask_eq (i : Its X M) : createTask i = zipNext i := by
  obtain ⟨a, b, c⟩ := i
  simp only [createTask, zipNext]

theorem taskLoop_eq : ∀ (fuel : Nat) (i : Its X M) (r : List (Chunk X M) × Its X M), loop (fuel + 1) i = some r →
    taskLoop fuel (createTask i).1 (createTask i).2 = some r := by
  intro fuel
  induction fuel with
  | zero =>
    intro i r h
    rw [createTask_eq]
    simp only [loop] at h
    rcases hz : zipNext i with ⟨_ | c, j⟩
    · rw [hz] at h; simpa [taskLoop] using h
    · rw [hz] at h; simp at h
  | succ fuel ih =>
    intro i r h
    rw [createTask_eq]
    rw [loop] at h
    rcases hz : zipNext i with ⟨_ | c, j⟩
    · rw [hz] at h; simpa [taskLoop] using h
    · rw [hz] at h
      simp only [Option.map_eq_some_iff] at h
      obtain ⟨q, hq, rfl⟩ := h
      have := ih j q hq
      simp only [taskLoop]
      rw [this]
      rfl

/-- C364. In a parallel execution the tasks are the chunks of the sequential execution, in the same order, and the iterators are left
in the same state; it is refused exactly if the sequential one is. -/
theorem parallel_tasks (E : Env X M) (d m t : Val X M) (fuel : Nat) :
    (∀ l i, execute E (fuel + 1) d m t = some (.ok (l, i)) → tasks E fuel d m t = some (.ok (l, i))) ∧
    (∀ e, execute E (fuel + 1) d m t = some (.error e) → ∃ e', tasks E fuel d m t = some (.error e')) := by
  unfold execute tasks
  rcases sanitize d m t with e | s
  · exact ⟨fun l i h => (by cases h), fun e h => ⟨_, rfl⟩⟩
  simp only
  rcases iters E s with e | i
  · exact ⟨fun l i h => (by cases h), fun e h => ⟨_, rfl⟩⟩
  simp only
  rcases hl : loop (fuel + 1) i with _ | ⟨l, i'⟩
  · exact ⟨fun l i h => (by cases h), fun e h => (by cases h)⟩
  have ht := taskLoop_eq fuel i _ hl
  rcases hc : createTask i with ⟨_ | c, j⟩
  · rw [hc] at ht
    simp only [taskLoop, Option.some.injEq, Prod.mk.injEq] at ht
    obtain ⟨rfl, rfl⟩ := ht
    exact ⟨fun l i h => (by simp at h), fun e h => ⟨_, rfl⟩⟩
  · rw [hc] at ht
    have hne : l ≠ [] := by
      rintro rfl
      cases fuel with
      | zero => simp [taskLoop] at ht
      | succ f =>
        simp only [taskLoop, Option.map_eq_some_iff] at ht
        obtain ⟨_, _, h⟩ := ht
        cases h
    simp only [ht, Option.map_some, hne, List.isEmpty_iff, if_false]
    exact ⟨fun l i h => by simpa using h, fun e h => (by simp at h)⟩

/-! ## Training -/

theorem trainLoop_spec : ∀ (n fuel : Nat) (a b : It X M), (a.at n = Option.none ∨ b.at n = Option.none) → n < fuel →
    ∃ l, trainLoop fuel a b = some l ∧ ∀ k x m, l[k]? = some (x, m) ↔ k < n ∧
      (∀ k' ≤ k, a.at k' ≠ Option.none ∧ b.at k' ≠ Option.none) ∧ a.at k = some x ∧ b.at k = some m := by
  intro n
  induction n with
  | zero =>
    intro fuel a b he hf
    obtain ⟨f, rfl⟩ : ∃ f, fuel = f + 1 := ⟨fuel - 1, by omega⟩
    refine ⟨[], ?_, by simp⟩
    rcases h1 : a.next with _ | ⟨x, a'⟩
    · simp [trainLoop, h1]
    · rcases h2 : b.next with _ | ⟨m, b'⟩
      · simp [trainLoop, h1, h2]
      · rcases he with h | h
        · rw [← next_none, h1] at h; cases h
        · rw [← next_none, h2] at h; cases h
  | succ n ih =>
    intro fuel a b he hf
    obtain ⟨f, rfl⟩ : ∃ f, fuel = f + 1 := ⟨fuel - 1, by omega⟩
    rcases h1 : a.next with _ | ⟨x, a'⟩
    · refine ⟨[], by simp [trainLoop, h1], fun k x m => ?_⟩
      simp only [List.getElem?_nil, reduceCtorEq, false_iff]
      rintro ⟨_, h, _⟩
      exact (h 0 (Nat.zero_le _)).1 (next_none.1 h1)
    · rcases h2 : b.next with _ | ⟨m, b'⟩
      · refine ⟨[], by simp [trainLoop, h1, h2], fun k x m => ?_⟩
        simp only [List.getElem?_nil, reduceCtorEq, false_iff]
        rintro ⟨_, h, _⟩
        exact (h 0 (Nat.zero_le _)).2 (next_none.1 h2)
      · obtain ⟨a0, as⟩ := next_some h1
        obtain ⟨b0, bs⟩ := next_some h2
        obtain ⟨l, hl, hs⟩ := ih f a' b' (by rwa [as, bs] at he) (by omega)
        refine ⟨(x, m) :: l, by simp [trainLoop, h1, h2, hl], fun k y p => ?_⟩
        cases k with
        | zero =>
          simp only [List.getElem?_cons_zero, Option.some.injEq, Prod.mk.injEq, a0, b0]
          constructor
          · rintro ⟨rfl, rfl⟩
            refine ⟨by omega, fun k' hk' => ?_, rfl, rfl⟩
            obtain rfl : k' = 0 := by omega
            simp [a0, b0]
          · rintro ⟨_, _, h⟩; exact h
        | succ k =>
          rw [List.getElem?_cons_succ, hs]
          simp only [as, bs]
          constructor
          · rintro ⟨g1, g2, g3⟩
            refine ⟨by omega, fun k' hk' => ?_, g3⟩
            cases k' with
            | zero => simp [a0, b0]
            | succ k' => rw [as, bs]; exact g2 k' (by omega)
          · rintro ⟨g1, g2, g3⟩
            exact ⟨by omega, fun k' hk' => by rw [← as, ← bs]; exact g2 (k' + 1) (by omega), g3⟩

/-- `l` are the pairs of data `xs` and messages `m` at the same positions, in order, and there is one. -/
def Pairs (xs : List (Val X M)) (m : Val X M) (l : List (Val X M × Val X M)) : Prop :=
  l ≠ [] ∧ ∀ k x y, l[k]? = some (x, y) ↔ xs[k]? = some x ∧ Gives m k y

theorem trainNode_pairs (E : Env X M) (d m : Val X M) (xs : List (Val X M)) (hd : Lists d xs) (hm : Optional m) (h0 : xs ≠ [])
    (hm0 : m ≠ .list [] ∧ m ≠ .gen []) (fuel : Nat) (hf : xs.length < fuel) :
    ∃ l, trainNode E fuel true d m = some (.ok l) ∧ Pairs xs m l := by
  obtain ⟨b, hb, gb, fb⟩ := optional_iter E hm
  obtain ⟨l, hl, hs⟩ := trainLoop_spec xs.length fuel (.fin xs) b (.inl (by simp [It.at])) hf
  have mono : ∀ (j : It X M) k k' y, k' ≤ k → j.at k = some y → j.at k' ≠ Option.none := by
    intro j k k' y hk hy
    cases j with
    | nones => simp [It.at]
    | fin l =>
      simp only [It.at] at hy ⊢
      obtain ⟨hlt, _⟩ := List.getElem?_eq_some_iff.1 hy
      rw [Ne, List.getElem?_eq_none_iff]; omega
  have key : ∀ k x y, l[k]? = some (x, y) ↔ xs[k]? = some x ∧ Gives m k y := by
    intro k x y
    rw [hs, ← gb]
    constructor
    · rintro ⟨_, _, h⟩; exact h
    · rintro ⟨h1, h2⟩
      obtain ⟨hlt, _⟩ := List.getElem?_eq_some_iff.1 h1
      exact ⟨hlt, fun k' hk' => ⟨mono (.fin xs) k k' x hk' h1, mono b k k' y hk' h2⟩, h1, h2⟩
  have he : l ≠ [] := by
    rintro rfl
    obtain ⟨x, xs, rfl⟩ := List.exists_cons_of_ne_nil h0
    have : ∃ y, Gives m 0 y := by
      rcases hm with rfl | ⟨ms, hms⟩
      · exact ⟨.none, .inl ⟨rfl, rfl⟩⟩
      · cases ms with
        | nil => exact absurd hms (by rintro (h | h); exacts [hm0.1 h, hm0.2 h])
        | cons y ms => exact ⟨y, .inr ⟨_, hms, rfl⟩⟩
    obtain ⟨y, hy⟩ := this
    have := (key 0 x y).2 ⟨rfl, hy⟩
    cases this
  refine ⟨l, ?_, he, key⟩
  simp [trainNode, sanitize_lists hd, lists_iter E hd, hb, hl, he]

theorem trainNodes_ok (E : Env X M) (fuel : Nat) (d m : Val X M) (f : Nat → List (Val X M × Val X M)) : ∀ (nodes : List Bool) (i : Nat),
    (∀ k tr, nodes[k]? = some tr → ∃ x y, getItem E d (i + k) = .ok x ∧ getItem E m (i + k) = .ok y ∧
      trainNode E fuel tr x y = some (.ok (f (i + k)))) →
    trainNodes E fuel d m i nodes = some ((List.range nodes.length).map fun k => f (i + k), Option.none) := by
  intro nodes
  induction nodes with
  | nil => intro i h; rfl
  | cons tr nodes ih =>
    intro i h
    obtain ⟨x, y, h1, h2, h3⟩ := h 0 tr rfl
    have := ih (i + 1) fun k tr' hk => by
      have := h (k + 1) tr' (by simpa using hk)
      rwa [Nat.add_right_comm, Nat.add_assoc]
    simp only [Nat.add_zero] at h1 h2 h3
    simp only [trainNodes, h1, h2, h3, this, Option.map_some, List.length_cons, List.range_succ_eq_map, List.map_cons, List.map_map,
      Nat.add_zero, Option.some.injEq, Prod.mk.injEq, and_true, List.cons.injEq, true_and]
    apply List.map_congr_left
    intro k _
    simp only [Function.comp_apply, Nat.succ_eq_add_one]
    congr 1
    omega

/-- C365. With a single array each trainable node is trained with one chunk, the array and the message. -/
theorem train_array (E : Env X M) (nodes : List Bool) (x : X) (m : Val X M) (fuel : Nat) (hf : 1 < fuel) :
    train E fuel nodes (.array x) m = some (nodes.map fun tr => if tr then [(.array x, m)] else [], Option.none) := by
  obtain ⟨f, rfl⟩ : ∃ f, fuel = f + 2 := ⟨fuel - 2, by omega⟩
  have := trainNodes_ok E (f + 2) (.list (List.replicate nodes.length (.list [.array x]))) (.list (List.replicate nodes.length (.list [m])))
    (fun k => if nodes[k]? = some true then [(.array x, m)] else []) nodes 0 (by
      intro k tr hk
      obtain ⟨hlt, _⟩ := List.getElem?_eq_some_iff.1 hk
      refine ⟨.list [.array x], .list [m], by simp [getItem, hlt], by simp [getItem, hlt], ?_⟩
      rw [Nat.zero_add, hk]
      cases tr
      · rfl
      · rfl)
  have e : train E (f + 2) nodes (.array x) m = trainNodes E (f + 2) (.list (List.replicate nodes.length (.list [.array x])))
    (.list (List.replicate nodes.length (.list [m]))) 0 nodes := rfl
  rw [e, this]
  congr 2
  apply List.ext_getElem (by simp)
  intro k h1 h2
  simp at h1
  simp [h1]

/-- C365. With one iterable of data for each node, and one iterable of messages or none for each node or no messages at all, each
trainable node is trained with the pairs at the same positions, in order; the other nodes with nothing. -/
theorem train_lists (E : Env X M) (nodes : List Bool) (ds : List (Val X M)) (m : Val X M) (xs : Nat → List (Val X M)) (ms : Nat → Val X M)
    (hl : ds.length = nodes.length) (hm : (m = .none ∧ ∀ k, ms k = .none) ∨ ∃ l, m = .list l ∧ l.length = nodes.length ∧
      ∀ k < nodes.length, l[k]? = some (ms k))
    (hd : ∀ (k : Nat) d, ds[k]? = some d → Lists d (xs k) ∧ xs k ≠ []) (hms : ∀ k, Optional (ms k) ∧ ms k ≠ .list [] ∧ ms k ≠ .gen [])
    (fuel : Nat) (hf : ∀ k < nodes.length, (xs k).length < fuel) :
    ∃ ls, train E fuel nodes (.list ds) m = some (ls, Option.none) ∧ ls.length = nodes.length ∧
      (∀ k : Nat, nodes[k]? = some true → ∃ l, ls[k]? = some l ∧ Pairs (xs k) (ms k) l) ∧ ∀ k : Nat, nodes[k]? = some false → ls[k]? = some [] := by
  have hds : ∀ k, k < nodes.length → ∃ d, ds[k]? = some d ∧ Lists d (xs k) ∧ xs k ≠ [] := fun k hk =>
    ⟨ds[k]'(by omega), by simp, hd k _ (by simp)⟩
  have hmono : ∀ l : List (Val X M), (∀ e ∈ l, Optional e) →
      l.any refused = false := by
    intro l hl
    rw [List.any_eq_false]
    intro e he
    rcases hl e he with rfl | ⟨q, rfl | rfl⟩ <;> simp [refused, hasIter]
  have hdsO : ∀ e ∈ ds, Optional e := by
    intro e he
    obtain ⟨k, hk, rfl⟩ := List.mem_iff_getElem.1 he
    exact .inr ⟨_, (hd k _ (by simp)).1⟩
  have hcd : checkIterables nodes.length (.list ds) = .ok ds := by
    rw [checkIterables, hmono ds hdsO]
    simp [hl]
  obtain ⟨ml, hml, hms'⟩ : ∃ ml : List (Val X M), sanitizeTraining nodes.length (.list ds) m = .ok (.list ds, .list ml) ∧
      ∀ k < nodes.length, ml[k]? = some (ms k) := by
    rcases hm with ⟨rfl, h⟩ | ⟨l, rfl, h1, h2⟩
    · refine ⟨List.replicate nodes.length .none, ?_, fun k hk => by simp [hk, h]⟩
      simp only [sanitizeTraining, hcd]
      rfl
    · have hlO : ∀ e ∈ l, Optional e := by
        intro e he
        obtain ⟨k, hk, rfl⟩ := List.mem_iff_getElem.1 he
        have := h2 k (by omega)
        rw [List.getElem?_eq_getElem hk] at this
        rw [Option.some.inj this]
        exact (hms k).1
      have hcm : checkIterables nodes.length (.list l) = .ok l := by
        rw [checkIterables, hmono l hlO]
        simp [h1]
      refine ⟨l, ?_, h2⟩
      simp only [sanitizeTraining, hcd]
      change (checkIterables nodes.length (.list l) >>= _) = _
      rw [hcm]
      rfl
  have hnode : ∀ k, ∃ l, k < nodes.length → trainNode E fuel true (ds.getD k .none) (ms k) = some (.ok l) ∧ Pairs (xs k) (ms k) l := by
    intro k
    by_cases hk : k < nodes.length
    · obtain ⟨d, h1, h2, h3⟩ := hds k hk
      obtain ⟨l, h4, h5⟩ := trainNode_pairs E d (ms k) (xs k) h2 (hms k).1 h3 (hms k).2 fuel (hf k hk)
      exact ⟨l, fun _ => ⟨by rw [List.getD_eq_getElem?_getD, h1]; exact h4, h5⟩⟩
    · exact ⟨[], fun h => absurd h hk⟩
  choose f hfn using hnode
  have := trainNodes_ok E fuel (.list ds) (.list ml) (fun k => if nodes[k]? = some true then f k else []) nodes 0 (by
    intro k tr hk
    obtain ⟨hlt, _⟩ := List.getElem?_eq_some_iff.1 hk
    obtain ⟨d, h1, _⟩ := hds k hlt
    refine ⟨ds.getD k .none, ms k, ?_, ?_, ?_⟩
    · simp [getItem, h1]
    · simp [getItem, hms' k hlt]
    · rw [Nat.zero_add, hk]
      cases tr
      · rfl
      · simpa using (hfn k hlt).1)
  refine ⟨(List.range nodes.length).map fun k => if nodes[0 + k]? = some true then f (0 + k) else [], ?_, ?_, ?_, ?_⟩
  · unfold train
    rw [hml]
    exact this
  · simp
  · intro k hk
    obtain ⟨hlt, hv⟩ := List.getElem?_eq_some_iff.1 hk
    exact ⟨f k, by simp [hlt, hv], (hfn k hlt).2⟩
  · intro k hk
    obtain ⟨hlt, hv⟩ := List.getElem?_eq_some_iff.1 hk
    simp [hlt, hv]

/-- C365. A wrong number of data iterables is refused before any node is trained. -/
theorem train_count_refused (E : Env X M) (nodes : List Bool) (ds : List (Val X M)) (m : Val X M) (hl : ds.length ≠ nodes.length) (fuel : Nat) :
    train E fuel nodes (.list ds) m = some ([], some .flow) := by
  have : checkIterables nodes.length (.list ds) = .error .flow := by
    simp only [checkIterables]
    split
    · rfl
    · rfl
  simp only [train, sanitizeTraining, this]
  rfl

/-- C365. With data, a wrong number of message iterables is refused before any node is trained. -/
theorem train_message_count_refused (E : Env X M) (nodes : List Bool) (ds ms : List (Val X M)) (hl : ms.length ≠ nodes.length)
    (fuel : Nat) : train E fuel nodes (.list ds) (.list ms) = some ([], some .flow) := by
  have hm : checkIterables nodes.length (.list ms) = .error .flow := by
    rw [checkIterables, if_pos hl]
    split <;> rfl
  by_cases hd : checkIterables nodes.length (.list ds) = .ok ds
  · simp only [train, sanitizeTraining, hd, hm]
    rfl
  · have hd' : checkIterables nodes.length (.list ds) = .error .flow := by
      revert hd
      simp only [checkIterables]
      split
      · exact fun _ => rfl
      · split
        · exact fun _ => rfl
        · exact fun h => absurd rfl h
    simp only [train, sanitizeTraining, hd']
    rfl

/-- C365, false: without data a wrong number of message iterables is not noticed at the beginning. The nodes for which there are
messages are trained, then an IndexError ends the training. -/
theorem train_messages_count_violation (E : Env X M) (m : M) (n : Nat) (hn : 0 < n) (fuel : Nat) (hf : 1 < fuel) :
    train E fuel (List.replicate (n + 1) true) .none (.list (List.replicate n (.dict m))) =
      some (List.replicate n [(.none, .dict m)], some .index) := by
  obtain ⟨f, rfl⟩ : ∃ f, fuel = f + 2 := ⟨fuel - 2, by omega⟩
  have key : ∀ k i, i + k = n → trainNodes E (f + 2) (.list (List.replicate (n + 1) .none)) (.list (List.replicate n (.dict m))) i
      (List.replicate (k + 1) true) = some (List.replicate k [(.none, .dict m)], some .index) := by
    intro k
    induction k with
    | zero =>
      intro i hi
      obtain rfl : i = n := by omega
      simp [trainNodes, getItem]
    | succ k ih =>
      intro i hi
      have hi' : i < n := by omega
      have h3 : trainNode E (f + 2) true (.none : Val X M) (.dict m) = some (.ok [(.none, .dict m)]) := rfl
      have e : List.replicate (k + 1 + 1) true = true :: List.replicate (k + 1) true := rfl
      have hr := ih (i + 1) (by omega)
      rw [e]
      generalize List.replicate (k + 1) true = rest at hr
      simp only [trainNodes, getItem, List.getElem?_replicate, hi', show i < n + 1 by omega, if_true, h3, hr, Option.map_some]
      rfl
  have := key n 0 (by omega)
  simpa [train, sanitizeTraining] using this

/-! ## Examples -/

/-- Arrays are numbers, messages are numbers; the keys of a message are the letters `a`. -/
def exE : Env Nat Nat := ⟨fun _ => [], fun m => List.replicate m (.word ['a']), fun _ _ => Option.none⟩

example : ∃ i, execute exE 9 (.gen [.array 1, .array 2]) (.list [.dict 5, .dict 6]) .none =
    some (.ok ([(.array 1, .dict 5, .none), (.array 2, .dict 6, .none)], i)) := ⟨_, rfl⟩

example := chunks_in_order exE (.gen [.array 1, .array 2]) (.list [.dict 5, .dict 6]) .none [.array 1, .array 2] (.inr rfl)
  (.inr ⟨_, .inl rfl⟩) (.inl rfl) 9 (by decide)
example := short_messages_violation exE [.array 1, .array 2] [.dict 5] (by simp) (by decide) 9 (by decide)
example := messages_only_partial exE [.dict 5, .dict 6] [.num 1, .num 2] (by simp) rfl 9 (by decide)
example : ∃ i, tasks exE 8 (.gen [.array 1, .array 2]) (.list [.dict 5, .dict 6]) .none =
    some (.ok ([(.array 1, .dict 5, .none), (.array 2, .dict 6, .none)], i)) :=
  ⟨_, (parallel_tasks exE _ _ _ 8).1 _ _ rfl⟩
example : execute exE 9 (.list []) .none .none = some (.error .biflow) := rfl

example := train_array exE [true, false, true] 7 (.dict 5) 9 (by decide)
example : train exE 9 [true, false] (.list [.list [.array 1, .array 2], .none]) (.list [.list [.dict 5, .dict 6], .none]) =
    some ([[(.array 1, .dict 5), (.array 2, .dict 6)], []], Option.none) := rfl
example := train_lists exE [true, false] [.list [.array 1, .array 2], .list [.array 1]] .none
  (fun k => if k = 0 then [.array 1, .array 2] else [.array 1]) (fun _ => .none) rfl (.inl ⟨rfl, fun _ => rfl⟩)
  (by
    intro k d h
    match k with
    | 0 => cases h; exact ⟨.inl rfl, by simp⟩
    | 1 => cases h; exact ⟨.inl rfl, by simp⟩
    | k + 2 => cases h)
  (fun _ => ⟨.inl rfl, by simp, by simp⟩) 9 (fun k _ => by split <;> decide)
example := train_count_refused exE [true, true] [.list [.array 1]] .none (by decide) 9
example := train_message_count_refused exE [true, true] [.list [.array 1], .list [.array 1]] [.list [.dict 5]] (by decide) 9
example := train_messages_count_violation exE 5 2 (by decide) 9 (by decide)

end Mdp.BiArgs
