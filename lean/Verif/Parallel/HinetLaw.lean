import Verif.Parallel.HinetProps

/-!
# Layers and flow nodes obey the law of forking and joining (C148, C149)
-/

namespace PHinet

variable {S U X : Type}

/-- The states of the nodes of a layer or flow. -/
def AllI : List (PN U X × (U → Prop)) → List U → Prop
  | [], [] => True
  | p :: L, t :: ts => p.2 t ∧ AllI L ts
  | _, _ => False

/-- The nodes. -/
abbrev ops (L : List (PN U X × (U → Prop))) : List (PN U X) := L.map Prod.fst

theorem allI_cons {p : PN U X × (U → Prop)} {L : List (PN U X × (U → Prop))} {ts : List U} (h : AllI (p :: L) ts) :
    ∃ t r, ts = t :: r ∧ p.2 t ∧ AllI L r := by
  cases ts with
  | nil => exact h.elim
  | cons t r => exact ⟨t, r, rfl, h.1, h.2⟩

theorem anyFlag_cons (flag : PN U X → U → Bool) (N : PN U X) (Ns : List (PN U X)) (t : U) (ts : List U) :
    anyFlag flag (N :: Ns) (t :: ts) = (flag N t || anyFlag flag Ns ts) := by
  simp [anyFlag]

/-! ### Layers -/

/-- The effect of training a layer on its nodes. -/
def LTr (part : Nat → X → X) : Nat → List (PN U X) → List U → List X → List U → Prop
  | i, N :: Ns, t :: ts, xs, out => ∃ t' ts', out = t' :: ts' ∧
      (if N.training t then Trained N t (xs.map (part i)) t' else t' = t) ∧ LTr part (i + 1) Ns ts xs ts'
  | _, _, ts, _, out => out = ts

theorem layTrain_inv (part : Nat → X → X) : ∀ (L : List (PN U X × (U → Prop))) (i : Nat) {ts : List U} {x : X}
    {ts' : List U}, (∀ p ∈ L, Lawful p.1 p.2) → AllI L ts → layTrain part i (ops L) ts x = .ok ts' →
      AllI L ts' ∧ anyFlag PN.training (ops L) ts' = anyFlag PN.training (ops L) ts ∧
      anyFlag PN.execFork (ops L) ts' = anyFlag PN.execFork (ops L) ts := by
  intro L
  induction L with
  | nil =>
    intro i ts x ts' _ hi h
    cases ts with
    | nil => cases h; exact ⟨hi, rfl, rfl⟩
    | cons _ _ => exact hi.elim
  | cons p L ih =>
    intro i ts x ts' hL hi h
    obtain ⟨t, r, rfl, h1, h2⟩ := allI_cons hi
    simp only [ops, List.map_cons, layTrain] at h
    have hh : ∃ t1, (if p.1.training t then p.1.train t (part i x) else .ok t) = .ok t1 ∧ p.2 t1 ∧
        p.1.training t1 = p.1.training t ∧ p.1.execFork t1 = p.1.execFork t := by
      split at h
      · cases h
      · rename_i t1 h3
        refine ⟨t1, h3, ?_⟩
        cases ht : p.1.training t with
        | false =>
          simp only [ht] at h3
          cases h3
          exact ⟨h1, ht, rfl⟩
        | true =>
          simp only [ht, if_true] at h3
          obtain ⟨a, b, c, d⟩ := (hL p (by simp)).train_ok h1 h3
          exact ⟨a, c, d⟩
    obtain ⟨t1, h3, a, b, c⟩ := hh
    rw [h3] at h
    simp only at h
    cases h4 : layTrain part (i + 1) (ops L) r x with
    | error e => rw [h4] at h; cases h
    | ok r' =>
      rw [h4] at h
      cases h
      obtain ⟨a', b', c'⟩ := ih (i + 1) (fun q hq => hL q (by simp [hq])) h2 h4
      refine ⟨⟨a, a'⟩, ?_, ?_⟩
      · simp only [ops, List.map_cons, anyFlag_cons, b] at b' ⊢
        rw [b']
      · simp only [ops, List.map_cons, anyFlag_cons, c] at c' ⊢
        rw [c']

theorem ltr_nil (part : Nat → X → X) : ∀ (Ns : List (PN U X)) (i : Nat) (ts out : List U),
    LTr part i Ns ts [] out ↔ out = ts := by
  intro Ns
  induction Ns with
  | nil => intro i ts out; simp [LTr]
  | cons N Ns ih =>
    intro i ts out
    cases ts with
    | nil => simp [LTr]
    | cons t ts =>
      simp only [LTr, List.map_nil, trained_nil, ite_self, ih]
      constructor
      · rintro ⟨t', ts', rfl, rfl, rfl⟩; rfl
      · rintro rfl; exact ⟨t, ts, rfl, rfl, rfl⟩

theorem ltr_cons (part : Nat → X → X) (x : X) (xs : List X) : ∀ (L : List (PN U X × (U → Prop))) (i : Nat) (ts out : List U),
    (∀ p ∈ L, Lawful p.1 p.2) → AllI L ts →
    (LTr part i (ops L) ts (x :: xs) out ↔
      ∃ ts1, layTrain part i (ops L) ts x = .ok ts1 ∧ LTr part i (ops L) ts1 xs out) := by
  intro L
  induction L with
  | nil =>
    intro i ts out _ hi
    cases ts with
    | nil => simp [LTr, layTrain]
    | cons _ _ => exact hi.elim
  | cons p L ih =>
    intro i ts out hL hi
    obtain ⟨t, r, rfl, h1, h2⟩ := allI_cons hi
    have ih := fun out => ih (i + 1) r out (fun q hq => hL q (by simp [hq])) h2
    simp only [ops, List.map_cons, LTr, layTrain] at ih ⊢
    cases ht : p.1.training t with
    | false =>
      simp only [Bool.false_eq_true, if_false]
      constructor
      · rintro ⟨t', ts', rfl, rfl, h⟩
        obtain ⟨ts1, h3, h4⟩ := (ih ts').1 h
        refine ⟨t' :: ts1, by rw [h3], ?_⟩
        refine ⟨t', ts', rfl, ?_, h4⟩
        rw [ht]
        simp
      · rintro ⟨ts1, h3, h4⟩
        cases h5 : layTrain part (i + 1) (ops L) r x with
        | error e => rw [h5] at h3; cases h3
        | ok r' =>
          rw [h5] at h3
          cases h3
          simp only [LTr] at h4
          obtain ⟨t', ts', rfl, h6, h7⟩ := h4
          rw [ht] at h6
          simp only [Bool.false_eq_true, if_false] at h6
          exact ⟨t', ts', rfl, h6, (ih ts').2 ⟨r', h5, h7⟩⟩
    | true =>
      simp only [if_true, List.map_cons, trained_cons]
      constructor
      · rintro ⟨t', ts', rfl, ⟨t1, h8, h9⟩, h⟩
        obtain ⟨ts1, h3, h4⟩ := (ih ts').1 h
        obtain ⟨_, _, c, _⟩ := (hL p (by simp)).train_ok h1 h8
        refine ⟨t1 :: ts1, by rw [h8]; simp only; rw [h3], ?_⟩
        refine ⟨t', ts', rfl, ?_, h4⟩
        rw [c]
        exact h9
      · rintro ⟨ts1, h3, h4⟩
        cases h8 : p.1.train t (part i x) with
        | error e => rw [h8] at h3; cases h3
        | ok t1 =>
          rw [h8] at h3
          simp only at h3
          cases h5 : layTrain part (i + 1) (ops L) r x with
          | error e => rw [h5] at h3; cases h3
          | ok r' =>
            rw [h5] at h3
            cases h3
            simp only [LTr] at h4
            obtain ⟨t', ts', rfl, h6, h7⟩ := h4
            obtain ⟨_, _, c, _⟩ := (hL p (by simp)).train_ok h1 h8
            rw [c] at h6
            exact ⟨t', ts', rfl, ⟨t1, rfl, h6⟩, (ih ts').2 ⟨r', h5, h7⟩⟩

theorem layer_trained (part : Nat → X → X) (stack : List X → X) {L : List (PN U X × (U → Prop))}
    (hL : ∀ p ∈ L, Lawful p.1 p.2) : ∀ (xs : List X) {ts : List U}, AllI L ts →
      anyFlag PN.training (ops L) ts = true → ∀ out,
      (Trained (layer part stack (ops L)) ts xs out ↔ LTr part 0 (ops L) ts xs out) := by
  intro xs
  induction xs with
  | nil => intro ts _ _ out; rw [ltr_nil, trained_nil]
  | cons x xs ih =>
    intro ts hi ht out
    rw [ltr_cons part x xs L 0 ts out hL hi, trained_cons]
    have e : ∀ ts1, (layer part stack (ops L)).train ts x = .ok ts1 ↔ layTrain part 0 (ops L) ts x = .ok ts1 := by
      intro ts1
      simp only [layer, ht, if_true]
    constructor
    · rintro ⟨ts1, h1, h2⟩
      have h1 := (e ts1).1 h1
      obtain ⟨a, b, _⟩ := layTrain_inv part L 0 hL hi h1
      exact ⟨ts1, h1, (ih a (by rw [b, ht]) out).1 h2⟩
    · rintro ⟨ts1, h1, h2⟩
      obtain ⟨a, b, _⟩ := layTrain_inv part L 0 hL hi h1
      exact ⟨ts1, (e ts1).2 h1, (ih a (by rw [b, ht]) out).2 h2⟩

theorem layFork_ok : ∀ (L : List (PN U X × (U → Prop))) {ts fs : List U}, (∀ p ∈ L, Lawful p.1 p.2) → AllI L ts →
    layFork (ops L) ts = .ok fs → AllI L fs ∧ anyFlag PN.training (ops L) fs = anyFlag PN.training (ops L) ts ∧
      anyFlag PN.execFork (ops L) fs = anyFlag PN.execFork (ops L) ts := by
  intro L
  induction L with
  | nil =>
    intro ts fs _ hi h
    cases ts with
    | nil => cases h; exact ⟨hi, rfl, rfl⟩
    | cons _ _ => exact hi.elim
  | cons p L ih =>
    intro ts fs hL hi h
    obtain ⟨t, r, rfl, h1, h2⟩ := allI_cons hi
    simp only [ops, List.map_cons, layFork] at h
    cases h3 : (if p.1.training t = true then p.1.fork t else .ok t) with
    | error e => rw [h3] at h; cases h
    | ok f =>
      rw [h3] at h
      simp only at h
      cases h4 : layFork (ops L) r with
      | error e => rw [h4] at h; cases h
      | ok r' =>
        rw [h4] at h
        cases h
        obtain ⟨a', b', c'⟩ := ih (fun q hq => hL q (by simp [hq])) h2 h4
        have : p.2 f ∧ p.1.training f = p.1.training t ∧ p.1.execFork f = p.1.execFork t := by
          split at h3
          · exact (hL p (by simp)).fork_ok h1 h3
          · cases h3; exact ⟨h1, rfl, rfl⟩
        obtain ⟨a, b, c⟩ := this
        refine ⟨⟨a, a'⟩, ?_, ?_⟩
        · simp only [ops, List.map_cons, anyFlag_cons, b] at b' ⊢
          rw [b']
        · simp only [ops, List.map_cons, anyFlag_cons, c] at c' ⊢
          rw [c']

theorem layer_trains (part : Nat → X → X) (js prior : List X) (hj : js ≠ []) : ∀ (L : List (PN U X × (U → Prop))) (i : Nat)
    {ts0 fs ts : List U}, (∀ p ∈ L, Lawful p.1 p.2) → AllI L ts0 → layFork (ops L) ts0 = .ok fs →
    LTr part i (ops L) ts0 prior ts → ∀ out,
    (LTr part i (ops L) ts js out ↔ ∃ fs', LTr part i (ops L) fs js fs' ∧ layJoin (ops L) ts fs' = .ok out) := by
  intro L
  induction L with
  | nil =>
    intro i ts0 fs ts _ hi hf hp out
    cases ts0 with
    | cons _ _ => exact hi.elim
    | nil =>
      cases hf
      simp only [ops, List.map_nil, LTr] at hp ⊢
      subst hp
      simp only [layJoin, exists_eq_left, Except.ok.injEq]
      exact eq_comm
  | cons p L ih =>
    intro i ts0 fs ts hL hi hf hp out
    obtain ⟨t0, r0, rfl, h1, h2⟩ := allI_cons hi
    have hp1 := hL p (by simp)
    simp only [ops, List.map_cons, layFork] at hf
    cases h3 : (if p.1.training t0 = true then p.1.fork t0 else .ok t0) with
    | error e => rw [h3] at hf; cases hf
    | ok f =>
      rw [h3] at hf
      simp only at hf
      cases h4 : layFork (ops L) r0 with
      | error e => rw [h4] at hf; cases hf
      | ok rf =>
        rw [h4] at hf
        cases hf
        simp only [ops, List.map_cons, LTr] at hp
        obtain ⟨t, r, rfl, h5, h6⟩ := hp
        have ih := ih (i + 1) (fun q hq => hL q (by simp [hq])) h2 h4 h6
        simp only [ops, List.map_cons, LTr] at ih ⊢
        cases ht : p.1.training t0 with
        | false =>
          simp only [ht, Bool.false_eq_true, if_false] at h3 h5
          cases h3
          subst h5
          simp only [ht, Bool.false_eq_true, if_false]
          constructor
          · rintro ⟨t', ts', rfl, rfl, h7⟩
            obtain ⟨fs', h8, h9⟩ := (ih ts').1 h7
            refine ⟨t' :: fs', ⟨t', fs', rfl, rfl, h8⟩, ?_⟩
            simp only [layJoin, ht, Bool.false_eq_true, if_false]
            rw [h9]
          · rintro ⟨fs', ⟨f', rf', rfl, rfl, h8⟩, h9⟩
            simp only [layJoin, ht, Bool.false_eq_true, if_false] at h9
            cases h10 : layJoin (ops L) r rf' with
            | error e => rw [h10] at h9; cases h9
            | ok r' =>
              rw [h10] at h9
              cases h9
              exact ⟨_, _, rfl, rfl, (ih r').2 ⟨rf', h8, h10⟩⟩
        | true =>
          simp only [ht, if_true] at h3 h5
          have hjm : js.map (part i) ≠ [] := by simpa using hj
          obtain ⟨a, b, _⟩ := hp1.trained h1 h5
          obtain ⟨_, bf, _⟩ := hp1.fork_ok h1 h3
          have hlaw := hp1.trains h1 ht h3 h5 hjm
          simp only [b, bf, ht, if_true]
          constructor
          · rintro ⟨t', ts', rfl, h7, h8⟩
            obtain ⟨f', h9, h10⟩ := (hlaw t').1 h7
            obtain ⟨fs', h11, h12⟩ := (ih ts').1 h8
            refine ⟨f' :: fs', ⟨f', fs', rfl, h9, h11⟩, ?_⟩
            simp only [layJoin, b, ht, if_true, h10]
            rw [h12]
          · rintro ⟨fs', ⟨f', rf', rfl, h8, h8'⟩, h9⟩
            simp only [layJoin, b, ht, if_true] at h9
            cases h11 : p.1.join t f' with
            | error e => rw [h11] at h9; cases h9
            | ok t' =>
              rw [h11] at h9
              simp only at h9
              cases h10 : layJoin (ops L) r rf' with
              | error e => rw [h10] at h9; cases h9
              | ok r' =>
                rw [h10] at h9
                cases h9
                exact ⟨_, _, rfl, (hlaw t').2 ⟨f', h8, h11⟩, (ih r').2 ⟨rf', h8', h10⟩⟩

theorem layExec_same (part : Nat → X → X) : ∀ (L : List (PN U X × (U → Prop))) (i : Nat) {ts : List U} {x : X}
    {ys : List X} {ts' : List U}, (∀ p ∈ L, Lawful p.1 p.2) → AllI L ts → anyFlag PN.execFork (ops L) ts = false →
      layExec part i (ops L) ts x = .ok (ys, ts') → ts' = ts := by
  intro L
  induction L with
  | nil =>
    intro i ts x ys ts' _ hi _ h
    cases ts with
    | nil => cases h; rfl
    | cons _ _ => exact hi.elim
  | cons p L ih =>
    intro i ts x ys ts' hL hi he h
    obtain ⟨t, r, rfl, h1, h2⟩ := allI_cons hi
    simp only [ops, List.map_cons, anyFlag_cons, Bool.or_eq_false_iff] at he
    simp only [ops, List.map_cons, layExec] at h
    cases h3 : p.1.exec t (part i x) with
    | error e => rw [h3] at h; cases h
    | ok q =>
      rw [h3] at h
      simp only at h
      cases h4 : layExec part (i + 1) (ops L) r x with
      | error e => rw [h4] at h; cases h
      | ok q' =>
        rw [h4] at h
        cases h
        rw [ih (i + 1) (fun q hq => hL q (by simp [hq])) h2 he.2 h4,
          ((hL p (by simp)).exec_ok h1 h3).2.2.2 he.1]

/-- **C148** for `Layer` (and `SameInputLayer`): a layer of nodes that obey the law obeys it. None of the nodes may gather
results in execution (see `layer_execution_lost_false`). -/
theorem layer_lawful (part : Nat → X → X) (stack : List X → X) {L : List (PN U X × (U → Prop))}
    (hL : ∀ p ∈ L, Lawful p.1 p.2) (hE : ∀ ts, AllI L ts → anyFlag PN.execFork (ops L) ts = false) :
    Lawful (layer part stack (ops L)) (AllI L) where
  train_ok := by
    intro s x s' hi h
    cases ht : anyFlag PN.training (ops L) s with
    | false => simp [layer, ht] at h
    | true =>
      simp only [layer, ht, if_true] at h
      obtain ⟨a, b, c⟩ := layTrain_inv part L 0 hL hi h
      exact ⟨a, ht, by rw [← ht]; exact b, c⟩
  exec_ok := by
    intro s x y s' hi h
    simp only [layer] at h
    cases h1 : layExec part 0 (ops L) s x with
    | error e => rw [h1] at h; cases h
    | ok q =>
      rw [h1] at h
      cases h
      have := layExec_same part L 0 hL hi (hE s hi) h1
      exact ⟨by rw [this]; exact hi, by rw [this], by rw [this], fun _ => this⟩
  fork_ok := by
    intro s f hi h
    exact layFork_ok L hL hi h
  trains := by
    intro s0 f prior s js hi ht hf hp hj s'
    obtain ⟨a, b, _⟩ := layFork_ok L hL hi hf
    have hp' := (layer_trained part stack hL prior hi ht s).1 hp
    have hs : AllI L s ∧ anyFlag PN.training (ops L) s = true := by
      have : ∀ (xs : List X) (s0 : List U), AllI L s0 → anyFlag PN.training (ops L) s0 = true → ∀ s,
          Trained (layer part stack (ops L)) s0 xs s → AllI L s ∧ anyFlag PN.training (ops L) s = true := by
        intro xs
        induction xs with
        | nil =>
          intro s0 h1 h2 s h3
          rw [trained_nil.1 h3]
          exact ⟨h1, h2⟩
        | cons x xs ih =>
          intro s0 h1 h2 s h3
          obtain ⟨s1, h4, h5⟩ := trained_cons.1 h3
          simp only [layer, h2, if_true] at h4
          obtain ⟨c, d, _⟩ := layTrain_inv part L 0 hL h1 h4
          exact ih s1 c (by rw [d, h2]) s h5
      exact this prior s0 hi ht s hp
    rw [layer_trained part stack hL js hs.1 hs.2 s', layer_trains part js prior hj L 0 hL hi hf hp' s']
    have hft : anyFlag PN.training (ops L) f = true := by rw [b]; exact ht
    constructor
    · rintro ⟨f', h1, h2⟩
      exact ⟨f', (layer_trained part stack hL js a hft f').2 h1, h2⟩
    · rintro ⟨f', h1, h2⟩
      exact ⟨f', (layer_trained part stack hL js a hft f').1 h1, h2⟩
  execs := by
    intro s0 f prior outs s js hi _ he
    have := hE s0 hi
    simp only [layer] at he
    rw [this] at he
    cases he

end PHinet
