import Verif.Parallel.HinetLaw

/-!
# Flow nodes and nested networks obey the law of forking and joining (C148, C149)
-/

namespace PHinet

variable {S U X : Type}

/-- The states of the nodes of a flow: behind the node that is being trained there is no node that is in training and
gathers results in execution. -/
def FlowI : Bool → List (PN U X × (U → Prop)) → List U → Prop
  | _, [], [] => True
  | found, p :: L, t :: ts => p.2 t ∧ (found = true → p.1.training t = true → p.1.execFork t = false) ∧
      FlowI (found || p.1.training t) L ts
  | _, _, _ => False

theorem flowI_cons {b : Bool} {p : PN U X × (U → Prop)} {L : List (PN U X × (U → Prop))} {ts : List U}
    (h : FlowI b (p :: L) ts) : ∃ t r, ts = t :: r ∧ p.2 t ∧
      (b = true → p.1.training t = true → p.1.execFork t = false) ∧ FlowI (b || p.1.training t) L r := by
  cases ts with
  | nil => exact h.elim
  | cons t r => exact ⟨t, r, rfl, h.1, h.2.1, h.2.2⟩

theorem flowI_nil {b : Bool} {ts : List U} (h : FlowI b ([] : List (PN U X × (U → Prop))) ts) : ts = [] := by
  cases ts with
  | nil => rfl
  | cons _ _ => exact h.elim

/-- The effect of training a flow on its nodes. -/
def FTr : List (PN U X) → List U → List X → List U → Prop
  | N :: Ns, t :: ts, xs, out => ∃ t' ts', out = t' :: ts' ∧
      if N.training t then Trained N t xs t' ∧ ts' = ts
      else ∃ ys, Executed N t xs ys t' ∧ FTr Ns ts ys ts'
  | _, ts, xs, out => xs = [] ∧ out = ts

/-- The effect of executing a flow. -/
def FEx : List (PN U X) → List U → List X → List X → List U → Prop
  | N :: Ns, t :: ts, xs, zs, out => ∃ t' ts' ys, out = t' :: ts' ∧ Executed N t xs ys t' ∧ FEx Ns ts ys zs ts'
  | _, ts, xs, zs, out => zs = xs ∧ out = ts

theorem ftr_nil : ∀ (Ns : List (PN U X)) (ts out : List U), FTr Ns ts [] out ↔ out = ts := by
  intro Ns
  induction Ns with
  | nil => intro ts out; simp [FTr]
  | cons N Ns ih =>
    intro ts out
    cases ts with
    | nil => simp [FTr]
    | cons t ts =>
      simp only [FTr, trained_nil, executed_nil]
      constructor
      · rintro ⟨t', ts', rfl, h⟩
        split at h
        · rw [h.1, h.2]
        · obtain ⟨ys, ⟨rfl, rfl⟩, h⟩ := h
          rw [(ih ts ts').1 h]
      · rintro rfl
        refine ⟨t, ts, rfl, ?_⟩
        split
        · exact ⟨rfl, rfl⟩
        · exact ⟨[], ⟨rfl, rfl⟩, (ih ts ts).2 rfl⟩

theorem fex_nil : ∀ (Ns : List (PN U X)) (ts : List U) (zs : List X) (out : List U),
    FEx Ns ts [] zs out ↔ zs = [] ∧ out = ts := by
  intro Ns
  induction Ns with
  | nil => intro ts zs out; simp [FEx]
  | cons N Ns ih =>
    intro ts zs out
    cases ts with
    | nil => simp [FEx]
    | cons t ts =>
      simp only [FEx, executed_nil]
      constructor
      · rintro ⟨t', ts', ys, rfl, ⟨rfl, rfl⟩, h⟩
        obtain ⟨rfl, rfl⟩ := (ih ts zs ts').1 h
        exact ⟨rfl, rfl⟩
      · rintro ⟨rfl, rfl⟩
        exact ⟨t, ts, [], rfl, ⟨rfl, rfl⟩, (ih ts [] ts).2 ⟨rfl, rfl⟩⟩

theorem ftr_cons (x : X) (xs : List X) : ∀ (L : List (PN U X × (U → Prop))) {b : Bool} {ts : List U} (out : List U),
    (∀ p ∈ L, Lawful p.1 p.2) → FlowI b L ts →
    (FTr (ops L) ts (x :: xs) out ↔ ∃ ts1, flowTrain (ops L) ts x = .ok ts1 ∧ FTr (ops L) ts1 xs out) := by
  intro L
  induction L generalizing x xs with
  | nil =>
    intro b ts out _ hi
    rw [flowI_nil hi]
    simp [FTr, flowTrain]
  | cons p L ih =>
    intro b ts out hL hi
    obtain ⟨t, r, rfl, h1, _, h2⟩ := flowI_cons hi
    have hp := hL p (by simp)
    simp only [ops, List.map_cons, FTr, flowTrain]
    cases ht : p.1.training t with
    | true =>
      simp only [if_true, trained_cons]
      constructor
      · rintro ⟨t', ts', rfl, ⟨t1, h3, h4⟩, rfl⟩
        obtain ⟨_, _, c, _⟩ := hp.train_ok h1 h3
        refine ⟨t1 :: ts', by rw [h3], t', ts', rfl, ?_⟩
        rw [c]
        simp only [if_true]
        exact ⟨h4, trivial⟩
      · rintro ⟨ts1, h3, h4⟩
        cases h5 : p.1.train t x with
        | error e => rw [h5] at h3; cases h3
        | ok t1 =>
          rw [h5] at h3
          cases h3
          obtain ⟨_, _, c, _⟩ := hp.train_ok h1 h5
          simp only [FTr, c, if_true] at h4
          obtain ⟨t', ts', rfl, h6, rfl⟩ := h4
          exact ⟨t', ts', rfl, ⟨t1, rfl, h6⟩, rfl⟩
    | false =>
      simp only [Bool.false_eq_true, if_false]
      constructor
      · rintro ⟨t', ts', rfl, ys, h3, h4⟩
        obtain ⟨y, t1, ys1, rfl, h5, h6⟩ := executed_cons.1 h3
        obtain ⟨_, c, _⟩ := hp.exec_ok h1 h5
        obtain ⟨ts1, h7, h8⟩ := (ih y ys1 ts' (fun q hq => hL q (by simp [hq])) h2).1 h4
        refine ⟨t1 :: ts1, by rw [h5]; simp only; rw [h7], t', ts', rfl, ?_⟩
        rw [c, ht]
        simp only [Bool.false_eq_true, if_false]
        exact ⟨ys1, h6, h8⟩
      · rintro ⟨ts1, h3, h4⟩
        cases h5 : p.1.exec t x with
        | error e => rw [h5] at h3; cases h3
        | ok q =>
          obtain ⟨y, t1⟩ := q
          rw [h5] at h3
          simp only at h3
          cases h7 : flowTrain (ops L) r y with
          | error e => rw [h7] at h3; cases h3
          | ok r1 =>
            rw [h7] at h3
            cases h3
            obtain ⟨_, c, _⟩ := hp.exec_ok h1 h5
            simp only [FTr, c, ht, Bool.false_eq_true, if_false] at h4
            obtain ⟨t', ts', rfl, ys, h6, h8⟩ := h4
            exact ⟨t', ts', rfl, y :: ys, executed_cons.2 ⟨y, t1, ys, rfl, h5, h6⟩,
              (ih y ys ts' (fun q hq => hL q (by simp [hq])) h2).2 ⟨r1, h7, h8⟩⟩

theorem fex_cons (x : X) (xs : List X) : ∀ (Ns : List (PN U X)) (ts : List U) (zs : List X) (out : List U),
    (FEx Ns ts (x :: xs) zs out ↔ ∃ z zs1 ts1, zs = z :: zs1 ∧ flowExec Ns ts x = .ok (z, ts1) ∧
      FEx Ns ts1 xs zs1 out) := by
  intro Ns
  induction Ns generalizing x xs with
  | nil =>
    intro ts zs out
    simp only [FEx, flowExec]
    constructor
    · rintro ⟨rfl, rfl⟩; exact ⟨x, xs, _, rfl, rfl, rfl, rfl⟩
    · rintro ⟨z, zs1, ts1, rfl, h, rfl, rfl⟩
      cases h
      exact ⟨rfl, rfl⟩
  | cons N Ns ih =>
    intro ts zs out
    cases ts with
    | nil =>
      simp only [FEx, flowExec]
      constructor
      · rintro ⟨rfl, rfl⟩; exact ⟨x, xs, _, rfl, rfl, rfl, rfl⟩
      · rintro ⟨z, zs1, ts1, rfl, h, h'⟩
        cases h
        simp only [FEx] at h'
        exact ⟨by rw [h'.1], h'.2⟩
    | cons t ts =>
      simp only [FEx, flowExec]
      constructor
      · rintro ⟨t', ts', ys, rfl, h3, h4⟩
        obtain ⟨y, t1, ys1, rfl, h5, h6⟩ := executed_cons.1 h3
        obtain ⟨z, zs1, ts1, rfl, h7, h8⟩ := (ih y ys1 ts zs ts').1 h4
        refine ⟨z, zs1, t1 :: ts1, rfl, by rw [h5]; simp only; rw [h7], t', ts', ys1, rfl, h6, h8⟩
      · rintro ⟨z, zs1, ts1, rfl, h3, h4⟩
        cases h5 : N.exec t x with
        | error e => rw [h5] at h3; cases h3
        | ok q =>
          obtain ⟨y, t1⟩ := q
          rw [h5] at h3
          simp only at h3
          cases h7 : flowExec Ns ts y with
          | error e => rw [h7] at h3; cases h3
          | ok q' =>
            obtain ⟨w, r1⟩ := q'
            rw [h7] at h3
            cases h3
            simp only [FEx] at h4
            obtain ⟨t', ts', ys, rfl, h6, h8⟩ := h4
            exact ⟨t', ts', y :: ys, rfl, executed_cons.2 ⟨y, t1, ys, rfl, h5, h6⟩,
              (ih y ys ts _ ts').2 ⟨_, zs1, r1, rfl, h7, h8⟩⟩

theorem flowTrain_inv : ∀ (L : List (PN U X × (U → Prop))) {b : Bool} {ts : List U} {x : X} {ts' : List U},
    (∀ p ∈ L, Lawful p.1 p.2) → FlowI b L ts → flowTrain (ops L) ts x = .ok ts' →
      FlowI b L ts' ∧ anyFlag PN.training (ops L) ts = true ∧ anyFlag PN.training (ops L) ts' = true ∧
      anyFlag PN.execFork (ops L) ts' = anyFlag PN.execFork (ops L) ts := by
  intro L
  induction L with
  | nil => intro b ts x ts' _ hi h; rw [flowI_nil hi] at h; cases h
  | cons p L ih =>
    intro b ts x ts' hL hi h
    obtain ⟨t, r, rfl, h1, h1', h2⟩ := flowI_cons hi
    have hp := hL p (by simp)
    simp only [ops, List.map_cons, flowTrain] at h
    simp only [ops, List.map_cons, anyFlag_cons]
    cases ht : p.1.training t with
    | true =>
      simp only [ht, if_true] at h
      cases h5 : p.1.train t x with
      | error e => rw [h5] at h; cases h
      | ok t1 =>
        rw [h5] at h
        cases h
        obtain ⟨a, _, c, d⟩ := hp.train_ok h1 h5
        refine ⟨⟨a, fun hb _ => by rw [d]; exact h1' hb ht, ?_⟩, by simp, ?_, ?_⟩
        · rw [c, ← ht]; exact h2
        · rw [anyFlag_cons, c]; simp
        · rw [anyFlag_cons, d]
    | false =>
      simp only [ht, Bool.false_eq_true, if_false] at h
      cases h5 : p.1.exec t x with
      | error e => rw [h5] at h; cases h
      | ok q =>
        obtain ⟨y, t1⟩ := q
        rw [h5] at h
        simp only at h
        cases h7 : flowTrain (ops L) r y with
        | error e => rw [h7] at h; cases h
        | ok r1 =>
          rw [h7] at h
          cases h
          obtain ⟨a, c, d, _⟩ := hp.exec_ok h1 h5
          obtain ⟨a', b', c', d'⟩ := ih (fun q hq => hL q (by simp [hq])) h2 h7
          refine ⟨⟨a, fun hb hh => absurd hh (by rw [c, ht]; decide), by rw [c]; exact a'⟩, ?_, ?_, ?_⟩
          · rw [Bool.false_or]; exact b'
          · rw [anyFlag_cons, c, ht, Bool.false_or]; exact c'
          · rw [anyFlag_cons, d]
            congr 1

theorem flowExec_inv : ∀ (L : List (PN U X × (U → Prop))) {b : Bool} {ts : List U} {x y : X} {ts' : List U},
    (∀ p ∈ L, Lawful p.1 p.2) → FlowI b L ts → flowExec (ops L) ts x = .ok (y, ts') →
      FlowI b L ts' ∧ anyFlag PN.training (ops L) ts' = anyFlag PN.training (ops L) ts ∧
      anyFlag PN.execFork (ops L) ts' = anyFlag PN.execFork (ops L) ts ∧
      (anyFlag PN.execFork (ops L) ts = false → ts' = ts) := by
  intro L
  induction L with
  | nil =>
    intro b ts x y ts' _ hi h
    rw [flowI_nil hi] at h ⊢
    cases h
    exact ⟨trivial, rfl, rfl, fun _ => rfl⟩
  | cons p L ih =>
    intro b ts x y ts' hL hi h
    obtain ⟨t, r, rfl, h1, h1', h2⟩ := flowI_cons hi
    have hp := hL p (by simp)
    simp only [ops, List.map_cons, flowExec] at h
    simp only [ops, List.map_cons, anyFlag_cons]
    cases h5 : p.1.exec t x with
    | error e => rw [h5] at h; cases h
    | ok q =>
      obtain ⟨y, t1⟩ := q
      rw [h5] at h
      simp only at h
      cases h7 : flowExec (ops L) r y with
      | error e => rw [h7] at h; cases h
      | ok q' =>
        obtain ⟨z, r1⟩ := q'
        rw [h7] at h
        cases h
        obtain ⟨a, c, d, e⟩ := hp.exec_ok h1 h5
        obtain ⟨a', b', c', d'⟩ := ih (fun q hq => hL q (by simp [hq])) h2 h7
        refine ⟨⟨a, fun hb hh => by rw [d]; exact h1' hb (by rw [← c]; exact hh), by rw [c]; exact a'⟩, ?_, ?_, ?_⟩
        · rw [anyFlag_cons, c]; congr 1
        · rw [anyFlag_cons, d]; congr 1
        · intro he
          simp only [Bool.or_eq_false_iff] at he
          rw [e he.1, d' he.2]

theorem flow_trained {L : List (PN U X × (U → Prop))} (hL : ∀ p ∈ L, Lawful p.1 p.2) : ∀ (xs : List X) {b : Bool}
    {ts : List U}, FlowI b L ts → ∀ out, (Trained (flowNode (ops L)) ts xs out ↔ FTr (ops L) ts xs out) := by
  intro xs
  induction xs with
  | nil => intro b ts _ out; rw [ftr_nil, trained_nil]
  | cons x xs ih =>
    intro b ts hi out
    rw [ftr_cons x xs L out hL hi, trained_cons]
    constructor
    · rintro ⟨ts1, h1, h2⟩
      exact ⟨ts1, h1, (ih (flowTrain_inv L hL hi h1).1 out).1 h2⟩
    · rintro ⟨ts1, h1, h2⟩
      exact ⟨ts1, h1, (ih (flowTrain_inv L hL hi h1).1 out).2 h2⟩

theorem flow_executed (Ns : List (PN U X)) : ∀ (xs : List X) {ts : List U} (zs : List X) (out : List U),
    (Executed (flowNode Ns) ts xs zs out ↔ FEx Ns ts xs zs out) := by
  intro xs
  induction xs with
  | nil => intro ts zs out; rw [fex_nil, executed_nil]
  | cons x xs ih =>
    intro ts zs out
    rw [fex_cons, executed_cons]
    constructor
    · rintro ⟨y, s1, ys1, rfl, h1, h2⟩; exact ⟨y, ys1, s1, rfl, h1, (ih _ _).1 h2⟩
    · rintro ⟨y, ys1, s1, rfl, h1, h2⟩; exact ⟨y, s1, ys1, rfl, h1, (ih _ _).2 h2⟩

theorem flowFork_ok : ∀ (L : List (PN U X × (U → Prop))) {b : Bool} {ts fs : List U}, (∀ p ∈ L, Lawful p.1 p.2) →
    FlowI b L ts → flowFork b (ops L) ts = .ok fs → FlowI b L fs ∧
      anyFlag PN.training (ops L) fs = anyFlag PN.training (ops L) ts ∧
      anyFlag PN.execFork (ops L) fs = anyFlag PN.execFork (ops L) ts := by
  intro L
  induction L with
  | nil =>
    intro b ts fs _ hi h
    rw [flowI_nil hi] at h ⊢
    cases h
    exact ⟨trivial, rfl, rfl⟩
  | cons p L ih =>
    intro b ts fs hL hi h
    obtain ⟨t, r, rfl, h1, h1', h2⟩ := flowI_cons hi
    simp only [ops, List.map_cons, flowFork] at h
    split at h
    · cases h
    · rename_i f h3
      cases h4 : flowFork (b || p.1.training t) (ops L) r with
      | error e => rw [h4] at h; cases h
      | ok r' =>
        rw [h4] at h
        cases h
        obtain ⟨a', b', c'⟩ := ih (fun q hq => hL q (by simp [hq])) h2 h4
        have : p.2 f ∧ p.1.training f = p.1.training t ∧ p.1.execFork f = p.1.execFork t := by
          split at h3
          · exact (hL p (by simp)).fork_ok h1 h3
          · split at h3
            · exact (hL p (by simp)).fork_ok h1 h3
            · cases h3; exact ⟨h1, rfl, rfl⟩
        obtain ⟨a, c, d⟩ := this
        refine ⟨⟨a, fun hb hh => by rw [d]; exact h1' hb (by rw [← c]; exact hh), by rw [c]; exact a'⟩, ?_, ?_⟩
        · simp only [ops, List.map_cons, anyFlag_cons, c] at b' ⊢
          rw [b']
        · simp only [ops, List.map_cons, anyFlag_cons, d] at c' ⊢
          rw [c']

/-- Forks of nodes behind the one in training are joined without an effect. -/
theorem flow_idle : ∀ (L : List (PN U X × (U → Prop))) {ts fs : List U}, (∀ p ∈ L, Lawful p.1 p.2) →
    FlowI true L ts → flowFork true (ops L) ts = .ok fs → flowJoin true (ops L) ts fs = .ok ts := by
  intro L
  induction L with
  | nil => intro ts fs _ hi h; rw [flowI_nil hi] at h ⊢; cases h; rfl
  | cons p L ih =>
    intro ts fs hL hi h
    obtain ⟨t, r, rfl, h1, h1', h2⟩ := flowI_cons hi
    have hp := hL p (by simp)
    simp only [ops, List.map_cons, flowFork, Bool.not_true, Bool.false_and, Bool.true_or] at h
    simp only [Bool.true_or] at h2
    split at h
    · cases h
    · rename_i f h3
      cases h4 : flowFork true (ops L) r with
      | error e => rw [h4] at h; cases h
      | ok r' =>
        rw [h4] at h
        cases h
        have h5 := ih (fun q hq => hL q (by simp [hq])) h2 h4
        simp only [ops, List.map_cons, flowJoin, Bool.not_true, Bool.false_and, Bool.true_or, Bool.false_eq_true,
          if_false]
        simp only [Bool.false_eq_true, if_false] at h3
        cases he : p.1.execFork t with
        | false =>
          simp only [he, Bool.false_eq_true, if_false] at h3
          cases h3
          simp only [he, Bool.false_eq_true, if_false]
          rw [h5]
        | true =>
          simp only [he, if_true] at h3
          have ht : p.1.training t = false := by
            cases ht : p.1.training t with
            | false => rfl
            | true => have := h1' rfl ht; rw [he] at this; cases this
          obtain ⟨_, _, d⟩ := hp.fork_ok h1 h3
          obtain ⟨f', h6, h7⟩ := (hp.execs (js := []) h1 ht he h3 (.nil t) [] t).1 (.nil t)
          obtain ⟨_, rfl⟩ := executed_nil.1 h6
          rw [d, he]
          simp only [if_true, h7]
          rw [h5]

theorem exec_head {p : PN U X × (U → Prop)} (hp : Lawful p.1 p.2) {t0 f t : U} {prior zs : List X} (hi : p.2 t0)
    (ht : p.1.training t0 = false) (hf : (if p.1.execFork t0 then p.1.fork t0 else .ok t0) = .ok f)
    (he : Executed p.1 t0 prior zs t) (js ys : List X) (t' : U) :
    p.2 f ∧ p.1.training f = false ∧ (Executed p.1 t js ys t' ↔ ∃ f', Executed p.1 f js ys f' ∧
      p.1.training f' = false ∧ (if p.1.execFork f' then p.1.join t f' else .ok t) = .ok t') := by
  obtain ⟨a, b, c, d⟩ := hp.executed hi he
  cases hx : p.1.execFork t0 with
  | false =>
    simp only [hx, Bool.false_eq_true, if_false] at hf
    cases hf
    have := d hx
    subst this
    refine ⟨hi, ht, ?_⟩
    constructor
    · intro h
      obtain ⟨_, b', c', d'⟩ := hp.executed hi h
      refine ⟨t', h, by rw [b', ht], ?_⟩
      rw [c', hx, d' hx]
      simp
    · rintro ⟨f', h1, _, h2⟩
      obtain ⟨_, b', c', d'⟩ := hp.executed hi h1
      rw [c', hx] at h2
      simp only [Bool.false_eq_true, if_false] at h2
      cases h2
      rw [d' hx] at h1
      exact h1
  | true =>
    simp only [hx, if_true] at hf
    obtain ⟨a1, b1, c1⟩ := hp.fork_ok hi hf
    refine ⟨a1, by rw [b1, ht], ?_⟩
    rw [hp.execs hi ht hx hf he ys t']
    constructor
    · rintro ⟨f', h1, h2⟩
      obtain ⟨_, b', c', _⟩ := hp.executed a1 h1
      refine ⟨f', h1, by rw [b', b1, ht], ?_⟩
      rw [c', c1, hx]
      simpa using h2
    · rintro ⟨f', h1, _, h2⟩
      obtain ⟨_, b', c', _⟩ := hp.executed a1 h1
      rw [c', c1, hx] at h2
      exact ⟨f', h1, by simpa using h2⟩

theorem flow_trains : ∀ (L : List (PN U X × (U → Prop))) {ts0 fs ts : List U} (js prior : List X), js ≠ [] →
    (∀ p ∈ L, Lawful p.1 p.2) → FlowI false L ts0 → flowFork false (ops L) ts0 = .ok fs →
    FTr (ops L) ts0 prior ts → ∀ out,
    (FTr (ops L) ts js out ↔ ∃ fs', FTr (ops L) fs js fs' ∧ flowJoin false (ops L) ts fs' = .ok out) := by
  intro L
  induction L with
  | nil =>
    intro ts0 fs ts js prior hj _ hi hf hp out
    rw [flowI_nil hi] at hf hp
    cases hf
    simp only [ops, List.map_nil, FTr] at hp ⊢
    constructor
    · rintro ⟨h, _⟩; exact absurd h hj
    · rintro ⟨_, ⟨h, _⟩, _⟩; exact absurd h hj
  | cons p L ih =>
    intro ts0 fs ts js prior hj hL hi hf hp out
    obtain ⟨t0, r0, rfl, h1, h1', h2⟩ := flowI_cons hi
    have hp1 := hL p (by simp)
    simp only [ops, List.map_cons, flowFork, Bool.not_false, Bool.true_and, Bool.false_or] at hf
    simp only [Bool.false_or] at h2
    split at hf
    · cases hf
    rename_i f h3
    cases h4 : flowFork (p.1.training t0) (ops L) r0 with
    | error e => rw [h4] at hf; cases hf
    | ok rf =>
      rw [h4] at hf
      cases hf
      simp only [ops, List.map_cons, FTr] at hp
      obtain ⟨t, r, rfl, hp⟩ := hp
      simp only [ops, List.map_cons, FTr]
      cases ht : p.1.training t0 with
      | true =>
        simp only [ht, if_true] at h3 hp
        obtain ⟨hp, rfl⟩ := hp
        rw [ht] at h4 h2
        obtain ⟨a, b, _⟩ := hp1.trained h1 hp
        obtain ⟨af, bf, _⟩ := hp1.fork_ok h1 h3
        have hlaw := hp1.trains h1 ht h3 hp hj
        have hid := flow_idle L (fun q hq => hL q (by simp [hq])) h2 h4
        simp only [b, bf, ht, if_true]
        constructor
        · rintro ⟨t', ts', rfl, h7, rfl⟩
          obtain ⟨f', h9, h10⟩ := (hlaw t').1 h7
          refine ⟨f' :: rf, ⟨f', rf, rfl, h9, rfl⟩, ?_⟩
          obtain ⟨_, b', _⟩ := hp1.trained af h9
          simp only [flowJoin, b', bf, ht, Bool.not_false, Bool.true_and, if_true, h10, Bool.false_or]
          rw [hid]
        · rintro ⟨fs', ⟨f', rf', rfl, h8, rfl⟩, h9⟩
          obtain ⟨_, b', _⟩ := hp1.trained af h8
          simp only [flowJoin, b', bf, ht, Bool.not_false, Bool.true_and, if_true, Bool.false_or] at h9
          cases h11 : p.1.join t f' with
          | error e => rw [h11] at h9; cases h9
          | ok t' =>
            rw [h11] at h9
            simp only at h9
            rw [hid] at h9
            cases h9
            exact ⟨_, _, rfl, (hlaw t').2 ⟨f', h8, h11⟩, rfl⟩
      | false =>
        simp only [ht, Bool.false_eq_true, if_false] at h3 hp
        obtain ⟨zs, hp, hp'⟩ := hp
        rw [ht] at h4 h2
        obtain ⟨a, b, _⟩ := hp1.executed h1 hp
        have hh := fun ys t' => exec_head hp1 h1 ht h3 hp js ys t'
        obtain ⟨af, bf, _⟩ := hh [] t
        simp only [b, bf, ht, Bool.false_eq_true, if_false]
        constructor
        · rintro ⟨t', ts', rfl, ys, h7, h8⟩
          obtain ⟨_, _, h9⟩ := hh ys t'
          obtain ⟨f', h10, h11, h12⟩ := h9.1 h7
          have hys : ys ≠ [] := by
            intro e
            have := executed_length h7
            rw [e] at this
            exact hj (List.length_eq_zero_iff.1 this.symm)
          obtain ⟨fs', h13, h14⟩ := (ih ys zs hys (fun q hq => hL q (by simp [hq])) h2 h4 hp' ts').1 h8
          refine ⟨f' :: fs', ⟨f', fs', rfl, ys, h10, h13⟩, ?_⟩
          simp only [flowJoin, h11, Bool.and_false, Bool.false_eq_true, if_false, Bool.or_false, h12]
          rw [h14]
        · rintro ⟨fs', ⟨f', rf', rfl, ys, h8, h8'⟩, h9⟩
          have hbf : p.1.training f' = false := by
            obtain ⟨_, b', _⟩ := hp1.executed af h8
            rw [b', bf]
          simp only [flowJoin, hbf, Bool.and_false, Bool.false_eq_true, if_false, Bool.or_false] at h9
          split at h9
          · cases h9
          · rename_i t' h11
            cases h10 : flowJoin false (ops L) r rf' with
            | error e => rw [h10] at h9; cases h9
            | ok r' =>
              rw [h10] at h9
              cases h9
              have hys : ys ≠ [] := by
                intro e
                have := executed_length h8
                rw [e] at this
                exact hj (List.length_eq_zero_iff.1 this.symm)
              refine ⟨_, _, rfl, ys, ((hh ys t').2.2).2 ⟨f', h8, hbf, h11⟩, ?_⟩
              exact (ih ys zs hys (fun q hq => hL q (by simp [hq])) h2 h4 hp' r').2 ⟨rf', h8', h10⟩

theorem flow_execs : ∀ (L : List (PN U X × (U → Prop))) {ts0 fs ts : List U} (js prior outs : List X),
    (∀ p ∈ L, Lawful p.1 p.2) → FlowI false L ts0 → anyFlag PN.training (ops L) ts0 = false →
    flowFork false (ops L) ts0 = .ok fs → FEx (ops L) ts0 prior outs ts → ∀ ys out,
    (FEx (ops L) ts js ys out ↔ ∃ fs', FEx (ops L) fs js ys fs' ∧ flowJoin false (ops L) ts fs' = .ok out) := by
  intro L
  induction L with
  | nil =>
    intro ts0 fs ts js prior outs _ hi _ hf hp ys out
    rw [flowI_nil hi] at hf hp
    cases hf
    simp only [ops, List.map_nil, FEx, flowJoin] at hp ⊢
    obtain ⟨_, rfl⟩ := hp
    constructor
    · rintro ⟨rfl, rfl⟩; exact ⟨[], ⟨rfl, rfl⟩, rfl⟩
    · rintro ⟨_, ⟨rfl, _⟩, h⟩
      cases h
      exact ⟨rfl, rfl⟩
  | cons p L ih =>
    intro ts0 fs ts js prior outs hL hi hnt hf hp zs out
    obtain ⟨t0, r0, rfl, h1, h1', h2⟩ := flowI_cons hi
    have hp1 := hL p (by simp)
    simp only [ops, List.map_cons, anyFlag_cons, Bool.or_eq_false_iff] at hnt
    obtain ⟨ht, hnt⟩ := hnt
    simp only [ops, List.map_cons, flowFork, Bool.not_false, Bool.true_and, Bool.false_or, ht, Bool.false_eq_true,
      if_false] at hf
    simp only [Bool.false_or, ht] at h2
    split at hf
    · cases hf
    rename_i f h3
    cases h4 : flowFork false (ops L) r0 with
    | error e => rw [h4] at hf; cases hf
    | ok rf =>
      rw [h4] at hf
      cases hf
      simp only [ops, List.map_cons, FEx] at hp ⊢
      obtain ⟨t, r, ws, rfl, hp, hp'⟩ := hp
      have hh := fun ys t' => exec_head hp1 h1 ht h3 hp js ys t'
      obtain ⟨af, bf, _⟩ := hh [] t
      constructor
      · rintro ⟨t', ts', ys, rfl, h7, h8⟩
        obtain ⟨f', h10, h11, h12⟩ := ((hh ys t').2.2).1 h7
        obtain ⟨fs', h13, h14⟩ := (ih ys ws outs (fun q hq => hL q (by simp [hq])) h2 hnt h4 hp' zs ts').1 h8
        refine ⟨f' :: fs', ⟨f', fs', ys, rfl, h10, h13⟩, ?_⟩
        simp only [flowJoin, h11, Bool.and_false, Bool.false_eq_true, if_false, Bool.or_false, h12]
        rw [h14]
      · rintro ⟨fs', ⟨f', rf', ys, rfl, h8, h8'⟩, h9⟩
        have hbf : p.1.training f' = false := by
          obtain ⟨_, b', _⟩ := hp1.executed af h8
          rw [b', bf]
        simp only [flowJoin, hbf, Bool.and_false, Bool.false_eq_true, if_false, Bool.or_false] at h9
        split at h9
        · cases h9
        · rename_i t' h11
          cases h10 : flowJoin false (ops L) r rf' with
          | error e => rw [h10] at h9; cases h9
          | ok r' =>
            rw [h10] at h9
            cases h9
            refine ⟨_, _, ys, rfl, ((hh ys t').2.2).2 ⟨f', h8, hbf, h11⟩, ?_⟩
            exact (ih ys ws outs (fun q hq => hL q (by simp [hq])) h2 hnt h4 hp' zs r').2 ⟨rf', h8', h10⟩

/-- **C148, C149** for `FlowNode`: a flow node of nodes that obey the law obeys it, provided that behind the node being
trained no node is both in training and gathers results in execution. -/
theorem flow_lawful {L : List (PN U X × (U → Prop))} (hL : ∀ p ∈ L, Lawful p.1 p.2) :
    Lawful (flowNode (ops L)) (FlowI false L) where
  train_ok := fun hi h => flowTrain_inv L hL hi h
  exec_ok := fun hi h => flowExec_inv L hL hi h
  fork_ok := fun hi h => flowFork_ok L hL hi h
  trains := by
    intro s0 f prior s js hi ht hf hp hj s'
    have hp' := (flow_trained hL prior hi s).1 hp
    obtain ⟨a, _, _⟩ := flowFork_ok L hL hi hf
    have hs : FlowI false L s := by
      have : ∀ (xs : List X) (s0 : List U), FlowI false L s0 → ∀ s,
          Trained (flowNode (ops L)) s0 xs s → FlowI false L s := by
        intro xs
        induction xs with
        | nil => intro s0 h1 s h3; rw [trained_nil.1 h3]; exact h1
        | cons x xs ih =>
          intro s0 h1 s h3
          obtain ⟨s1, h4, h5⟩ := trained_cons.1 h3
          exact ih s1 (flowTrain_inv L hL h1 h4).1 s h5
      exact this prior s0 hi s hp
    rw [flow_trained hL js hs s', flow_trains L js prior hj hL hi hf hp' s']
    constructor
    · rintro ⟨f', h1, h2⟩; exact ⟨f', (flow_trained hL js a f').2 h1, h2⟩
    · rintro ⟨f', h1, h2⟩; exact ⟨f', (flow_trained hL js a f').1 h1, h2⟩
  execs := by
    intro s0 f prior outs s js hi ht _ hf hp ys s'
    have hp' := (flow_executed (ops L) prior outs s).1 hp
    rw [flow_executed, flow_execs L js prior outs hL hi ht hf hp' ys s']
    constructor
    · rintro ⟨f', h1, h2⟩; exact ⟨f', (flow_executed _ js ys f').2 h1, h2⟩
    · rintro ⟨f', h1, h2⟩; exact ⟨f', (flow_executed _ js ys f').1 h1, h2⟩

end PHinet
