import Verif.Bi.Flow
import Verif.Bi.NodeLemmas

/-!
# Properties of `BiFlow.execute`

C59 (no jumps), C60 (jumps stay in the flow), C62 (chunks without data), C95 (chunks are independent),
C96 (joining the messages of the chunks).
-/

namespace Bi

open Py

variable {σ A V : Type} [DecidableEq V]

/-! ### C59: without jumps -/

/-- Every node computes `f`: it returns data and neither a message nor a target. -/
def Computes (F : BFlow σ A V) (f : Nat → σ → A → Except Err A × σ) : Prop :=
  ∀ j, j < F.len → ∀ s x,
    (F.isBi j = true → F.exec j s (some x) none =
      match f j s x with
      | (.ok y, s') => (.ok (.single (some y)), s')
      | (.error e, s') => (.error e, s')) ∧
    (F.isBi j = false → F.plain j s (some x) =
      match f j s x with
      | (.ok y, s') => (.ok (some y), s')
      | (.error e, s') => (.error e, s'))

/-- The composition of the nodes `i`, …, `i + n - 1`. -/
def chain (f : Nat → σ → A → Except Err A × σ) : Nat → Nat → σ → A → Except Err A × σ
  | _, 0, s, x => (.ok x, s)
  | i, n + 1, s, x =>
    match f i s x with
    | (.ok y, s') => chain f (i + 1) n s' y
    | (.error e, s') => (.error e, s')

/-- The composition, chunk by chunk, with a reset after every chunk. -/
def chainAll (f : Nat → σ → A → Except Err A × σ) (reset : σ → σ) (n : Nat) : σ → List A → Except Err (List A) × σ
  | s, [] => (.ok [], s)
  | s, x :: xs =>
    match chain f 0 n s x with
    | (.error e, s') => (.error e, s')
    | (.ok y, s') =>
      match chainAll f reset n (reset s') xs with
      | (.ok ys, s'') => (.ok (y :: ys), s'')
      | (.error e, s'') => (.error e, s'')

theorem runNode_computes {F : BFlow σ A V} {f : Nat → σ → A → Except Err A × σ} (h : Computes F f) {j : Nat}
    (hj : j < F.len) (s : σ) (x : A) :
    runNode F j s (some x) none =
      match f j s x with
      | (.ok y, s') => (.ok (some y, none, .int 1), s')
      | (.error e, s') => (.error e, s') := by
  obtain ⟨h1, h2⟩ := h j hj s x
  unfold runNode
  cases hb : F.isBi j with
  | true =>
    simp only [if_true, h1 hb]
    generalize f j s x = q
    obtain ⟨q, s'⟩ := q
    cases q <;> rfl
  | false =>
    simp only [Bool.false_eq_true, if_false, h2 hb]
    generalize f j s x = q
    obtain ⟨q, s'⟩ := q
    cases q <;> rfl

theorem pyIndex_of_lt {len i : Nat} (h : i < len) : pyIndex len (i : Int) = some i := by
  unfold pyIndex
  rw [if_pos (by omega)]
  simp

theorem executeSeq_chain {F : BFlow σ A V} {f : Nat → σ → A → Except Err A × σ} (h : Computes F f) :
    ∀ n i (x : A) s seen, i + (n + 1) = F.len → ∀ m, n + 1 ≤ m →
      ∃ o, runFuel (seqStep F none) m { i := .int i, x := some x, msg := none, s := s, seen := seen } = some o ∧
        (match chain f i (n + 1) s x with
          | (.ok y, s') => o.res = .ok (.single (some y)) ∧ o.s = s'
          | (.error e, s') => o.res = .error e ∧ o.s = s') := by
  intro n
  induction n with
  | zero =>
    intro i x s seen hi m hm
    obtain ⟨m, rfl⟩ : ∃ m', m = m' + 1 := ⟨m - 1, by omega⟩
    simp only [runFuel, seqStep, Option.map_none, reduceCtorEq, if_false, pyIndex_of_lt (show i < F.len by omega),
      runNode_computes h (show i < F.len by omega), chain]
    generalize f i s x = q
    obtain ⟨q, s'⟩ := q
    cases q with
    | error e => exact ⟨_, rfl, rfl, rfl⟩
    | ok y =>
      simp only [afterNode]
      rw [if_pos (by omega)]
      exact ⟨_, rfl, rfl, rfl⟩
  | succ n ih =>
    intro i x s seen hi m hm
    obtain ⟨m, rfl⟩ : ∃ m', m = m' + 1 := ⟨m - 1, by omega⟩
    rw [chain]
    simp only [runFuel, seqStep, Option.map_none, reduceCtorEq, if_false, pyIndex_of_lt (show i < F.len by omega),
      runNode_computes h (show i < F.len by omega)]
    generalize f i s x = q
    obtain ⟨q, s'⟩ := q
    cases q with
    | error e => exact ⟨_, rfl, rfl, rfl⟩
    | ok y =>
      simp only [afterNode]
      rw [if_neg (by omega), if_neg (by omega)]
      exact ih (i + 1) y s' (seen ++ [i]) (by omega) m (by omega)

theorem execLoop_chain {F : BFlow σ A V} (O : ValOps V) {f : Nat → σ → A → Except Err A × σ} (h : Computes F f)
    (hlen : 0 < F.len) {n : Nat} (hn : F.len ≤ n) :
    ∀ (xs : List A) (st : ExSt σ A V) (ys : List A), st.c = {} →
      (st.y = .list ys ∨ (ys = [] ∧ st.y = .none)) →
      match chainAll f F.reset F.len st.s xs with
      | (.ok zs, s') => ∃ st', execLoop F O n st (xs.map fun x => { x := some x }) = some (.ok st', s') ∧ st'.c = {} ∧
          (st'.y = .list (ys ++ zs) ∨ (ys ++ zs = [] ∧ st'.y = .none))
      | (.error e, s') => execLoop F O n st (xs.map fun x => { x := some x }) = some (.error e, s') := by
  intro xs
  induction xs with
  | nil =>
    intro st ys hc hy
    exact ⟨st, rfl, hc, by simpa using hy⟩
  | cons x xs ih =>
    intro st ys hc hy
    obtain ⟨l, hl⟩ : ∃ l, F.len = l + 1 := ⟨F.len - 1, by omega⟩
    obtain ⟨o, ho1, ho2⟩ := executeSeq_chain h l 0 x st.s [] (by omega) n (by omega)
    rw [← hl] at ho2
    rw [chainAll]
    simp only [List.map_cons, execLoop]
    have hc' : execChunk F O n st { x := some x } =
        match o.res with
        | .error e => some (.error e, o.s)
        | .ok r =>
          match readResult r with
          | .error e => some (.error e, o.s)
          | .ok (y, m) =>
            let s' := F.reset o.s
            match addMessage O st.c (m.getD []) with
            | .error e => some (.error e, s')
            | .ok c =>
              match addY st.y y with
              | .error e => some (.error e, s')
              | .ok ys =>
                some (.ok { y := ys, c := c, s := s', starts := st.starts ++ [st.s],
                            traces := st.traces ++ [o.seen] }, s') := by
      unfold execChunk executeSeq
      have : (BVal.int 0 : BVal V) = .int ((0 : Nat) : Int) := rfl
      simp only [BVal.truthy, Bool.false_eq_true, if_false]
      rw [this, ho1]
      rfl
    rw [hc']
    clear hc'
    generalize chain f 0 F.len st.s x = q at ho2
    obtain ⟨q, s'⟩ := q
    cases q with
    | error e =>
      simp only at ho2
      simp only [ho2.1, ho2.2]
    | ok y =>
      simp only at ho2
      simp only [ho2.1, ho2.2, readResult, Option.getD_none, addMessage]
      have hy' : addY st.y (some y) = .ok (.list (ys ++ [y])) := by
        rcases hy with hy | ⟨rfl, hy⟩
        · rw [hy]; rfl
        · rw [hy]; rfl
      rw [hy']
      simp only
      have := ih { y := .list (ys ++ [y]), c := st.c, s := F.reset s', starts := st.starts ++ [st.s],
                   traces := st.traces ++ [o.seen] } (ys ++ [y]) hc (.inl rfl)
      simp only at this
      generalize chainAll f F.reset F.len (F.reset s') xs = q at this
      obtain ⟨q, s''⟩ := q
      cases q with
      | error e => exact this
      | ok zs =>
        simp only at this ⊢
        simpa using this

/-- **C59.** A flow whose nodes return data and neither messages nor targets, executed on any list of chunks that is not
empty, returns the composition of the nodes for every chunk, in order, with an empty message — or raises what the first
failing node raises. As many rounds as there are nodes are enough. -/
theorem execute_without_jumps {F : BFlow σ A V} (O : ValOps V) {f : Nat → σ → A → Except Err A × σ}
    (h : Computes F f) (hlen : 0 < F.len) {n : Nat} (hn : F.len ≤ n) (xs : List A) (hx : xs ≠ []) (s : σ) :
    execute' F O n (xs.map fun x => { x := some x }) s =
      match chainAll f F.reset F.len (F.reset s) xs with
      | (.ok ys, s') => some (.ok { y := .list ys, msg := [] }, s')
      | (.error e, s') => some (.error e, s') := by
  have := execLoop_chain O h hlen hn xs { s := F.reset s } [] rfl (.inr ⟨rfl, rfl⟩)
  unfold execute'
  simp only at this
  cases xs with
  | nil => exact absurd rfl hx
  | cons x xs =>
    generalize hq : chainAll f F.reset F.len (F.reset s) (x :: xs) = q at this
    obtain ⟨q, s'⟩ := q
    cases q with
    | error e =>
      simp only at this
      rw [this]
    | ok zs =>
      simp only [List.nil_append] at this
      obtain ⟨st', h1, h2, h3⟩ := this
      rw [h1]
      simp only [List.map_cons, h2, getMessage, getLoop]
      rcases h3 with h3 | ⟨h3, _⟩
      · rw [h3]
      · exfalso
        subst h3
        unfold chainAll at hq
        split at hq
        · cases hq
        · split at hq
          · cases hq
          · cases hq

/-- **C59**, error branch: no chunk at all. -/
theorem execute_no_chunks (F : BFlow σ A V) (O : ValOps V) (n : Nat) (s : σ) :
    execute' F O n ([] : List (Chunk A V)) s = some (.error .biflow, F.reset s) := rfl

/-! ### C60: jumps -/

/-- The node at position `j` knows the id `t`. -/
def Knows (F : BFlow σ A V) (t : BVal V) (j : Nat) : Prop := F.isBi j = true ∧ F.hasId j t = true

/-- Position `j` is the first that knows the id. -/
def IdAt (F : BFlow σ A V) (t : BVal V) (j : Nat) : Prop := j < F.len ∧ Knows F t j ∧ ∀ j', j' < j → ¬ Knows F t j'

/-- No node of the flow knows the id. -/
def NotHere (F : BFlow σ A V) (t : BVal V) : Prop := ∀ j, j < F.len → ¬ Knows F t j

/-- A target that is neither a number, nor `None`, nor the exit target. -/
def IsId (t : BVal V) : Prop := (∀ k, t ≠ .int k) ∧ t ≠ .none ∧ t ≠ .str sExit

/-- Where a target leads. -/
inductive Dest where
  | node (j : Nat)
  | front
  | behind
  | leave
  | error (e : Err)

/-- The specification of targets, for the node at position `i` of the flow. -/
inductive Move (F : BFlow σ A V) (i : Nat) : BVal V → Dest → Prop where
  | inside (k : Int) (j : Nat) : (i : Int) + k = j → j < F.len → Move F i (.int k) (.node j)
  | behind (k : Int) : (i : Int) + k = F.len → Move F i (.int k) .behind
  | front (k : Int) : (i : Int) + k = -1 → Move F i (.int k) .front
  | tooFar (k : Int) : (i : Int) + k > F.len → Move F i (.int k) (.error .indexError)
  | tooLow (k : Int) : (i : Int) + k < -1 → Move F i (.int k) (.error .indexError)
  | next : i + 1 < F.len → Move F i .none (.node (i + 1))
  | noNext : i + 1 ≥ F.len → Move F i .none (.error .biflow)
  | exit : Move F i (.str sExit) .leave
  | byId (t : BVal V) (j : Nat) : IsId t → IdAt F t j → Move F i t (.node j)
  | unknown (t : BVal V) : IsId t → NotHere F t → Move F i t .leave

/-- The specification of what a node gives: data, message and target, or an exception. A node that is not bidirectional
gets only the data and passes the message on. A bidirectional node gets data and message; what it does not return, it
does not pass on. A result without a target leads to the next node. -/
inductive Gives (F : BFlow σ A V) (i : Nat) (s : σ) (x : Option A) (m : Option (Msg V)) :
    Except Err (Option A × Option (Msg V) × BVal V) → σ → Prop where
  | biRaises {e s'} : F.isBi i = true → F.exec i s x m = (.error e, s') → Gives F i s x m (.error e) s'
  | data {y s'} : F.isBi i = true → F.exec i s x m = (.ok (.single y), s') → Gives F i s x m (.ok (y, none, .int 1)) s'
  | message {y m' s'} : F.isBi i = true → F.exec i s x m = (.ok (.pair y m'), s') →
      Gives F i s x m (.ok (y, m', .int 1)) s'
  | target {y m' t s'} : F.isBi i = true → F.exec i s x m = (.ok (.triple y m' t), s') → Gives F i s x m (.ok (y, m', t)) s'
  | plainRaises {e s'} : F.isBi i = false → F.plain i s x = (.error e, s') → Gives F i s x m (.error e) s'
  | plain {y s'} : F.isBi i = false → F.plain i s x = (.ok y, s') → Gives F i s x m (.ok (y, m, .int 1)) s'

omit [DecidableEq V] in
theorem gives_iff {F : BFlow σ A V} {i : Nat} {s : σ} {x : Option A} {m : Option (Msg V)}
    {r : Except Err (Option A × Option (Msg V) × BVal V)} {s' : σ} :
    Gives F i s x m r s' ↔ runNode F i s x m = (r, s') := by
  constructor
  · intro h
    unfold runNode
    cases h with
    | biRaises h1 h2 => rw [if_pos h1, h2]
    | data h1 h2 => rw [if_pos h1, h2]
    | message h1 h2 => rw [if_pos h1, h2]
    | target h1 h2 => rw [if_pos h1, h2]
    | plainRaises h1 h2 => rw [if_neg (by simp [h1]), h2]
    | plain h1 h2 => rw [if_neg (by simp [h1]), h2]
  · intro h
    unfold runNode at h
    cases hb : F.isBi i with
    | true =>
      rw [if_pos hb] at h
      cases he : F.exec i s x m with
      | mk q s1 =>
        rw [he] at h
        cases q with
        | error e => cases h; exact .biRaises hb he
        | ok q =>
          cases q with
          | single y => cases h; exact .data hb he
          | pair y m' => cases h; exact .message hb he
          | triple y m' t => cases h; exact .target hb he
    | false =>
      rw [if_neg (by simp [hb])] at h
      cases he : F.plain i s x with
      | mk q s1 =>
        rw [he] at h
        cases q with
        | error e => cases h; exact .plainRaises hb he
        | ok q => cases h; exact .plain hb he

/-- The specification of an execution that starts at position `i`: positions visited, result, state of the nodes. -/
inductive Path (F : BFlow σ A V) (stop : Option Nat) :
    Nat → Option A → Option (Msg V) → σ → List Nat → Except Err (SRes A V) → σ → Prop where
  | stopped {i x m s} : stop = some i → Path F stop i x m s [] (.ok (.stop x m)) s
  | raised {i x m s e s'} : stop ≠ some i → i < F.len → Gives F i s x m (.error e) s' →
      Path F stop i x m s [i] (.error e) s'
  | goes {i x m s y m' t s' j tr r s''} : stop ≠ some i → i < F.len → Gives F i s x m (.ok (y, m', t)) s' →
      Move F i t (.node j) → Path F stop j y m' s' tr r s'' → Path F stop i x m s (i :: tr) r s''
  | behind {i x m s y m' t s'} : stop ≠ some i → i < F.len → Gives F i s x m (.ok (y, m', t)) s' →
      Move F i t .behind → Path F stop i x m s [i] (.ok (if truthyMsg m' then .pair y m' else .single y)) s'
  | front {i x m s y m' t s'} : stop ≠ some i → i < F.len → Gives F i s x m (.ok (y, m', t)) s' →
      Move F i t .front → Path F stop i x m s [i] (.ok (.triple y m' (.int (-1)))) s'
  | leaves {i x m s y m' t s'} : stop ≠ some i → i < F.len → Gives F i s x m (.ok (y, m', t)) s' →
      Move F i t .leave → Path F stop i x m s [i] (.ok (.triple y m' t)) s'
  | bad {i x m s y m' t s' e} : stop ≠ some i → i < F.len → Gives F i s x m (.ok (y, m', t)) s' →
      Move F i t (.error e) → Path F stop i x m s [i] (.error e) s'

/-- Control only ever visits positions of the flow. -/
theorem Path.visited {F : BFlow σ A V} {stop : Option Nat} {i : Nat} {x : Option A} {m : Option (Msg V)} {s s' : σ}
    {tr : List Nat} {r : Except Err (SRes A V)} (h : Path F stop i x m s tr r s') : ∀ j ∈ tr, j < F.len := by
  induction h with
  | stopped => simp
  | raised _ hi _ => simpa using hi
  | goes _ hi _ _ _ ih =>
    intro j hj
    rcases List.mem_cons.1 hj with rfl | hj
    · exact hi
    · exact ih j hj
  | behind _ hi _ _ => simpa using hi
  | front _ hi _ _ => simpa using hi
  | leaves _ hi _ _ => simpa using hi
  | bad _ hi _ _ => simpa using hi

omit [DecidableEq V] in
theorem findId_spec (F : BFlow σ A V) (t : BVal V) : ∀ n i, i + n = F.len → (∀ j, j < i → ¬ Knows F t j) →
    match findId F t i n with
    | some j => IdAt F t j
    | none => NotHere F t := by
  intro n
  induction n with
  | zero =>
    intro i hi hb
    exact fun j hj => hb j (by omega)
  | succ n ih =>
    intro i hi hb
    unfold findId
    by_cases hk : (F.isBi i && F.hasId i t) = true
    · rw [if_pos hk]
      rw [Bool.and_eq_true] at hk
      exact ⟨by omega, hk, hb⟩
    · rw [if_neg hk]
      refine ih (i + 1) (by omega) ?_
      intro j hj
      by_cases e : j = i
      · subst e
        rintro ⟨a, b⟩
        exact hk (by rw [a, b]; rfl)
      · exact hb j (by omega)

theorem IdAt.unique {F : BFlow σ A V} {t : BVal V} {j j' : Nat} (h : IdAt F t j) (h' : IdAt F t j') : j = j' := by
  rcases Nat.lt_trichotomy j j' with c | c | c
  · exact absurd h.2.1 (h'.2.2 j c)
  · exact c
  · exact absurd h'.2.1 (h.2.2 j' c)

/-- No node of the flow asks for a position below -1. -/
def NoWrap (F : BFlow σ A V) : Prop :=
  ∀ j, j < F.len → ∀ s x m y m' k s', Gives F j s x m (.ok (y, m', .int k)) s' → -1 ≤ (j : Int) + k

/-- What `afterNode` does with a target, apart from positions below -1. -/
theorem afterNode_move (F : BFlow σ A V) {i : Nat} (hi : i < F.len) (y : Option A) (m : Option (Msg V)) (t : BVal V)
    (s : σ) (seen : List Nat) (hw : ∀ k, t = .int k → -1 ≤ (i : Int) + k) :
    (∃ j, Move F i t (.node j) ∧ j < F.len ∧
        afterNode F i y m t s seen = .inl { i := .int j, x := y, msg := m, s := s, seen := seen }) ∨
      (Move F i t .behind ∧ afterNode F i y m t s seen =
        .inr { res := .ok (if truthyMsg m then .pair y m else .single y), s := s, seen := seen }) ∨
      (Move F i t .front ∧
        afterNode F i y m t s seen = .inr { res := .ok (.triple y m (.int (-1))), s := s, seen := seen }) ∨
      (Move F i t .leave ∧ afterNode F i y m t s seen = .inr { res := .ok (.triple y m t), s := s, seen := seen }) ∨
      (Move F i t (.error .biflow) ∧ afterNode F i y m t s seen = .inr { res := .error .biflow, s := s, seen := seen }) ∨
      (∃ j : Nat, Move F i t (.error .indexError) ∧ F.len < j ∧
        afterNode F i y m t s seen = .inl { i := .int j, x := y, msg := m, s := s, seen := seen }) := by
  have idcase : ∀ t : BVal V, IsId t →
      (∃ j, Move F i t (.node j) ∧ j < F.len ∧ targetToIndex F t i = .ok (.int j)) ∨
        (Move F i t .leave ∧ targetToIndex F t i = .ok t) := by
    intro t ht
    have hf := findId_spec F t F.len 0 (by omega) (by intro j hj; omega)
    have he : targetToIndex F t i = match findId F t 0 F.len with
        | some j => .ok (.int j)
        | none => .ok t := by
      unfold targetToIndex
      rw [if_neg ht.2.2, if_neg ht.2.1]
      cases t with
      | none => exact absurd rfl ht.2.1
      | int k => exact absurd rfl (ht.1 k)
      | str s => rfl
      | other v => rfl
    rw [he]
    generalize findId F t 0 F.len = q at hf
    cases q with
    | none => exact .inr ⟨.unknown t ht hf, rfl⟩
    | some j => exact .inl ⟨j, .byId t j ht hf, hf.1, rfl⟩
  cases t with
  | int k =>
    have hk := hw k rfl
    unfold afterNode
    simp only
    by_cases h1 : (i : Int) + k = F.len
    · rw [if_pos h1]
      exact .inr (.inl ⟨.behind k h1, rfl⟩)
    · rw [if_neg h1]
      by_cases h2 : (i : Int) + k = -1
      · rw [if_pos h2]
        exact .inr (.inr (.inl ⟨.front k h2, rfl⟩))
      · rw [if_neg h2]
        have h3 : (i : Int) + k = (((i : Int) + k).toNat : Int) := by omega
        by_cases h4 : (i : Int) + k < F.len
        · refine .inl ⟨((i : Int) + k).toNat, .inside k _ h3 (by omega), by omega, ?_⟩
          rw [← h3]
        · refine .inr (.inr (.inr (.inr (.inr ⟨((i : Int) + k).toNat, .tooFar k (by omega), by omega, ?_⟩))))
          rw [← h3]
  | none =>
    unfold afterNode
    simp only [targetToIndex, reduceCtorEq, if_false, if_true]
    by_cases h : i + 1 < F.len
    · rw [if_neg (by omega), if_neg (by omega)]
      exact .inl ⟨i + 1, .next h, h, by simp⟩
    · rw [if_neg (by omega), if_pos (by omega)]
      exact .inr (.inr (.inr (.inr (.inl ⟨.noNext (by omega), rfl⟩))))
  | str u =>
    by_cases hu : u = sExit
    · subst hu
      refine .inr (.inr (.inr (.inl ⟨.exit, ?_⟩)))
      unfold afterNode targetToIndex
      simp
    · have ht : IsId (.str u : BVal V) := ⟨by simp, by simp, by simpa using hu⟩
      rcases idcase _ ht with ⟨j, h1, h2, h3⟩ | ⟨h1, h2⟩
      · refine .inl ⟨j, h1, h2, ?_⟩
        unfold afterNode
        simp only [h3]
      · refine .inr (.inr (.inr (.inl ⟨h1, ?_⟩)))
        unfold afterNode
        simp only [h2]
  | other v =>
    have ht : IsId (.other v : BVal V) := ⟨by simp, by simp, by simp⟩
    rcases idcase _ ht with ⟨j, h1, h2, h3⟩ | ⟨h1, h2⟩
    · refine .inl ⟨j, h1, h2, ?_⟩
      unfold afterNode
      simp only [h3]
    · refine .inr (.inr (.inr (.inl ⟨h1, ?_⟩)))
      unfold afterNode
      simp only [h2]

/-- Targets are unambiguous. -/
theorem Move.det {F : BFlow σ A V} {i : Nat} {t : BVal V} {d d' : Dest} (h : Move F i t d) (h' : Move F i t d') :
    d = d' := by
  cases h with
  | inside k j e hj =>
    cases h' with
    | inside _ j' e' _ => rw [show j = j' by omega]
    | behind _ e' => omega
    | front _ e' => omega
    | tooFar _ e' => omega
    | tooLow _ e' => omega
    | byId _ _ ht _ => exact absurd rfl (ht.1 k)
    | unknown _ ht _ => exact absurd rfl (ht.1 k)
  | behind k e =>
    cases h' with
    | inside _ j' e' _ => omega
    | behind _ e' => rfl
    | front _ e' => omega
    | tooFar _ e' => omega
    | tooLow _ e' => omega
    | byId _ _ ht _ => exact absurd rfl (ht.1 k)
    | unknown _ ht _ => exact absurd rfl (ht.1 k)
  | front k e =>
    cases h' with
    | inside _ j' e' _ => omega
    | behind _ e' => omega
    | front _ e' => rfl
    | tooFar _ e' => omega
    | tooLow _ e' => omega
    | byId _ _ ht _ => exact absurd rfl (ht.1 k)
    | unknown _ ht _ => exact absurd rfl (ht.1 k)
  | tooFar k e =>
    cases h' with
    | inside _ j' e' _ => omega
    | behind _ e' => omega
    | front _ e' => omega
    | tooFar _ e' => rfl
    | tooLow _ e' => rfl
    | byId _ _ ht _ => exact absurd rfl (ht.1 k)
    | unknown _ ht _ => exact absurd rfl (ht.1 k)
  | tooLow k e =>
    cases h' with
    | inside _ j' e' _ => omega
    | behind _ e' => omega
    | front _ e' => omega
    | tooFar _ e' => rfl
    | tooLow _ e' => rfl
    | byId _ _ ht _ => exact absurd rfl (ht.1 k)
    | unknown _ ht _ => exact absurd rfl (ht.1 k)
  | next e =>
    cases h' with
    | next _ => rfl
    | noNext e' => omega
    | byId _ _ ht _ => exact absurd rfl ht.2.1
    | unknown _ ht _ => exact absurd rfl ht.2.1
  | noNext e =>
    cases h' with
    | next e' => omega
    | noNext e' => rfl
    | byId _ _ ht _ => exact absurd rfl ht.2.1
    | unknown _ ht _ => exact absurd rfl ht.2.1
  | exit =>
    cases h' with
    | exit => rfl
    | byId _ _ ht _ => exact absurd rfl ht.2.2
    | unknown _ ht _ => exact absurd rfl ht.2.2
  | byId t j ht hj =>
    cases h' with
    | inside k _ _ _ => exact absurd rfl (ht.1 k)
    | behind k _ => exact absurd rfl (ht.1 k)
    | front k _ => exact absurd rfl (ht.1 k)
    | tooFar k _ => exact absurd rfl (ht.1 k)
    | tooLow k _ => exact absurd rfl (ht.1 k)
    | next _ => exact absurd rfl ht.2.1
    | noNext _ => exact absurd rfl ht.2.1
    | exit => exact absurd rfl ht.2.2
    | byId _ j' _ hj' => rw [hj.unique hj']
    | unknown _ _ hn => exact absurd hj.2.1 (hn j hj.1)
  | unknown t ht hn =>
    cases h' with
    | inside k _ _ _ => exact absurd rfl (ht.1 k)
    | behind k _ => exact absurd rfl (ht.1 k)
    | front k _ => exact absurd rfl (ht.1 k)
    | tooFar k _ => exact absurd rfl (ht.1 k)
    | tooLow k _ => exact absurd rfl (ht.1 k)
    | next _ => exact absurd rfl ht.2.1
    | noNext _ => exact absurd rfl ht.2.1
    | exit => exact absurd rfl ht.2.2
    | byId _ j' _ hj' => exact absurd hj'.2.1 (hn j' hj'.1)
    | unknown _ _ _ => rfl

/-- One round from a position of the flow at which it does not stop. -/
theorem seqStep_at (F : BFlow σ A V) {stop : Option Nat} {i : Nat} (hi : i < F.len) (hs : stop ≠ some i)
    (x : Option A) (m : Option (Msg V)) (s : σ) (seen : List Nat) :
    seqStep F stop { i := .int i, x := x, msg := m, s := s, seen := seen } =
      match runNode F i s x m with
      | (.error e, s') => .inr { res := .error e, s := s', seen := seen ++ [i] }
      | (.ok (y, m', t), s') => afterNode F i y m' t s' (seen ++ [i]) := by
  unfold seqStep
  simp only
  have hne : ¬ stop.map Int.ofNat = some (i : Int) := by
    cases stop with
    | none => simp
    | some j =>
      simp only [Option.map_some, Option.some.injEq]
      intro e
      apply hs
      have e' : ((j : Nat) : Int) = (i : Int) := e
      rw [show j = i by omega]
  rw [if_neg hne, pyIndex_of_lt hi]
  rfl

theorem seqStep_far (F : BFlow σ A V) {stop : Option Nat} {j : Nat} (hj : F.len < j) (hst : ∀ k, stop = some k → k < F.len)
    (x : Option A) (m : Option (Msg V)) (s : σ) (seen : List Nat) :
    seqStep F stop { i := .int j, x := x, msg := m, s := s, seen := seen } =
      .inr { res := .error .indexError, s := s, seen := seen } := by
  unfold seqStep
  simp only
  rw [if_neg]
  · have : pyIndex F.len (j : Int) = none := by
      unfold pyIndex
      rw [if_neg (by omega), if_neg (by omega)]
    rw [this]
  · cases stop with
    | none => simp
    | some k =>
      simp only [Option.map_some, Option.some.injEq]
      intro e
      have e' : ((k : Nat) : Int) = (j : Int) := e
      have := hst k rfl
      omega

/-- **C60, partial** (the condition is that no node asks for a position below -1): an execution that starts at a position
of the flow returns exactly what the specification `Path` says: control moves only to positions inside the flow, given by
a relative index or by the first node that knows the id; the flow is left only behind its last node, in front of its
first one, by the exit target or by an id no node knows; any other index, and `None` at the last node, is an error.
It returns nothing if and only if there is no finite path. -/
theorem execute_seq_path_partial (F : BFlow σ A V) (hw : NoWrap F) {stop : Option Nat}
    (hst : ∀ k, stop = some k → k < F.len) {i : Nat} (hi : i < F.len) (x : Option A) (m : Option (Msg V)) (s : σ)
    (o : Out σ A V) :
    (∃ n, executeSeq F stop n (.int i) x m s = some o) ↔ Path F stop i x m s o.seen o.res o.s := by
  constructor
  · rintro ⟨n, hn⟩
    have key : ∀ n i, i < F.len → ∀ x m s seen (o : Out σ A V),
        runFuel (seqStep F stop) n { i := .int i, x := x, msg := m, s := s, seen := seen } = some o →
        ∃ tr, o.seen = seen ++ tr ∧ Path F stop i x m s tr o.res o.s := by
      intro n
      induction n with
      | zero => intro i _ x m s seen o h; cases h
      | succ n ih =>
        intro i hi x m s seen o h
        rw [runFuel] at h
        by_cases hsi : stop = some i
        · have : seqStep F stop { i := .int i, x := x, msg := m, s := s, seen := seen } =
              .inr { res := .ok (.stop x m), s := s, seen := seen } := by
            unfold seqStep
            simp only
            rw [if_pos]
            rw [hsi]; rfl
          rw [this] at h
          cases h
          exact ⟨[], by simp, .stopped hsi⟩
        · rw [seqStep_at F hi hsi] at h
          cases hr : runNode F i s x m with
          | mk q s' =>
            rw [hr] at h
            cases q with
            | error e =>
              cases h
              exact ⟨[i], rfl, .raised hsi hi (gives_iff.2 hr)⟩
            | ok q =>
              obtain ⟨y, m', t⟩ := q
              simp only at h
              have hk : ∀ k, t = .int k → -1 ≤ (i : Int) + k := by
                rintro k rfl
                exact hw i hi s x m y m' k s' (gives_iff.2 hr)
              rcases afterNode_move F hi y m' t s' (seen ++ [i]) hk with
                ⟨j, h1, h2, h3⟩ | ⟨h1, h3⟩ | ⟨h1, h3⟩ | ⟨h1, h3⟩ | ⟨h1, h3⟩ | ⟨j, h1, h2, h3⟩
              · rw [h3] at h
                obtain ⟨tr, e, p⟩ := ih j h2 _ _ _ _ _ h
                exact ⟨i :: tr, by rw [e]; simp, .goes hsi hi (gives_iff.2 hr) h1 p⟩
              · rw [h3] at h; cases h; exact ⟨[i], rfl, .behind hsi hi (gives_iff.2 hr) h1⟩
              · rw [h3] at h; cases h; exact ⟨[i], rfl, .front hsi hi (gives_iff.2 hr) h1⟩
              · rw [h3] at h; cases h; exact ⟨[i], rfl, .leaves hsi hi (gives_iff.2 hr) h1⟩
              · rw [h3] at h; cases h; exact ⟨[i], rfl, .bad hsi hi (gives_iff.2 hr) h1⟩
              · rw [h3] at h
                cases n with
                | zero => cases h
                | succ n =>
                  simp only at h
                  rw [runFuel, seqStep_far F h2 hst] at h
                  cases h
                  exact ⟨[i], rfl, .bad hsi hi (gives_iff.2 hr) h1⟩
    obtain ⟨tr, e, p⟩ := key n i hi x m s [] o hn
    rw [e]
    exact p
  · intro p
    have key : ∀ i x m s tr r s', Path F stop i x m s tr r s' → ∀ seen, ∃ n,
        runFuel (seqStep F stop) n { i := .int i, x := x, msg := m, s := s, seen := seen } =
          some { res := r, s := s', seen := seen ++ tr } := by
      intro i x m s tr r s' p
      induction p with
      | @stopped i x m s hsi =>
        intro seen
        refine ⟨1, ?_⟩
        have : seqStep F stop { i := .int i, x := x, msg := m, s := s, seen := seen } =
              .inr { res := .ok (.stop x m), s := s, seen := seen } := by
          unfold seqStep
          simp only
          rw [if_pos]
          rw [hsi]; rfl
        rw [runFuel, this]
        simp
      | @raised i x m s e s' hsi hi hr =>
        intro seen
        refine ⟨1, ?_⟩
        rw [runFuel, seqStep_at F hi hsi, gives_iff.1 hr]
      | @goes i x m s y m' t s' j tr r s'' hsi hi hr hm hp ih =>
        intro seen
        obtain ⟨n, hn⟩ := ih (seen ++ [i])
        refine ⟨n + 1, ?_⟩
        rw [runFuel, seqStep_at F hi hsi, gives_iff.1 hr]
        simp only
        have hk : ∀ k, t = .int k → -1 ≤ (i : Int) + k := by
          rintro k rfl
          exact hw i hi s x m y m' k s' hr
        rcases afterNode_move F hi y m' t s' (seen ++ [i]) hk with
          ⟨j', h1, h2, h3⟩ | ⟨h1, h3⟩ | ⟨h1, h3⟩ | ⟨h1, h3⟩ | ⟨h1, h3⟩ | ⟨j', h1, h2, h3⟩
        · cases hm.det h1
          rw [h3]
          simp only
          rw [hn]
          simp
        all_goals exact absurd (hm.det h1) (by simp)
      | @behind i x m s y m' t s' hsi hi hr hm =>
        intro seen
        refine ⟨1, ?_⟩
        rw [runFuel, seqStep_at F hi hsi, gives_iff.1 hr]
        simp only
        have hk : ∀ k, t = .int k → -1 ≤ (i : Int) + k := by
          rintro k rfl
          exact hw i hi s x m y m' k s' hr
        rcases afterNode_move F hi y m' t s' (seen ++ [i]) hk with
          ⟨j', h1, h2, h3⟩ | ⟨h1, h3⟩ | ⟨h1, h3⟩ | ⟨h1, h3⟩ | ⟨h1, h3⟩ | ⟨j', h1, h2, h3⟩
        · exact absurd (hm.det h1) (by simp)
        · rw [h3]
        all_goals exact absurd (hm.det h1) (by simp)
      | @front i x m s y m' t s' hsi hi hr hm =>
        intro seen
        refine ⟨1, ?_⟩
        rw [runFuel, seqStep_at F hi hsi, gives_iff.1 hr]
        simp only
        have hk : ∀ k, t = .int k → -1 ≤ (i : Int) + k := by
          rintro k rfl
          exact hw i hi s x m y m' k s' hr
        rcases afterNode_move F hi y m' t s' (seen ++ [i]) hk with
          ⟨j', h1, h2, h3⟩ | ⟨h1, h3⟩ | ⟨h1, h3⟩ | ⟨h1, h3⟩ | ⟨h1, h3⟩ | ⟨j', h1, h2, h3⟩
        · exact absurd (hm.det h1) (by simp)
        · exact absurd (hm.det h1) (by simp)
        · rw [h3]
        all_goals exact absurd (hm.det h1) (by simp)
      | @leaves i x m s y m' t s' hsi hi hr hm =>
        intro seen
        refine ⟨1, ?_⟩
        rw [runFuel, seqStep_at F hi hsi, gives_iff.1 hr]
        simp only
        have hk : ∀ k, t = .int k → -1 ≤ (i : Int) + k := by
          rintro k rfl
          exact hw i hi s x m y m' k s' hr
        rcases afterNode_move F hi y m' t s' (seen ++ [i]) hk with
          ⟨j', h1, h2, h3⟩ | ⟨h1, h3⟩ | ⟨h1, h3⟩ | ⟨h1, h3⟩ | ⟨h1, h3⟩ | ⟨j', h1, h2, h3⟩
        · exact absurd (hm.det h1) (by simp)
        · exact absurd (hm.det h1) (by simp)
        · exact absurd (hm.det h1) (by simp)
        · rw [h3]
        all_goals exact absurd (hm.det h1) (by simp)
      | @bad i x m s y m' t s' e hsi hi hr hm =>
        intro seen
        refine ⟨2, ?_⟩
        rw [runFuel, seqStep_at F hi hsi, gives_iff.1 hr]
        simp only
        have hk : ∀ k, t = .int k → -1 ≤ (i : Int) + k := by
          rintro k rfl
          exact hw i hi s x m y m' k s' hr
        rcases afterNode_move F hi y m' t s' (seen ++ [i]) hk with
          ⟨j', h1, h2, h3⟩ | ⟨h1, h3⟩ | ⟨h1, h3⟩ | ⟨h1, h3⟩ | ⟨h1, h3⟩ | ⟨j', h1, h2, h3⟩
        · exact absurd (hm.det h1) (by simp)
        · exact absurd (hm.det h1) (by simp)
        · exact absurd (hm.det h1) (by simp)
        · exact absurd (hm.det h1) (by simp)
        · cases hm.det h1
          rw [h3]
        · cases hm.det h1
          rw [h3]
          simp only
          rw [runFuel, seqStep_far F h2 hst]
    obtain ⟨n, hn⟩ := key _ _ _ _ _ _ _ p []
    exact ⟨n, hn⟩

/-- **C60**: the target given with a chunk. It is relative to the first node or the id of a node; any other number is an
error before a node is executed, and the exit target or an unknown id a `TypeError`. -/
theorem start_target (F : BFlow σ A V) (O : ValOps V) (n : Nat) (st : ExSt σ A V) (k : Chunk A V) :
    (∀ i : Int, k.target = .int i → (i < 0 ∨ i ≥ F.len) → i ≠ 0 → execChunk F O n st k = some (.error .biflow, st.s)) ∧
    (∀ i : Int, k.target = .int i → 0 < i → i < F.len →
      targetToIndex F k.target 0 = .ok (.int i)) ∧
    (∀ j, IsId k.target → IdAt F k.target j → targetToIndex F k.target 0 = .ok (.int j)) ∧
    (k.target = .str sExit → execChunk F O (n + 1) st k = some (.error .typeError, st.s)) ∧
    (k.target.truthy = true → IsId k.target → NotHere F k.target →
      execChunk F O (n + 1) st k = some (.error .typeError, st.s)) := by
  refine ⟨?_, ?_, ?_, ?_, ?_⟩
  · intro i hi hb h0
    have ht : k.target.truthy = true := by rw [hi]; simpa [BVal.truthy] using h0
    have : targetToIndex F k.target 0 = .error .biflow := by
      rw [hi]
      unfold targetToIndex
      rw [if_neg (by simp), if_neg (by simp)]
      simp only
      rcases hb with h | h
      · rw [if_pos (by omega)]
      · by_cases h' : i < 0
        · rw [if_pos (by omega)]
        · rw [if_neg (by omega), if_pos (by omega)]
    unfold execChunk
    rw [if_pos ht, this]
  · intro i hi h0 hl
    rw [hi]
    unfold targetToIndex
    rw [if_neg (by simp), if_neg (by simp)]
    simp only
    rw [if_neg (by omega), if_neg (by omega), Int.zero_add]
  · intro j hid hj
    obtain ⟨h1, h2, h3⟩ := hid
    unfold targetToIndex
    rw [if_neg h3, if_neg h2]
    cases hk : k.target with
    | int i => exact absurd hk (h1 i)
    | none => exact absurd hk h2
    | str u =>
      simp only
      rw [hk] at hj
      have hf := findId_spec F (.str u) F.len 0 (by omega) (fun j hj => by omega)
      generalize findId F (.str u) 0 F.len = z at hf
      cases z with
      | some j' => simp only at hf; simp only [hf.unique hj]
      | none => exact absurd hj.2.1 (hf j hj.1)
    | other v =>
      simp only
      rw [hk] at hj
      have hf := findId_spec F (.other v) F.len 0 (by omega) (fun j hj => by omega)
      generalize findId F (.other v) 0 F.len = z at hf
      cases z with
      | some j' => simp only at hf; simp only [hf.unique hj]
      | none => exact absurd hj.2.1 (hf j hj.1)
  · intro he
    have ht : k.target.truthy = true := by rw [he]; rfl
    unfold execChunk
    rw [if_pos ht, he]
    rfl
  · intro ht hid hn
    obtain ⟨h1, h2, h3⟩ := hid
    have : targetToIndex F k.target 0 = .ok k.target := by
      unfold targetToIndex
      rw [if_neg h3, if_neg h2]
      cases hk : k.target with
      | int i => exact absurd hk (h1 i)
      | none => exact absurd hk h2
      | str u =>
        simp only
        rw [hk] at hn
        have hf := findId_spec F (.str u) F.len 0 (by omega) (fun j hj => by omega)
        generalize findId F (.str u) 0 F.len = z at hf
        cases z with
        | some j' => exact absurd hf.2.1 (hn j' hf.1)
        | none => rfl
      | other v =>
        simp only
        rw [hk] at hn
        have hf := findId_spec F (.other v) F.len 0 (by omega) (fun j hj => by omega)
        generalize findId F (.other v) 0 F.len = z at hf
        cases z with
        | some j' => exact absurd hf.2.1 (hn j' hf.1)
        | none => rfl
    unfold execChunk
    rw [if_pos ht, this]
    cases hk : k.target with
    | int i => exact absurd hk (h1 i)
    | none => exact absurd hk h2
    | str u => rfl
    | other v => rfl

/-- A start at an index that is no position: an error, or, for a string that is no id of a node, a `TypeError`. -/
theorem execute_seq_bad_start (F : BFlow σ A V) (n : Nat) (i : BVal V) (x : Option A) (m : Option (Msg V)) (s : σ)
    (h : ∀ k, i ≠ .int k) :
    executeSeq F none (n + 1) i x m s = some { res := .error .typeError, s := s, seen := [] } := by
  cases i with
  | int k => exact absurd rfl (h k)
  | none => rfl
  | str u => rfl
  | other v => rfl

/-! ### A flow that wraps around -/

/-- Three nodes; the first asks for the relative index -2 once, the others pass the data on. The state counts the calls
of the last two nodes. -/
def wrapFlow : BFlow Nat Nat Unit where
  len := 3
  isBi := fun _ => true
  exec := fun j s x _ => if j = 0 then (.ok (.triple x none (.int (-2))), s) else (.ok (.single x), s + 1)
  plain := fun _ s x => (.ok x, s)
  hasId := fun _ _ => false
  reset := fun s => s

/-- Kinds of results, for concrete runs. -/
def resData : Except Err (SRes A V) → Option (Option A)
  | .ok (.single x) => some x
  | .ok (.pair x _) => some x
  | .ok (.triple x _ _) => some x
  | .ok (.stop x _) => some x
  | .error _ => none

/-- **C60, violated.** A relative index that points two positions before the first node is not an error: control goes to
a node near the end of the flow, where it was not sent. -/
theorem jump_wraps_around :
    ∃ (F : BFlow Nat Nat Unit) (o : Out Nat Nat Unit), executeSeq F none 5 (.int 0) (some 7) none 0 = some o ∧
      o.seen = [0, 1] ∧ resData o.res = some (some 7) ∧
      ¬ ∃ tr r s', Path F none 0 (some 7) none 0 tr r s' ∧ resData r = some (some 7) := by
  refine ⟨wrapFlow, _, rfl, by decide, by decide, ?_⟩
  rintro ⟨tr, r, s', hp, hr⟩
  have hrun : runNode wrapFlow 0 0 (some 7) none = (.ok (some 7, none, .int (-2)), 0) := rfl
  have hmv : Move wrapFlow 0 (.int (-2)) (.error .indexError) := .tooLow _ (by decide)
  cases hp with
  | stopped h => cases h
  | raised _ _ h => replace h := gives_iff.1 h; rw [hrun] at h; cases h
  | goes _ _ h hm _ => replace h := gives_iff.1 h; rw [hrun] at h; cases h; cases hm.det hmv
  | behind _ _ h hm => replace h := gives_iff.1 h; rw [hrun] at h; cases h; cases hm.det hmv
  | front _ _ h hm => replace h := gives_iff.1 h; rw [hrun] at h; cases h; cases hm.det hmv
  | leaves _ _ h hm => replace h := gives_iff.1 h; rw [hrun] at h; cases h; cases hm.det hmv
  | bad _ _ h hm => cases hr

/-- A flow with a jump back: node 1 sends the data back to node 0 until they reach 3. -/
def loopFlow : BFlow Nat Nat Unit where
  len := 2
  isBi := fun _ => true
  exec := fun j s x _ =>
    if j = 0 then (.ok (.single (x.map (· + 1))), s)
    else if x = some 3 then (.ok (.single x), s) else (.ok (.triple x none (.int (-1))), s)
  plain := fun _ s x => (.ok x, s)
  hasId := fun _ _ => false
  reset := fun s => s

/-- Non-vacuity of C60: the conditions hold for a flow that jumps, and the run visits the nodes in turn. -/
example : NoWrap loopFlow ∧ ((executeSeq loopFlow none 10 (.int 0) (some 0) none 0).map (·.seen)) =
    some [0, 1, 0, 1, 0, 1] := by
  refine ⟨?_, by decide⟩
  intro j hj s x m y m' k s' h
  replace h := gives_iff.1 h
  have : j = 0 ∨ j = 1 := by
    have : j < 2 := hj
    omega
  rcases this with rfl | rfl
  · simp only [runNode, loopFlow, if_true] at h
    cases h
    decide
  · simp only [runNode, loopFlow, if_true] at h
    by_cases hx : x = some 3
    · simp [hx] at h
      omega
    · simp [hx] at h
      omega

/-- Non-vacuity of C59: two nodes that add one and two. -/
example : ∃ (F : BFlow Nat Nat Unit) (f : Nat → Nat → Nat → Except Err Nat × Nat), Computes F f ∧ 0 < F.len ∧
    (chainAll f F.reset F.len 0 [1, 5]).1.toOption = some [4, 8] := by
  refine ⟨{ len := 2, isBi := fun j => j == 1, exec := fun j s x _ => (.ok (.single (x.map (· + (j + 1)))), s),
            plain := fun j s x => (.ok (x.map (· + (j + 1))), s), hasId := fun _ _ => false, reset := fun s => s },
    fun j s x => (.ok (x + (j + 1)), s), ?_, by decide, by decide⟩
  intro j hj s x
  exact ⟨fun _ => rfl, fun _ => rfl⟩

end Bi
