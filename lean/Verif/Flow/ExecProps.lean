import Verif.Flow.ExecLemmas

/-! # Executing and inverting flows (C13-C15) -/

namespace Mdp.Flow

open Py Mdp.Node

variable {σ α β : Type}

/-! ## Specification -/

/-- Nodes `0..n-1` of `fl` were executed one after the other on `xs 0, xs 1, ...`, each returning the next
array, and `fl'` has their new states. -/
def Chain (fl fl' : List (Nd σ α β)) (xs : Nat → Arr α) (n : Nat) : Prop :=
  ∀ i, i < n → ∃ nd s', fl[i]? = some nd ∧ execute nd.K (xs i) nd.s = (.ok (xs (i + 1)), s') ∧
    fl'[i]? = some ⟨nd.K, s'⟩

/-- Nodes `0..n-1` were inverted from the last to the first: node `i` turned `ys (i+1)` into `ys i`. -/
def InvChain (fl fl' : List (Nd σ α β)) (ys : Nat → Arr α) (n : Nat) : Prop :=
  ∀ i, i < n → ∃ nd s', fl[i]? = some nd ∧ inverse nd.K (ys (i + 1)) nd.s = (.ok (ys i), s') ∧
    fl'[i]? = some ⟨nd.K, s'⟩

/-! ## Lemmas -/

theorem execSeq_length (i k : Nat) (fl : List (Nd σ α β)) (x : Arr α) :
    (execSeq i k fl x).2.length = fl.length := by
  induction k generalizing i fl x with
  | zero => rfl
  | succ k ih =>
    cases fl with
    | nil => rfl
    | cons nd r =>
      rw [execSeq]
      split
      · rfl
      · simp [ih]

/-- The sequence `x, xs 0, xs 1, ...`. -/
def consSeq {γ : Type} (x : γ) (xs : Nat → γ) : Nat → γ
  | 0 => x
  | i + 1 => xs i

theorem execSeq_cases (i0 k : Nat) (fl : List (Nd σ α β)) (x : Arr α) (hk : k ≤ fl.length) :
    (∃ xs, xs 0 = x ∧ (execSeq i0 k fl x).1 = .ok (xs k) ∧ Chain fl (execSeq i0 k fl x).2 xs k ∧
      ∀ j, k ≤ j → (execSeq i0 k fl x).2[j]? = fl[j]?) ∨
    (∃ xs i e nd s', i < k ∧ xs 0 = x ∧ (execSeq i0 k fl x).1 = .error (.flowCR (i0 + i) e) ∧
      Chain fl (execSeq i0 k fl x).2 xs i ∧ fl[i]? = some nd ∧
      execute nd.K (xs i) nd.s = (.error e, s') ∧ (execSeq i0 k fl x).2[i]? = some ⟨nd.K, s'⟩ ∧
      ∀ j, i < j → (execSeq i0 k fl x).2[j]? = fl[j]?) := by
  induction k generalizing i0 fl x with
  | zero => exact .inl ⟨fun _ => x, rfl, rfl, fun i hi => by omega, fun _ _ => rfl⟩
  | succ k ih =>
    cases fl with
    | nil => simp at hk
    | cons nd r =>
      rw [execSeq]
      split
      · next e s he =>
        refine .inr ⟨fun _ => x, 0, e, nd, s, by omega, rfl, rfl, fun i hi => by omega, rfl, he, rfl, ?_⟩
        intro j hj
        obtain ⟨j, rfl⟩ : ∃ j', j = j' + 1 := ⟨j - 1, by omega⟩
        simp
      · next y s he =>
        have hlen : k ≤ r.length := by simpa using hk
        rcases ih (i0 + 1) r y hlen with ⟨xs, h0, hok, hch, hrest⟩ | ⟨xs, i, e, nd', s', hik, h0, herr, hch, h1, h2, h3, h4⟩
        · refine .inl ⟨consSeq x xs, rfl, hok, ?_, ?_⟩
          · intro i hi
            cases i with
            | zero => exact ⟨nd, s, rfl, by simpa [consSeq, h0] using he, rfl⟩
            | succ i => simpa [consSeq] using hch i (by omega)
          · intro j hj
            obtain ⟨j, rfl⟩ : ∃ j', j = j' + 1 := ⟨j - 1, by omega⟩
            simpa using hrest j (by omega)
        · refine .inr ⟨consSeq x xs, i + 1, e, nd', s', by omega, rfl, ?_, ?_, by simpa using h1,
            by simpa [consSeq] using h2, by simpa using h3, ?_⟩
          · simp only [herr]
            rw [show i0 + 1 + i = i0 + (i + 1) by omega]
          · intro i hi
            cases i with
            | zero => exact ⟨nd, s, rfl, by simpa [consSeq, h0] using he, rfl⟩
            | succ i => simpa [consSeq] using hch i (by omega)
          · intro j hj
            obtain ⟨j, rfl⟩ : ∃ j', j = j' + 1 := ⟨j - 1, by omega⟩
            simpa using h4 j (by omega)

theorem execSeq_append (i : Nat) (a b : List (Nd σ α β)) (x : Arr α) :
    execSeq i a.length (a ++ b) x =
      ((execSeq i a.length a x).1, (execSeq i a.length a x).2 ++ b) := by
  induction a generalizing i x with
  | nil => rfl
  | cons nd r ih =>
    simp only [List.length_cons, List.cons_append, execSeq]
    split
    · rfl
    · simp [ih]

theorem invSeq_length (i : Nat) (fl : List (Nd σ α β)) (y : Arr α) :
    (invSeq i fl y).2.length = fl.length := by
  induction fl generalizing i y with
  | nil => rfl
  | cons nd r ih =>
    rw [invSeq]
    have := ih (i + 1) y
    split
    · next h => rw [h] at this; simpa using this
    · next h =>
      rw [h] at this
      split <;> simpa using this

theorem invSeq_cases (i0 : Nat) (fl : List (Nd σ α β)) (y : Arr α) :
    (∃ ys : Nat → Arr α, ys fl.length = y ∧ (invSeq i0 fl y).1 = .ok (ys 0) ∧
      InvChain fl (invSeq i0 fl y).2 ys fl.length) ∨
    (∃ (ys : Nat → Arr α) (i : Nat) (e : Err) (nd : Nd σ α β) (s' : St σ α β), ys fl.length = y ∧ (invSeq i0 fl y).1 = .error (.flowCR (i0 + i) e) ∧
      fl[i]? = some nd ∧ inverse nd.K (ys (i + 1)) nd.s = (.error e, s') ∧
      (invSeq i0 fl y).2[i]? = some ⟨nd.K, s'⟩ ∧ (∀ j, j < i → (invSeq i0 fl y).2[j]? = fl[j]?) ∧
      ∀ j, i < j → j < fl.length → ∃ nd s', fl[j]? = some nd ∧
        inverse nd.K (ys (j + 1)) nd.s = (.ok (ys j), s') ∧ (invSeq i0 fl y).2[j]? = some ⟨nd.K, s'⟩) := by
  induction fl generalizing i0 with
  | nil => exact .inl ⟨fun _ => y, rfl, rfl, fun i hi => by simp at hi⟩
  | cons nd r ih =>
    have ih := ih (i0 + 1)
    simp only [invSeq]
    generalize invSeq (i0 + 1) r y = R at ih
    obtain ⟨res, r'⟩ := R
    rcases ih with ⟨ys, h0, hok, hch⟩ | ⟨ys, i, e, nd', s', h0, herr, h1, h2, h3, h4, h5⟩
    · simp only at hok hch
      subst hok
      simp only
      split
      · next e s he =>
        refine .inr ⟨consSeq y ys, 0, e, nd, s, by simp [consSeq, h0], rfl, rfl, by simpa [consSeq] using he, rfl,
          fun j hj => by omega, ?_⟩
        intro j hj hjl
        obtain ⟨j, rfl⟩ : ∃ j', j = j' + 1 := ⟨j - 1, by omega⟩
        simpa [consSeq] using hch j (by simpa using hjl)
      · next x s he =>
        refine .inl ⟨consSeq x ys, by simp [consSeq, h0], rfl, ?_⟩
        intro i hi
        cases i with
        | zero => exact ⟨nd, s, rfl, by simpa [consSeq] using he, rfl⟩
        | succ i => simpa [consSeq] using hch i (by simpa using hi)
    · simp only at herr h3 h4 h5
      subst herr
      simp only
      refine .inr ⟨consSeq y ys, i + 1, e, nd', s', by simp [consSeq, h0],
        by rw [show i0 + 1 + i = i0 + (i + 1) by omega], by simpa using h1,
        by simpa [consSeq] using h2, by simpa using h3, ?_, ?_⟩
      · intro j hj
        cases j with
        | zero => rfl
        | succ j => simpa using h4 j (by omega)
      · intro j hj hjl
        obtain ⟨j, rfl⟩ : ∃ j', j = j' + 1 := ⟨j - 1, by omega⟩
        simpa [consSeq] using h5 j (by omega) (by simpa using hjl)

/-! ## C13 -/

/-- C13: executing a flow (up to the `n`-th node) is executing its nodes one after the other, each on the
output of the previous one; the nodes after that are not touched. If a node raises, execution stops
there: the error carries that node's index and the later nodes are not touched. -/
theorem execute_composition (promote : Nat → Nat → Nat) (fl : List (Nd σ α β)) (x : Arr α)
    (nodenr : Option Int) (n : Nat) (hn : (nodenr = none ∧ n = fl.length) ∨ (nodenr = some ((n : Int) - 1) ∧ n ≤ fl.length))
    (r : Except Err (Arr α)) (fl' : List (Nd σ α β)) (h : Flow.execute promote fl (.arr x) nodenr = (r, fl')) :
    fl'.length = fl.length ∧
    ((∃ xs, xs 0 = x ∧ r = .ok (xs n) ∧ Chain fl fl' xs n ∧ ∀ j, n ≤ j → fl'[j]? = fl[j]?) ∨
     (∃ xs i e nd s', i < n ∧ xs 0 = x ∧ r = .error (.flowCR i e) ∧ Chain fl fl' xs i ∧ fl[i]? = some nd ∧
       execute nd.K (xs i) nd.s = (.error e, s') ∧ fl'[i]? = some ⟨nd.K, s'⟩ ∧
       ∀ j, i < j → fl'[j]? = fl[j]?)) := by
  have hc : execCount fl.length nodenr = n := by
    rcases hn with ⟨rfl, rfl⟩ | ⟨rfl, _⟩ <;> simp [execCount]
  have hle : n ≤ fl.length := by rcases hn with ⟨_, rfl⟩ | ⟨_, h⟩ <;> omega
  simp only [Flow.execute, overInput, hc] at h
  have h1 := execSeq_cases 0 n fl x hle
  have h2 := execSeq_length 0 n fl x
  rw [h] at h1 h2
  refine ⟨h2, ?_⟩
  rcases h1 with h1 | ⟨xs, i, e, nd, s', hh⟩
  · exact .inl h1
  · refine .inr ⟨xs, i, e, nd, s', ?_⟩
    simpa using hh

/-- C13: executing a whole flow on one array returns only through its last node; executing the empty flow
returns the input. -/
theorem execute_empty (promote : Nat → Nat → Nat) (x : Arr α) :
    Flow.execute promote ([] : List (Nd σ α β)) (.arr x) none = (.ok x, []) := rfl

/-- C13, proved part: for `-1 ≤ nodenr < len(flow)`, `flow.execute(data, nodenr)` is
`flow[:nodenr+1].execute(data)` (the slice shares the node objects; the others are untouched).
Missing (and false, see `execute_nodenr_low`, `execute_nodenr_high`): other values of `nodenr`. -/
theorem execute_nodenr_slice_partial (promote : Nat → Nat → Nat) (fl sl : List (Nd σ α β)) (inp : Input α)
    (k : Int) (hk : -1 ≤ k ∧ k < fl.length) (hsl : getItemSlice fl none (some (k + 1)) none = .ok sl) :
    Flow.execute promote fl inp (some k) =
      ((Flow.execute promote sl inp none).1, (Flow.execute promote sl inp none).2 ++ fl.drop (k + 1).toNat) := by
  have hs := (slice_ok hsl).2
  rw [getSlice_step1] at hs
  have hpos : pyPos fl.length (k + 1) = (k + 1).toNat := by
    unfold pyPos
    rw [if_neg (by omega)]
    omega
  simp only [Option.map_some, Option.getD_some, hpos, Option.map_none, Option.getD_none, List.drop_zero,
    Option.some.injEq] at hs
  subst hs
  have hc : execCount fl.length (some k) = (k + 1).toNat := by simp [execCount]
  have hstep : ∀ (x : Arr α) (a : List (Nd σ α β)), a.length = (k + 1).toNat →
      ∀ b, execSeq 0 (execCount (a ++ b).length (some k)) (a ++ b) x =
        ((execSeq 0 (execCount a.length none) a x).1, (execSeq 0 (execCount a.length none) a x).2 ++ b) := by
    intro x a ha b
    have h1 : execCount (a ++ b).length (some k) = a.length := by simp [execCount, ha]
    have h2 : execCount a.length none = a.length := by simp [execCount]
    rw [h1, h2, execSeq_append]
  have hlen : (fl.take (k + 1).toNat).length = (k + 1).toNat := by
    rw [List.length_take]; omega
  have hmain : ∀ (a b : List (Nd σ α β)), a.length = (k + 1).toNat →
      Flow.execute promote (a ++ b) inp (some k) =
        ((Flow.execute promote a inp none).1, (Flow.execute promote a inp none).2 ++ b) := by
    intro a b ha
    cases inp with
    | arr x => exact hstep x a ha b
    | chunks xs =>
      have hm : ∀ (xs : List (Arr α)) (a : List (Nd σ α β)), a.length = (k + 1).toNat →
          mapChunks (fun x fl => execSeq 0 (execCount fl.length (some k)) fl x) xs (a ++ b) =
          ((mapChunks (fun x fl => execSeq 0 (execCount fl.length none) fl x) xs a).1,
           (mapChunks (fun x fl => execSeq 0 (execCount fl.length none) fl x) xs a).2 ++ b) := by
        intro xs
        induction xs with
        | nil => intro a _; rfl
        | cons x xs ih =>
          intro a ha
          simp only [mapChunks]
          rw [hstep x a ha b]
          have hl := execSeq_length 0 (execCount a.length none) a x
          generalize execSeq 0 (execCount a.length none) a x = R at hl ⊢
          obtain ⟨res, a'⟩ := R
          cases res with
          | error e => rfl
          | ok y =>
            simp only at hl ⊢
            rw [ih a' (hl.trans ha)]
            generalize mapChunks (fun x fl => execSeq 0 (execCount fl.length none) fl x) xs a' = R
            obtain ⟨res, a''⟩ := R
            cases res <;> rfl
      simp only [Flow.execute, overInput]
      rw [hm xs a ha]
      generalize mapChunks (fun x fl => execSeq 0 (execCount fl.length none) fl x) xs a = R
      obtain ⟨res, a''⟩ := R
      cases res with
      | error e => rfl
      | ok ys => simp only; split <;> rfl
  have := hmain (fl.take (k + 1).toNat) (fl.drop (k + 1).toNat) hlen
  rwa [List.take_append_drop] at this

/-- A trained two-node flow for the examples: the first node adds one, the second doubles. -/
def fnKind (f : Nat → Nat) (g : Nat → Nat) : Kind Unit Nat Unit where
  trainable := false
  invertible := true
  preserveDim := false
  nPhases := 1
  supported := fun _ => true
  reqArgs := 0
  checkTrainArgs := fun _ _ _ => .ok ()
  trainHook := fun _ _ _ _ => ⟨(), [], .ok ()⟩
  stopHook := fun _ _ => ⟨(), [], .ok ()⟩
  execHook := fun _ x => ⟨(), [], .ok { x with data := x.data.map (·.map f) }⟩
  invHook := fun _ x => ⟨(), [], .ok { x with data := x.data.map (·.map g) }⟩

def fnNode (f g : Nat → Nat) : Nd Unit Nat Unit :=
  ⟨fnKind f g, ⟨some 2, some 2, some 1, false, -1, false, (), []⟩⟩

def exFlow : List (Nd Unit Nat Unit) := [fnNode (· + 1) (· - 1), fnNode (· * 2) (· / 2)]

def exX : Arr Nat := ⟨2, 2, 1, [[1, 2], [3, 4]]⟩

example : (Flow.execute max exFlow (.arr exX) none).1 = .ok ⟨2, 2, 1, [[4, 6], [8, 10]]⟩ := rfl
example : (Flow.execute max exFlow (.arr exX) (some 0)).1 = .ok ⟨2, 2, 1, [[2, 3], [4, 5]]⟩ := rfl
example : (Flow.execute max exFlow (.arr ⟨2, 3, 1, [[1, 2, 3]]⟩) none).1 = .error (.flowCR 0 .node) := rfl
example : (-1 : Int) ≤ 0 ∧ (0 : Int) < exFlow.length ∧
    getItemSlice exFlow none (some (0 + 1)) none = .ok (exFlow.take 1) := ⟨by decide, by decide, rfl⟩

/-- The slice law is false below -1: `flow.execute(x, nodenr=-2)` returns `x` although `flow[:-1]` has a
node. -/
theorem execute_nodenr_low : ∃ (fl sl : List (Nd Unit Nat Unit)) (x : Arr Nat) (k : Int),
    getItemSlice fl none (some (k + 1)) none = .ok sl ∧
    (Flow.execute max fl (.arr x) (some k)).1 = .ok x ∧ (Flow.execute max sl (.arr x) none).1 ≠ .ok x := by
  refine ⟨exFlow, exFlow.take 1, exX, -2, rfl, rfl, ?_⟩
  intro h
  have : (Except.ok (⟨2, 2, 1, [[2, 3], [4, 5]]⟩ : Arr Nat) : Except Err _) = .ok exX := h
  simp [exX] at this

/-- The slice law is false from the length on: IndexError, although the slice is the whole flow. -/
theorem execute_nodenr_high : ∃ (fl : List (Nd Unit Nat Unit)) (x y : Arr Nat) (k : Int),
    getItemSlice fl none (some (k + 1)) none = .ok fl ∧
    (Flow.execute max fl (.arr x) (some k)).1 = .error .index ∧ (Flow.execute max fl (.arr x) none).1 = .ok y :=
  ⟨exFlow, exX, _, 2, rfl, rfl, rfl⟩

/-- C13: inverting goes through the nodes from the last to the first; on an error at node `i` the nodes
before it are not touched. -/
theorem inverse_composition (promote : Nat → Nat → Nat) (fl : List (Nd σ α β)) (y : Arr α)
    (r : Except Err (Arr α)) (fl' : List (Nd σ α β)) (h : Flow.inverse promote fl (.arr y) = (r, fl')) :
    fl'.length = fl.length ∧
    ((∃ ys : Nat → Arr α, ys fl.length = y ∧ r = .ok (ys 0) ∧ InvChain fl fl' ys fl.length) ∨
     (∃ (ys : Nat → Arr α) (i : Nat) (e : Err) (nd : Nd σ α β) (s' : St σ α β), ys fl.length = y ∧ r = .error (.flowCR i e) ∧ fl[i]? = some nd ∧
       inverse nd.K (ys (i + 1)) nd.s = (.error e, s') ∧ fl'[i]? = some ⟨nd.K, s'⟩ ∧
       (∀ j, j < i → fl'[j]? = fl[j]?) ∧
       ∀ j, i < j → j < fl.length → ∃ nd s', fl[j]? = some nd ∧
        inverse nd.K (ys (j + 1)) nd.s = (.ok (ys j), s') ∧ fl'[j]? = some ⟨nd.K, s'⟩)) := by
  simp only [Flow.inverse, overInput] at h
  have h1 := invSeq_cases 0 fl y
  have h2 := invSeq_length 0 fl y
  rw [h] at h1 h2
  refine ⟨h2, ?_⟩
  rcases h1 with h1 | ⟨xs, i, e, nd, s', hh⟩
  · exact .inl h1
  · refine .inr ⟨xs, i, e, nd, s', ?_⟩
    simpa using hh

/-! ## C14 -/

/-- C14: a flow of trained nodes whose `execute` works row by row gives the same result (rows or
exception) for a list of chunks as for their concatenation. -/
theorem execute_chunks (promote : Nat → Nat → Nat) (hpr : ∀ t, promote t t = t)
    (fl : List (Nd σ α β)) (hfl : ∀ nd ∈ fl, RowExec nd) (nodenr : Option Int) (ndim cols dt : Nat)
    (ds : List (List (List α))) (hne : ds ≠ []) (hd : ∀ d ∈ ds, d ≠ []) :
    (Flow.execute promote fl (.chunks (ds.map fun d => ⟨ndim, cols, dt, d⟩)) nodenr).1 =
      (Flow.execute promote fl (.arr ⟨ndim, cols, dt, ds.flatten⟩) nodenr).1 := by
  have h := exec_rowFn fl hfl 0 (execCount fl.length nodenr)
  refine overInput_chunks promote hpr ?_ ndim cols dt ds hne hd
  intro n c t
  rcases h n c t with ⟨e, he⟩ | ⟨n', c', t', F, hF⟩
  · exact .inl ⟨e, fun d hd g hg => by simp only [hg.length]; exact he d hd g hg⟩
  · exact .inr ⟨n', c', t', F, fun d hd g hg => by simp only [hg.length]; exact hF d hd g hg⟩

/-- C14: the same for `inverse`. -/
theorem inverse_chunks (promote : Nat → Nat → Nat) (hpr : ∀ t, promote t t = t)
    (fl : List (Nd σ α β)) (hfl : ∀ nd ∈ fl, RowInv nd) (ndim cols dt : Nat)
    (ds : List (List (List α))) (hne : ds ≠ []) (hd : ∀ d ∈ ds, d ≠ []) :
    (Flow.inverse promote fl (.chunks (ds.map fun d => ⟨ndim, cols, dt, d⟩))).1 =
      (Flow.inverse promote fl (.arr ⟨ndim, cols, dt, ds.flatten⟩)).1 :=
  overInput_chunks promote hpr (inv_rowFn fl hfl 0) ndim cols dt ds hne hd

/-- C14: an empty iterable raises and touches nothing. -/
theorem empty_iterable (promote : Nat → Nat → Nat) (fl : List (Nd σ α β)) (nodenr : Option Int) :
    Flow.execute promote fl (.chunks []) nodenr = (.error .flow, fl) ∧
    Flow.inverse promote fl (.chunks []) = (.error .flow, fl) := ⟨rfl, rfl⟩

theorem exFlow_rows : (∀ nd ∈ exFlow, RowExec nd) ∧ (∀ nd ∈ exFlow, RowInv nd) := by
  have h : ∀ f g, RowExec (fnNode f g) ∧ RowInv (fnNode f g) := by
    intro f g
    refine ⟨⟨⟨rfl, by simp [fnNode], by simp [fnNode], by simp [fnNode], by simp [fnNode]⟩, fun x => ⟨rfl, rfl⟩, ?_⟩,
      rfl, fun x => ⟨rfl, rfl⟩, 1, 2, rfl, rfl, 2, 1, (·.map g), fun d => rfl⟩
    intro t c ht hc
    cases ht
    cases hc
    exact ⟨2, 1, (·.map f), fun d => rfl⟩
  constructor <;> · intro nd hnd; simp [exFlow] at hnd; rcases hnd with rfl | rfl <;> simp [h]

example : (∀ nd ∈ exFlow, RowExec nd) ∧ (∀ nd ∈ exFlow, RowInv nd) ∧ (∀ t, max t t = (t : Nat)) ∧
    (Flow.execute max exFlow (.chunks [⟨2, 2, 1, [[1, 2]]⟩, ⟨2, 2, 1, [[3, 4], [5, 6]]⟩]) none).1 =
      .ok ⟨2, 2, 1, [[4, 6], [8, 10], [12, 14]]⟩ :=
  ⟨exFlow_rows.1, exFlow_rows.2, by simp, rfl⟩

/-! ## C15 -/

/-- The node is trained, has dtype `t` and its inverse undoes its execute on every well-formed array. -/
def Undoes (t : Nat) (nd : Nd σ α β) : Prop :=
  nd.K.invertible = true ∧ Stable nd.s ∧ nd.s.dtype = some t ∧
  (∀ x, (nd.K.execHook nd.s.st x).st = nd.s.st ∧ (nd.K.execHook nd.s.st x).sets = []) ∧
  (∀ x, (nd.K.invHook nd.s.st x).st = nd.s.st ∧ (nd.K.invHook nd.s.st x).sets = []) ∧
  ∀ x y, x.ndim = 2 → nd.s.inputDim = some x.cols → 0 < x.nrows → x.dtype = t →
    (nd.K.execHook nd.s.st x).res = .ok y →
    y.ndim = 2 ∧ nd.s.outputDim = some y.cols ∧ y.dtype = t ∧ (nd.K.invHook nd.s.st y).res = .ok x

theorem inv_exec_seq (t : Nat) (i j : Nat) (fl : List (Nd σ α β)) (h : ∀ nd ∈ fl, Undoes t nd) (x y : Arr α)
    (fl' : List (Nd σ α β)) (hx : x.dtype = t) (he : execSeq i fl.length fl x = (.ok y, fl')) :
    ∀ g, SameVis fl g → (invSeq j g y).1 = .ok x ∧ y.dtype = t := by
  induction fl generalizing i j x fl' with
  | nil =>
    intro g hg
    unfold SameVis at hg
    cases hg
    cases he
    exact ⟨rfl, hx⟩
  | cons nd r ih =>
    obtain ⟨hk, hst, hdt, hp, hpi, hun⟩ := h nd (by simp)
    intro g hg
    unfold SameVis at hg
    cases hg with
    | @cons _ m _ g' hm hg' =>
      simp only [List.length_cons, execSeq] at he
      rw [execute_stable nd.K nd.s hst x hp] at he
      by_cases hc : x.ndim = 2 ∧ nd.s.inputDim = some x.cols ∧ 0 < x.nrows
      · simp only [if_pos hc] at he
        have hcast : refcast nd.s.dtype x = x := by
          obtain ⟨a, b, c, d⟩ := x
          simp only at hx
          simp [refcast, hdt, hx]
        rw [hcast] at he
        cases hr : (nd.K.execHook nd.s.st x).res with
        | error e => rw [hr] at he; cases he
        | ok z =>
          rw [hr] at he
          simp only at he
          obtain ⟨hz1, hz2, hz3, hz4⟩ := hun x z hc.1 hc.2.1 hc.2.2 hx hr
          generalize hR : execSeq (i + 1) r.length r z = R at he
          obtain ⟨res, r'⟩ := R
          simp only at he
          have hres : res = .ok y := (Prod.ext_iff.1 he).1
          subst hres
          obtain ⟨h1, h2⟩ := ih (i + 1) (j + 1) (fun nd h' => h nd (by simp [h'])) z r' hz3 hR g' hg'
          refine ⟨?_, h2⟩
          simp only [invSeq]
          generalize invSeq (j + 1) g' y = R at h1
          obtain ⟨res, g''⟩ := R
          simp only at h1
          subst h1
          simp only
          have hv := hm.2
          simp only [visible, Prod.mk.injEq] at hv
          obtain ⟨e1, e2, e3, e4, e5, e6, e7⟩ := hv
          have hinv := inverse_stable m.K m.s (e4.trans hst.training) (e2 ▸ hst.out)
            (by rw [hm.1, e7]; exact hpi) z
          rw [hm.1, if_neg (by simp [hk]), if_pos ⟨hz1, e2.trans hz2⟩, e7, e3] at hinv
          have hcast' : refcast nd.s.dtype z = z := by
            obtain ⟨a, b, c, d⟩ := z
            simp only at hz3
            simp [refcast, hdt, hz3]
          rw [hcast', hz4] at hinv
          rw [hm.1, hinv]
      · simp only [if_neg hc] at he
        cases he

/-- C15: if every node's inverse undoes its execute, then inverting what the flow returned for `x`
returns `x`. (`x` must already have the common dtype of the nodes, otherwise the cast of `x` is
returned.) -/
theorem inverse_execute (promote : Nat → Nat → Nat) (t : Nat) (fl : List (Nd σ α β))
    (h : ∀ nd ∈ fl, Undoes t nd) (x y : Arr α) (fl' : List (Nd σ α β)) (hx : x.dtype = t)
    (he : Flow.execute promote fl (.arr x) none = (.ok y, fl')) :
    (Flow.inverse promote fl' (.arr y)).1 = .ok x := by
  simp only [Flow.execute, overInput, execCount] at he
  have hc : ((none : Option Int).getD ((fl.length : Int) - 1) + 1).toNat = fl.length := by simp
  rw [hc] at he
  have hsv : SameVis fl fl' := by
    have : ∀ (i : Nat) (fl : List (Nd σ α β)) (x : Arr α), (∀ nd ∈ fl, Undoes t nd) →
        SameVis fl (execSeq i fl.length fl x).2 := by
      intro i fl
      induction fl generalizing i with
      | nil => intro x _; exact .nil
      | cons nd r ih =>
        intro x h
        obtain ⟨hk, hst, hdt, hp, hpi, hun⟩ := h nd (by simp)
        have hv : visible (execute nd.K x nd.s).2 = visible nd.s := by
          rw [execute_stable nd.K nd.s hst x hp]
          split <;> rfl
        simp only [List.length_cons, execSeq]
        split
        · next hh => rw [hh] at hv; exact .cons ⟨rfl, hv⟩ (SameVis.refl r)
        · next y s hh => rw [hh] at hv; exact .cons ⟨rfl, hv⟩ (ih (i + 1) y (fun nd h' => h nd (by simp [h'])))
    have := this 0 fl x h
    rw [he] at this
    exact this
  exact (inv_exec_seq t 0 0 fl h x y fl' hx he fl' hsv).1

example : (∀ nd ∈ exFlow, Undoes 1 nd) ∧ exX.dtype = 1 := by
  refine ⟨?_, rfl⟩
  have h : ∀ f g : Nat → Nat, (∀ n, g (f n) = n) → Undoes 1 (fnNode f g) := by
    intro f g hfg
    refine ⟨rfl, ⟨rfl, by simp [fnNode], by simp [fnNode], by simp [fnNode], by simp [fnNode]⟩, rfl,
      fun x => ⟨rfl, rfl⟩, fun x => ⟨rfl, rfl⟩, ?_⟩
    intro x y h1 h2 h3 h4 h5
    cases h5
    refine ⟨h1, h2, h4, ?_⟩
    simp [fnNode, fnKind, Function.comp_def, hfg]
  intro nd hnd
  simp [exFlow] at hnd
  rcases hnd with rfl | rfl
  · exact h _ _ (by intro n; omega)
  · exact h _ _ (by intro n; omega)

end Mdp.Flow
